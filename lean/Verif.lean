import Verif.AtomicVec
import Verif.AtomicVecProof
import Verif.AtomicVecSpec
import Verif.AtomicVecSys
import Verif.AtomicVecWait
import Verif.Client
import Verif.Conc
import Verif.ConcCrash
import Verif.ConcDurable
import Verif.ConcGuard
import Verif.Cost
import Verif.CostHash
import Verif.CostLog
import Verif.CostPrefix
import Verif.CostPrefixBytes
import Verif.CostPrefixNext
import Verif.CostPrefixOps
import Verif.CostPrio
import Verif.CostQueue
import Verif.CostRaw
import Verif.CostSem
import Verif.CostSimple
import Verif.Frame
import Verif.Guarded
import Verif.HashTable
import Verif.HashTableCrash
import Verif.HashTableErase
import Verif.HashTableFoot
import Verif.HashTableIncr
import Verif.HashTableIter
import Verif.HashTableOps
import Verif.HashTableProof
import Verif.HashTableSpec
import Verif.HashTableStep
import Verif.Heap
import Verif.HeapOk
import Verif.History
import Verif.IterWeak
import Verif.IterWeakHT
import Verif.IterWeakPT
import Verif.Linear
import Verif.Links
import Verif.Lock
import Verif.LockInv
import Verif.LockProof
import Verif.LockTrace
import Verif.LogAlloc
import Verif.LogArith
import Verif.LogExpand
import Verif.LogFill
import Verif.LogFixed
import Verif.LogInit
import Verif.LogInv
import Verif.LogList
import Verif.LogLive
import Verif.LogMerge
import Verif.LogOps
import Verif.LogPop
import Verif.LogRepair
import Verif.LogSim
import Verif.LogSized
import Verif.LogVerify
import Verif.Logarithmic
import Verif.Many
import Verif.ManyConc
import Verif.ManyOpen
import Verif.Mem
import Verif.Observe
import Verif.OpenSys
import Verif.Opening
import Verif.OpeningStays
import Verif.PoolFs
import Verif.PoolFsInv
import Verif.PoolFsNames
import Verif.PrefixIov
import Verif.PrefixStructure
import Verif.PrefixStructureInj
import Verif.PrefixTree
import Verif.PrefixTreeBytes
import Verif.PrefixTreeClear
import Verif.PrefixTreeCodec
import Verif.PrefixTreeCrash
import Verif.PrefixTreeErase
import Verif.PrefixTreeFollow
import Verif.PrefixTreeGrow
import Verif.PrefixTreeIncr
import Verif.PrefixTreeIter
import Verif.PrefixTreeMake
import Verif.PrefixTreeMore
import Verif.PrefixTreeNext
import Verif.PrefixTreeNodes
import Verif.PrefixTreeOps
import Verif.PrefixTreeOrder
import Verif.PrefixTreeStep
import Verif.PrefixTreeStore
import Verif.PrefixTreeTree
import Verif.PrioHeap
import Verif.PrioQueue
import Verif.PrioQueueCrash
import Verif.PrioQueueProof
import Verif.PrioQueueSpec
import Verif.Prog
import Verif.PropsAtomicVec
import Verif.PropsBoot
import Verif.PropsCasLoop
import Verif.PropsClient
import Verif.PropsConc
import Verif.PropsCostPrefix
import Verif.PropsCrash
import Verif.PropsCrashMore
import Verif.PropsDelivery
import Verif.PropsDurable
import Verif.PropsGuard
import Verif.PropsHashTable
import Verif.PropsHashTableCrash
import Verif.PropsIter
import Verif.PropsLease
import Verif.PropsLinear
import Verif.PropsLock
import Verif.PropsLockFair
import Verif.PropsLockLive
import Verif.PropsLockOrder
import Verif.PropsLockReuse
import Verif.PropsLogConc
import Verif.PropsLogCrash
import Verif.PropsLogOpen
import Verif.PropsLogReaders
import Verif.PropsLogStruct
import Verif.PropsLogStructRuns
import Verif.PropsLogVerify
import Verif.PropsLogarithmic
import Verif.PropsMany
import Verif.PropsManyConc
import Verif.PropsManyOpen
import Verif.PropsObserve
import Verif.PropsOpen
import Verif.PropsOpening
import Verif.PropsPool
import Verif.PropsPoolFs
import Verif.PropsPrefixIov
import Verif.PropsPrefixTree
import Verif.PropsPrefixTreeBytes
import Verif.PropsPrioDelivery
import Verif.PropsPrioQueue
import Verif.PropsPrioQueueCrash
import Verif.PropsPtr
import Verif.PropsPyHashIter
import Verif.PropsPyIter
import Verif.PropsPyPrio
import Verif.PropsPyVector
import Verif.PropsPython
import Verif.PropsPythonMore
import Verif.PropsQueue
import Verif.PropsQueueCrash
import Verif.PropsReaders
import Verif.PropsSimple
import Verif.PropsSpinLock
import Verif.PropsStructure
import Verif.PropsTickets
import Verif.PropsVerify
import Verif.PropsView
import Verif.Ptr
import Verif.PtrClean
import Verif.PtrConc
import Verif.PtrIncr
import Verif.PtrMethods
import Verif.PtrSim
import Verif.PyHashIter
import Verif.PyIter
import Verif.PyPrio
import Verif.PyVector
import Verif.Python
import Verif.Queue
import Verif.QueueProof
import Verif.Raw
import Verif.ReadOnly
import Verif.Sim
import Verif.Simple
import Verif.SimpleAlloc
import Verif.SimpleAllocSpec
import Verif.SimpleFree
import Verif.SimpleInv
import Verif.SimpleLink
import Verif.SimpleOps
import Verif.SimpleRepair
import Verif.View
import Verif.ViewConc
import Verif.WpI
