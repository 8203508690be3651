import Verif.Ptr
import Verif.PropsQueue
import Verif.PropsPrioQueue
import Verif.HashTableStep
import Verif.PrefixTreeStep
/-
The methods that allocate, with their pointers: which pointers the code fetches where, and through which of them each access goes.  A method that does not allocate cannot
invalidate its pointers; it is the program over offsets (`lift`).  In the same way, pieces that do not allocate (walks along lists, checks, sifting) are lifted.
-/
namespace Verif
variable {α β : Type}

/-! ### Queue -/
namespace Queue

/-- pointer to the node at offset x: p->at<Node>(x).  The sentinels are inside the base block. -/
def nodeAt (base x : Nat) : PProg Ptr := P.at (loc base x).1

/-- Queue::create_node_locked, Queue.cc 86-92 (pointer for the constructor: Allocator.hh 34-37).  The pointer that is returned is `n`; the model of link_node_locked names
the block of a node with `loc`, so it is fetched here with `nodeAt`. -/
def createNodeP (base : Nat) (data : Bytes) : PProg (Nat × Ptr) := do
  let o ← P.alloc (16 + data.length)
  let c ← P.at o
  P.wr64 c 0 0
  P.wr64 c 8 0
  let n ← P.at o
  let n' ← nodeAt base o
  P.wrB n 16 data
  pure (o, n')

/-- Queue::link_node_locked, Queue.cc 60-71: the three nodes are given as pointers (and their offsets, which p->at(ptr) recovers from them) -/
def linkNodeP (base : Nat) (nn prev next : Nat × Ptr) : PProg Unit := do
  P.wr64 nn.2 ((loc base nn.1).2 + 0) prev.1
  P.wr64 nn.2 ((loc base nn.1).2 + 8) next.1
  P.wr64 prev.2 ((loc base prev.1).2 + 8) nn.1
  P.wr64 next.2 ((loc base next.1).2 + 0) nn.1
  let b ← P.at base
  let c ← P.rd64 b 0
  P.wr64 b 0 (c + 1)
  let s ← P.bsize nn.1
  let t ← P.rd64 b 8
  P.wr64 b 8 (t + (s - 16))

/-- Queue::push_back, Queue.cc 94-102 -/
def pushBackP (base : Nat) (data : Bytes) : PProg Unit := do
  let nn ← createNodeP base data
  let b ← P.at base
  let prev ← P.rd64 b 32
  let pp ← nodeAt base prev
  linkNodeP base nn (prev, pp) (base + 32, b)

/-- Queue::push_front, Queue.cc 108-116 -/
def pushFrontP (base : Nat) (data : Bytes) : PProg Unit := do
  let nn ← createNodeP base data
  let b ← P.at base
  let next ← P.rd64 b 24
  let np ← nodeAt base next
  linkNodeP base nn (base + 16, b) (next, np)

end Queue

/-! ### PriorityQueue -/
namespace PrioQueue

/-- PriorityQueue.cc 75-77 -/
def copyLoopP (base old new : Ptr) : Nat → Nat → PProg Unit
  | 0, _ => .ub
  | fuel + 1, x => do
    let n ← P.rd64 base 0
    if x < n then do
      let v ← P.rd64 old (8 * x)
      P.wr64 new (8 * x) v
      copyLoopP base old new fuel (x + 1)
    else pure ()

/-- PriorityQueue.cc 52-68: the array to use, and the pointer `base` -/
def pickArrayP (b : Nat) : PProg (Nat × Nat × Ptr) := do
  let base ← P.at b
  let cap ← P.rd64 base 8
  if cap = 0 then do
    let o ← P.alloc (32 * 8)
    let base ← P.at b
    pure (o, 32, base)
  else do
    let n ← P.rd64 base 0
    if cap = n then do
      let o ← P.alloc (cap * 2 * 8)
      let base ← P.at b
      pure (o, cap * 2, base)
    else do
      let o ← P.rd64 base 16
      pure (o, cap, base)

/-- PriorityQueue.cc 70-80 -/
def growArrayP (b : Nat) : PProg Unit := do
  let a ← pickArrayP b
  let old ← P.rd64 a.2.2 16
  if a.1 ≠ old then do
    let oldp ← P.at old
    let newp ← P.at a.1
    let n ← P.rd64 a.2.2 0
    copyLoopP a.2.2 oldp newp (n + 1) 0
    P.wr64 a.2.2 16 a.1
    P.wr64 a.2.2 8 a.2.1
  else pure ()

/-- PriorityQueue::push, PriorityQueue.cc 49-92 -/
def pushP (b : Nat) (data : Bytes) : PProg Unit := do
  growArrayP b
  let item ← P.alloc data.length
  let ip ← P.at item
  P.wrB ip 0 data
  let base ← P.at b
  let arr ← P.rd64 base 16
  let ap ← P.at arr
  let n ← P.rd64 base 0
  P.wr64 ap (8 * n) item
  let n ← P.rd64 base 0
  P.wr64 base 0 (n + 1)
  let n ← P.rd64 base 0
  lift (siftDown b 0 (n - 1))

end PrioQueue

/-! ### HashTable -/
namespace HashTable

/-- HashTable::create_hash_base, HashTable.cc 654-676 -/
def createBaseP (bits : Nat) : PProg Nat :=
  if bits < 2 then .err .invalidArg else do
    let base ← P.alloc 24
    let slots ← P.alloc (16 * 2 ^ bits)
    let h ← P.at base
    P.wr64 h 0 bits
    P.wr64 h 8 slots
    P.wr64 h 16 0
    lift (zeroSlots slots (2 ^ bits) 0)
    pure base

/-- (slot->key_size == k_size) && !memcmp(p->at<void>(slot->key_offset), k, k_size): HashTable.cc 102-103, 203-204 -/
def keyMatchesP (s : Ptr) (o : Nat) (k : Bytes) : PProg Bool := do
  let ks ← P.rd64 s (o + 8)
  if ks = k.length then do
    let ko ← P.rd64 s o
    let q ← P.at ko
    let d ← P.rdB q 0 k.length
    pure (decide (d = k))
  else pure false

/-- table->item_count++ -/
def bumpCountP (table : Ptr) : PProg Unit := do
  let n ← P.rd64 table 16
  P.wr64 table 16 (n + 1)

/-- HashTable.cc 89-158; `table` and `slot` as fetched in lines 85-87 -/
def linkP (base slots so kv : Nat) (k : Bytes) (table slot : Ptr) : PProg Unit := do
  let ko ← P.rd64 slot so
  if ko = 0 then do
    P.wr64 slot so kv
    P.wr64 slot (so + 8) k.length
    bumpCountP table
  else if ko % 2 = 0 then do
    let m ← keyMatchesP slot so k
    if m then do
      let old ← P.rd64 slot so
      P.free old
      let slot ← P.at slots
      P.wr64 slot so kv
      P.wr64 slot (so + 8) k.length
    else do
      let ex ← P.alloc 24
      let cr ← P.alloc 24
      let exp ← P.at ex
      let crp ← P.at cr
      let slot ← P.at slots
      let table ← P.at base
      P.wr64 crp 0 0
      P.wr64 crp 8 kv
      P.wr64 crp 16 k.length
      P.wr64 exp 0 cr
      let a ← P.rd64 slot so
      P.wr64 exp 8 a
      let b ← P.rd64 slot (so + 8)
      P.wr64 exp 16 b
      P.wr64 slot so (ex + 1)
      P.wr64 slot (so + 8) 0
      bumpCountP table
  else do
    let w ← lift (walkList k maxNodes 0 (ko - 1))
    if w.2 ≠ 0 then do
      let ind ← P.at w.2
      let old ← P.rd64 ind 8
      P.free old
      let ind ← P.at w.2
      P.wr64 ind 8 kv
      P.wr64 ind 16 k.length
    else do
      let cr ← P.alloc 24
      let prev ← P.at w.1
      let crp ← P.at cr
      let table ← P.at base
      P.wr64 prev 0 cr
      P.wr64 crp 0 0
      P.wr64 crp 8 kv
      P.wr64 crp 16 k.length
      bumpCountP table

/-- HashTable::insert, HashTable.cc 68-159 -/
def insertP (hash : Bytes → Nat) (base : Nat) (k v : Bytes) (c : Option Check) : PProg Bool := do
  let go ← lift (checkOk hash base c)
  if go then do
    let kv ← P.alloc (k.length + v.length)
    let q ← P.at kv
    P.wrB q 0 k
    let q ← P.at kv
    P.wrB q k.length v
    let table ← P.at base
    let slots ← P.rd64 table 8
    let bits ← P.rd64 table 0
    let slot ← P.at slots
    linkP base slots (slotOff hash k bits) kv k table slot
    pure true
  else pure false

variable {R : Type}

/-- HashTable.cc 191-195, 235-238, 288-291: the offset of the new key-value block is stored through the pointer `s`, which was fetched *before* the allocation -/
def newNumP (N : Num R) (s : Ptr) (o : Nat) (k : Bytes) : PProg Unit := do
  let kv ← P.alloc (k.length + 8)
  P.wr64 s o kv
  let q ← P.at kv
  P.wrB q 0 k
  let q ← P.at kv
  P.wr q k.length 8 N.init
  P.wr64 s (o + 8) k.length

/-- HashTable::incr, HashTable.cc 176-297 (int64_t) and 303-402 (double) -/
def incrP (hash : Bytes → Nat) (base : Nat) (k : Bytes) (N : Num R) : PProg R := do
  let table ← P.at base
  let slots ← P.rd64 table 8
  let bits ← P.rd64 table 0
  let slot ← P.at slots
  let ko ← P.rd64 slot (slotOff hash k bits)
  if ko = 0 then do
    newNumP N slot (slotOff hash k bits) k
    bumpCountP table
    pure N.initOut
  else if ko % 2 = 0 then do
    let m ← keyMatchesP slot (slotOff hash k bits) k
    if m then do
      let l ← lift (locate slots (slotOff hash k bits))
      lift (bump N l.1 l.2.1 l.2.2)
    else do
      let ex ← P.alloc 24
      let cr ← P.alloc 24
      let exp ← P.at ex
      let crp ← P.at cr
      let slot ← P.at slots
      let table ← P.at base
      P.wr64 crp 0 0
      newNumP N crp 8 k
      P.wr64 exp 0 cr
      let a ← P.rd64 slot (slotOff hash k bits)
      P.wr64 exp 8 a
      let b ← P.rd64 slot (slotOff hash k bits + 8)
      P.wr64 exp 16 b
      P.wr64 slot (slotOff hash k bits) (ex + 1)
      P.wr64 slot (slotOff hash k bits + 8) 0
      bumpCountP table
      pure N.initOut
  else do
    let w ← lift (walkList k maxNodes 0 (ko - 1))
    if w.2 ≠ 0 then do
      let l ← lift (locate w.2 8)
      lift (bump N l.1 l.1 l.2.2)
    else do
      let cr ← P.alloc 24
      let prev ← P.at w.1
      let crp ← P.at cr
      let table ← P.at base
      P.wr64 prev 0 cr
      P.wr64 crp 0 0
      newNumP N crp 8 k
      bumpCountP table
      pure N.initOut

end HashTable

/-! ### PrefixTree -/
namespace PrefixTree

/-- PrefixTree.cc 1011-1014, 1017-1020 -/
def copySlotsP (old new : Ptr) (oo no os ns : Nat) : Nat → Nat → PProg Unit
  | 0, _ => pure ()
  | n + 1, x => do
    let c ← P.rd64 old (oo + 16 + 8 * (x - os))
    P.wr64 new (no + 16 + 8 * (x - ns)) c
    copySlotsP old new oo no os ns n (x + 1)

/-- children[x] = 0 -/
def zeroSlotsP (b : Ptr) (o : Nat) : Nat → Nat → PProg Unit
  | 0, _ => pure ()
  | n + 1, x => do
    P.wr64 b (o + 8 * x) 0
    zeroSlotsP b o n (x + 1)

/-- PrefixTree.cc 1003-1024 -/
def fillSlotsP (node new : Ptr) (no s e s' e' : Nat) (lo : Bool) : PProg Unit :=
  if lo then do
    zeroSlotsP new 16 (s - s') 0
    copySlotsP node new no 0 s s' (e + 1 - s) s
  else do
    copySlotsP node new no 0 s s' (e + 1 - s) s
    zeroSlotsP new 16 (e' - e) (e + 1 - s)

/-- PrefixTree.cc 991-1032; `node` = the pointer of line 984 -/
def regrowP (par nd : Addr) (node : Ptr) (s e s' e' : Nat) (lo : Bool) : PProg Addr := do
  let ps ← P.rd8 node (nd.2 + 2)
  let v ← P.rd64 node (nd.2 + 8)
  let o ← P.alloc (16 + 8 * (e' - s' + 1))
  let c ← P.at o
  P.wr8 c 0 s'
  P.wr8 c 1 e'
  P.wr8 c 2 ps
  P.wr64 c 8 v
  let node ← P.at nd.1
  let new ← P.at o
  let parent ← P.at par.1
  fillSlotsP node new nd.2 s e s' e' lo
  let t ← P.rd8 parent par.2
  P.wr64 parent (slotOf par t ps).2 o
  P.free nd.1
  pure (o, 0)

/-- PrefixTree.cc 983-1039 -/
def extendP (par nd : Addr) (b : Nat) : PProg Addr := do
  let node ← P.at nd.1
  let s ← P.rd8 node nd.2
  let e ← P.rd8 node (nd.2 + 1)
  if b < s then regrowP par nd node s e b e true
  else if e < b then regrowP par nd node s e s b false
  else pure nd

/-- PrefixTree.cc 1041-1069 -/
def chainP (base : Nat) : Addr → UInt8 → Bytes → PProg Addr
  | nd, b, [] => do
    let node ← P.at nd.1
    let s ← P.rd8 node nd.2
    pure (slotOf nd s b.toNat)
  | nd, b, b' :: k => do
    let node ← P.at nd.1
    let s ← P.rd8 node nd.2
    let v ← P.rd64 node (slotOf nd s b.toNat).2
    let o ← P.alloc 24
    let c ← P.at o
    P.wr8 c 0 b'.toNat
    P.wr8 c 1 b'.toNat
    P.wr8 c 2 b.toNat
    P.wr64 c 8 v
    P.wr64 c 16 0
    let node ← P.at nd.1
    P.wr64 node (slotOf nd s b.toNat).2 o
    let t ← P.at base
    let n ← P.rd64 t 8
    P.wr64 t 8 (n + 1)
    chainP base (o, 0) b' k

/-- PrefixTree::traverse with create, PrefixTree.cc 904-1070 -/
def traverseCreateP (base : Nat) (k : Bytes) : PProg Addr := do
  let f ← lift (follow k (0, 0) (root base) [root base])
  match f with
  | .val a _ => pure a
  | .node _ nd _ => pure (nd.1, nd.2 + 8)
  | .stuck par nd _ b k => do
    let nd' ← extendP par nd b.toNat
    chainP base nd' b k

/-- PrefixTree.cc 93-113 (string), 209-221 (int64_t), 299-302 (bool), 324-326 (null) -/
def makeWordP : Val → PProg Nat
  | .str v =>
    if v.length = 0 then pure 1
    else if v.length < 8 then pure (shortWord v)
    else do
      let o ← P.alloc v.length
      let q ← P.at o
      P.wrB q 0 v
      pure (o ||| 1)
  | .int v =>
    if fits v then pure (intWord v)
    else do
      let o ← P.alloc 8
      let q ← P.at o
      P.wr64 q 0 v.toNat
      pure (o ||| 3)
  | .bool b => pure (((if b then 1 else 0) <<< 3) ||| 5)
  | .null => pure ((2 <<< 3) ||| 5)
  | .dbl _ => .ub

/-- *p->at<uint64_t>(slot) = w -/
def setSlot (a : Addr) (w : Nat) : PProg Unit := do
  let q ← P.at a.1
  P.wr64 q a.2 w

/-- PrefixTree.cc 91-116, 207-224, 297-305, 322-329 -/
def storeValP (base : Nat) (a : Addr) (v : Val) : PProg Unit := do
  lift (clearSlot base maxSteps a)
  let w ← makeWordP v
  setSlot a w
  lift (addItems base 1)

/-- PrefixTree.cc 246-279 -/
def storeDblP (base : Nat) (a : Addr) (d : BitVec 64) : PProg Unit := do
  let q ← P.at a.1
  let c ← P.rd64 q a.2
  if isZero d then do
    lift (clearSlot base maxSteps a)
    setSlot a 4
    lift (addItems base 1)
  else if (typeOf c = 4 ∨ typeOf c = 3) ∧ c ≠ 4 then do
    setSlot (valOf c, 0) d.toNat
    if typeOf c = 3 then setSlot a (valOf c ||| 4) else pure ()
  else do
    let o ← P.alloc 8
    setSlot (o, 0) d.toNat
    lift (clearSlot base maxSteps a)
    setSlot a (o ||| 4)
    lift (addItems base 1)

/-- store a value of any type in its slot -/
def storeP (base : Nat) (a : Addr) : Val → PProg Unit
  | .dbl d => storeDblP base a d
  | v => storeValP base a v

/-- PrefixTree::insert, PrefixTree.cc 78-117 (string), 194-225 (int64_t), 232-280 (double), 286-305 (bool), 311-329 (null) -/
def insertP (base : Nat) (k : Bytes) (v : Val) (c : Option Check) : PProg Bool := do
  let go ← lift (checkOk base c)
  if go then do
    let a ← traverseCreateP base k
    storeP base a v
    pure true
  else pure false

/-- PrefixTree::insert(LookupResult), PrefixTree.cc 335-355 -/
def insertResultP (base : Nat) (k : Bytes) (r : CVal) (c : Option Check) : PProg Bool :=
  match r with
  | .missing => lift (erase base k c)
  | .val v => insertP base k v c
  | .ref d => insertP base k (.str d) c

/-- PrefixTree.cc 390-414 -/
def storeIncrP (a : Addr) (c : Nat) (v : BitVec 64) : PProg Unit :=
  if fits v then do
    setSlot a (intWord v)
    if typeOf c = 3 then P.free (valOf c) else pure ()
  else if typeOf c = 3 then setSlot (valOf c, 0) v.toNat
  else do
    let o ← P.alloc 8
    setSlot (o, 0) v.toNat
    setSlot a (o ||| 3)

/-- PrefixTree::incr(int64_t), PrefixTree.cc 361-417 -/
def incrIntP (base : Nat) (k : Bytes) (d : BitVec 64) : PProg (BitVec 64) := do
  let a ← traverseCreateP base k
  let q ← P.at a.1
  let c ← P.rd64 q a.2
  if typeOf c = 2 then do
    storeIncrP a c (intOf c + d)
    pure (intOf c + d)
  else if typeOf c = 3 then do
    let q ← P.at (valOf c)
    let x ← P.rd64 q 0
    storeIncrP a c (BitVec.ofNat 64 x + d)
    pure (BitVec.ofNat 64 x + d)
  else if c = 0 then do
    lift (addItems base 1)
    storeIncrP a c (0#64 + d)
    pure (0#64 + d)
  else .err .outOfRange

/-- PrefixTree.cc 440-461 -/
def storeIncrDblP (a : Addr) (o : Nat) (x : BitVec 64) : PProg Unit :=
  if isZero x then do
    setSlot a 4
    lift (freeBuf o)
  else if o ≠ 0 then setSlot (o, 0) x.toNat
  else do
    let o ← P.alloc 8
    setSlot (o, 0) x.toNat
    setSlot a (o ||| 4)

/-- PrefixTree::incr(double), PrefixTree.cc 423-481 -/
def incrDblP (add : BitVec 64 → BitVec 64 → BitVec 64) (base : Nat) (k : Bytes) (d : BitVec 64) : PProg (BitVec 64) := do
  let a ← traverseCreateP base k
  let q ← P.at a.1
  let c ← P.rd64 q a.2
  if typeOf c = 4 then
    (if valOf c = 0 then do
      storeIncrDblP a 0 (add 0#64 d)
      pure (add 0#64 d)
    else do
      let q ← P.at (valOf c)
      let x ← P.rd64 q 0
      storeIncrDblP a (valOf c) (add (BitVec.ofNat 64 x) d)
      pure (add (BitVec.ofNat 64 x) d))
  else if c = 0 then
    (if isZero d then do
      setSlot a fourPointZero
      lift (addItems base 1)
      pure d
    else do
      let o ← P.alloc 8
      setSlot (o, 0) d.toNat
      setSlot a (o ||| 4)
      lift (addItems base 1)
      pure d)
  else .err .outOfRange

end PrefixTree

/-! ### Calls -/

/-- a call of a Queue method -/
def Queue.callP (b : Nat) : Deque.Op → PProg Deque.Ret
  | .pushBack d => (Queue.pushBackP b d).bind fun _ => .ret .unit
  | .pushFront d => (Queue.pushFrontP b d).bind fun _ => .ret .unit
  | o => lift (Queue.call b o)

/-- a call of a PriorityQueue method -/
def PrioQueue.callP (b : Nat) : PQ.Op → PProg PQ.Ret
  | .push d => (PrioQueue.pushP b d).bind fun _ => .ret .unit
  | o => lift (PrioQueue.call b o)

/-- a call of a HashTable method -/
def HashTable.callP (hash : Bytes → Nat) (F : HT.Fp) (b : Nat) : HT.Op → PProg HT.Ret
  | .insert k v c => (HashTable.insertP hash b k v c).bind fun r => .ret (.bool r)
  | .incr k d => (HashTable.incrP hash b k (HashTable.intNum d)).bind fun r => .ret (.word r)
  | .incrDouble k d => (HashTable.incrP hash b k (HashTable.dblNum F.add F.widen d)).bind fun r => .ret (.word r)
  | o => lift (HashTable.call hash F b o)

/-- a call of a PrefixTree method -/
def PrefixTree.callP (add : BitVec 64 → BitVec 64 → BitVec 64) (b : Nat) : PT.Op → PProg PT.Ret
  | .insert k v c => (PrefixTree.insertP b k v c).bind fun r => .ret (.bool r)
  | .insertResult k v c => (PrefixTree.insertResultP b k v c).bind fun r => .ret (.bool r)
  | .incr k d => (PrefixTree.incrIntP b k d).bind fun r => .ret (.word r)
  | .incrDouble k d => (PrefixTree.incrDblP add b k d).bind fun r => .ret (.word r)
  | o => lift (PrefixTree.call add b o)

end Verif
