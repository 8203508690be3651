import Verif.Opening
import Verif.PropsPrefixTree
import Verif.PropsHashTable
import Verif.PropsPrioQueue
import Verif.PropsQueue
/-
No method of a structure changes the allocator's base object offset; only the constructors do (Queue.cc 35, PriorityQueue.cc 36, HashTable.cc 32, PrefixTree.cc 39).
-/
open Verif Opening
namespace Verif.Queue
theorem st_call (b : Nat) (o : Deque.Op) : Stays (call b o) := by
  cases o <;> simp only [call, pushBack, pushFront, push, popBack, popFront, pop, takeNode, unlinkNode, createNode, linkNode, size, bytes, rdPrev, rdNext, wrPrev, wrNext] <;> stays
end Verif.Queue
namespace Verif.PrioQueue
theorem st_less (a b : Nat) : Stays (less a b) := by unfold less; stays
theorem st_siftDownLoop (arr start item : Nat) : ∀ n t, Stays (siftDownLoop arr start item n t)
  | 0, t => by unfold siftDownLoop; stays
  | n + 1, t => by unfold siftDownLoop; stays [st_less, st_siftDownLoop]
theorem st_siftDown (a b c : Nat) : Stays (siftDown a b c) := by unfold siftDown; stays [st_siftDownLoop]
theorem st_rightIsLeast (a b c : Nat) : Stays (rightIsLeast a b c) := by unfold rightIsLeast; stays [st_less]
theorem st_siftUpLoop (a b : Nat) : ∀ n t, Stays (siftUpLoop a b n t)
  | 0, t => by unfold siftUpLoop; stays
  | n + 1, t => by unfold siftUpLoop; stays [st_rightIsLeast, st_siftUpLoop]
theorem st_siftUp (a b : Nat) : Stays (siftUp a b) := by unfold siftUp; stays [st_siftUpLoop, st_siftDown]
theorem st_copyLoop (a b c : Nat) : ∀ n t, Stays (copyLoop a b c n t)
  | 0, t => by unfold copyLoop; stays
  | n + 1, t => by unfold copyLoop; stays [st_copyLoop]
theorem st_pickArray (a : Nat) : Stays (pickArray a) := by unfold pickArray; stays
theorem st_growArray (a : Nat) : Stays (growArray a) := by unfold growArray; stays [st_pickArray, st_copyLoop]
theorem st_clearLoop (a : Nat) : ∀ n, Stays (clearLoop a n)
  | 0 => by unfold clearLoop; stays
  | n + 1 => by unfold clearLoop; stays [st_clearLoop]
theorem st_call (b : Nat) (o : PQ.Op) : Stays (call b o) := by
  cases o <;> simp only [call, push, pop, takeItem, clear, size] <;> stays [st_growArray, st_siftDown, st_siftUp, st_clearLoop]
end Verif.PrioQueue
namespace Verif.HashTable
variable {R : Type}
theorem st_keyMatches (b o : Nat) (k : Bytes) : Stays (keyMatches b o k) := by unfold keyMatches; stays
theorem st_walkList (k : Bytes) : ∀ n a b, Stays (walkList k n a b)
  | 0, a, b => by unfold walkList; stays
  | n + 1, a, b => by unfold walkList; stays [st_keyMatches, st_walkList]
theorem st_locate (b o : Nat) : Stays (locate b o) := by unfold locate; stays
theorem st_walkTables (hash : Bytes → Nat) (b : Nat) (k : Bytes) : Stays (walkTables hash b k) := by unfold walkTables; stays [st_walkList, st_locate, st_keyMatches]
theorem st_executeCheck (hash : Bytes → Nat) (b : Nat) (c : Check) : Stays (executeCheck hash b c) := by unfold executeCheck; stays [st_walkTables]
theorem st_checkOk (hash : Bytes → Nat) (b : Nat) (c : Option Check) : Stays (checkOk hash b c) := by unfold checkOk; stays [st_executeCheck]
theorem st_bumpCount (b : Nat) : Stays (bumpCount b) := by unfold bumpCount; stays
theorem st_dropCount (b : Nat) : Stays (dropCount b) := by unfold dropCount; stays
theorem st_link (a b c d : Nat) (k : Bytes) : Stays (link a b c d k) := by unfold link; stays [st_bumpCount, st_walkList, st_keyMatches]
theorem st_bump (N : Num R) (a b c : Nat) : Stays (bump N a b c) := by unfold bump; stays
theorem st_newNum (N : Num R) (a b : Nat) (k : Bytes) : Stays (newNum N a b k) := by unfold newNum; stays
theorem st_unchain (a b : Nat) : Stays (unchain a b) := by unfold unchain; stays
theorem st_unlinkIv (a b c d : Nat) : Stays (unlinkIv a b c d) := by unfold unlinkIv; stays [st_unchain]
theorem st_freeChain : ∀ n a, Stays (freeChain n a)
  | 0, a => by unfold freeChain; stays
  | n + 1, a => by unfold freeChain; stays [st_freeChain]
theorem st_freeSlot (a : Nat) : Stays (freeSlot a) := by unfold freeSlot; stays [st_freeChain]
theorem st_clearSlot (a b : Nat) : Stays (clearSlot a b) := by unfold clearSlot; stays [st_freeSlot]
theorem st_clearLoop (b : Nat) : ∀ n x, Stays (clearLoop b n x)
  | 0, a => by unfold clearLoop; stays
  | n + 1, a => by unfold clearLoop; stays [st_clearLoop, st_clearSlot]
theorem st_readPair (a b : Nat) : Stays (readPair a b) := by unfold readPair; stays
theorem st_readChain : ∀ n a, Stays (readChain n a)
  | 0, a => by unfold readChain; stays
  | n + 1, a => by unfold readChain; stays [st_readChain, st_readPair]
theorem st_slotContents (a b : Nat) : Stays (slotContents a b) := by unfold slotContents; stays [st_readChain, st_readPair]
theorem st_advance (b : Nat) : ∀ n i, Stays (advance b n i)
  | 0, a => by unfold advance; stays
  | n + 1, a => by unfold advance bits; stays [st_advance, st_slotContents]
theorem st_iterAt (a b : Nat) : Stays (iterAt a b) := by unfold iterAt bits; stays [st_advance, st_slotContents]
theorem st_visit (b : Nat) : ∀ n i, Stays (visit b n i)
  | 0, a => by unfold visit; stays
  | n + 1, a => by unfold visit «end» Iter.next bits; stays [st_advance, st_visit, st_slotContents, st_iterAt]
theorem st_insert (hash : Bytes → Nat) (b : Nat) (k v : Bytes) (c : Option Check) : Stays (insert hash b k v c) := by
  unfold insert; stays [st_checkOk, st_link]
theorem st_incr (hash : Bytes → Nat) (b : Nat) (k : Bytes) (N : Num R) : Stays (incr hash b k N) := by
  unfold incr; stays [st_locate, st_bump, st_newNum, st_walkList, st_keyMatches, st_bumpCount]
theorem st_erase (hash : Bytes → Nat) (b : Nat) (k : Bytes) (c : Option Check) : Stays (erase hash b k c) := by
  unfold erase; stays [st_checkOk, st_dropCount, st_unlinkIv, st_walkList, st_keyMatches, st_unchain]
theorem st_call (hash : Bytes → Nat) (F : HT.Fp) (b : Nat) (o : HT.Op) : Stays (call hash F b o) := by
  cases o <;> simp only [call, clear, exist, «at», size, items, begin] <;> stays [st_insert, st_erase, st_incr, st_clearLoop, st_walkTables, st_iterAt, st_visit]
end Verif.HashTable
namespace Verif.PrefixTree
open PT
theorem st_follow : ∀ k a b l, Stays (follow k a b l)
  | [], a, b, l => by unfold follow; stays
  | _ :: _, a, b, l => by unfold follow; stays [st_follow]
theorem st_traverse (b : Nat) (k : Bytes) : Stays (traverse b k) := by unfold traverse; stays [st_follow]
theorem st_traverseSlot (b : Nat) (k : Bytes) : Stays (traverseSlot b k) := by unfold traverseSlot; stays [st_follow]
theorem st_copySlots (a b : Addr) (c d : Nat) : ∀ n x, Stays (copySlots a b c d n x)
  | 0, x => by unfold copySlots; stays
  | n + 1, x => by unfold copySlots; stays [st_copySlots]
theorem st_zeroSlots (a b : Nat) : ∀ n x, Stays (zeroSlots a b n x)
  | 0, x => by unfold zeroSlots; stays
  | n + 1, x => by unfold zeroSlots; stays [st_zeroSlots]
theorem st_fillSlots (a : Addr) (b c d e f : Nat) (g : Bool) : Stays (fillSlots a b c d e f g) := by unfold fillSlots; stays [st_zeroSlots, st_copySlots]
theorem st_regrow (a b : Addr) (c d e f : Nat) (g : Bool) : Stays (regrow a b c d e f g) := by unfold regrow; stays [st_fillSlots]
theorem st_extend (a b : Addr) (c : Nat) : Stays (extend a b c) := by unfold extend; stays [st_regrow]
theorem st_addItems (a b : Nat) : Stays (addItems a b) := by unfold addItems; stays
theorem st_addNodes (a b : Nat) : Stays (addNodes a b) := by unfold addNodes; stays
theorem st_chain (b : Nat) (a : Addr) (c : UInt8) (k : Bytes) : Stays (chain b a c k) := by
  induction k generalizing a c with
  | nil => unfold chain; stays
  | cons x k ih => unfold chain; stays [st_addNodes, ih]
theorem st_traverseCreate (b : Nat) (k : Bytes) : Stays (traverseCreate b k) := by unfold traverseCreate; stays [st_follow, st_extend, st_chain]
theorem st_freeBuf (b : Nat) : Stays (freeBuf b) := by unfold freeBuf; stays
theorem st_eachSlot {f : Addr → HProg Unit} (hf : ∀ a, Stays (f a)) (a : Addr) : ∀ n x, Stays (eachSlot f a n x)
  | 0, x => by unfold eachSlot; stays
  | n + 1, x => by unfold eachSlot; stays [hf, st_eachSlot hf]
theorem st_clearNodeWith {f : Addr → HProg Unit} (hf : ∀ a, Stays (f a)) (a : Addr) : Stays (clearNodeWith f a) := by
  unfold clearNodeWith; stays [hf, st_eachSlot hf]
theorem st_clearSlot (b : Nat) : ∀ n a, Stays (clearSlot b n a)
  | 0, x => by unfold clearSlot; stays
  | n + 1, x => by unfold clearSlot; stays [st_clearNodeWith (st_clearSlot b n), st_addItems, st_addNodes, st_freeBuf]
theorem st_lookup (c : Nat) : Stays (lookup c) := by unfold lookup; stays
theorem st_executeCheck (b : Nat) (c : Check) : Stays (executeCheck b c) := by unfold executeCheck; stays [st_traverse, st_lookup]
theorem st_checkOk (b : Nat) (c : Option Check) : Stays (checkOk b c) := by unfold checkOk; stays [st_executeCheck]
theorem st_makeWord (v : Val) : Stays (makeWord v) := by unfold makeWord; stays
theorem st_storeVal (b : Nat) (a : Addr) (v : Val) : Stays (storeVal b a v) := by unfold storeVal; stays [st_clearSlot, st_makeWord, st_addItems]
theorem st_storeDbl (b : Nat) (a : Addr) (v : BitVec 64) : Stays (storeDbl b a v) := by unfold storeDbl; stays [st_clearSlot, st_makeWord, st_addItems, st_storeVal]
theorem st_store (b : Nat) (a : Addr) (v : Val) : Stays (store b a v) := by unfold store; stays [st_storeDbl, st_storeVal]
theorem st_insert (b : Nat) (k : Bytes) (v : Val) (c : Option Check) : Stays (insert b k v c) := by unfold insert; stays [st_checkOk, st_traverseCreate, st_store]
theorem st_storeIncr (a : Addr) (c : Nat) (v : BitVec 64) : Stays (storeIncr a c v) := by unfold storeIncr; stays [st_freeBuf]
theorem st_incrInt (b : Nat) (k : Bytes) (v : BitVec 64) : Stays (incrInt b k v) := by unfold incrInt; stays [st_traverseCreate, st_storeIncr, st_addItems, st_freeBuf]
theorem st_storeIncrDbl (a : Addr) (c : Nat) (v : BitVec 64) : Stays (storeIncrDbl a c v) := by unfold storeIncrDbl; stays [st_freeBuf]
theorem st_incrDbl (add : BitVec 64 → BitVec 64 → BitVec 64) (b : Nat) (k : Bytes) (v : BitVec 64) : Stays (incrDbl add b k v) := by unfold incrDbl; stays [st_traverseCreate, st_storeIncrDbl, st_addItems, st_freeBuf]
theorem st_hasChildren (a : Addr) : ∀ n x, Stays (hasChildren a n x)
  | 0, x => by unfold hasChildren; stays
  | n + 1, x => by unfold hasChildren; stays [st_hasChildren]
theorem st_prune (b : Nat) : ∀ l, Stays (prune b l)
  | [] => by unfold prune; stays
  | [_] => by unfold prune; stays
  | _ :: _ :: _ => by unfold prune; stays [st_prune, st_hasChildren, st_addNodes]
theorem st_erase (b : Nat) (k : Bytes) (c : Option Check) : Stays (erase b k c) := by unfold erase; stays [st_checkOk, st_traverse, st_clearSlot, st_prune]
theorem st_insertResult (b : Nat) (k : Bytes) (v : CVal) (c : Option Check) : Stays (insertResult b k v c) := by unfold insertResult; stays [st_insert, st_erase]
theorem st_at (b : Nat) (k : Bytes) : Stays («at» b k) := by unfold «at»; stays [st_traverse, st_lookup]
theorem st_type (b : Nat) (k : Bytes) : Stays (type b k) := by unfold type; stays [st_traverse, st_lookup]
theorem st_seek : ∀ k a l, Stays (seek k a l)
  | [], a, l => by unfold seek; stays
  | _ :: _, a, l => by unfold seek; stays [st_seek]
theorem st_scan : ∀ n l i, Stays (scan n l i)
  | 0, a, l => by unfold scan; stays
  | _ + 1, a, l => by unfold scan; stays [st_scan]
theorem st_pathOf (l : List Addr) : Stays (pathOf l) := by
  induction l with
  | nil => unfold pathOf; stays
  | cons a l ih => unfold pathOf; split <;> stays; simp_all
theorem st_found (l : List Addr) (i : Option Nat) : Stays (found l i) := by unfold found; stays [st_pathOf]
theorem st_nextFrom (l : List Addr) (i : Nat) : Stays (nextFrom l i) := by unfold nextFrom; stays [st_scan, st_found]
theorem st_nextRaw (b : Nat) (k : Option Bytes) : Stays (nextRaw b k) := by unfold nextRaw; stays [st_seek, st_nextFrom]
theorem st_nextKey (b : Nat) (k : Option Bytes) : Stays (nextKey b k) := by unfold nextKey; stays [st_nextRaw]
theorem st_nextKV (b : Nat) (k : Option Bytes) : Stays (nextKV b k) := by unfold nextKV; stays [st_nextRaw, st_lookup]
theorem st_iterNext (b : Nat) (k : Option Bytes) : Stays (iterNext b k) := by unfold iterNext orEnd; stays [st_nextKV]
theorem st_find (b : Nat) (k : Bytes) : Stays (find b k) := by unfold find orEnd; stays [st_at]
theorem st_lowerBound (b : Nat) (k : Bytes) : Stays (lowerBound b k) := by unfold lowerBound upperBound; stays [st_find, st_iterNext]
theorem st_iterate (b : Nat) : ∀ n k, Stays (iterate b n k)
  | 0, a => by unfold iterate; stays
  | _ + 1, a => by unfold iterate; stays [st_iterNext, st_iterate]
theorem st_sumSlots {f : Nat → HProg Nat} (hf : ∀ a, Stays (f a)) (a : Addr) : ∀ n x, Stays (sumSlots f a n x)
  | 0, x => by unfold sumSlots; stays
  | n + 1, x => by unfold sumSlots; stays [hf, st_sumSlots hf]
theorem st_sumNode {f : Nat → HProg Nat} (hf : ∀ a, Stays (f a)) (a : Addr) : Stays (sumNode f a) := by
  unfold sumNode; stays [hf, st_sumSlots hf]
theorem st_nodesFor : ∀ n a, Stays (nodesFor n a)
  | 0, a => by unfold nodesFor; stays
  | n + 1, a => by unfold nodesFor; stays [st_sumNode (st_nodesFor n)]
theorem st_nodesForPrefix (b : Nat) (k : Bytes) : Stays (nodesForPrefix b k) := by unfold nodesForPrefix; stays [st_sumNode (st_nodesFor _), st_nodesFor, st_traverseSlot]
theorem st_call (add : BitVec 64 → BitVec 64 → BitVec 64) (b : Nat) (o : Op) : Stays (call add b o) := by
  cases o <;> simp only [call, clear, size, nodeSize, existsKey, upperBound] <;> stays [st_insert, st_insertResult, st_erase, st_incrInt, st_incrDbl, st_clearNodeWith (st_clearSlot _ _), st_at, st_type,
    st_traverse, st_nextKey, st_nextKV, st_iterNext, st_find, st_lowerBound, st_iterate, st_nodesForPrefix]
end Verif.PrefixTree
