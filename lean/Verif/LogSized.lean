import Verif.LogSim
import Verif.OpeningStays
/-
The requests the structures' methods make of the allocator: every method call of a Queue, HashTable or PrefixTree asks only for blocks that a LogarithmicAllocator
serves lawfully (`Good`), as long as the strings passed to it fit in a page.
-/
open Verif Logarithmic
variable {full : Prop}
namespace Verif.Queue
/-- the strings pushed fit in a page (or the pool cannot grow, and they are smaller than 2^30 bytes) -/
def _root_.Verif.Deque.Op.good (full : Prop) : Deque.Op → Prop
  | .pushBack d => Good full (16 + d.length)
  | .pushFront d => Good full (16 + d.length)
  | .push _ d => Good full (16 + d.length)
  | _ => True
theorem sz_call (b : Nat) (o : Deque.Op) (hg : o.good full) : Sized (Good full) (call b o) := by
  cases o <;> simp only [Deque.Op.good] at hg <;> simp only [call, pushBack, pushFront, push, popBack, popFront, pop, takeNode, unlinkNode, createNode, linkNode, size, bytes, rdPrev, rdNext, wrPrev, wrNext] <;> szd
end Verif.Queue
namespace Verif.HashTable
variable {R : Type}
theorem sz_keyMatches (b o : Nat) (k : Bytes) : Sized (Good full) (keyMatches b o k) := by unfold keyMatches; szd
theorem sz_walkList (k : Bytes) : ∀ n a b, Sized (Good full) (walkList k n a b)
  | 0, a, b => by unfold walkList; szd
  | n + 1, a, b => by unfold walkList; szd [sz_keyMatches, sz_walkList]
theorem sz_locate (b o : Nat) : Sized (Good full) (locate b o) := by unfold locate; szd
theorem sz_walkTables (hash : Bytes → Nat) (b : Nat) (k : Bytes) : Sized (Good full) (walkTables hash b k) := by unfold walkTables; szd [sz_walkList, sz_locate, sz_keyMatches]
theorem sz_executeCheck (hash : Bytes → Nat) (b : Nat) (c : Check) : Sized (Good full) (executeCheck hash b c) := by unfold executeCheck; szd [sz_walkTables]
theorem sz_checkOk (hash : Bytes → Nat) (b : Nat) (c : Option Check) : Sized (Good full) (checkOk hash b c) := by unfold checkOk; szd [sz_executeCheck]
theorem sz_bumpCount (b : Nat) : Sized (Good full) (bumpCount b) := by unfold bumpCount; szd
theorem sz_dropCount (b : Nat) : Sized (Good full) (dropCount b) := by unfold dropCount; szd
theorem sz_link (a b c d : Nat) (k : Bytes) : Sized (Good full) (link a b c d k) := by unfold link; szd [sz_bumpCount, sz_walkList, sz_keyMatches]
theorem sz_bump (N : Num R) (a b c : Nat) : Sized (Good full) (bump N a b c) := by unfold bump; szd
theorem sz_newNum (N : Num R) (a b : Nat) (k : Bytes) (hg : Good full (k.length + 8)) : Sized (Good full) (newNum N a b k) := by unfold newNum; szd
theorem sz_unchain (a b : Nat) : Sized (Good full) (unchain a b) := by unfold unchain; szd
theorem sz_unlinkIv (a b c d : Nat) : Sized (Good full) (unlinkIv a b c d) := by unfold unlinkIv; szd [sz_unchain]
theorem sz_freeChain : ∀ n a, Sized (Good full) (freeChain n a)
  | 0, a => by unfold freeChain; szd
  | n + 1, a => by unfold freeChain; szd [sz_freeChain]
theorem sz_freeSlot (a : Nat) : Sized (Good full) (freeSlot a) := by unfold freeSlot; szd [sz_freeChain]
theorem sz_clearSlot (a b : Nat) : Sized (Good full) (clearSlot a b) := by unfold clearSlot; szd [sz_freeSlot]
theorem sz_clearLoop (b : Nat) : ∀ n x, Sized (Good full) (clearLoop b n x)
  | 0, a => by unfold clearLoop; szd
  | n + 1, a => by unfold clearLoop; szd [sz_clearLoop, sz_clearSlot]
theorem sz_readPair (a b : Nat) : Sized (Good full) (readPair a b) := by unfold readPair; szd
theorem sz_readChain : ∀ n a, Sized (Good full) (readChain n a)
  | 0, a => by unfold readChain; szd
  | n + 1, a => by unfold readChain; szd [sz_readChain, sz_readPair]
theorem sz_slotContents (a b : Nat) : Sized (Good full) (slotContents a b) := by unfold slotContents; szd [sz_readChain, sz_readPair]
theorem sz_advance (b : Nat) : ∀ n i, Sized (Good full) (advance b n i)
  | 0, a => by unfold advance; szd
  | n + 1, a => by unfold advance bits; szd [sz_advance, sz_slotContents]
theorem sz_iterAt (a b : Nat) : Sized (Good full) (iterAt a b) := by unfold iterAt bits; szd [sz_advance, sz_slotContents]
theorem sz_visit (b : Nat) : ∀ n i, Sized (Good full) (visit b n i)
  | 0, a => by unfold visit; szd
  | n + 1, a => by unfold visit «end» Iter.next bits; szd [sz_advance, sz_visit, sz_slotContents, sz_iterAt]
theorem sz_insert (hash : Bytes → Nat) (b : Nat) (k v : Bytes) (c : Option Check) (hg : Good full (k.length + v.length)) : Sized (Good full) (insert hash b k v c) := by
  unfold insert; szd [sz_checkOk, sz_link]
theorem sz_incr (hash : Bytes → Nat) (b : Nat) (k : Bytes) (N : Num R) (hg : Good full (k.length + 8)) : Sized (Good full) (incr hash b k N) := by
  unfold incr; szd [sz_locate, sz_bump, sz_newNum, sz_walkList, sz_keyMatches, sz_bumpCount]
theorem sz_erase (hash : Bytes → Nat) (b : Nat) (k : Bytes) (c : Option Check) : Sized (Good full) (erase hash b k c) := by
  unfold erase; szd [sz_checkOk, sz_dropCount, sz_unlinkIv, sz_walkList, sz_keyMatches, sz_unchain]
/-- key and value together are not empty and fit in a page (or the pool cannot grow, and they are smaller than 2^30 bytes) -/
def _root_.Verif.HT.Op.good (full : Prop) : HT.Op → Prop
  | .insert k v _ => Good full (k.length + v.length)
  | .incr k _ => Good full (k.length + 8)
  | .incrDouble k _ => Good full (k.length + 8)
  | _ => True
theorem sz_call (hash : Bytes → Nat) (F : HT.Fp) (b : Nat) (o : HT.Op) (hg : o.good full) : Sized (Good full) (call hash F b o) := by
  cases o <;> simp only [HT.Op.good] at hg <;> simp only [call, clear, exist, «at», size, items, begin] <;> szd [sz_insert, sz_erase, sz_incr, sz_clearLoop, sz_walkTables, sz_iterAt, sz_visit]
end Verif.HashTable
namespace Verif.PrefixTree
open PT
theorem sz_follow : ∀ k a b l, Sized (Good full) (follow k a b l)
  | [], a, b, l => by unfold follow; szd
  | _ :: _, a, b, l => by unfold follow; szd [sz_follow]
theorem sz_traverse (b : Nat) (k : Bytes) : Sized (Good full) (traverse b k) := by unfold traverse; szd [sz_follow]
theorem sz_traverseSlot (b : Nat) (k : Bytes) : Sized (Good full) (traverseSlot b k) := by unfold traverseSlot; szd [sz_follow]
theorem sz_copySlots (a b : Addr) (c d : Nat) : ∀ n x, Sized (Good full) (copySlots a b c d n x)
  | 0, x => by unfold copySlots; szd
  | n + 1, x => by unfold copySlots; szd [sz_copySlots]
theorem sz_zeroSlots (a b : Nat) : ∀ n x, Sized (Good full) (zeroSlots a b n x)
  | 0, x => by unfold zeroSlots; szd
  | n + 1, x => by unfold zeroSlots; szd [sz_zeroSlots]
theorem sz_fillSlots (a : Addr) (b c d e f : Nat) (g : Bool) : Sized (Good full) (fillSlots a b c d e f g) := by unfold fillSlots; szd [sz_zeroSlots, sz_copySlots]
theorem sz_regrow (a b : Addr) (c d e f : Nat) (g : Bool) (hf : f < 256) : Sized (Good full) (regrow a b c d e f g) := by unfold regrow; szd [sz_fillSlots]
theorem sz_extend (a b : Addr) (c : Nat) (hc : c < 256) : Sized (Good full) (extend a b c) := by
  unfold extend
  refine Sized.rdK fun s hs => Sized.rdK fun e he => ?_
  szd [sz_regrow]
theorem sz_addItems (a b : Nat) : Sized (Good full) (addItems a b) := by unfold addItems; szd
theorem sz_addNodes (a b : Nat) : Sized (Good full) (addNodes a b) := by unfold addNodes; szd
theorem sz_chain (b : Nat) (a : Addr) (c : UInt8) (k : Bytes) : Sized (Good full) (chain b a c k) := by
  induction k generalizing a c with
  | nil => unfold chain; szd
  | cons x k ih => unfold chain; szd [sz_addNodes, ih]
theorem sz_traverseCreate (b : Nat) (k : Bytes) : Sized (Good full) (traverseCreate b k) := by unfold traverseCreate; szd [sz_follow, sz_extend, sz_chain]; exact UInt8.toNat_lt _
theorem sz_freeBuf (b : Nat) : Sized (Good full) (freeBuf b) := by unfold freeBuf; szd
theorem sz_eachSlot {f : Addr → HProg Unit} (hf : ∀ a, Sized (Good full) (f a)) (a : Addr) : ∀ n x, Sized (Good full) (eachSlot f a n x)
  | 0, x => by unfold eachSlot; szd
  | n + 1, x => by unfold eachSlot; szd [hf, sz_eachSlot hf]
theorem sz_clearNodeWith {f : Addr → HProg Unit} (hf : ∀ a, Sized (Good full) (f a)) (a : Addr) : Sized (Good full) (clearNodeWith f a) := by
  unfold clearNodeWith; szd [hf, sz_eachSlot hf]
theorem sz_clearSlot (b : Nat) : ∀ n a, Sized (Good full) (clearSlot b n a)
  | 0, x => by unfold clearSlot; szd
  | n + 1, x => by unfold clearSlot; szd [sz_clearNodeWith (sz_clearSlot b n), sz_addItems, sz_addNodes, sz_freeBuf]
theorem sz_lookup (c : Nat) : Sized (Good full) (lookup c) := by unfold lookup; szd
theorem sz_executeCheck (b : Nat) (c : Check) : Sized (Good full) (executeCheck b c) := by unfold executeCheck; szd [sz_traverse, sz_lookup]
theorem sz_checkOk (b : Nat) (c : Option Check) : Sized (Good full) (checkOk b c) := by unfold checkOk; szd [sz_executeCheck]
/-- a string that fits in a page (or the pool cannot grow, and it is smaller than 2^30 bytes); all other values -/
def _root_.Verif.PT.goodVal (full : Prop) : Val → Prop
  | .str d => d.length ≤ 4088 ∨ (full ∧ d.length + 8 ≤ 2 ^ 30)
  | _ => True
theorem sz_makeWord (v : Val) (hg : goodVal full v) : Sized (Good full) (makeWord v) := by
  unfold makeWord
  szd
  exact ⟨by omega, hg⟩
theorem sz_storeVal (b : Nat) (a : Addr) (v : Val) (hg : goodVal full v) : Sized (Good full) (storeVal b a v) := by unfold storeVal; szd [sz_clearSlot, sz_makeWord, sz_addItems]
theorem sz_storeDbl (b : Nat) (a : Addr) (v : BitVec 64) : Sized (Good full) (storeDbl b a v) := by unfold storeDbl; szd [sz_clearSlot, sz_makeWord, sz_addItems, sz_storeVal]
theorem sz_store (b : Nat) (a : Addr) (v : Val) (hg : goodVal full v) : Sized (Good full) (store b a v) := by unfold store; szd [sz_storeDbl, sz_storeVal]
theorem sz_insert (b : Nat) (k : Bytes) (v : Val) (c : Option Check) (hg : goodVal full v) : Sized (Good full) (insert b k v c) := by unfold insert; szd [sz_checkOk, sz_traverseCreate, sz_store]
theorem sz_storeIncr (a : Addr) (c : Nat) (v : BitVec 64) : Sized (Good full) (storeIncr a c v) := by unfold storeIncr; szd [sz_freeBuf]
theorem sz_incrInt (b : Nat) (k : Bytes) (v : BitVec 64) : Sized (Good full) (incrInt b k v) := by unfold incrInt; szd [sz_traverseCreate, sz_storeIncr, sz_addItems, sz_freeBuf]
theorem sz_storeIncrDbl (a : Addr) (c : Nat) (v : BitVec 64) : Sized (Good full) (storeIncrDbl a c v) := by unfold storeIncrDbl; szd [sz_freeBuf]
theorem sz_incrDbl (add : BitVec 64 → BitVec 64 → BitVec 64) (b : Nat) (k : Bytes) (v : BitVec 64) : Sized (Good full) (incrDbl add b k v) := by unfold incrDbl; szd [sz_traverseCreate, sz_storeIncrDbl, sz_addItems, sz_freeBuf]
theorem sz_hasChildren (a : Addr) : ∀ n x, Sized (Good full) (hasChildren a n x)
  | 0, x => by unfold hasChildren; szd
  | n + 1, x => by unfold hasChildren; szd [sz_hasChildren]
theorem sz_prune (b : Nat) : ∀ l, Sized (Good full) (prune b l)
  | [] => by unfold prune; szd
  | [_] => by unfold prune; szd
  | _ :: _ :: _ => by unfold prune; szd [sz_prune, sz_hasChildren, sz_addNodes]
theorem sz_erase (b : Nat) (k : Bytes) (c : Option Check) : Sized (Good full) (erase b k c) := by unfold erase; szd [sz_checkOk, sz_traverse, sz_clearSlot, sz_prune]
/-- the same for a LookupResult -/
def _root_.Verif.PT.goodCVal (full : Prop) : CVal → Prop
  | .missing => True
  | .val v => goodVal full v
  | .ref d => goodVal full (.str d)
theorem sz_insertResult (b : Nat) (k : Bytes) (v : CVal) (c : Option Check) (hg : goodCVal full v) : Sized (Good full) (insertResult b k v c) := by unfold insertResult; szd [sz_insert, sz_erase]
theorem sz_at (b : Nat) (k : Bytes) : Sized (Good full) («at» b k) := by unfold «at»; szd [sz_traverse, sz_lookup]
theorem sz_type (b : Nat) (k : Bytes) : Sized (Good full) (type b k) := by unfold type; szd [sz_traverse, sz_lookup]
theorem sz_seek : ∀ k a l, Sized (Good full) (seek k a l)
  | [], a, l => by unfold seek; szd
  | _ :: _, a, l => by unfold seek; szd [sz_seek]
theorem sz_scan : ∀ n l i, Sized (Good full) (scan n l i)
  | 0, a, l => by unfold scan; szd
  | _ + 1, a, l => by unfold scan; szd [sz_scan]
theorem sz_pathOf (l : List Addr) : Sized (Good full) (pathOf l) := by
  induction l with
  | nil => unfold pathOf; szd
  | cons a l ih => unfold pathOf; split <;> szd; simp_all
theorem sz_found (l : List Addr) (i : Option Nat) : Sized (Good full) (found l i) := by unfold found; szd [sz_pathOf]
theorem sz_nextFrom (l : List Addr) (i : Nat) : Sized (Good full) (nextFrom l i) := by unfold nextFrom; szd [sz_scan, sz_found]
theorem sz_nextRaw (b : Nat) (k : Option Bytes) : Sized (Good full) (nextRaw b k) := by unfold nextRaw; szd [sz_seek, sz_nextFrom]
theorem sz_nextKey (b : Nat) (k : Option Bytes) : Sized (Good full) (nextKey b k) := by unfold nextKey; szd [sz_nextRaw]
theorem sz_nextKV (b : Nat) (k : Option Bytes) : Sized (Good full) (nextKV b k) := by unfold nextKV; szd [sz_nextRaw, sz_lookup]
theorem sz_iterNext (b : Nat) (k : Option Bytes) : Sized (Good full) (iterNext b k) := by unfold iterNext orEnd; szd [sz_nextKV]
theorem sz_find (b : Nat) (k : Bytes) : Sized (Good full) (find b k) := by unfold find orEnd; szd [sz_at]
theorem sz_lowerBound (b : Nat) (k : Bytes) : Sized (Good full) (lowerBound b k) := by unfold lowerBound upperBound; szd [sz_find, sz_iterNext]
theorem sz_iterate (b : Nat) : ∀ n k, Sized (Good full) (iterate b n k)
  | 0, a => by unfold iterate; szd
  | _ + 1, a => by unfold iterate; szd [sz_iterNext, sz_iterate]
theorem sz_sumSlots {f : Nat → HProg Nat} (hf : ∀ a, Sized (Good full) (f a)) (a : Addr) : ∀ n x, Sized (Good full) (sumSlots f a n x)
  | 0, x => by unfold sumSlots; szd
  | n + 1, x => by unfold sumSlots; szd [hf, sz_sumSlots hf]
theorem sz_sumNode {f : Nat → HProg Nat} (hf : ∀ a, Sized (Good full) (f a)) (a : Addr) : Sized (Good full) (sumNode f a) := by
  unfold sumNode; szd [hf, sz_sumSlots hf]
theorem sz_nodesFor : ∀ n a, Sized (Good full) (nodesFor n a)
  | 0, a => by unfold nodesFor; szd
  | n + 1, a => by unfold nodesFor; szd [sz_sumNode (sz_nodesFor n)]
theorem sz_nodesForPrefix (b : Nat) (k : Bytes) : Sized (Good full) (nodesForPrefix b k) := by unfold nodesForPrefix; szd [sz_sumNode (sz_nodesFor _), sz_nodesFor, sz_traverseSlot]
def _root_.Verif.PT.Op.good (full : Prop) : Op → Prop
  | .insert _ v _ => goodVal full v
  | .insertResult _ v _ => goodCVal full v
  | _ => True
theorem sz_call (add : BitVec 64 → BitVec 64 → BitVec 64) (b : Nat) (o : Op) (hg : o.good full) : Sized (Good full) (call add b o) := by
  cases o <;> simp only [Op.good] at hg <;> simp only [call, clear, size, nodeSize, existsKey, upperBound] <;> szd [sz_insert, sz_insertResult, sz_erase, sz_incrInt, sz_incrDbl, sz_clearNodeWith (sz_clearSlot _ _), sz_at, sz_type,
    sz_traverse, sz_nextKey, sz_nextKV, sz_iterNext, sz_find, sz_lowerBound, sz_iterate, sz_nodesForPrefix]
end Verif.PrefixTree

/-! ### histories of calls -/
namespace Verif.Logarithmic
variable {α β O R S : Type} {P : Nat → Prop} {C : Prop}

theorem Sized.attempt {p : HProg α} (hp : Sized P p) : Sized P (attempt p) := by
  unfold Verif.attempt
  szd

theorem Sized.hist {f : O → HProg R} (ops : List O) (h : ∀ o ∈ ops, Sized P (f o)) : Sized P (hist f ops) := by
  induction ops with
  | nil => exact Sized.ret
  | cons o os ih =>
    have h1 := ih (fun o ho => h o (by simp [ho]))
    have h2 := (h o (by simp)).attempt
    unfold Verif.hist
    szd

theorem sized_bind {p : HProg α} {f : α → HProg β} {Q : Out α → Heap → Prop} : ∀ {h : Heap}, wp p Q h → sized P p h → (∀ a h', Q (.ok a) h' → sized P (f a) h') →
    sized P (p.bind f) h := by
  induction p with
  | ret a => exact fun hw _ hf => hf _ _ hw
  | err | ub => exact fun _ _ _ => trivial
  | step op k ih =>
    intro h hw hs hf
    cases op with
    | rd b o n => obtain ⟨B, hB, -, hw⟩ := hw; intro B' hB'; cases (hB.symm.trans hB'); exact ih _ hw (hs _ hB) hf
    | wr b o n v => obtain ⟨B, hB, -, hw⟩ := hw; intro B' hB'; cases (hB.symm.trans hB'); exact ih _ hw (hs _ hB) hf
    | rdB b o n => obtain ⟨B, hB, -, hw⟩ := hw; intro B' hB'; cases (hB.symm.trans hB'); exact ih _ hw (hs _ hB) hf
    | wrB b o bs => obtain ⟨B, hB, -, hw⟩ := hw; intro B' hB'; cases (hB.symm.trans hB'); exact ih _ hw (hs _ hB) hf
    | alloc n => exact ⟨hs.1, fun o d hfr => ih _ (hw.2.1 o d hfr) (hs.2.1 o d hfr) hf, ih _ hw.2.2 hs.2.2 hf⟩
    | free b => obtain ⟨B, hB, hw⟩ := hw; exact ih _ hw hs hf
    | bsize b => obtain ⟨B, hB, hw⟩ := hw; intro B' hB'; cases (hB.symm.trans hB'); exact ih _ hw (hs _ hB) hf
    | getBase => exact ih _ hw hs hf
    | setBase o => exact ih _ hw.2 hs hf

theorem sized_attempt {p : HProg α} : ∀ {h : Heap}, sized P p h → sized P (attempt p) h := by
  induction p with
  | ret | err | ub => exact fun _ => trivial
  | step op k ih =>
    intro h hs
    cases op with
    | rd b o n => exact fun B hB => ih _ (hs B hB)
    | wr b o n v => exact fun B hB => ih _ (hs B hB)
    | rdB b o n => exact fun B hB => ih _ (hs B hB)
    | wrB b o bs => exact fun B hB => ih _ (hs B hB)
    | alloc n => exact ⟨hs.1, fun o d hfr => ih _ (hs.2.1 o d hfr), ih _ hs.2.2⟩
    | free b => exact ih _ hs
    | bsize b => exact fun B hB => ih _ (hs B hB)
    | getBase => exact ih _ hs
    | setBase o => exact ih _ hs

theorem sized_hist {f : O → HProg R} {Spec : S → O → Out R → S → Prop} {Inv : S → Heap → Prop} {ok : S → O → Prop}
    (hstep : ∀ s o h, ok s o → Inv s h → wp (f o) (fun out h' => ∃ s', Spec s o out s' ∧ Inv s' h') h)
    (hsz : ∀ s o h, ok s o → Inv s h → sized P (f o) h)
    (ops : List O) : ∀ (s : S) (h : Heap), Guarded Spec ok s ops → Inv s h → sized P (hist f ops) h := by
  induction ops with
  | nil => exact fun s h _ _ => trivial
  | cons o os ih =>
    intro s h hok hi
    unfold Verif.hist
    refine sized_bind (Q := fun out h' => ∃ r s', out = .ok r ∧ Spec s o r s' ∧ Inv s' h') ?_ (sized_attempt (hsz s o h hok.1 hi)) ?_
    · rw [wp_attempt]
      refine wp_mono ?_ (hstep s o h hok.1 hi)
      rintro out h' ⟨s', h1, h2⟩
      exact ⟨out, s', rfl, h1, h2⟩
    · rintro r h' ⟨r', s', he, h1, h2⟩
      cases he
      refine sized_bind (hist_guarded hstep os s' h' (hok.2 _ _ h1) h2) (ih s' h' (hok.2 _ _ h1) h2) ?_
      intro rs h'' _
      trivial

theorem LSim.heapOk {full : Prop} {h : Heap} {p : Pool} (s : LSim C full h p) : HeapOk h := by
  obtain ⟨-, T, live, hI, hh⟩ := s
  obtain ⟨F, hi⟩ := hI.rdy.inv
  have hcap := hi.cap
  refine ⟨?_, ?_⟩
  · intro x y B D hx hy hne
    have h1 := (hh.blk x B hx).1
    have h2 := (hh.blk y D hy).1
    have h3 := hI.disj2 h1 h2 (fun hc => hne (congrArg Prod.fst hc))
    have h4 := hI.block h1
    have h5 := hI.block h2
    simp only at h3 h4 h5
    omega
  · intro x B hx
    have h4 := hI.block (hh.blk x B hx).1
    simp only at h4
    omega

/-- a history of calls on a structure in a pool of a LogarithmicAllocator -/
theorem lhist_run {full : Prop} {f : O → HProg R} {Spec : S → O → Out R → S → Prop} {Inv : S → Heap → Prop} {ok : S → O → Prop}
    (hstep : ∀ s o h, ok s o → Inv s h → wp (f o) (fun out h' => ∃ s', Spec s o out s' ∧ Inv s' h') h)
    (hsz : ∀ s o h, ok s o → Inv s h → sized (Good full) (f o) h)
    (ops : List O) {s : S} {h : Heap} {p : Pool} (hok : Guarded Spec ok s ops) (hi : Inv s h) (hs : LSim C full h p) :
    ∃ rs p' s' h', run (lcompile (hist f ops)) p = (.ok rs, p') ∧ Trace Spec s ops rs s' ∧ Inv s' h' ∧ LSim C full h' p' := by
  obtain ⟨out, p', h', h1, ⟨rs, s', h2, h3, h4⟩, h5⟩ := lsim_run (hist_guarded hstep ops s h hok hi) (sized_hist hstep hsz ops s h hok hi) hs
  subst h2
  exact ⟨rs, p', s', h', h1, h3, h4, h5⟩

/-- what a client reads from its block is what the heap says -/
theorem LSim.data {full : Prop} {h : Heap} {p : Pool} (s : LSim C full h p) {o : Nat} {B : Block} (hB : h.blk o = some B) :
    ∀ i, i < B.size → p.mem (o + i) = B.data i := by
  obtain ⟨-, T, live, hI, hh⟩ := s
  exact (hh.blk o B hB).2
end Verif.Logarithmic
