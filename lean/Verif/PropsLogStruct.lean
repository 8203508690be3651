import Verif.LogSized
import Verif.PropsPrefixTree
import Verif.PropsHashTable
import Verif.PropsPrioQueue
import Verif.PropsQueue
/-
C62: the structures on a LogarithmicAllocator, the allocator the README recommends and the Python module uses by default (PythonModule.cc 26-36).
-/
namespace Verif
open Logarithmic

variable {p0 p : Pool} {live : List (Nat × Nat)}

/-- creating a structure in a pool of a LogarithmicAllocator, and where it leaves the blocks of other clients -/
theorem Logarithmic.LHistX.sim {p0 p : Pool} {live : List (Nat × Nat)} (h : LHistX p0 p live) :
    ∃ hp, LSim False (Full p) hp p ∧ ∀ o n, (o, n) ∈ live → ∃ B, hp.blk o = some B ∧ B.size = n ∧ ∀ i, B.data i = p.mem (o + i) := by
  obtain ⟨T, hI⟩ := h.inv
  exact ⟨_, lheapOf_sim hI id, fun o n hm => lheapOf_mem hI hm⟩

/-- **C62 for Queue.** In a pool with any history of LogarithmicAllocator calls, a newly created queue answers every sequence of calls as a deque that started empty, and no
call touches the blocks of other clients, as long as every string pushed fits in a page (or the pool cannot grow). -/
theorem C62_queue_partial (h : LHistX p0 p live) :
    (∃ p1, run (lcompile Queue.create) p = (.err .noMem, p1)) ∨
    ∃ b p1, run (lcompile Queue.create) p = (.ok b, p1) ∧ ∀ ops : List Deque.Op, (∀ o ∈ ops, o.good (Full p)) →
      ∃ rs p2 s, run (lcompile (hist (Queue.call b) ops)) p1 = (.ok rs, p2) ∧ Trace Deque.Spec [] ops rs s ∧
        ∀ o n, (o, n) ∈ live → ∀ i, i < n → p2.mem (o + i) = p.mem (o + i) := by
  obtain ⟨hp, hs, hl⟩ := h.sim
  obtain ⟨out, p1, h1, hr, ⟨-, hq⟩, hs1⟩ := lsim_run (Queue.create_spec hp) (Sized.sized (by
    unfold Queue.create Queue.allocBase Queue.setupBase Queue.wrPrev Queue.wrNext; szd) _) hs
  cases out with
  | err e =>
    obtain ⟨rfl, -⟩ := hq
    exact Or.inl ⟨p1, hr⟩
  | ok b =>
    refine Or.inr ⟨b, p1, hr, ?_⟩
    intro ops hok
    obtain ⟨rs, p2, s, h2, e1, e2, ⟨-, L, -, r⟩, hs2⟩ :=
      lhist_run (ok := fun _ o => o.ok ∧ o.good (Full p)) (fun s o h ho => Queue.step b hp.blk s o h ho.1)
        (fun s o h ho _ => (Queue.sz_call b o ho.2).sized h) ops (s := [])
        (Guarded.of_all (fun o ho _ => ⟨by
          have := hok o ho
          cases o <;> simp only [Deque.Op.good, Deque.Op.ok, Good] at this ⊢ <;> omega, hok o ho⟩) _)
        (h := h1) (p := p1) ⟨hs1.heapOk, [], rfl, hq⟩ hs1
    refine ⟨rs, p2, s, e1, e2, ?_⟩
    intro o n hm i hi
    obtain ⟨B, hB, rfl, hd⟩ := hl o n hm
    have hfr := r.frame o
    rw [hB] at hfr
    split at hfr
    · cases hfr
    · rw [hs2.data hfr.symm i hi, hd i]

/-- **C62 for PrefixTree.** The same for a new prefix tree and `PT.Spec`; keys may be arbitrarily long. -/
theorem C62_prefixtree_partial (add : BitVec 64 → BitVec 64 → BitVec 64) (h : LHistX p0 p live) :
    (∃ p1, run (lcompile PrefixTree.create) p = (.err .noMem, p1)) ∨
    ∃ b p1, run (lcompile PrefixTree.create) p = (.ok b, p1) ∧
      ∀ ops : List PT.Op, Guarded (PT.Spec add) (fun s o => o.ok s ∧ o.good (Full p)) PT.new ops →
      ∃ rs p2 s, run (lcompile (hist (PrefixTree.call add b) ops)) p1 = (.ok rs, p2) ∧ Trace (PT.Spec add) PT.new ops rs s ∧
        ∀ o n, (o, n) ∈ live → ∀ i, i < n → p2.mem (o + i) = p.mem (o + i) := by
  obtain ⟨hp, hs, hl⟩ := h.sim
  have hz : ∀ b n x, Sized (Good (Full p)) (PrefixTree.zeroSlots b 32 n x) := fun b n x => PrefixTree.sz_zeroSlots b 32 n x
  obtain ⟨out, p1, h1, hr, hq, hs1⟩ := lsim_run (PrefixTree.create_spec hp).wp (Sized.sized (by
    unfold PrefixTree.create PrefixTree.createBase; szd [hz]) _) hs
  rcases hq with ⟨rfl, -⟩ | ⟨b, rfl, -, t⟩
  · exact Or.inl ⟨p1, hr⟩
  · refine Or.inr ⟨b, p1, hr, ?_⟩
    intro ops hok
    obtain ⟨rs, p2, s, h2, e1, e2, hi2, hs2⟩ :=
      lhist_run (fun s o h ho => PrefixTree.step (add := add) o s h ho.1) (fun s o h ho _ => (PrefixTree.sz_call add b o ho.2).sized h) ops hok
        (PrefixTree.holds_new t hs1.heapOk) hs1
    refine ⟨rs, p2, s, e1, e2, ?_⟩
    intro o n hm i hi
    obtain ⟨B, hB, rfl, hd⟩ := hl o n hm
    rw [hs2.data (hi2.others hB) i hi, hd i]



/-! ### HashTable -/

theorem HashTable.sz_zeroSlots {full : Prop} (b : Nat) : ∀ n x, Sized (Good full) (HashTable.zeroSlots b n x)
  | 0, x => by unfold HashTable.zeroSlots; szd
  | n + 1, x => by unfold HashTable.zeroSlots; szd [HashTable.sz_zeroSlots]

/-- The slots of a new table (16 bytes each) fit in a page, or the pool cannot grow, or growing the pool for them does not try to reuse free blocks at its end. -/
def SlotsFit (p : Pool) (live : List (Nat × Nat)) (bits : Nat) : Prop :=
  Good (Full p) (16 * 2 ^ bits) ∨ (16 * 2 ^ bits + 8 ≤ 2 ^ 30 ∧ ∀ o p1, run (alloc 24) p = (.ok o, p1) → TidyEnd p1 ((o, 24) :: live) (16 * 2 ^ bits))

attribute [local irreducible] Pool.size Simple.w tryAlloc Logarithmic.free blockSize in
theorem HashTable.lcreate {hash : Bytes → Nat} {bits : Nat} (hb : 2 ≤ bits) (hb2 : bits < 31) (h : LHistX p0 p live) (hf : SlotsFit p live bits) :
    ∃ (out : Out Nat) (p1 : Pool) (h1 hp : Heap), run (lcompile (HashTable.create bits)) p = (Out.toRes out, p1) ∧
      ((out = .err .noMem ∧ ∀ x B, hp.blk x = some B → h1.blk x = some B) ∨
        ∃ base slots, out = .ok base ∧ Off base ∧ HashTable.Table hash base slots bits hp.blk [] [] h1) ∧ LSim False (Full p) h1 p1 ∧
      ∀ o n, (o, n) ∈ live → ∃ B, hp.blk o = some B ∧ B.size = n ∧ ∀ i, B.data i = p.mem (o + i) := by
  obtain ⟨T, hI⟩ := h.inv
  have hs := lheapOf_sim hI (full := Full p) id
  have hw := HashTable.create_spec (hash := hash) (lheapOf p live) hb hb2
  rcases hf with hf | ⟨hf, ht⟩
  · obtain ⟨out, p1, h1, hr, hq, hs1⟩ := lsim_run hw (Sized.sized (by
      unfold HashTable.create HashTable.createBase; szd [HashTable.sz_zeroSlots]) _) hs
    exact ⟨out, p1, h1, _, hr, hq, hs1, fun o n hm => lheapOf_mem hI hm⟩
  · have key : rwp (lcompile (HashTable.create bits)) (fun out p' => ∃ h', ((out = .err .noMem ∧ ∀ x B, (lheapOf p live).blk x = some B → h'.blk x = some B) ∨
        ∃ base slots, out = .ok base ∧ Off base ∧ HashTable.Table hash base slots bits (lheapOf p live).blk [] [] h') ∧ LSim False (Full p) h' p') NoCrash p := by
      revert hw
      unfold HashTable.create HashTable.createBase
      rw [if_neg (by omega)]
      intro hw
      obtain ⟨-, hw1, hw2⟩ := hw
      have h1n : 1 ≤ 16 * 2 ^ bits := by have := Nat.two_pow_pos bits; omega
      have hh : LHolds (lheapOf p live) p live := lheapOf_holds hI
      have hg24 : Good (Full p) 24 := ⟨by decide, Or.inl (by decide)⟩
      refine rwp_bind_of (tryAlloc_served (served_good hI id hg24)) (fun _ h => h) ?_ ?_
      · rintro r p1 (⟨o, T1, ho, hgot, hrun⟩ | ⟨ho, rfl⟩)
        · injection ho with ho
          subst ho
          obtain ⟨hfr, hf1, hI1, hh1⟩ := LHolds.alloc (full := Full p) hI hh id (by decide) (by decide) hgot
          obtain ⟨-, hw3, hw4⟩ := hw1 _ _ hfr
          have hgd := hI1.guardEnd (n := 16 * 2 ^ bits) h1n (by omega) (ht _ _ hrun)
          refine rwp_bind_of (tryAlloc_served (served_guard hI1 h1n hf hgd)) (fun _ h => h) ?_ ?_
          · rintro r p2 (⟨o2, T2, ho, hgot, -⟩ | ⟨ho, rfl⟩)
            · injection ho with ho
              subst ho
              obtain ⟨hfr2, hf2, hI2, hh2⟩ := LHolds.alloc (full := Full p) hI1 hh1 hf1 h1n hf hgot
              exact lsim (hw3 _ _ hfr2) (Sized.sized (by szd [HashTable.sz_zeroSlots]) _) ⟨hf2, T2, _, hI2, hh2⟩
            · injection ho with ho
              subst ho
              exact ⟨trivial, _, hw4, hf1, T1, _, hI1, hh1⟩
          · rintro e p' (⟨o, T', ho, -⟩ | ⟨ho, -⟩) <;> cases ho
        · injection ho with ho
          subst ho
          exact ⟨trivial, _, hw2, hs⟩
      · rintro e p' (⟨o, T', ho, -⟩ | ⟨ho, -⟩) <;> cases ho
    obtain ⟨out, h1, h', h2, h3⟩ := rwp_run key
    exact ⟨out, _, h', _, run_eta h1, h2, h3, fun o n hm => lheapOf_mem hI hm⟩

/-- **C62 for HashTable.** The same for a new hash table and `HT.Spec`, for every hash function: key and value together must not be empty and must fit in a page (or the
pool cannot grow), and the slots must fit (`SlotsFit`). -/
theorem C62_hashtable_partial (hash : Bytes → Nat) (F : HT.Fp) (bits : Nat) (hb : 2 ≤ bits) (hb2 : bits < 31) (h : LHistX p0 p live) (hf : SlotsFit p live bits) :
    (∃ p1, run (lcompile (HashTable.create bits)) p = (.err .noMem, p1)) ∨
    ∃ b p1, run (lcompile (HashTable.create bits)) p = (.ok b, p1) ∧
      ∀ ops : List HT.Op, Guarded (HT.Spec F) (HT.Op.ok hash bits) [] ops → (∀ o ∈ ops, o.good (Full p)) →
      ∃ rs p2 m, run (lcompile (hist (HashTable.call hash F b) ops)) p1 = (.ok rs, p2) ∧ Trace (HT.Spec F) [] ops rs m ∧
        ∀ o n, (o, n) ∈ live → ∀ i, i < n → p2.mem (o + i) = p.mem (o + i) := by
  obtain ⟨out, p1, h1, hp, hr, hq, hs1, hl⟩ := HashTable.lcreate (hash := hash) hb hb2 h hf
  rcases hq with ⟨rfl, -⟩ | ⟨b, sl, rfl, -, ht⟩
  · exact Or.inl ⟨p1, hr⟩
  · refine Or.inr ⟨b, p1, hr, ?_⟩
    intro ops hok hg
    obtain ⟨out, p2, h2, e1, ⟨rs, m, lk', rfl, e2, -, bk, r, -⟩, hs2⟩ :=
      lsim_run (HashTable.history ops hok ht) (Sized.sized (Sized.hist ops fun o ho => HashTable.sz_call hash F b o (hg o ho)) _) hs1
    refine ⟨rs, p2, m, e1, e2, ?_⟩
    intro o n hm i hi
    obtain ⟨B, hB, rfl, hd⟩ := hl o n hm
    have hfr := r.frame o
    rw [hB] at hfr
    split at hfr
    · cases hfr
    · rw [hs2.data hfr.symm i hi, hd i]

/-! ### PriorityQueue -/

namespace PrioQueue
variable {full : Prop}
theorem sz_less (a b : Nat) : Sized (Good full) (less a b) := by unfold less; szd
theorem sz_siftDownLoop (arr start item : Nat) : ∀ n t, Sized (Good full) (siftDownLoop arr start item n t)
  | 0, t => by unfold siftDownLoop; szd
  | n + 1, t => by unfold siftDownLoop; szd [sz_less, sz_siftDownLoop]
theorem sz_siftDown (a b c : Nat) : Sized (Good full) (siftDown a b c) := by unfold siftDown; szd [sz_siftDownLoop]
theorem sz_rightIsLeast (a b c : Nat) : Sized (Good full) (rightIsLeast a b c) := by unfold rightIsLeast; szd [sz_less]
theorem sz_siftUpLoop (a b : Nat) : ∀ n t, Sized (Good full) (siftUpLoop a b n t)
  | 0, t => by unfold siftUpLoop; szd
  | n + 1, t => by unfold siftUpLoop; szd [sz_rightIsLeast, sz_siftUpLoop]
theorem sz_siftUp (a b : Nat) : Sized (Good full) (siftUp a b) := by unfold siftUp; szd [sz_siftUpLoop, sz_siftDown]
theorem sz_copyLoop (a b c : Nat) : ∀ n t, Sized (Good full) (copyLoop a b c n t)
  | 0, t => by unfold copyLoop; szd
  | n + 1, t => by unfold copyLoop; szd [sz_copyLoop]
theorem sz_clearLoop (a : Nat) : ∀ n, Sized (Good full) (clearLoop a n)
  | 0 => by unfold clearLoop; szd
  | n + 1 => by unfold clearLoop; szd [sz_clearLoop]
end PrioQueue


namespace PQ
/-- the item is not empty and fits in a page, and the queue holds fewer than 256 items (so that its array fits in a page after it grows); or the pool cannot grow -/
def Op.good (full : Prop) (s : List Bytes) : Op → Prop
  | .push d => Good full d.length ∧ (s.length < 256 ∨ (full ∧ s.length * 16 + 8 ≤ 2 ^ 30))
  | _ => True
end PQ

namespace PrioQueue
variable {full : Prop}

theorem sized_rd {β : Type} {b o n : Nat} {f : Nat → HProg β} {h : Heap} {P : Nat → Prop} (hf : ∀ B, h.blk b = some B → sized P (f (B.rd o n)) h) : sized P ((H.rd b o n).bind f) h := hf

attribute [local irreducible] sized Block.rd
theorem sized_pickArray {h : Heap} {base arr cap : Nat} {A : List Nat} {D : Nat → Bytes} {lk : List Nat} {G : Nat → Option Block} (r : Rep h base arr cap A D lk G)
    (hg : A.length < 256 ∨ (full ∧ A.length * 16 + 8 ≤ 2 ^ 30)) : sized (Good full) (pickArray base) h := by
  obtain ⟨B0, hB0, -, h1, h2, h3⟩ := r.b0
  have e1 : ∀ B, h.blk base = some B → B.rd 8 8 = cap ∧ B.rd 0 8 = A.length := fun B hB => by cases hB0.symm.trans hB; exact ⟨h2, h1⟩
  unfold pickArray
  refine sized_rd fun B hB => ?_
  rw [(e1 B hB).1]
  split
  · exact Sized.sized (by szd) h
  · rename_i hc
    refine sized_rd fun B hB => ?_
    rw [(e1 B hB).2]
    split
    · rename_i e
      have hgd : Good full (cap * 2 * 8) := by
        refine ⟨by omega, ?_⟩
        rcases hg with hg | ⟨hg, hg'⟩
        · exact Or.inl (by omega)
        · exact Or.inr ⟨hg, by omega⟩
      exact Sized.sized (by szd) h
    · exact Sized.sized (by szd) h

theorem sized_call {h : Heap} {b : Nat} {G : Nat → Option Block} {s : List Bytes} (hi : Inv b G s h) (o : PQ.Op) (hg : o.good full s) : sized (Good full) (call b o) h := by
  cases o with
  | push d =>
    obtain ⟨hk, arr, cap, A, D, lk, hp, r⟩ := hi
    have hl : s.length = A.length := by rw [hp.length_eq, List.length_map]
    obtain ⟨hg1, hg2⟩ := hg
    rw [hl] at hg2
    unfold call push
    simp only [Prog.bind_def, Prog.bind_assoc]
    refine sized_bind (growArray_spec hk r) ?_ fun _ h' _ => Sized.sized (by szd [sz_siftDown]) h'
    have hw := growArray_spec hk r
    revert hw
    unfold growArray
    intro hw
    refine sized_bind ((wp_bind _ _ _ _).1 hw) (sized_pickArray r hg2) fun _ h' _ => Sized.sized (by szd [sz_copyLoop]) h' 
  | pop => exact Sized.sized (by simp only [call, pop, takeItem]; szd [sz_siftDown, sz_siftUp]) h
  | clear => exact Sized.sized (by simp only [call, clear]; szd [sz_clearLoop]) h
  | size => exact Sized.sized (by simp only [call, size]; szd) h
end PrioQueue

/-- **C62 for PriorityQueue.** The same for a new priority queue: no item may be empty, each must fit in a page, and the queue must not hold more than 256 items (or the
pool cannot grow). -/
theorem C62_prioqueue_partial (h : LHistX p0 p live) :
    (∃ p1, run (lcompile PrioQueue.create) p = (.err .noMem, p1)) ∨
    ∃ b p1, run (lcompile PrioQueue.create) p = (.ok b, p1) ∧ ∀ ops : List PQ.Op, Guarded PQ.Spec (fun s o => o.good (Full p) s) [] ops →
      ∃ rs p2 s, run (lcompile (hist (PrioQueue.call b) ops)) p1 = (.ok rs, p2) ∧ Trace PQ.Spec [] ops rs s ∧
        ∀ o n, (o, n) ∈ live → ∀ i, i < n → p2.mem (o + i) = p.mem (o + i) := by
  obtain ⟨hp, hs, hl⟩ := h.sim
  obtain ⟨out, p1, h1, hr, hq, hs1⟩ := lsim_run (PrioQueue.create_spec hp) (Sized.sized (by
    unfold PrioQueue.create PrioQueue.allocBase; szd) _) hs
  cases out with
  | err e =>
    obtain ⟨rfl, -⟩ := hq
    exact Or.inl ⟨p1, hr⟩
  | ok b =>
    refine Or.inr ⟨b, p1, hr, ?_⟩
    intro ops hok
    obtain ⟨rs, p2, s, h2, e1, e2, ⟨-, _, _, _, _, _, -, r⟩, hs2⟩ :=
      lhist_run (Inv := PrioQueue.Inv b hp.blk) (fun s o h ho => PrioQueue.step b hp.blk s o h (by
          cases o <;> simp only [PQ.Op.good, PQ.Op.ok, Good] at ho ⊢
          omega))
        (fun s o h ho hi => PrioQueue.sized_call hi o ho) ops (s := []) hok
        (h := h1) (p := p1) ⟨hs1.heapOk, _, _, _, _, _, .refl _, hq⟩ hs1
    refine ⟨rs, p2, s, e1, e2, ?_⟩
    intro o n hm i hi
    obtain ⟨B, hB, rfl, hd⟩ := hl o n hm
    have hfr := r.frame o
    rw [hB] at hfr
    split at hfr
    · cases hfr
    · rw [hs2.data hfr.symm i hi, hd i]
end Verif
