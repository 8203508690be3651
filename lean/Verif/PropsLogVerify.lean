import Verif.LogVerify
import Verif.PropsVerify
/-
C61: LogarithmicAllocator::verify (/repo/src/LogarithmicAllocator.cc 474-564).
-/
namespace Verif.Logarithmic
open Verif

variable {p0 p p' : Pool} {live : List (Nat × Nat)}

/-! ### specification -/

/-- a block of the arena: offset, order, and the size it was allocated with (`none`: free) -/
structure Blk where
  off : Nat
  order : Nat
  size : Option Nat

/-- the length of a block of an order, as size_for_order computes it: `1 << order` is an `int` shift, which gives -2^31 for order 31 -/
def lenOf (k : Nat) : Nat := if k < 31 then 2 ^ k else 2 ^ 64 - 2 ^ 31
def Blk.len (b : Blk) : Nat := lenOf b.order

/-- the header of a block, read from the pool -/
def Blk.header (p : Pool) (b : Blk) : Prop :=
  match b.size with
  | some n => hdrAlloc (Queue.word p b.off) = true ∧ hdrSize (Queue.word p b.off) = n ∧ b.order = orderForSize ((n + 8) % 2 ^ 64)
  | none => hdrAlloc (Queue.word p b.off) = false ∧ hdrOrder (Queue.word p b.off) = b.order ∧ 4 ≤ b.order ∧
      nextBoundary (hdrPrev (Queue.word p b.off)) b.order = hdrPrev (Queue.word p b.off) ∧ nextBoundary (Queue.word p (b.off + 8)) b.order = Queue.word p (b.off + 8)

/-- the blocks follow each other without gaps from `o` to the end of the pool -/
def Cut (p : Pool) : Nat → List Blk → Prop
  | o, [] => p.size ≤ o
  | o, b :: t => o < p.size ∧ b.off = o ∧ b.header p ∧ Cut p (o + b.len) t

/-- the members of a free list, each with the right order, not allocated, and linked both ways -/
def FreeList (p : Pool) (order : Nat) : Nat → List Nat → Prop
  | _, [] => True
  | prev, o :: t => o ≠ 0 ∧ hdrOrder (Queue.word p o) = order ∧ hdrAlloc (Queue.word p o) = false ∧ hdrPrev (Queue.word p o) = prev ∧ Queue.word p (o + 8) = t.head?.getD 0 ∧ FreeList p order o t

/-! ### soundness -/

section inversion
variable {α β : Type} {K : β → RProg α} {r : α}

theorem inv_rd {a : Nat} {k : Nat → RProg β} (h : run (((R.rd64 a).bind k).bind K) p = (.ok r, p')) :
    p.inb a 8 ∧ run ((k (Queue.word p a)).bind K) p = (.ok r, p') := by
  rw [Prog.bind_assoc] at h
  exact Queue.run_rd h

theorem inv_ite_err {c : Prop} [Decidable c] {e : Err} {b : RProg β} (h : run ((if c then .err e else b).bind K) p = (.ok r, p')) :
    ¬ c ∧ run (b.bind K) p = (.ok r, p') := by
  by_cases hc : c
  · rw [if_pos hc] at h; cases h
  · rw [if_neg hc] at h; exact ⟨hc, h⟩

theorem inv_ite {c : Prop} [Decidable c] {a b : RProg β} (h : run ((if c then a else b).bind K) p = (.ok r, p')) :
    (c ∧ run (a.bind K) p = (.ok r, p')) ∨ (¬ c ∧ run (b.bind K) p = (.ok r, p')) := by
  by_cases hc : c
  · rw [if_pos hc] at h; exact .inl ⟨hc, h⟩
  · rw [if_neg hc] at h; exact .inr ⟨hc, h⟩

theorem inv_sfo {k : Nat} {f : Nat → RProg β} (h : run (((sizeForOrder k).bind f).bind K) p = (.ok r, p')) :
    k ≤ 31 ∧ run ((f (lenOf k)).bind K) p = (.ok r, p') := by
  unfold sizeForOrder at h
  unfold lenOf
  by_cases h1 : k < 31
  · rw [if_pos h1] at h
    rw [if_pos h1]
    exact ⟨by omega, h⟩
  · rw [if_neg h1] at h
    by_cases h2 : k = 31
    · rw [if_pos h2] at h
      rw [if_neg h1]
      exact ⟨by omega, h⟩
    · rw [if_neg h2] at h
      cases h

end inversion

theorem inv_rd' {α : Type} {a : Nat} {k : Nat → RProg α} {r : α} (h : run ((R.rd64 a).bind k) p = (.ok r, p')) :
    p.inb a 8 ∧ run (k (Queue.word p a)) p = (.ok r, p') := Queue.run_rd h

theorem inv_ite_err' {α : Type} {c : Prop} [Decidable c] {e : Err} {b : RProg α} {r : α} (h : run (if c then .err e else b) p = (.ok r, p')) :
    ¬ c ∧ run b p = (.ok r, p') := by
  by_cases hc : c
  · rw [if_pos hc] at h; cases h
  · rw [if_neg hc] at h; exact ⟨hc, h⟩

theorem lenOf_lt (k : Nat) : lenOf k < W64 := by
  unfold lenOf
  split
  · rename_i h
    calc 2 ^ k ≤ 2 ^ 31 := Nat.pow_le_pow_right (by decide) (by omega)
      _ < W64 := by decide
  · decide

theorem step_ok {o sz : Nat} (ho : o < W64) (hs : sz < W64) (h : ¬ (o + sz) % W64 ≤ o) : (o + sz) % W64 = o + sz := by omega

attribute [local irreducible] run lenOf in
theorem blocks_sound : ∀ (fuel o ba bc : Nat) {α : Type} {K : Nat × Nat → RProg α} {r : α}, ba < W64 → bc < W64 → run ((verifyBlocks fuel o ba bc).bind K) p = (.ok r, p') →
    ∃ bs : List Blk, Cut p o bs ∧
      run (K ((ba + (bs.map fun b => b.size.getD 0).sum) % W64, (bc + (bs.map fun b => if b.size.isSome then b.len else 0).sum) % W64)) p = (.ok r, p') := by
  intro fuel
  induction fuel with
  | zero => 
    intro o ba bc α K r _ _ h
    unfold verifyBlocks at h
    unfold run Prog.bind at h
    cases h
  | succ fuel ih =>
    intro o ba bc α K r hba hbc h
    unfold verifyBlocks at h
    simp only [Prog.bind_def] at h
    obtain ⟨-, h⟩ := inv_rd h
    obtain ⟨ho, h⟩ | ⟨ho, h⟩ := inv_ite h
    · have ho' : o < p.size := ho
      have how : o < W64 := Nat.lt_trans ho' (leRd_lt8 _ _)
      obtain ⟨-, h⟩ := inv_rd h
      obtain ⟨hal, h⟩ | ⟨hal, h⟩ := inv_ite h
      · obtain ⟨-, h⟩ := inv_sfo h
        obtain ⟨hs, h⟩ := inv_ite_err h
        rw [step_ok how (lenOf_lt _) hs] at h
        obtain ⟨bs, c1, c2⟩ := ih _ _ _ (Nat.mod_lt _ (by decide)) (Nat.mod_lt _ (by decide)) h
        refine ⟨⟨o, orderForSize ((hdrSize (Queue.word p o) + 8) % W64), some (hdrSize (Queue.word p o))⟩ :: bs, ⟨ho', rfl, ⟨hal, rfl, rfl⟩, c1⟩, ?_⟩
        rw [← c2]
        congr 3
        · simp only [List.map_cons, List.sum_cons, Option.getD_some]
          omega
        · simp only [List.map_cons, List.sum_cons, Option.isSome_some, if_true, Blk.len]
          omega
      · obtain ⟨hr, h⟩ := inv_ite_err h
        obtain ⟨-, h⟩ := inv_sfo h
        obtain ⟨-, h⟩ := inv_rd h
        obtain ⟨h1, h⟩ := inv_ite_err h
        obtain ⟨-, h⟩ := inv_rd h
        obtain ⟨h2, h⟩ := inv_ite_err h
        obtain ⟨hs, h⟩ := inv_ite_err h
        rw [step_ok how (lenOf_lt _) hs] at h
        obtain ⟨bs, c1, c2⟩ := ih _ _ _ hba hbc h
        refine ⟨⟨o, hdrOrder (Queue.word p o), none⟩ :: bs, ⟨ho', rfl, ⟨by simpa using hal, rfl, (by show 4 ≤ hdrOrder (Queue.word p o); omega), Classical.byContradiction h1, Classical.byContradiction h2⟩, c1⟩, ?_⟩
        rw [← c2]
        congr 3
        · simp
        · simp
    · have ho' : p.size ≤ o := Nat.le_of_not_lt ho
      refine ⟨[], ho', ?_⟩
      simp only [List.map_nil, List.sum_nil, Nat.add_zero]
      rw [Nat.mod_eq_of_lt hba, Nat.mod_eq_of_lt hbc]
      exact h

attribute [local irreducible] run in
theorem chain_sound (order : Nat) : ∀ (fuel o prev : Nat) {α : Type} {K : Nat → RProg α} {r : α}, run ((verifyChain order fuel o prev).bind K) p = (.ok r, p') →
    ∃ l : List Nat, l.head?.getD 0 = o ∧ FreeList p order prev l ∧ run (K (l.getLast?.getD prev)) p = (.ok r, p') := by
  intro fuel
  induction fuel with
  | zero =>
    intro o prev α K r h
    unfold verifyChain at h
    unfold run Prog.bind at h
    cases h
  | succ fuel ih =>
    intro o prev α K r h
    unfold verifyChain at h
    obtain ⟨ho, h⟩ | ⟨ho, h⟩ := inv_ite h
    · exact ⟨[], ho.symm, trivial, h⟩
    · simp only [Prog.bind_def] at h
      obtain ⟨-, h⟩ := inv_rd h
      obtain ⟨h1, h⟩ := inv_ite_err h
      obtain ⟨h2, h⟩ := inv_ite_err h
      obtain ⟨h3, h⟩ := inv_ite_err h
      obtain ⟨-, h⟩ := inv_rd h
      obtain ⟨l, c1, c2, c3⟩ := ih _ _ h
      refine ⟨o :: l, rfl, ⟨ho, Classical.byContradiction h1, by simpa using h2, Classical.byContradiction h3, c1.symm, c2⟩, ?_⟩
      rw [← c3]
      congr 2
      cases l with
      | nil => rfl
      | cons y ys => simp [List.getLast?_cons]

attribute [local irreducible] run in
theorem lists_sound {fuel : Nat} : ∀ n, n ≤ 53 → run (verifyLists fuel n) p = (.ok (), p') →
    p' = p ∧ ∀ k, 57 - n ≤ k → k < 57 → ∃ l, FreeList p k 0 l ∧ Queue.word p (headA k) = l.head?.getD 0 ∧ Queue.word p (tailA k) = l.getLast?.getD 0 := by
  intro n
  induction n with
  | zero =>
    intro _ h
    unfold verifyLists at h
    unfold run at h
    cases h
    exact ⟨rfl, fun k h1 h2 => absurd h1 (by omega)⟩
  | succ n ih =>
    intro hn h
    unfold verifyLists verifyList at h
    simp only [Prog.bind_def] at h
    obtain ⟨-, h⟩ := inv_rd h
    rw [Prog.bind_assoc] at h
    obtain ⟨l, c1, c2, h⟩ := chain_sound _ _ _ _ h
    obtain ⟨-, h⟩ := inv_rd h
    obtain ⟨h1, h⟩ := inv_ite_err h
    obtain ⟨e, g⟩ := ih (by omega) h
    refine ⟨e, fun k k1 k2 => ?_⟩
    by_cases hk : k = 56 - n
    · subst hk
      exact ⟨l, c2, c1.symm, Classical.byContradiction h1⟩
    · exact g k (by omega) k2

attribute [local irreducible] run verifyBlocks verifyLists in
/-- C61 (soundness): whatever bytes the pool holds, when verify returns it has changed nothing, and then: from offset 1168 to the end of the pool the arena is
a sequence of blocks without gaps, each with a header of the right form; bytes_allocated and bytes_committed are the sums over
these blocks; and each of the 53 free lists it looks at is a chain of unallocated blocks of its order, linked both ways from its head to its tail. -/
theorem C61_verify_sound (h : run verify p = (.ok (), p')) :
    p' = p ∧
    (∃ bs : List Blk, Cut p 1168 bs ∧ Queue.word p 288 = (bs.map fun b => b.size.getD 0).sum % 2 ^ 64 ∧
      Queue.word p 296 = (1168 + (bs.map fun b => if b.size.isSome then b.len else 0).sum) % 2 ^ 64) ∧
    ∀ k, 4 ≤ k → k < 57 → ∃ l, FreeList p k 0 l ∧ Queue.word p (304 + 8 * (k - 4)) = l.head?.getD 0 ∧ Queue.word p (736 + 8 * (k - 4)) = l.getLast?.getD 0 := by
  unfold verify at h
  simp only [Prog.bind_def] at h
  obtain ⟨-, h⟩ := inv_rd' h
  obtain ⟨bs, c1, h⟩ := blocks_sound _ _ _ _ (by decide) (by unfold start; decide) h
  obtain ⟨-, h⟩ := inv_rd' h
  obtain ⟨h1, h⟩ := inv_ite_err' h
  obtain ⟨-, h⟩ := inv_rd' h
  obtain ⟨h2, h⟩ := inv_ite_err' h
  obtain ⟨e, g⟩ := lists_sound 53 (Nat.le_refl _) h
  refine ⟨e, ⟨bs, c1, ?_, Classical.byContradiction h2⟩, fun k k1 k2 => ?_⟩
  · have := Classical.byContradiction h1
    rw [Nat.zero_add] at this
    exact this
  · obtain ⟨l, g1, g2, g3⟩ := g k (by omega) k2
    refine ⟨l, g1, ?_, ?_⟩
    · rw [← g2]; congr 1; unfold headA; omega
    · rw [← g3]; congr 1; unfold tailA; omega

/-- C61: in every state that any history of allocations, frees, writes, crashes and repairs reaches (allocations as in C54: of the partial kind), verify accepts, and
changes no byte. -/
theorem C61_verify_accepts_partial (h : LHistX p0 p live) : run verify p = (.ok (), p) := by
  obtain ⟨T, hI⟩ := h.inv
  obtain ⟨o, h1, h2, h3⟩ := rwp_run (verify_spec hI)
  subst h2
  exact Prod.ext h1 h3

/-- a reachable state that satisfies both: 100 bytes, 4088 bytes (growing the pool), 100 bytes, free the first -/
example : ∃ p live, LHistX (newPool (2 ^ 30)) p live ∧ live = [(1416, 100), (4104, 4088)] ∧ (run verify p).1 = .ok () := by
  have h0 : LHist (newPool (2 ^ 30)) (run init (newPool (2 ^ 30))).2 [] :=
    .start (newPool_geo _) (by rw [newPool_size]; decide) newPool_cap (by decide +kernel) (run_eta (by decide +kernel))
  have h1 := h0.alloc (n := 100) (o := 1288) (by decide) (by decide) (Or.inr (Or.inl (by decide +kernel))) (run_eta (by decide +kernel))
  have h2 := h1.alloc (n := 4088) (o := 4104) (by decide) (by decide) (Or.inr (Or.inl (by decide +kernel))) (run_eta (by decide +kernel))
  have h3 := h2.alloc (n := 100) (o := 1416) (by decide) (by decide) (Or.inr (Or.inl (by decide +kernel))) (run_eta (by decide +kernel))
  have h4 := h3.free (o := 1288) (n := 100) (by simp) (run_eta (r := .ok ()) (by decide +kernel))
  exact ⟨_, _, .base h4, by decide +kernel, by decide +kernel⟩

/-- verify rejects a pool whose list of free blocks of order 4 does not end where its tail says -/
example : ∃ p p1 : Pool, run init (newPool (2 ^ 30)) = (.ok (), p) ∧ run (R.wr64 (736 + 0) 1184) p = (.ok (), p1) ∧ (run verify p1).1 = .err .runtimeError := by
  refine ⟨_, _, run_eta ?_, run_eta ?_, ?_⟩ <;> decide +kernel

/-- **what verify does not see**: a free block that is on no list.  A process dies inside `free(4104)` before it links the block; verify accepts
the pool although the block can no longer be allocated: the next `allocate` of the same size grows the pool instead. -/
theorem C61_verify_blind : ∃ p p1 : Pool, run init (newPool (2 ^ 30)) = (.ok (), p) ∧ run (alloc 4088) p = (.ok 4104, p1) ∧
    (run verify (crashAt 9 (free 4104) p1)).1 = .ok () ∧ (run (alloc 4088) (crashAt 9 (free 4104) p1)).1 = .ok 8200 ∧
    (run (alloc 4088) (run (free 4104) p1).2).1 = .ok 4104 := by
  refine ⟨_, _, run_eta ?_, run_eta ?_, ?_, ?_, ?_⟩ <;> decide +kernel

end Verif.Logarithmic
