import Verif.ConcCrash
/-
Mappings.  Every Pool object has a mapping of its own, whose length (`Pool::pool_size`) another process makes out of date when it expands the pool.  Raw.lean takes the mapping to be
as long as the size word says; here it is a local variable of the thread that uses the Pool object, and an access beyond it is a fault (`.ub`).

What happens to the mapping (Pool.cc 93-129): check_size_and_remap makes it as long as the size word says.  It is called by the allocators' lock() after the lock is taken
(SimpleAllocator.cc 210, LogarithmicAllocator.cc 391) and by expand after it has stored a new size (Pool.cc 110).

Simplifications:
* one thread uses a Pool object (README.md 284: "each thread should have its own Pool object");
* lock() also remaps before it takes the lock, which only changes how far out of date the mapping can be: here it may be arbitrarily out of date;
* after a stolen lock, the mapping is refreshed before the repair, as in the code, and once more after it (the repair does not expand the pool).
-/
namespace Verif.Lock
open Verif Verif.Simple
variable {α : Type}

/-- the program, run with a mapping of `v` bytes.  A store to the size word (its only writer is expand) is followed by check_size_and_remap. -/
def viewed : RProg α → Nat → RProg α
  | .ret a, _ => .ret a
  | .err e, _ => .err e
  | .ub, _ => .ub
  | .step (.rd a n) k, v => if a + n ≤ v then .step (.rd a n) fun x => viewed (k x) v else .ub
  | .step (.rdB a n) k, v => if a + n ≤ v then .step (.rdB a n) fun x => viewed (k x) v else .ub
  | .step (.wr a n x) k, v =>
      if a + n ≤ v then .step (.wr a n x) fun u => if a < 8 then .step (.rd 0 8) fun v' => viewed (k u) v' else viewed (k u) v else .ub
  | .step (.wrB a bs) k, v =>
      if a + bs.length ≤ v then .step (.wrB a bs) fun u => if a < 8 then .step (.rd 0 8) fun v' => viewed (k u) v' else viewed (k u) v else .ub
  | .step (.trunc n) k, v => .step (.trunc n) fun x => viewed (k x) v
  | .step .maxSize k, v => .step .maxSize fun x => viewed (k x) v

/-- check_size_and_remap, then the program -/
def remapped (p : RProg α) : RProg α := .step (.rd 0 8) fun v => viewed p v

/-- Pool::expand with the mapping's length in place of the size word that `expand` reads: Pool.cc 93-111 -/
def expandAt (v newSize : Nat) : RProg Unit := do
  let ns := roundPage newSize
  let mx ← R.maxSize
  if mx ≠ 0 ∧ ns > mx then .err .noMem
  else if ns ≤ v then pure ()
  else do
    let ok ← R.trunc ns
    if ok = false then .err .noMem
    else R.wr64 0 ns

/-- with a mapping that is up to date, the comparison of expand with the mapping's length is the comparison with the size word -/
theorem expand_eq (n : Nat) {s : Pool} (h : s.inb 0 8) : run (expand n) s = run (expandAt s.size n) s := by
  simp only [expand, expandAt, Prog.bind_def, Prog.pure_def, R.maxSize, R.rd64, R.rd, Prog.step_bind, Prog.ret_bind, run]
  split
  · rfl
  · simp only [Prog.step_bind, Prog.ret_bind, run, if_pos h, forceN_eq]
    rfl

theorem geo_low {s : Pool} (h : Geo s) : s.inb 0 8 := by
  have := h.le
  have := h.min
  constructor <;> omega

/-- **A mapping that is up to date at the start stays so.** A program that never leaves the pool never leaves its mapping either, and has the same effect. -/
theorem viewed_rwp {Q : Out α → Pool → Prop} {I : Pool → Prop} (hI : ∀ s, I s → Geo s) {p : RProg α} : ∀ {s : Pool} {v : Nat}, v = s.size → rwp p Q I s → rwp (viewed p v) Q I s := by
  induction p with
  | ret a => intro s v _ h; exact h
  | err e => intro s v _ h; exact h
  | ub => intro s v _ h; exact h
  | step op k ih =>
    intro s v hv h
    cases op with
    | rd a n =>
      unfold viewed
      rw [if_pos (by rw [hv]; exact h.2.1.1)]
      exact ⟨h.1, h.2.1, ih _ hv h.2.2⟩
    | rdB a n =>
      unfold viewed
      rw [if_pos (by rw [hv]; exact h.2.1.1)]
      exact ⟨h.1, h.2.1, ih _ hv h.2.2⟩
    | wr a n x =>
      unfold viewed
      rw [if_pos (by rw [hv]; exact h.2.1.1)]
      refine ⟨h.1, h.2.1, ?_⟩
      have hi := rwp_inv h.2.2
      by_cases ha : a < 8
      · simp only [if_pos ha]
        exact ⟨hi, geo_low (hI _ hi), ih _ rfl h.2.2⟩
      · simp only [if_neg ha]
        refine ih _ ?_ h.2.2
        rw [hv]
        exact (leRd_leWr_disj _ _ _ _ _ _ (Or.inr (by omega))).symm
    | wrB a bs =>
      unfold viewed
      rw [if_pos (by rw [hv]; exact h.2.1.1)]
      refine ⟨h.1, h.2.1, ?_⟩
      have hi := rwp_inv h.2.2
      by_cases ha : a < 8
      · simp only [if_pos ha]
        exact ⟨hi, geo_low (hI _ hi), ih _ rfl h.2.2⟩
      · simp only [if_neg ha]
        refine ih _ ?_ h.2.2
        rw [hv]
        exact (leRd_bsWr_disj _ _ _ _ _ (Or.inr (by omega))).symm
    | trunc n =>
      refine ⟨h.1, fun hn => ih _ ?_ (h.2.1 hn), fun hn => ih _ hv (h.2.2 hn)⟩
      rw [hv]
      have g1 := hI _ h.1
      have g2 := hI _ (rwp_inv (h.2.1 hn))
      have h1 := g1.le
      have h2 := g1.min
      have h3 := g2.le
      have h4 := g2.min
      refine leRd_congr _ _ _ _ ?_
      intro i hi1 hi2
      show _ = if i < s.fsize ∧ i < n then s.mem i else 0
      have : (s.trunc n).fsize = n := rfl
      rw [if_pos ⟨by omega, by omega⟩]
    | maxSize => exact ⟨h.1, ih _ hv h.2⟩

theorem remapped_rwp {Q : Out α → Pool → Prop} {I : Pool → Prop} (hI : ∀ s, I s → Geo s) {p : RProg α} {s : Pool} (h : rwp p Q I s) : rwp (remapped p) Q I s :=
  ⟨rwp_inv h, geo_low (hI _ (rwp_inv h)), viewed_rwp hI rfl h⟩

end Verif.Lock
