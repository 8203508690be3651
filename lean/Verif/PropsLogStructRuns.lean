import Verif.PropsLogStruct
import Verif.PropsLogVerify
/-
C62: concrete runs of structures on a LogarithmicAllocator, and why the restrictions of the theorems in PropsLogStruct are there.
-/
namespace Verif
open Logarithmic

/-! ### concrete runs, and why the restrictions are there -/

/-- the pool of a queue just created in a new pool of a LogarithmicAllocator -/
def lqPool : Pool := (run (lcompile Queue.create) (run init (newPool (2 ^ 30))).2).2

set_option maxRecDepth 20000 in
/-- **C62 is false.** In a pool with a queue, another client allocates two blocks of 4000 bytes, writes 16 bytes into the second and frees it; then push of a string of 4080 bytes accesses memory
outside the pool (expanding the pool, the allocator takes the wrong words for the headers of the free blocks at its end). -/
theorem C62_false : ∃ p p1 p2 p3 p4 : Pool, run init (newPool (2 ^ 30)) = (.ok (), p) ∧ (run (lcompile Queue.create) p).1 = .ok 1224 ∧
    run (alloc 4000) (run (lcompile Queue.create) p).2 = (.ok 4104, p1) ∧ run (alloc 4000) p1 = (.ok 8200, p2) ∧ run (R.wrB (8200 + 2040) (List.replicate 16 1)) p2 = (.ok (), p3) ∧ run (free 8200) p3 = (.ok (), p4) ∧
    (run (lcompile (Queue.call 1224 (.pushBack (List.replicate 4080 1)))) p4).1 = .ub := by
  refine ⟨_, _, _, _, _, run_eta ?_, ?_, run_eta ?_, run_eta ?_, run_eta ?_, run_eta ?_, ?_⟩ <;> decide +kernel

/-- the pool of a priority queue just created in a new pool of a LogarithmicAllocator -/
def lpqPool : Pool := (run (lcompile PrioQueue.create) (run init (newPool (2 ^ 30))).2).2

/-- **C62 is false for empty items.** Pushing an empty string to a priority queue leaves an allocator that its own verify() rejects; before the push it accepts it. -/
theorem C62_false_empty : (run (lcompile PrioQueue.create) (run init (newPool (2 ^ 30))).2).1 = .ok 1192 ∧ (run verify lpqPool).1 = .ok () ∧
    (run (lcompile (PrioQueue.call 1192 (.push []))) lpqPool).1 = .ok .unit ∧
    (run verify (run (lcompile (PrioQueue.call 1192 (.push []))) lpqPool).2).1 = .err .runtimeError := by
  decide +kernel

theorem lfresh : LHistX (newPool (2 ^ 30)) (run init (newPool (2 ^ 30))).2 [] :=
  .base (.start (newPool_geo _) (by rw [newPool_size]; decide) newPool_cap (by decide +kernel) (run_eta (by decide +kernel)))

/-- the hypotheses of `C62_queue_partial` are met, and a run -/
example : LHistX (newPool (2 ^ 30)) (run init (newPool (2 ^ 30))).2 [] ∧ (∀ o ∈ [Deque.Op.pushBack [1, 0, 2], .pushFront [], .popBack], o.good (Full (run init (newPool (2 ^ 30))).2)) ∧
    (run (lcompile (hist (Queue.call 1224) [.pushBack [1, 0, 2], .pushFront [], .size, .bytes, .popBack, .popFront, .popFront])) lqPool).1 =
      .ok [.ok .unit, .ok .unit, .ok (.num 2), .ok (.num 3), .ok (.str [1, 0, 2]), .ok (.str []), .err .outOfRange] := by
  refine ⟨lfresh, ?_, by decide +kernel⟩
  intro o ho
  simp only [List.mem_cons, List.not_mem_nil, or_false] at ho
  rcases ho with rfl | rfl | rfl
  · exact ⟨by decide, Or.inl (by decide)⟩
  · exact ⟨by decide, Or.inl (by decide)⟩
  · trivial

/-- the hypotheses of `C62_prioqueue_partial` are met: pushing up to 256 items, whatever the pushes answer -/
example (ds : List Bytes) (hd : ∀ d ∈ ds, 1 ≤ d.length ∧ d.length ≤ 4088) (hl : ds.length ≤ 256) :
    Guarded PQ.Spec (fun s o => o.good (Full (run init (newPool (2 ^ 30))).2) s) [] (ds.map .push) := by
  have key : ∀ (ds : List Bytes), (∀ d ∈ ds, 1 ≤ d.length ∧ d.length ≤ 4088) → ∀ s : List Bytes, s.length + ds.length ≤ 256 →
      Guarded PQ.Spec (fun s o => o.good (Full (run init (newPool (2 ^ 30))).2) s) s (ds.map .push) := by
    intro ds
    induction ds with
    | nil => intro _ _ _; trivial
    | cons d ds ih =>
      intro hd s hs
      simp only [List.length_cons] at hs
      refine ⟨⟨⟨(hd d (by simp)).1, Or.inl (hd d (by simp)).2⟩, Or.inl (by omega)⟩, ?_⟩
      intro r s' hsp
      refine ih (fun d h => hd d (by simp [h])) s' ?_
      rcases hsp with ⟨-, h⟩ | ⟨-, h⟩
      · have := h.length_eq
        simp only [List.length_cons] at this
        omega
      · have := h.length_eq
        omega
  exact key ds hd [] (by simpa using hl)

/-- a run of the priority queue -/
example : (run (lcompile (hist (PrioQueue.call 1192) [.push [2], .push [1, 1], .push [1], .pop, .pop, .size])) lpqPool).1 =
    .ok [.ok .unit, .ok .unit, .ok .unit, .ok (.str [1]), .ok (.str [1, 1]), .ok (.num 1)] := by
  decide +kernel

/-- a table with the default 256 slots in a new pool: `SlotsFit` is met -/
example : SlotsFit (run init (newPool (2 ^ 30))).2 [] 8 := by
  refine Or.inr ⟨by decide, ?_⟩
  intro o p1 h
  have e : (run (alloc 24) (run init (newPool (2 ^ 30))).2).2.size = 4096 := by decide +kernel
  rw [h] at e
  exact Or.inr (Or.inl (by show p1.size < 8192; rw [show p1.size = 4096 from e]; decide))
end Verif
