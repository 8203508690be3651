import Verif.PropsLockFair
/-
The observers of the locks: ProcessLock::is_locked, ProcessReadWriteLock::is_locked and ::reader_count (ProcessLock.cc 22-45), which the allocators export as
`is_locked` (SimpleAllocator.cc 222-224, LogarithmicAllocator.cc 462-464), run by somebody who holds nothing while everybody else goes on.
-/
namespace Verif.Lock
open Verif
variable {K : Mach} {α β : Type}

/-- ProcessLock::is_locked, ProcessLock.cc 22-24, of the `w`-th ProcessLock -/
def mutexIsLocked (w : Nat) : LProg K Bool := (L.load (w + 66)).bind fun v => .ret (decide (v ≠ 0))

/-- the loop of ProcessReadWriteLock::is_locked(false), ProcessLock.cc 31-36: `n` slots left, slot `x` next -/
def anyTaken : Nat → Nat → LProg K Bool
  | 0, _ => .ret false
  | n + 1, x => (L.load (x + 1)).bind fun v => if v ≠ 0 then .ret true else anyTaken n (x + 1)

/-- ProcessReadWriteLock::is_locked, ProcessLock.cc 26-37 -/
def isLocked (writing : Bool) : LProg K Bool :=
  if writing then (L.load 0).bind fun v => .ret (decide (v ≠ 0)) else anyTaken 65 0

/-- the loop of ProcessReadWriteLock::reader_count, ProcessLock.cc 39-45: `n` slots left, slot `x` next -/
def countFrom : Nat → Nat → Nat → LProg K Nat
  | 0, _, c => .ret c
  | n + 1, x, c => (L.load (x + 1)).bind fun v => countFrom n (x + 1) (c + if v ≠ 0 then 1 else 0)

/-- ProcessReadWriteLock::reader_count, ProcessLock.cc 39-45 -/
def readerCount : LProg K Nat := countFrom 65 0 0

/-- An observation: `p` loads lock words one at a time while the system takes any steps in between.  The list has the states of the system from the call to the return. -/
inductive Watch (pid : Nat → Nat) : LProg K α → List (St K) → α → Prop
  | ret {a : α} {s : St K} : Watch pid (.ret a) [s] a
  | env {p : LProg K α} {x : Option Nat} {s s1 : St K} {ss : List (St K)} {a : α} : Step pid x s s1 → Watch pid p (s1 :: ss) a → Watch pid p (s :: s1 :: ss) a
  | load {w : Nat} {k : Nat → LProg K α} {s : St K} {ss : List (St K)} {a : α} : Watch pid (k (s.words w)) (s :: ss) a →
      Watch pid (.step (.load w) k) (s :: ss) a

variable {pid : Nat → Nat}

/-- the states of an observation are consecutive states of the system -/
inductive Path (pid : Nat → Nat) : List (St K) → Prop
  | one {s : St K} : Path pid [s]
  | cons {x : Option Nat} {s s1 : St K} {ss : List (St K)} : Step pid x s s1 → Path pid (s1 :: ss) → Path pid (s :: s1 :: ss)

theorem Watch.path {p : LProg K α} {ss : List (St K)} {a : α} (h : Watch pid p ss a) : Path pid ss := by
  induction h with
  | ret => exact .one
  | env hs _ ih => exact .cons hs ih
  | load _ ih => exact ih

theorem Path.reach {s0 s : St K} {ss : List (St K)} (h : Path pid (s :: ss)) (hr : Reach pid s0 s) : ∀ x ∈ s :: ss, Reach pid s0 x := by
  induction ss generalizing s with
  | nil => intro x hx; rcases List.mem_singleton.1 hx with rfl; exact hr
  | cons s1 ss ih =>
    cases h with
    | cons hs h' =>
      intro x hx
      rcases List.mem_cons.1 hx with rfl | hx
      · exact hr
      · exact ih h' (.step hr hs) x hx

/-- inversion: a load sees the word as it is in some state of the observation, and the rest is observed from there on -/
theorem Watch.load_inv {w : Nat} {k : Nat → LProg K α} {ss : List (St K)} {a : α} (h : Watch pid (.step (.load w) k) ss a) :
    ∃ pre x post, ss = pre ++ x :: post ∧ Watch pid (k (x.words w)) (x :: post) a := by
  generalize hp : (Prog.step (.load w) k : LProg K α) = p at h
  induction h with
  | ret => cases hp
  | @env p x s s1 ss a hs h' ih =>
    obtain ⟨pre, x, post, e, h⟩ := ih hp
    exact ⟨s :: pre, x, post, by rw [e]; rfl, h⟩
  | @load w' k' s ss a h' ih =>
    injection hp with h1 h2
    injection h1 with h1
    subst h1
    exact ⟨[], s, ss, rfl, by rw [h2]; exact h'⟩

theorem Watch.ret_inv {b : α} {ss : List (St K)} {a : α} (h : Watch pid (.ret b : LProg K α) ss a) : a = b := by
  generalize hp : (Prog.ret b : LProg K α) = p at h
  induction h with
  | ret => injection hp with hp; exact hp.symm
  | env _ _ ih => exact ih hp
  | load => cases hp

/-- what `reader_count` has added up: the slots that were not empty when it looked at them -/
theorem Watch.count {n x c r : Nat} {ss : List (St K)} (h : Watch pid (countFrom n x c) ss r) :
    ∃ f : Nat → St K, (∀ i, x ≤ i → i < x + n → f i ∈ ss) ∧ r = c + ((List.range' x n).filter fun i => (f i).words (i + 1) ≠ 0).length := by
  induction n generalizing x c ss with
  | zero =>
    have := h.ret_inv
    obtain ⟨s, hs⟩ : ∃ s, s ∈ ss := by
      have := h.path
      cases ss with
      | nil => cases this
      | cons s _ => exact ⟨s, List.mem_cons_self ..⟩
    exact ⟨fun _ => s, fun i h1 h2 => by omega, by simpa using this⟩
  | succ n ih =>
    obtain ⟨pre, y, post, e, h⟩ := Watch.load_inv (k := fun v => countFrom n (x + 1) (c + if v ≠ 0 then 1 else 0)) h
    obtain ⟨f, h1, h2⟩ := ih h
    refine ⟨fun i => if i = x then y else f i, ?_, ?_⟩
    · intro i hi hi'
      rw [e]
      by_cases ex : i = x
      · simp [ex]
      · have := h1 i (by omega) (by omega)
        simp only [ex, if_false]
        exact List.mem_append_right _ this
    · rw [h2, List.range'_succ, List.filter_cons]
      have e2 : ((List.range' (x + 1) n).filter fun i => ((if i = x then y else f i).words (i + 1) ≠ 0)) =
          ((List.range' (x + 1) n).filter fun i => ((f i).words (i + 1) ≠ 0)) := by
        apply List.filter_congr
        intro i hi
        have := (List.mem_range'_1.1 hi).1
        rw [if_neg (by omega)]
      rw [e2]
      simp only [if_true]
      by_cases hy : y.words (x + 1) = 0
      · simp [hy]
      · simp [hy]; omega

/-- `is_locked(false)` answers no only if it saw every slot empty -/
theorem Watch.none_taken {n x : Nat} {ss : List (St K)} (h : Watch pid (anyTaken n x) ss false) :
    ∀ i, x ≤ i → i < x + n → ∃ y ∈ ss, y.words (i + 1) = 0 := by
  induction n generalizing x ss with
  | zero => intro i h1 h2; omega
  | succ n ih =>
    obtain ⟨pre, y, post, e, h⟩ := Watch.load_inv (k := fun v => if v ≠ 0 then .ret true else anyTaken n (x + 1)) h
    by_cases hy : y.words (x + 1) = 0
    · rw [if_neg (fun hc => hc hy)] at h
      intro i h1 h2
      by_cases ex : i = x
      · subst ex; exact ⟨y, by rw [e]; simp, hy⟩
      · obtain ⟨z, h3, h4⟩ := ih h i (by omega) (by omega)
        exact ⟨z, by rw [e]; exact List.mem_append_right _ h3, h4⟩
    · rw [if_pos hy] at h
      cases h.ret_inv

/-- and yes only if it saw one taken -/
theorem Watch.one_taken {n x : Nat} {ss : List (St K)} (h : Watch pid (anyTaken n x) ss true) :
    ∃ i, x ≤ i ∧ i < x + n ∧ ∃ y ∈ ss, y.words (i + 1) ≠ 0 := by
  induction n generalizing x ss with
  | zero => cases h.ret_inv
  | succ n ih =>
    obtain ⟨pre, y, post, e, h⟩ := Watch.load_inv (k := fun v => if v ≠ 0 then .ret true else anyTaken n (x + 1)) h
    by_cases hy : y.words (x + 1) = 0
    · rw [if_neg (fun hc => hc hy)] at h
      obtain ⟨i, h1, h2, z, h3, h4⟩ := ih h
      exact ⟨i, by omega, by omega, z, by rw [e]; exact List.mem_append_right _ h3, h4⟩
    · exact ⟨x, by omega, by omega, y, by rw [e]; simp, hy⟩

end Verif.Lock
