import Mathlib.Tactic.Tauto
/-
Doubly linked sequences over two abstract pointer functions (helper lemmas used by the Queue
and allocator proofs).
-/
namespace Verif

/-- consecutive elements point to each other -/
def Links (nx pv : Nat → Nat) : List Nat → Prop
  | [] => True
  | [_] => True
  | x :: y :: t => nx x = y ∧ pv y = x ∧ Links nx pv (y :: t)

theorem Links.append_iff {nx pv : Nat → Nat} {l1 l2 : List Nat} {x : Nat} :
    Links nx pv (l1 ++ x :: l2) ↔ Links nx pv (l1 ++ [x]) ∧ Links nx pv (x :: l2) := by
  induction l1 with
  | nil => simp [Links]
  | cons a l1 ih =>
    cases l1 with
    | nil => simp [Links]; constructor <;> (intro h; simp [h])
    | cons b l1 => simp only [List.cons_append, Links] at ih ⊢; rw [ih]; constructor <;> (intro h; simp_all)

theorem Links.congr {nx pv nx' pv' : Nat → Nat} {l : List Nat}
    (hn : ∀ x ∈ l.dropLast, nx x = nx' x) (hp : ∀ x ∈ l.tail, pv x = pv' x)
    (h : Links nx pv l) : Links nx' pv' l := by
  induction l with
  | nil => trivial
  | cons a l ih =>
    cases l with
    | nil => trivial
    | cons b l =>
      simp only [Links] at h ⊢
      refine ⟨?_, ?_, ih ?_ ?_ h.2.2⟩
      · rw [← hn a (by simp)]; exact h.1
      · rw [← hp b (by simp)]; exact h.2.1
      · intro x hx; exact hn x (by simp only [List.dropLast_cons_cons, List.mem_cons]; exact Or.inr hx)
      · intro x hx; exact hp x (by simp only [List.tail_cons] at hx ⊢; exact List.mem_cons_of_mem _ hx)

/-- pointer function update -/
def upd (f : Nat → Nat) (a v : Nat) : Nat → Nat := fun x => if x = a then v else f x

@[simp] theorem upd_same (f : Nat → Nat) (a v : Nat) : upd f a v a = v := by simp [upd]
theorem upd_ne (f : Nat → Nat) (a v x : Nat) (h : x ≠ a) : upd f a v x = f x := by simp [upd, h]

/-- linking `o` between neighbours `x` and `y` -/
theorem Links.insert {nx pv nx' pv' : Nat → Nat} {l1 l2 : List Nat} {x y o : Nat}
    (hnd : (l1 ++ x :: y :: l2).Nodup) (ho : o ∉ l1 ++ x :: y :: l2)
    (h : Links nx pv (l1 ++ x :: y :: l2))
    (hnx : ∀ z, z ∈ o :: (l1 ++ x :: y :: l2) → nx' z = upd (upd nx o y) x o z)
    (hpv : ∀ z, z ∈ o :: (l1 ++ x :: y :: l2) → pv' z = upd (upd pv o x) y o z) :
    Links nx' pv' (l1 ++ x :: o :: y :: l2) := by
  rw [Links.append_iff] at h ⊢
  obtain ⟨h1, h2⟩ := h
  simp only [List.nodup_append, List.nodup_cons, List.mem_cons, List.mem_append, not_or] at hnd ho
  refine ⟨h1.congr ?_ ?_, ?_⟩
  · intro z hz
    simp only [List.dropLast_concat] at hz
    rw [hnx z (by simp [hz]), upd_ne _ _ _ _ (by rintro rfl; exact hnd.2.2 z hz z (by simp) rfl),
      upd_ne _ _ _ _ (by rintro rfl; exact ho.1 hz)]
  · intro z hz
    have hz' : z ∈ l1 ++ [x] := List.mem_of_mem_tail hz
    have hzy : z ≠ y := by
      rintro rfl
      simp only [List.mem_append, List.mem_singleton] at hz'
      rcases hz' with hz' | hz'
      · exact hnd.2.2 z hz' z (by simp) rfl
      · exact hnd.2.1.1.1 hz'.symm
    have hzo : z ≠ o := by
      rintro rfl
      simp only [List.mem_append, List.mem_singleton] at hz'
      rcases hz' with hz' | hz'
      · exact ho.1 hz'
      · exact ho.2.1 hz'
    rw [hpv z (by simp only [List.mem_cons, List.mem_append] at hz' ⊢; right; rcases hz' with a | a <;> simp_all),
      upd_ne _ _ _ _ hzy, upd_ne _ _ _ _ hzo]
  · simp only [Links] at h2 ⊢
    refine ⟨?_, ?_, ?_, ?_, h2.2.2.congr ?_ ?_⟩
    · rw [hnx x (by simp)]; simp
    · rw [hpv o (by simp), upd_ne _ _ _ _ (by tauto)]; simp
    · rw [hnx o (by simp), upd_ne _ _ _ _ (by tauto)]; simp
    · rw [hpv y (by simp)]; simp
    · intro z hz
      have hz' := List.dropLast_subset _ hz
      rw [hnx z (by simp only [List.mem_cons, List.mem_append] at hz' ⊢; rcases hz' with a | a <;> simp [a]),
        upd_ne _ _ _ _ (by rintro rfl; simp only [List.mem_cons] at hz'; tauto),
        upd_ne _ _ _ _ (by rintro rfl; simp only [List.mem_cons] at hz'; tauto)]
    · intro z hz
      simp only [List.tail_cons] at hz
      rw [hpv z (by simp [hz]),
        upd_ne _ _ _ _ (by rintro rfl; exact hnd.2.1.2.1 hz),
        upd_ne _ _ _ _ (by rintro rfl; tauto)]

/-- unlinking `o` from between `x` and `y` -/
theorem Links.remove {nx pv nx' pv' : Nat → Nat} {l1 l2 : List Nat} {x y o : Nat}
    (hnd : (l1 ++ x :: o :: y :: l2).Nodup)
    (h : Links nx pv (l1 ++ x :: o :: y :: l2))
    (hnx : ∀ z, z ∈ (l1 ++ x :: y :: l2) → nx' z = upd nx x y z)
    (hpv : ∀ z, z ∈ (l1 ++ x :: y :: l2) → pv' z = upd pv y x z) :
    Links nx' pv' (l1 ++ x :: y :: l2) := by
  rw [Links.append_iff] at h ⊢
  obtain ⟨h1, h2⟩ := h
  simp only [List.nodup_append, List.nodup_cons, List.mem_cons, not_or] at hnd
  refine ⟨h1.congr ?_ ?_, ?_⟩
  · intro z hz
    simp only [List.dropLast_concat] at hz
    rw [hnx z (by simp [hz]), upd_ne _ _ _ _ (by rintro rfl; exact hnd.2.2 z hz z (by simp) rfl)]
  · intro z hz
    have hz' : z ∈ l1 ++ [x] := List.mem_of_mem_tail hz
    have hzy : z ≠ y := by
      rintro rfl
      simp only [List.mem_append, List.mem_singleton] at hz'
      rcases hz' with hz' | hz'
      · exact hnd.2.2 z hz' z (by simp) rfl
      · exact hnd.2.1.1.2.1 hz'.symm
    rw [hpv z (by simp only [List.mem_cons, List.mem_append] at hz' ⊢; rcases hz' with a | a <;> simp_all),
      upd_ne _ _ _ _ hzy]
  · simp only [Links] at h2 ⊢
    refine ⟨?_, ?_, h2.2.2.2.2.congr ?_ ?_⟩
    · rw [hnx x (by simp)]; simp
    · rw [hpv y (by simp)]; simp
    · intro z hz
      have hz' := List.dropLast_subset _ hz
      rw [hnx z (by simp only [List.mem_cons, List.mem_append] at hz' ⊢; rcases hz' with a | a <;> simp [a]),
        upd_ne _ _ _ _ (by rintro rfl; simp only [List.mem_cons] at hz'; tauto)]
    · intro z hz
      simp only [List.tail_cons] at hz
      rw [hpv z (by simp [hz]), upd_ne _ _ _ _ (by rintro rfl; exact hnd.2.1.2.2.1 hz)]

end Verif
