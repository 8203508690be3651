import Verif.PrioQueue
/-
Binary heaps on lists of offsets: the pure content of sift_down_locked and sift_up_locked.
-/
namespace Verif.PrioQueue
open Verif

/-- siftDownLoop on the list of array entries -/
def sdL (lt : Nat → Nat → Bool) (x : Nat) : Nat → List Nat → Nat → List Nat
  | 0, L, _ => L
  | fuel + 1, L, t =>
    if 0 < t then
      if lt x (L.getD ((t - 1) / 2) 0) then sdL lt x fuel (L.set t (L.getD ((t - 1) / 2) 0)) ((t - 1) / 2)
      else L.set t x
    else L.set t x

/-- the child that siftUpLoop moves up -/
def child (lt : Nat → Nat → Bool) (L : List Nat) (t : Nat) : Nat :=
  if 2 * t + 2 < L.length ∧ lt (L.getD (2 * t + 1) 0) (L.getD (2 * t + 2) 0) = false then 2 * t + 2 else 2 * t + 1

/-- siftUpLoop on the list of array entries -/
def suL (lt : Nat → Nat → Bool) : Nat → List Nat → Nat → List Nat × Nat
  | 0, L, t => (L, t)
  | fuel + 1, L, t =>
    if 2 * t + 1 < L.length then suL lt fuel (L.set t (L.getD (child lt L t) 0)) (child lt L t)
    else (L, t)

/-- no entry is smaller than its parent -/
def IsHeap (lt : Nat → Nat → Bool) (L : List Nat) : Prop :=
  ∀ i, 0 < i → i < L.length → lt (L.getD i 0) (L.getD ((i - 1) / 2) 0) = false

theorem getD_set (L : List Nat) (t x i : Nat) : (L.set t x).getD i 0 = if i = t ∧ t < L.length then x else L.getD i 0 := by
  simp only [List.getD_eq_getElem?_getD, List.getElem?_set]
  by_cases h : t = i
  · subst h
    by_cases h2 : t < L.length
    · simp [h2]
    · simp [h2]
  · have : ¬ i = t := fun e => h e.symm
    simp [h, this]

theorem set_getD_perm {L : List Nat} {i j x : Nat} (hi : i < L.length) (hj : j < L.length) (hij : i ≠ j) :
    ((L.set i (L.getD j 0)).set j x).Perm (L.set i x) := by
  have h := List.set_set_perm (as := L.set i x) (i := i) (j := j) (by simpa using hi) (by simpa using hj)
  have e1 : (L.set i x)[j]'(by simpa using hj) = L.getD j 0 := by
    rw [List.getElem_set_ne hij, List.getD_eq_getElem?_getD, List.getElem?_eq_getElem hj]; rfl
  have e2 : (L.set i x)[i]'(by simpa using hi) = x := by simp
  rw [e1, e2, List.set_set] at h
  exact h

variable {lt : Nat → Nat → Bool}

structure Ord (lt : Nat → Nat → Bool) : Prop where
  asymm : ∀ a b, lt a b = true → lt b a = false
  trans : ∀ a b c, lt b a = false → lt c b = false → lt c a = false

theorem sdL_length (x fuel : Nat) : ∀ (L : List Nat) (t : Nat), (sdL lt x fuel L t).length = L.length := by
  induction fuel with
  | zero => intro L t; rfl
  | succ f ih =>
    intro L t
    simp only [sdL]
    split
    · split
      · rw [ih]; simp
      · simp
    · simp

theorem sdL_perm (x : Nat) (fuel : Nat) : ∀ (L : List Nat) (t : Nat), t < L.length → t < fuel → (sdL lt x fuel L t).Perm (L.set t x) := by
  induction fuel with
  | zero => intro L t _ h; omega
  | succ f ih =>
    intro L t ht hf
    simp only [sdL]
    split
    · split
      · refine (ih _ _ (by simp only [List.length_set]; omega) (by omega)).trans ?_
        exact set_getD_perm ht (by omega) (by omega)
      · exact .refl _
    · exact .refl _

/-- sift_down: if only position `t` may be too small, the result is a heap -/
theorem sdL_heap (ho : Ord lt) (x : Nat) (fuel : Nat) : ∀ (L : List Nat) (t : Nat), t < L.length → t < fuel →
    (∀ i, 0 < i → i < L.length → i ≠ t → lt ((L.set t x).getD i 0) ((L.set t x).getD ((i - 1) / 2) 0) = false) →
    (0 < t → ∀ c, 0 < c → c < L.length → (c - 1) / 2 = t → lt (L.getD c 0) (L.getD ((t - 1) / 2) 0) = false) →
    IsHeap lt (sdL lt x fuel L t) := by
  induction fuel with
  | zero => intro L t _ h; omega
  | succ f ih =>
    intro L t ht hf hA hB
    simp only [sdL]
    split
    · rename_i h0
      split
      · rename_i hlt
        have hp : (t - 1) / 2 < t := by omega
        refine ih _ _ (by simp only [List.length_set]; omega) (by omega) ?_ ?_
        · intro i hi0 hi hne
          simp only [List.length_set] at hi
          have hAi := hA i hi0 hi
          simp only [getD_set, List.length_set] at hAi ⊢
          by_cases e1 : i = t
          · subst e1
            have e2 : ¬ i = (i - 1) / 2 := by omega
            simp only [e2, false_and, if_false, true_and, ht, if_true]
            have : (i - 1) / 2 < L.length := by omega
            simp only [this, if_true]
            exact ho.asymm _ _ hlt
          · have hAi := hAi e1
            simp only [e1, false_and, if_false] at hAi ⊢
            by_cases e2 : (i - 1) / 2 = t
            · have e3 : ¬ i = (t - 1) / 2 := hne
              have e4 : ¬ (i - 1) / 2 = (t - 1) / 2 := by omega
              simp only [e3, false_and, if_false, e4, e2, ht, and_self, if_true]
              have e5 : ¬ t = (t - 1) / 2 := by omega
              simp only [e5, false_and, if_false]
              exact hB h0 i hi0 hi e2
            · by_cases e3 : i = (t - 1) / 2
              · exact absurd e3 hne
              · simp only [e3, e2, false_and, if_false] at hAi ⊢
                by_cases e4 : (i - 1) / 2 = (t - 1) / 2
                · have : (t - 1) / 2 < L.length := by omega
                  simp only [e4, this, and_self, if_true]
                  rw [e4] at hAi
                  exact ho.trans _ _ _ (ho.asymm _ _ hlt) hAi
                · simp only [e4, false_and, if_false]
                  exact hAi
        · intro h0' c hc0 hc hcp
          simp only [List.length_set] at hc
          simp only [getD_set]
          have e2 : ¬ ((t - 1) / 2 - 1) / 2 = t := by omega
          have hAp := hA ((t - 1) / 2) h0' (by omega) (by omega)
          simp only [getD_set] at hAp
          have e3 : ¬ (t - 1) / 2 = t := by omega
          simp only [e2, e3, false_and, if_false] at hAp ⊢
          by_cases e1 : c = t
          · simp only [e1, ht, and_self, if_true]
            exact hAp
          · have hAc := hA c hc0 hc e1
            simp only [getD_set, e1, hcp, e3, false_and, if_false] at hAc ⊢
            exact ho.trans _ _ _ hAp hAc
      · rename_i hlt
        intro i hi0 hi
        simp only [List.length_set] at hi
        by_cases e : i = t
        · subst e
          simp only [getD_set, hi, and_self, if_true]
          have : ¬ ((i - 1) / 2 = i) := by omega
          simp only [this, false_and, if_false]
          simpa using hlt
        · exact hA i hi0 hi e
    · rename_i h0
      intro i hi0 hi
      simp only [List.length_set] at hi
      exact hA i hi0 hi (by omega)

theorem child_cases (L : List Nat) (t : Nat) (h : 2 * t + 1 < L.length) :
    (child lt L t = 2 * t + 1 ∨ child lt L t = 2 * t + 2) ∧ child lt L t < L.length := by
  unfold child; split <;> omega

theorem suL_length (fuel : Nat) : ∀ (L : List Nat) (t : Nat), (suL lt fuel L t).1.length = L.length := by
  induction fuel with
  | zero => intro L t; rfl
  | succ f ih =>
    intro L t
    simp only [suL]
    split
    · rw [ih]; simp
    · rfl

/-- sift_up: the hole reaches a leaf; every other entry is not smaller than its parent, whatever is put into the hole -/
theorem suL_spec (ho : Ord lt) (fuel : Nat) : ∀ (L : List Nat) (t : Nat), t < L.length → L.length ≤ t + fuel →
    (∀ i, 0 < i → i < L.length → i ≠ t → (i - 1) / 2 ≠ t → lt (L.getD i 0) (L.getD ((i - 1) / 2) 0) = false) →
    (0 < t → ∀ c, 0 < c → c < L.length → (c - 1) / 2 = t → lt (L.getD c 0) (L.getD ((t - 1) / 2) 0) = false) →
    (suL lt fuel L t).2 < L.length ∧ L.length ≤ 2 * (suL lt fuel L t).2 + 1 ∧
    (∀ i, 0 < i → i < L.length → i ≠ (suL lt fuel L t).2 →
      lt ((suL lt fuel L t).1.getD i 0) ((suL lt fuel L t).1.getD ((i - 1) / 2) 0) = false) ∧
    ∀ x, ((suL lt fuel L t).1.set (suL lt fuel L t).2 x).Perm (L.set t x) := by
  induction fuel with
  | zero => intro L t h1 h2; omega
  | succ f ih =>
    intro L t ht hf hA hB
    simp only [suL]
    split
    · rename_i hl
      obtain ⟨hc, hcl⟩ := child_cases (lt := lt) L t hl
      have hmin : ∀ c, c < L.length → (c = 2 * t + 1 ∨ c = 2 * t + 2) → lt (L.getD c 0) (L.getD (child lt L t) 0) = false := by
        have hirr : ∀ a, lt a a = false := by
          intro a
          cases h : lt a a with
          | false => rfl
          | true => have := ho.asymm a a h; rw [h] at this; cases this
        intro c hc1 hc2
        unfold child
        split
        · rename_i h
          rcases hc2 with rfl | rfl
          · exact h.2
          · exact hirr _
        · rename_i h
          rcases hc2 with rfl | rfl
          · exact hirr _
          · apply ho.asymm
            cases h2 : lt (L.getD (2 * t + 1) 0) (L.getD (2 * t + 2) 0) with
            | true => rfl
            | false => exact absurd ⟨hc1, h2⟩ h
      generalize child lt L t = c at hc hcl hmin
      have hct : c ≠ t := by omega
      obtain ⟨h1, h2, h3, h4⟩ := ih (L.set t (L.getD c 0)) c (by simpa using hcl) (by simp only [List.length_set]; omega) (by
        intro i hi0 hi hne hne2
        simp only [List.length_set] at hi
        simp only [getD_set]
        by_cases e1 : i = t
        · subst e1
          have e2 : ¬ (i - 1) / 2 = i := by omega
          simp only [ht, and_self, if_true, e2, false_and, if_false]
          exact hB hi0 c (by omega) hcl (by omega)
        · simp only [e1, false_and, if_false]
          by_cases e2 : (i - 1) / 2 = t
          · simp only [e2, ht, and_self, if_true]
            exact hmin i hi (by omega)
          · simp only [e2, false_and, if_false]
            exact hA i hi0 hi e1 e2) (by
        intro _ d hd0 hd hdp
        simp only [List.length_set] at hd
        simp only [getD_set]
        have e1 : ¬ d = t := by omega
        have e2 : (c - 1) / 2 = t := by omega
        simp only [e1, false_and, if_false, e2, ht, and_self, if_true]
        have := hA d hd0 hd e1 (by omega)
        rw [hdp] at this
        exact this)
      simp only [List.length_set] at h1 h2 h3
      refine ⟨h1, h2, h3, ?_⟩
      intro x
      refine (h4 x).trans ?_
      exact set_getD_perm ht hcl (fun e => hct e.symm)
    · rename_i hl
      refine ⟨ht, by omega, ?_, fun x => .refl _⟩
      intro i hi0 hi hne
      exact hA i hi0 hi hne (by omega)

/-- sift_up followed by sift_down restores the heap property broken at the root, keeping the entries -/
theorem sift_heap (ho : Ord lt) {L : List Nat} (hL : 0 < L.length)
    (hA : ∀ i, 0 < i → i < L.length → (i - 1) / 2 ≠ 0 → lt (L.getD i 0) (L.getD ((i - 1) / 2) 0) = false) :
    let r := suL lt (L.length + 1) L 0
    let out := sdL lt (L.getD 0 0) (r.2 + 1) (r.1.set r.2 (L.getD 0 0)) r.2
    IsHeap lt out ∧ out.Perm L := by
  obtain ⟨h1, h2, h3, h4⟩ := suL_spec ho (L.length + 1) L 0 hL (by omega) (fun i hi0 hi _ h => hA i hi0 hi h) (fun h => by omega)
  have hlen := suL_length (lt := lt) (L.length + 1) L 0
  simp only
  generalize suL lt (L.length + 1) L 0 = r at h1 h2 h3 h4 hlen
  refine ⟨?_, ?_⟩
  · refine sdL_heap ho _ _ _ _ (by simp only [List.length_set]; omega) (by omega) ?_ ?_
    · intro i hi0 hi hne
      simp only [List.length_set] at hi
      have := h3 i hi0 (by omega) hne
      have e : ¬ (i - 1) / 2 = r.2 := by omega
      simp only [getD_set, hne, e, false_and, if_false]
      exact this
    · intro h0 c hc0 hc hcp
      simp only [List.length_set] at hc
      omega
  · refine (sdL_perm _ _ _ _ (by simp only [List.length_set]; omega) (by omega)).trans ?_
    rw [List.set_set]
    refine (h4 _).trans ?_
    have : L.set 0 (L.getD 0 0) = L := by
      cases L with
      | nil => rfl
      | cons a l => rfl
    rw [this]

/-- appending a last entry and sifting it down -/
theorem push_heap (ho : Ord lt) {L : List Nat} (hL : IsHeap lt L) (x : Nat) :
    IsHeap lt (sdL lt x (L.length + 1) (L ++ [x]) L.length) ∧ (sdL lt x (L.length + 1) (L ++ [x]) L.length).Perm (L ++ [x]) := by
  have e : (L ++ [x]).set L.length x = L ++ [x] := by
    rw [List.set_append_right _ _ (Nat.le_refl _)]; simp
  have hg : ∀ i, i < L.length → (L ++ [x]).getD i 0 = L.getD i 0 := by
    intro i hi
    simp only [List.getD_eq_getElem?_getD, List.getElem?_append_left hi]
  refine ⟨?_, ?_⟩
  · refine sdL_heap ho _ _ _ _ (by simp) (by omega) ?_ ?_
    · intro i hi0 hi hne
      rw [e]
      simp only [List.length_append, List.length_singleton] at hi
      rw [hg i (by omega), hg _ (by omega)]
      exact hL i hi0 (by omega)
    · intro h0 c hc0 hc hcp
      simp only [List.length_append, List.length_singleton] at hc
      omega
  · have := sdL_perm (lt := lt) x (L.length + 1) (L ++ [x]) L.length (by simp) (by omega)
    rwa [e] at this

/-- the root of a heap is a least entry -/
theorem heap_min (ho : Ord lt) {L : List Nat} (hL : IsHeap lt L) (i : Nat) : i < L.length → lt (L.getD i 0) (L.getD 0 0) = false := by
  have hirr : ∀ a, lt a a = false := by
    intro a
    cases h : lt a a with
    | false => rfl
    | true => have := ho.asymm a a h; rw [h] at this; cases this
  induction i using Nat.strongRecOn with
  | ind i ih =>
    intro hi
    by_cases h0 : i = 0
    · subst h0; exact hirr _
    · exact ho.trans _ _ _ (ih ((i - 1) / 2) (by omega) (by omega)) (hL i (by omega) hi)

end Verif.PrioQueue
