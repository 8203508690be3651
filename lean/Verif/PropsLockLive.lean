import Verif.PropsLock
/-
C17: a dead process cannot block the others (a lone waiter gets the lock in a bounded number of its own steps), and the
counterexample to C15/C16 for process ids of 2^18 and more.
-/
namespace Verif.Lock
open Verif
variable {K : Mach} {pid : Nat → Nat} {fuel : Nat} {prog : Nat → List (Session K)} {m0 : K.M} {s0 s s' : St K} {t : Nat} {α β : Type}

/-- The next step of thread `t` when nobody else moves: a step of the system (`solo_step`) in which futex_wait returns true just when the word differs
from the expected value, and compare_exchange_weak does not fail spuriously. -/
def solo (t : Nat) (s : St K) : Option (St K) :=
  match s.th t with
  | .step (.cas w e v) k => some (if s.words w = e then s.store t w v (k (true, e)) else s.goto t (k (false, s.words w)))
  | .step (.casWeak w e v) k => some (if s.words w = e then s.store t w v (k (true, e)) else s.goto t (k (false, s.words w)))
  | .step (.load w) k => some (s.goto t (k (s.words w)))
  | .step (.wait w v) k => some (s.goto t (k (decide (s.words w ≠ v))))
  | .step (.running d) k => some (s.goto t (k (s.alive (d % 2 ^ 18))))
  | .step (.enter kd _) k => some { s.goto t (k ()) with st := fset s.st t (some kd) }
  | .step (.acc op) k => some { s.goto t (k (K.exec op s.mem).1) with mem := (K.exec op s.mem).2 }
  | .step (.leave b r) k => some { s.goto t (k ()) with st := fset s.st t none, log := s.log ++ [(t, s.st t, b, r)] }
  | .step .quit k => some { s.goto t (k ()) with st := fset s.st t none }
  | .step .idle k => some (s.goto t (k ()))
  | _ => none

theorem solo_step (ha : s.alive (pid t) = true) (h : solo t s = some s') : Step pid (some t) s s' := by
  unfold solo at h
  split at h
  · rename_i w e v k hth
    injection h with h; subst h
    split
    · exact .casOk ha hth (by assumption)
    · exact .casFail ha hth (by assumption)
  · rename_i w e v k hth
    injection h with h; subst h
    split
    · exact .weakOk ha hth (by assumption)
    · exact .weakFail ha hth
  · rename_i hth; injection h with h; subst h; exact .load ha hth
  · rename_i hth; injection h with h; subst h; exact .wait _ ha hth
  · rename_i hth; injection h with h; subst h; exact .running ha hth
  · rename_i hth; injection h with h; subst h; exact .enter ha hth
  · rename_i hth; injection h with h; subst h; exact .acc ha hth
  · rename_i hth; injection h with h; subst h; exact .leave ha hth
  · rename_i hth; injection h with h; subst h; exact .quit ha hth
  · rename_i hth; injection h with h; subst h; exact .idle ha hth
  · cases h

theorem solo_alive (h : solo t s = some s') : s'.alive = s.alive := by
  unfold solo at h
  split at h <;> first | (injection h with h; subst h; first | rfl | (split <;> rfl)) | cases h

/-- `n` steps of thread `t` alone -/
def soloN (t : Nat) : Nat → St K → Option (St K)
  | 0, s => some s
  | n + 1, s => (solo t s).bind (soloN t n)

theorem soloN_reach {n : Nat} : ∀ {s : St K}, s.alive (pid t) = true → Reach pid s0 s → soloN t n s = some s' →
    Reach pid s0 s' ∧ s'.alive = s.alive := by
  induction n with
  | zero => intro s _ hr h; injection h with h; subst h; exact ⟨hr, rfl⟩
  | succ n ih =>
    intro s ha hr h
    unfold soloN at h
    cases hs : solo t s with
    | none => rw [hs] at h; cases h
    | some s1 =>
      rw [hs] at h
      have e := solo_alive hs
      obtain ⟨h1, h2⟩ := ih (s := s1) (by rw [e]; exact ha) (.step hr (solo_step ha hs)) h
      exact ⟨h1, h2.trans e⟩

/-- `lone al p W Q`: run alone from lock words `W`, `p` ends after some number `n` of steps with result `a` and words `W'` with `Q n a W'` -/
def lone (al : Nat → Bool) : LProg K α → (Nat → Nat) → (Nat → α → (Nat → Nat) → Prop) → Prop
  | .ret a, W, Q => Q 0 a W
  | .step (.cas w e v) k, W, Q => if W w = e then lone al (k (true, e)) (fset W w v) (fun n => Q (n + 1)) else lone al (k (false, W w)) W (fun n => Q (n + 1))
  | .step (.casWeak w e v) k, W, Q => if W w = e then lone al (k (true, e)) (fset W w v) (fun n => Q (n + 1)) else lone al (k (false, W w)) W (fun n => Q (n + 1))
  | .step (.load w) k, W, Q => lone al (k (W w)) W (fun n => Q (n + 1))
  | .step (.wait w v) k, W, Q => lone al (k (decide (W w ≠ v))) W (fun n => Q (n + 1))
  | .step (.running d) k, W, Q => lone al (k (al (d % 2 ^ 18))) W (fun n => Q (n + 1))
  | _, _, _ => False

theorem lone_bind {al : Nat → Bool} {p : LProg K α} {f : α → LProg K β} : ∀ {W : Nat → Nat} {Q : Nat → β → (Nat → Nat) → Prop},
    lone al p W (fun n a W' => lone al (f a) W' (fun m => Q (n + m))) → lone al (p.bind f) W Q := by
  induction p with
  | ret a => intro W Q h; simp only [lone, Nat.zero_add] at h; exact h
  | err | ub => intro W Q h; exact h
  | step op k ih =>
    intro W Q h
    cases op with
    | cas w e v =>
      simp only [Prog.step_bind, lone] at h ⊢
      split at h <;> rename_i hc
      · rw [if_pos hc]; apply ih; simpa only [Nat.add_right_comm] using h
      · rw [if_neg hc]; apply ih; simpa only [Nat.add_right_comm] using h
    | casWeak w e v =>
      simp only [Prog.step_bind, lone] at h ⊢
      split at h <;> rename_i hc
      · rw [if_pos hc]; apply ih; simpa only [Nat.add_right_comm] using h
      · rw [if_neg hc]; apply ih; simpa only [Nat.add_right_comm] using h
    | load w => simp only [Prog.step_bind, lone] at h ⊢; apply ih; simpa only [Nat.add_right_comm] using h
    | wait w => simp only [Prog.step_bind, lone] at h ⊢; apply ih; simpa only [Nat.add_right_comm] using h
    | running w => simp only [Prog.step_bind, lone] at h ⊢; apply ih; simpa only [Nat.add_right_comm] using h
    | _ => exact h

theorem lone_mono {al : Nat → Bool} {p : LProg K α} : ∀ {W : Nat → Nat} {Q Q' : Nat → α → (Nat → Nat) → Prop},
    (∀ n a W', Q n a W' → Q' n a W') → lone al p W Q → lone al p W Q' := by
  induction p with
  | ret a => intro W Q Q' hQ h; exact hQ _ _ _ h
  | err | ub => intro W Q Q' hQ h; exact h
  | step op k ih =>
    intro W Q Q' hQ h
    cases op with
    | cas w e v =>
      simp only [lone] at h ⊢
      split at h <;> rename_i hc
      · rw [if_pos hc]; exact ih _ (fun n => hQ _) h
      · rw [if_neg hc]; exact ih _ (fun n => hQ _) h
    | casWeak w e v =>
      simp only [lone] at h ⊢
      split at h <;> rename_i hc
      · rw [if_pos hc]; exact ih _ (fun n => hQ _) h
      · rw [if_neg hc]; exact ih _ (fun n => hQ _) h
    | load w => exact ih _ (fun n => hQ _) h
    | wait w => exact ih _ (fun n => hQ _) h
    | running w => exact ih _ (fun n => hQ _) h
    | _ => exact h

/-- `lone` describes `soloN` -/
theorem lone_run {p : LProg K α} {f : α → LProg K Unit} : ∀ {s : St K} {Q : Nat → α → (Nat → Nat) → Prop}, lone s.alive p s.words Q →
    s.th t = p.bind f → ∃ n a s', soloN t n s = some s' ∧ s'.th t = f a ∧ Q n a s'.words ∧ s'.st = s.st ∧ s'.mem = s.mem ∧ s'.log = s.log ∧ ∀ u, u ≠ t → s'.th u = s.th u := by
  induction p with
  | ret a => intro s Q h hth; exact ⟨0, a, s, rfl, hth, h, rfl, rfl, rfl, fun _ _ => rfl⟩
  | err | ub => intro s Q h hth; exact h.elim
  | step op k ih =>
    intro s Q h hth
    have next : ∀ (v : LRe op) (s1 : St K) , solo t s = some s1 → s1.th t = (k v).bind f → s1.alive = s.alive → s1.st = s.st → s1.mem = s.mem →
        s1.log = s.log → (∀ u, u ≠ t → s1.th u = s.th u) → lone s.alive (k v) s1.words (fun n => Q (n + 1)) →
        ∃ n a s', soloN t n s = some s' ∧ s'.th t = f a ∧ Q n a s'.words ∧ s'.st = s.st ∧ s'.mem = s.mem ∧ s'.log = s.log ∧ ∀ u, u ≠ t → s'.th u = s.th u := by
      intro v s1 h1 h2 h3 h4 h5 h6 h8 h7
      rw [← h3] at h7
      obtain ⟨n, a, s', e1, e2, e3, e4, e5, e6, e7⟩ := ih v h7 h2
      exact ⟨n + 1, a, s', by unfold soloN; rw [h1]; exact e1, e2, e3, e4.trans h4, e5.trans h5, e6.trans h6, fun u hu => (e7 u hu).trans (h8 u hu)⟩
    have hth' : s.th t = .step op fun v => (k v).bind f := hth
    cases op with
    | cas w e v =>
      simp only [lone] at h
      split at h <;> rename_i hc
      · refine next (true, e) (s.store t w v ((k (true, e)).bind f)) (by unfold solo; rw [hth']; simp only; rw [if_pos hc]) ?_ rfl rfl rfl rfl (fun u hu => fset_ne _ _ hu) h
        exact fset_same _ _ _
      · refine next (false, s.words w) (s.goto t ((k (false, s.words w)).bind f)) (by unfold solo; rw [hth']; simp only; rw [if_neg hc]) ?_ rfl rfl rfl rfl (fun u hu => fset_ne _ _ hu) h
        exact fset_same _ _ _
    | casWeak w e v =>
      simp only [lone] at h
      split at h <;> rename_i hc
      · refine next (true, e) (s.store t w v ((k (true, e)).bind f)) (by unfold solo; rw [hth']; simp only; rw [if_pos hc]) ?_ rfl rfl rfl rfl (fun u hu => fset_ne _ _ hu) h
        exact fset_same _ _ _
      · refine next (false, s.words w) (s.goto t ((k (false, s.words w)).bind f)) (by unfold solo; rw [hth']; simp only; rw [if_neg hc]) ?_ rfl rfl rfl rfl (fun u hu => fset_ne _ _ hu) h
        exact fset_same _ _ _
    | load w => exact next (s.words w) (s.goto t ((k (s.words w)).bind f)) (by unfold solo; rw [hth']) (fset_same _ _ _) rfl rfl rfl rfl (fun u hu => fset_ne _ _ hu) h
    | wait w v => exact next (decide (s.words w ≠ v)) (s.goto t ((k (decide (s.words w ≠ v))).bind f)) (by unfold solo; rw [hth']) (fset_same _ _ _) rfl rfl rfl rfl (fun u hu => fset_ne _ _ hu) h
    | running w => exact next (s.alive (w % 2 ^ 18)) (s.goto t ((k (s.alive (w % 2 ^ 18))).bind f)) (by unfold solo; rw [hth']) (fset_same _ _ _) rfl rfl rfl rfl (fun u hu => fset_ne _ _ hu) h
    | _ => exact h.elim

/-! ### the lock code run alone -/

variable {al : Nat → Bool} {tok : Nat} {W : Nat → Nat}

/-- free, or held by a dead process -/
def Stale (al : Nat → Bool) (W : Nat → Nat) (w : Nat) : Prop := W w = 0 ∨ al (W w % 2 ^ 18) = false

theorem fset_idem (W : Nat → Nat) (w a b : Nat) : fset (fset W w a) w b = fset W w b := by
  funext x; unfold fset; split <;> rfl

theorem spin_lone {w : Nat} (n : Nat) : ∀ (last : Nat), lone (K := K) al (spin w tok n last) W (fun k r W' =>
    k ≤ n ∧ ((W w = 0 ∧ n ≠ 0 ∧ r.1 = true ∧ W' = fset W w tok) ∨ (r.1 = false ∧ W' = W ∧ (W w ≠ 0 ∧ n ≠ 0 → r.2 = W w) ∧ (n ≠ 0 → W w ≠ 0) ∧ (n = 0 → r.2 = last)))) := by
  induction n with
  | zero => intro last; exact ⟨Nat.le_refl _, Or.inr ⟨rfl, rfl, by simp, by simp, by simp⟩⟩
  | succ n ih =>
    intro last
    show lone al (.step (.casWeak w 0 tok) _) W _
    simp only [lone]
    split <;> rename_i hc
    · show (_ : Nat) ≤ _ ∧ _
      exact ⟨by omega, Or.inl ⟨hc, by omega, rfl, rfl⟩⟩
    · refine lone_mono ?_ (ih (W w))
      rintro k r W' ⟨h1, h2 | ⟨h2, h3, h4, h5, h6⟩⟩
      · exact absurd h2.1 hc
      · refine ⟨by omega, Or.inr ⟨h2, h3, fun _ => ?_, fun _ => hc, fun h => absurd h (by omega)⟩⟩
        by_cases e : n = 0
        · exact h6 e
        · exact h4 ⟨hc, e⟩

theorem acquire_lone {w : Nat} (fuel : Nat) (hs : Stale al W w) : lone (K := K) al (acquire w tok (fuel + 1)) W
    (fun n r W' => n ≤ 13 ∧ r = W w ∧ W' = fset W w tok) := by
  unfold acquire
  refine lone_bind (lone_mono ?_ (spin_lone 10 0))
  rintro k r W' ⟨h1, ⟨h2, -, h3, rfl⟩ | ⟨h2, rfl, h4, h5, -⟩⟩
  · rw [if_pos h3]
    exact ⟨by omega, h2.symm, rfl⟩
  · have hw := h5 (by omega)
    have hr := h4 ⟨hw, by omega⟩
    rw [if_neg (by simp [h2])]
    show lone al (.step (.wait w r.2) _) W' _
    simp only [lone, hr]
    rw [decide_eq_false (by simp)]
    simp only [Prog.ret_bind, Bool.false_eq_true, if_false]
    show lone al (.step (.running (W' w)) _) W' _
    simp only [lone]
    rw [hs.resolve_left hw]
    simp only [Prog.ret_bind, Bool.false_eq_true, if_false]
    show lone al (.step (.cas w (W' w) tok) _) W' _
    simp only [lone]
    rw [if_pos trivial]
    exact ⟨by omega, rfl, rfl⟩

theorem readerRelease_lone {w : Nat} (fuel : Nat) (hs : Stale al W w) : lone (K := K) al (readerRelease w (fuel + 1)) W
    (fun n _ W' => n ≤ 4 ∧ W' = fset W w 0) := by
  unfold readerRelease
  show lone al (.step (.load w) _) W _
  simp only [lone, Prog.ret_bind]
  by_cases h0 : W w = 0
  · rw [if_pos h0]
    refine ⟨by omega, ?_⟩
    funext x; unfold fset; split
    · subst_vars; exact h0
    · rfl
  · rw [if_neg h0]
    show lone al (.step (.wait w (W w)) _) W _
    simp only [lone]
    rw [decide_eq_false (by simp)]
    simp only [Prog.ret_bind, Bool.false_eq_true, if_false]
    show lone al (.step (.running (W w)) _) W _
    simp only [lone]
    rw [hs.resolve_left h0]
    simp only [Prog.ret_bind, Bool.false_eq_true, if_false]
    show lone al (.step (.cas w (W w) 0) _) W _
    simp only [lone]
    rw [if_pos trivial]
    exact ⟨by omega, rfl⟩

theorem drainAll_lone (fuel : Nat) (n : Nat) : ∀ (x : Nat) {W : Nat → Nat}, (∀ w, x + 1 ≤ w → w ≤ x + n → Stale al W w) →
    lone (K := K) al (drainAll (fuel + 1) n x) W (fun k _ W' => k ≤ 5 * n ∧ ∀ w, W' w = if x + 1 ≤ w ∧ w ≤ x + n then 0 else W w) := by
  induction n with
  | zero => intro x W _; exact ⟨Nat.le_refl _, fun w => by rw [if_neg (by omega)]⟩
  | succ n ih =>
    intro x W hs
    unfold drainAll
    show lone al (.step (.load (x + 1)) _) W _
    simp only [lone, Prog.ret_bind]
    by_cases h0 : W (x + 1) = 0
    · rw [if_pos h0]
      refine lone_mono ?_ (ih (x + 1) (fun w h1 h2 => hs w (by omega) (by omega)))
      rintro k _ W' ⟨h1, h2⟩
      refine ⟨by omega, fun w => ?_⟩
      rw [h2 w]
      by_cases e : w = x + 1
      · subst e; rw [if_neg (by omega), if_pos (by omega)]; exact h0
      · by_cases e2 : x + 1 + 1 ≤ w ∧ w ≤ x + 1 + n
        · rw [if_pos e2, if_pos (by omega)]
        · rw [if_neg e2, if_neg (by omega)]
    · rw [if_neg h0]
      refine lone_bind (lone_mono ?_ (readerRelease_lone fuel (hs (x + 1) (by omega) (by omega))))
      rintro k1 _ W1 ⟨h1, rfl⟩
      refine lone_mono ?_ (ih (x + 1) (fun w e1 e2 => ?_))
      · rintro k _ W' ⟨h2, h3⟩
        refine ⟨by omega, fun w => ?_⟩
        rw [h3 w]
        by_cases e : w = x + 1
        · subst e; rw [if_neg (by omega), if_pos (by omega), fset_same]
        · rw [fset_ne _ _ e]
          by_cases e2 : x + 1 + 1 ≤ w ∧ w ≤ x + 1 + n
          · rw [if_pos e2, if_pos (by omega)]
          · rw [if_neg e2, if_neg (by omega)]
      · have := hs w (by omega) (by omega)
        unfold Stale at this ⊢
        rw [fset_ne _ _ (by omega)]; exact this

theorem guardWrite_lone (fuel : Nat) (hs : ∀ w, w ≤ 65 → Stale al W w) : lone (K := K) al (guardWrite (fuel + 1) tok) W
    (fun n g W' => n ≤ 338 ∧ g = ⟨none, W 0⟩ ∧ W' 0 = tok ∧ ∀ w, slot w → W' w = 0) := by
  unfold guardWrite
  refine lone_bind (lone_mono ?_ (acquire_lone fuel (hs 0 (by omega))))
  rintro n r W' ⟨h1, rfl, rfl⟩
  refine lone_bind (lone_mono ?_ (drainAll_lone fuel 65 0 ?_))
  · rintro k _ W2 ⟨h2, h3⟩
    refine ⟨by omega, rfl, ?_, ?_⟩
    · rw [h3 0, if_neg (by omega), fset_same]
    · intro w hw; rw [h3 w, if_pos (by unfold slot at hw; omega)]
  · intro w h1 h2
    have := hs w (by omega)
    unfold Stale at this ⊢
    rw [fset_ne _ _ (by omega)]; exact this

theorem takeSlot_lone (n : Nat) : ∀ (x : Nat) , x + n = 65 → lone (K := K) al (takeSlot tok n x) W (fun k r W' => k ≤ n ∧
    ((∃ y, r = some y ∧ x ≤ y ∧ y < 65 ∧ W (y + 1) = 0 ∧ W' = fset W (y + 1) tok) ∨ (r = none ∧ W' = W ∧ ∀ w, x + 1 ≤ w → w ≤ 65 → W w ≠ 0))) := by
  induction n with
  | zero => intro x hx; exact ⟨Nat.le_refl _, Or.inr ⟨rfl, rfl, fun w h1 h2 => by omega⟩⟩
  | succ n ih =>
    intro x hx
    unfold takeSlot
    show lone al (.step (.cas (x + 1) 0 tok) _) W _
    simp only [lone, Prog.ret_bind]
    split <;> rename_i hc
    · exact ⟨by omega, Or.inl ⟨x, rfl, Nat.le_refl _, by omega, hc, rfl⟩⟩
    · refine lone_mono ?_ (ih (x + 1) (by omega))
      rintro k r W' ⟨h1, ⟨y, h2, h3, h4⟩ | ⟨h2, h3, h4⟩⟩
      · exact ⟨by omega, Or.inl ⟨y, h2, by omega, h4⟩⟩
      · refine ⟨by omega, Or.inr ⟨h2, h3, fun w e1 e2 => ?_⟩⟩
        by_cases e : w = x + 1
        · subst e; exact hc
        · exact h4 w (by omega) e2

theorem anyFree_lone (n : Nat) : ∀ (x : Nat), lone (K := K) al (anyFree n x) W (fun k r W' => k ≤ n ∧ W' = W ∧
    (r = true ↔ ∃ w, x + 1 ≤ w ∧ w ≤ x + n ∧ W w = 0)) := by
  induction n with
  | zero => intro x; exact ⟨Nat.le_refl _, rfl, by simp; intros; omega⟩
  | succ n ih =>
    intro x
    unfold anyFree
    show lone al (.step (.load (x + 1)) _) W _
    simp only [lone, Prog.ret_bind]
    split <;> rename_i hc
    · exact ⟨by omega, rfl, by simp only [true_iff]; exact ⟨x + 1, by omega, by omega, hc⟩⟩
    · refine lone_mono ?_ (ih (x + 1))
      rintro k r W' ⟨h1, h2, h3⟩
      refine ⟨by omega, h2, h3.trans ⟨?_, ?_⟩⟩
      · rintro ⟨w, a, b, d⟩; exact ⟨w, by omega, by omega, d⟩
      · rintro ⟨w, a, b, d⟩
        refine ⟨w, ?_, by omega, d⟩
        by_cases e : w = x + 1
        · subst e; exact absurd d hc
        · omega

theorem release_lone {w : Nat} (hw : W w = tok) : lone (K := K) al (release w tok) W (fun k _ W' => k = 1 ∧ W' = fset W w 0) := by
  unfold release
  show lone al (.step (.cas w tok 0) _) W _
  simp only [lone]
  rw [if_pos hw]
  exact ⟨rfl, rfl⟩

theorem guardRead_lone (us : Bool) (fuel f : Nat) (ht : tok ≠ 0) (hs : ∀ w, w ≤ 65 → Stale al W w) :
    lone (K := K) al (guardRead us (fuel + 2) tok (f + 2)) W
    (fun n g W' => n ≤ 338 ∧ (g.slot = none ∧ W' 0 = tok ∧ (∀ w, slot w → W' w = 0) ∨ ∃ x, g.slot = some x ∧ W' (x + 1) = tok ∧ W' 0 = 0)) := by
  unfold guardRead
  refine lone_bind (lone_mono ?_ (acquire_lone (fuel + 1) (hs 0 (by omega))))
  rintro n r W' ⟨h1, rfl, rfl⟩
  have hs' : ∀ w, 1 ≤ w → w ≤ 65 → Stale al (fset W 0 tok) w := by
    intro w h1 h2
    have := hs w (by omega)
    unfold Stale at this ⊢
    rw [fset_ne _ _ (by omega)]; exact this
  by_cases hc : W 0 ≠ 0 ∧ us = true
  · rw [if_pos hc]
    refine lone_bind (lone_mono ?_ (drainAll_lone (fuel + 1) 65 0 (fun w h1 h2 => hs' w (by omega) (by omega))))
    rintro k _ W2 ⟨h2, h3⟩
    refine ⟨by omega, Or.inl ⟨rfl, ?_, ?_⟩⟩
    · rw [h3 0, if_neg (by omega), fset_same]
    · intro w hw; rw [h3 w, if_pos (by unfold slot at hw; omega)]
  · rw [if_neg hc]
    refine lone_bind (lone_mono ?_ (takeSlot_lone 65 0 rfl))
    rintro k1 sl W2 ⟨h2, ⟨y, rfl, -, h3, h4, rfl⟩ | ⟨rfl, rfl, h3⟩⟩
    · refine lone_bind (lone_mono ?_ (release_lone (by rw [fset_ne _ _ (by omega), fset_same])))
      rintro k2 _ W3 ⟨rfl, rfl⟩
      refine ⟨by omega, Or.inr ⟨y, rfl, ?_, fset_same _ _ _⟩⟩
      rw [fset_ne _ _ (by omega), fset_same]
    · refine lone_bind (lone_mono ?_ (release_lone (fset_same _ _ _)))
      rintro k2 _ W3 ⟨rfl, rfl⟩
      simp only
      rw [fset_idem]
      -- wait for a slot
      have hW1 : ∀ w, 1 ≤ w → w ≤ 65 → fset W 0 0 w ≠ 0 := by
        intro w e1 e2; rw [fset_ne _ _ (by omega)]
        have := h3 w (by omega) e2
        rwa [fset_ne _ _ (by omega)] at this
      unfold drainAny
      refine lone_bind (lone_bind (lone_mono ?_ (anyFree_lone 65 0)))
      rintro k3 b W4 ⟨h5, rfl, h6⟩
      have hb : b = false := by
        cases b with
        | false => rfl
        | true =>
          obtain ⟨w, e1, e2, e3⟩ := h6.1 rfl
          exact absurd e3 (hW1 w (by omega) (by omega))
      subst hb
      simp only [Bool.false_eq_true, if_false]
      have hlt : tok % 65 < 65 := Nat.mod_lt _ (by omega)
      refine lone_bind (lone_mono ?_ (readerRelease_lone (fuel + 1) (w := tok % 65 + 1) ?_))
      · rintro k4 _ W5 ⟨h7, rfl⟩
        unfold drainAny
        refine lone_bind (lone_mono ?_ (anyFree_lone 65 0))
        rintro k6 b W6 ⟨h8, rfl, h9⟩
        have hb : b = true := h9.2 ⟨tok % 65 + 1, by omega, by omega, fset_same _ _ _⟩
        subst hb
        simp only [if_true]
        simp only [lone]
        unfold guardRead
        -- second round: the write lock is free, so one compare-exchange takes it
        have hacq : lone (K := K) al (acquire 0 tok (fuel + 2)) (fset (fset W 0 0) (tok % 65 + 1) 0)
            (fun n r W' => n ≤ 13 ∧ r = 0 ∧ W' = fset (fset (fset W 0 0) (tok % 65 + 1) 0) 0 tok) := by
          refine lone_mono ?_ (acquire_lone (fuel + 1) (Or.inl ?_))
          · rintro n r W' ⟨e1, e2, e3⟩
            refine ⟨e1, ?_, e3⟩
            rw [e2, fset_ne _ _ (by omega), fset_same]
          · rw [fset_ne _ _ (by omega), fset_same]
        refine lone_bind (lone_mono ?_ hacq)
        rintro k7 r W7 ⟨h10, rfl, rfl⟩
        rw [if_neg (by simp)]
        refine lone_bind (lone_mono ?_ (takeSlot_lone 65 0 rfl))
        rintro k8 sl W8 ⟨h11, ⟨y, rfl, -, h12, h13, rfl⟩ | ⟨rfl, rfl, h12⟩⟩
        · refine lone_bind (lone_mono ?_ (release_lone (by rw [fset_ne _ _ (by omega), fset_same])))
          rintro k9 _ W9 ⟨rfl, rfl⟩
          refine ⟨by omega, Or.inr ⟨y, rfl, ?_, fset_same _ _ _⟩⟩
          rw [fset_ne _ _ (by omega), fset_same]
        · exfalso
          refine h12 (tok % 65 + 1) (by omega) (by omega) ?_
          rw [fset_ne _ _ (by omega), fset_same]
      · have := hs' (tok % 65 + 1) (by omega) (by omega)
        unfold Stale at this ⊢
        rw [fset_ne _ _ (by omega)] at this ⊢
        exact this

/-- what C17 assumes of a state: `t` is alive and every lock word of the read-write lock is free or held by a dead process -/
def Abandoned (pid : Nat → Nat) (s : St K) (t : Nat) : Prop :=
  s.alive (pid t) = true ∧ ∀ w, w ≤ 65 → s.words w ≠ 0 → s.alive (s.words w) = false

theorem abandoned_stale (hp : PidsOk pid) (hro : ReadOnly prog) (hi : Init pid fuel prog m0 s0) (hr : Reach pid s0 s)
    (ha : Abandoned pid s t) : ∀ w, w ≤ 65 → Stale s.alive s.words w := by
  intro w hw
  by_cases h : s.words w = 0
  · exact Or.inl h
  · right
    obtain ⟨u, _, h2⟩ := holder_word hp hro hi hr h
    have := ha.2 w hw h
    rw [h2] at this ⊢
    rwa [Nat.mod_eq_of_lt (hp u).2]

/-- **C17.** In any reachable state where the lock is free or held only by dead processes, a thread about to construct a write guard has it after at most
338 steps of its own, nobody else moving; it then holds the write lock and every reader slot is empty. -/
theorem C17_writer_gets_lock_partial (hp : PidsOk pid) (hro : ReadOnly prog) (hi : Init pid fuel prog m0 s0) (hr : Reach pid s0 s)
    (ha : Abandoned pid s t) {F : Nat} {f : Guard → LProg K Unit} (hth : s.th t = (guardWrite (F + 1) (pid t)).bind f) :
    ∃ n s', n ≤ 338 ∧ soloN t n s = some s' ∧ s'.th t = f ⟨none, s.words 0⟩ ∧ s'.words 0 = pid t ∧ ∀ w, slot w → s'.words w = 0 := by
  obtain ⟨n, a, s', h1, h2, ⟨h3, h4, h5, h6⟩, -⟩ := lone_run (guardWrite_lone F (abandoned_stale hp hro hi hr ha)) hth
  subst h4
  exact ⟨n, s', h3, h1, h2, h5, h6⟩

/-- **C17** for read guards: at most 338 steps, and the thread holds a reader slot (or, if the lock was stolen, the write lock). -/
theorem C17_reader_gets_lock_partial (hp : PidsOk pid) (hro : ReadOnly prog) (hi : Init pid fuel prog m0 s0) (hr : Reach pid s0 s)
    (ha : Abandoned pid s t) {us : Bool} {F F' : Nat} {f : Guard → LProg K Unit} (hth : s.th t = (guardRead us (F + 2) (pid t) (F' + 2)).bind f) :
    ∃ n s' g, n ≤ 338 ∧ soloN t n s = some s' ∧ s'.th t = f g ∧ (g.slot = none ∧ s'.words 0 = pid t ∧ (∀ w, slot w → s'.words w = 0) ∨
      ∃ x, g.slot = some x ∧ s'.words (x + 1) = pid t ∧ s'.words 0 = 0) := by
  obtain ⟨n, a, s', h1, h2, ⟨h3, h4⟩, -⟩ := lone_run (guardRead_lone us F F' (hp t).1 (abandoned_stale hp hro hi hr ha)) hth
  exact ⟨n, s', a, h3, h1, h2, h4⟩

/-- **C17** for a plain ProcessLock: at most 13 steps. -/
theorem C17_mutex_gets_lock_partial (hp : PidsOk pid) (hro : ReadOnly prog) (hi : Init pid fuel prog m0 s0) (hr : Reach pid s0 s)
    {w : Nat} (hw : s.words w ≠ 0 → s.alive (s.words w) = false) {F : Nat} {f : Nat → LProg K Unit}
    (hth : s.th t = (acquire w (pid t) (F + 1)).bind f) :
    ∃ n s', n ≤ 13 ∧ soloN t n s = some s' ∧ s'.th t = f (s.words w) ∧ s'.words w = pid t := by
  have hst : Stale s.alive s.words w := by
    by_cases h : s.words w = 0
    · exact Or.inl h
    · right
      obtain ⟨u, _, h2⟩ := holder_word hp hro hi hr h
      have := hw h
      rw [h2] at this ⊢
      rwa [Nat.mod_eq_of_lt (hp u).2]
  obtain ⟨n, a, s', h1, h2, ⟨h3, h4, h5⟩, -⟩ := lone_run (acquire_lone F hst) hth
  subst h4
  exact ⟨n, s', h3, h1, h2, by rw [h5, fset_same]⟩

/-! ### concrete systems -/

/-- a counter: one operation adds `d` and returns the old value -/
def tiny : Mach := ⟨Nat, fun _ => Nat, Nat, fun d m => (m, m + d), Nat⟩
def inc : Body tiny := .step (1 : Nat) fun v => .step (1 : Nat) fun _ => .ret v
def get : Body tiny := .step (0 : Nat) fun v => .ret v

/-- three threads: two writers and a reader -/
def tinyProg : Nat → List (Session tiny)
  | 0 => [.write (.ret (0 : Nat)) inc, .write (.ret (0 : Nat)) inc]
  | 1 => [.write (.ret (0 : Nat)) inc]
  | 2 => [.read (.ret (0 : Nat)) get]
  | _ => []

def tinyInit (pid : Nat → Nat) (fuel : Nat) (al : Nat → Bool) : St tiny :=
  ⟨fun _ => 0, al, (0 : Nat), [], fun t => thread fuel (pid t) (tinyProg t), fun _ => none, fun _ => none, fun _ => 0⟩

theorem tinyInit_init (pid : Nat → Nat) (fuel : Nat) (al : Nat → Bool) : Init pid fuel tinyProg (0 : Nat) (tinyInit pid fuel al) :=
  ⟨fun _ => rfl, rfl, rfl, fun _ => rfl, fun _ => rfl, fun _ => rfl, fun _ => rfl⟩

theorem tiny_readOnly : ReadOnly tinyProg := by
  intro t s hs
  match t, hs with
  | 0, hs => simp only [tinyProg, List.mem_cons, List.not_mem_nil, or_false, or_self] at hs; subst hs; trivial
  | 1, hs => simp only [tinyProg, List.mem_cons, List.not_mem_nil, or_false] at hs; subst hs; trivial
  | 2, hs =>
    simp only [tinyProg, List.mem_cons, List.not_mem_nil, or_false] at hs; subst hs
    exact ⟨fun m => rfl, fun _ => trivial⟩
  | n + 3, hs => simp [tinyProg] at hs

/-- **C15 and C16 are false as stated**: a process whose pid needs more than 18 bits is taken for dead (`pid_for_token`, ProcessLock.cc 73-75,
keeps 18 bits, while the token on Linux is the whole pid, ProcessLock.cc 51-61; Linux pids go up to 2^22).  Here thread 0 (pid 2^18 + 5, alive) is
inside its write section, and thread 1 steals the lock and enters its own. -/
def bigPid (t : Nat) : Nat := if t = 0 then 2 ^ 18 + 5 else t + 6

/-- a thread at the start of a write session gets inside when the lock words are free or look dead -/
theorem enters {s : St K} {ss : List (Session K)} {rep b : Body K} {F : Nat} (hth : s.th t = thread (F + 1) (pid t) (.write rep b :: ss))
    (hr : Reach pid s0 s) (ha : s.alive (pid t) = true) (hs : ∀ w, w ≤ 65 → Stale s.alive s.words w) :
    ∃ s', Reach pid s0 s' ∧ s'.alive = s.alive ∧ s'.st = fset s.st t (some (.write (s.words 0))) ∧ s'.words 0 = pid t ∧
      (∀ w, slot w → s'.words w = 0) ∧ (∀ u, u ≠ t → s'.th u = s.th u) ∧ s'.mem = s.mem ∧
      ∃ f, s'.th t = (embed (afterSteal (s.words 0) rep b) (afterSteal (s.words 0) rep b)).bind f := by
  have e : s.th t = (guardWrite (F + 1) (pid t)).bind fun g =>
      ((section_ (.write g.stolen) (afterSteal g.stolen rep b)).bind fun _ => destroy (pid t) g).bind fun _ =>
        (.step .idle .ret : LProg K Unit).bind fun _ => thread (F + 1) (pid t) ss := by
    rw [hth]; show (Prog.bind (Prog.bind _ _) _) = _; rw [Prog.bind_assoc]
  obtain ⟨n, a, s1, h1, h2, ⟨-, h4, h5, h6⟩, h7, h8, -, h10⟩ := lone_run (guardWrite_lone F hs) e
  obtain ⟨h11, h12⟩ := soloN_reach ha hr h1
  subst h4
  refine ⟨_, .step h11 (.enter (pid := pid) (t := t) (kd := .write (s.words 0)) (b := afterSteal (s.words 0) rep b) (by rw [h12]; exact ha) h2),
    h12, by rw [← h7], h5, h6, ?_, h8, ?_⟩
  · intro u hu; rw [← h10 u hu]; exact fset_ne _ _ hu
  · refine ⟨fun _ => (destroy (pid t) ⟨none, s.words 0⟩).bind fun _ =>
        (.step .idle .ret : LProg K Unit).bind fun _ => thread (F + 1) (pid t) ss, ?_⟩
    refine (fset_same _ _ _).trans ?_
    simp only [Prog.ret_bind]
    rw [Prog.bind_assoc]

theorem C15_false : ∃ s, Reach bigPid (tinyInit bigPid 1 (fun p => p != 5)) s ∧
    s.inside bigPid 0 (.write 0) ∧ s.inside bigPid 1 (.write (2 ^ 18 + 5)) := by
  have ha : ∀ t, (tinyInit bigPid 1 (fun p => p != 5)).alive (bigPid t) = true := by
    intro t
    simp only [tinyInit, bigPid]
    split
    · rfl
    · simp only [bne_iff_ne, ne_eq]; omega
  obtain ⟨s1, r1, a1, st1, w1, c1, t1, -⟩ := enters (pid := bigPid) (t := 0) (F := 0) (s := tinyInit bigPid 1 (fun p => p != 5))
    (s0 := tinyInit bigPid 1 (fun p => p != 5)) (ss := [.write (.ret (0 : Nat)) inc]) (rep := .ret (0 : Nat)) (b := inc) rfl .refl (ha 0) (fun w _ => Or.inl rfl)
  obtain ⟨s2, r2, a2, st2, w2, c2, t2, -⟩ := enters (pid := bigPid) (t := 1) (F := 0) (s := s1)
    (s0 := tinyInit bigPid 1 (fun p => p != 5)) (ss := []) (rep := .ret (0 : Nat)) (b := inc) (by rw [t1 1 (by omega)]; rfl) r1
    (by rw [a1]; exact ha 1) (by
      intro w hw
      by_cases e : w = 0
      · subst e; right; rw [w1, a1]; rfl
      · exact Or.inl (c1 w ⟨by omega, hw⟩))
  refine ⟨s2, r2, ⟨by rw [a2, a1]; exact ha 0, ?_⟩, ⟨by rw [a2, a1]; exact ha 1, ?_⟩⟩
  · rw [st2, fset_ne _ _ (by omega), st1, fset_same]; rfl
  · rw [st2, fset_same, w1]; rfl

/-- ordinary pids meet the hypotheses of the theorems above; with them a writer does get inside, its crash is noticed, and the next one is told -/
def okPid (t : Nat) : Nat := t % 1000 + 6
theorem okPid_ok : PidsOk okPid := by
  intro t
  have := Nat.mod_lt t (show 1000 > 0 by omega)
  unfold okPid
  constructor
  · omega
  · exact Nat.lt_of_lt_of_le (show t % 1000 + 6 < 1006 by omega) (by decide)


/-- thread 0 dies in the middle of `inc` (memory 1); thread 1 is told that token 6 was stolen -/
example : ∃ s, Reach okPid (tinyInit okPid 1 (fun _ => true)) s ∧ s.inside okPid 1 (.write 6) ∧ s.mem = (1 : Nat) := by
  obtain ⟨s1, r1, a1, st1, w1, c1, t1, m1, f, hf⟩ := enters (pid := okPid) (t := 0) (F := 0) (s := tinyInit okPid 1 (fun _ => true))
    (s0 := tinyInit okPid 1 (fun _ => true)) (ss := [.write (.ret (0 : Nat)) inc]) (rep := .ret (0 : Nat)) (b := inc) rfl .refl rfl (fun w _ => Or.inl rfl)
  have al1 : ∀ p, s1.alive p = true := by intro p; rw [a1]; rfl
  have hf' : s1.th 0 = .step (.acc (1 : Nat)) fun v => (embed inc (.step (1 : Nat) fun _ => .ret v)).bind f := hf
  have r2 := r1.step (Step.acc (pid := okPid) (t := 0) (al1 _) hf')
  have r3 := r2.step (Step.die (pid := okPid) 6)
  obtain ⟨s4, r4, a4, st4, w4, c4, t4, m4, -⟩ := enters (pid := okPid) (t := 1) (F := 0)
    (s0 := tinyInit okPid 1 (fun _ => true)) (ss := []) (rep := .ret (0 : Nat)) (b := inc)
    (by simp only [St.goto, fset]; rw [if_neg (by omega)]; exact t1 1 (by omega)) r3
    (by show fset s1.alive 6 false 7 = true; rw [fset_ne _ _ (by omega)]; exact al1 7) (by
      intro w hw
      by_cases e : w = 0
      · subst e; right
        show fset s1.alive 6 false (s1.words 0 % 2 ^ 18) = false
        rw [w1]; exact fset_same _ _ _
      · exact Or.inl (c1 w ⟨by omega, hw⟩))
  refine ⟨s4, r4, ⟨?_, ?_⟩, ?_⟩
  · rw [a4]; show fset s1.alive 6 false 7 = true; rw [fset_ne _ _ (by omega)]; exact al1 7
  · rw [st4, fset_same]; show some (Kind.write (s1.words 0)) = _; rw [w1]; rfl
  · rw [m4]; show (tiny.exec (1 : Nat) s1.mem).2 = _; rw [m1]; rfl

end Verif.Lock
