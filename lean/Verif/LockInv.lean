import Verif.LockProof
/-
The invariant of the whole system of threads using one ProcessReadWriteLock (and any number of ProcessLocks).
-/
namespace Verif.Lock
open Verif
variable {K : Mach}

/-- Sequential executions.  `Serial S A D m0 log m d`: running the operations of `log` one after another from memory `m0`, with
operations that were cut short by a crash in between, gives the recorded results and ends in memory `m`; `d`: the last
operation was cut short.  `A t kd b`: thread `t` has an operation `b` to run in a section of kind `kd`; `D p`: process `p` has died.
With `S`, an operation that follows a crash is always one that knows that the lock was stolen. -/
inductive Serial (pid : Nat → Nat) (S : Prop) (A : Nat → Kind → Body K → Prop) (D : Nat → Prop) (m0 : K.M) :
    List (Nat × Option Kind × Body K × Verif.Res K.Res) → K.M → Bool → Prop
  | nil : Serial pid S A D m0 [] m0 false
  | done {log m d t kd b r m'} : Serial pid S A D m0 log m d → A t kd b → Body.run b m = (r, m') →
      (S → d = true → ∃ n, n ≠ 0 ∧ kd = .write n) → (∀ n, kd = .write n → n = 0 ∨ D n) →
      Serial pid S A D m0 (log ++ [(t, some kd, b, r)]) m' false
  | crash {log m d t n b} (c : Nat) : Serial pid S A D m0 log m d → A t (.write n) b → D (pid t) →
      (S → d = true → n ≠ 0) → (n = 0 ∨ D n) → Serial pid S A D m0 log (Body.after c b m).2 true

theorem Serial.mono {pid : Nat → Nat} {S : Prop} {A : Nat → Kind → Body K → Prop} {D D' : Nat → Prop} {m0 m : K.M}
    {log : List (Nat × Option Kind × Body K × Verif.Res K.Res)} {d : Bool} (hD : ∀ t, D t → D' t) (h : Serial pid S A D m0 log m d) :
    Serial pid S A D' m0 log m d := by
  induction h with
  | nil => exact .nil
  | done _ h1 h2 h3 h4 ih => exact .done ih h1 h2 h3 (fun n hn => (h4 n hn).imp id (hD _))
  | crash c _ h1 h2 h3 h4 ih => exact .crash c ih h1 (hD _ h2) h3 (h4.imp id (hD _))

theorem run_after (c : Nat) : ∀ (b : Body K) (m : K.M), Body.run (Body.after c b m).1 (Body.after c b m).2 = Body.run b m := by
  induction c with
  | zero => intro b m; cases b <;> rfl
  | succ c ih =>
    intro b m
    cases b with
    | step op k => exact ih _ _
    | _ => rfl

theorem after_succ (c : Nat) : ∀ {b : Body K} {m m1 : K.M} {op : K.Op} {k : K.Re op → Body K}, Body.after c b m = (.step op k, m1) →
    Body.after (c + 1) b m = (k (K.exec op m1).1, (K.exec op m1).2) := by
  induction c with
  | zero =>
    intro b m m1 op k h
    cases b with
    | step op' k' =>
      simp only [Body.after, Prod.mk.injEq, Prog.step.injEq] at h
      obtain ⟨⟨rfl, h2⟩, rfl⟩ := h
      cases h2
      simp [Body.after]
    | _ => simp [Body.after] at h
  | succ c ih =>
    intro b m m1 op k h
    cases b with
    | step op' k' => exact ih (b := k' _) h
    | _ => simp [Body.after] at h

variable {pid : Nat → Nat} {c : Nat → Ctx K}

abbrev Live (pid : Nat → Nat) (s : St K) (t : Nat) : Prop := s.alive (pid t) = true

/-- the lock part of the invariant -/
structure LInv (pid : Nat → Nat) (c : Nat → Ctx K) (s : St K) (G : Nat → Ghost K) : Prop where
  lwp : ∀ t, Live pid s t → lwp (c t) (pid t) (s.th t) (fun _ g => Rest g) (G t)
  own : ∀ t, Live pid s t → ∀ w, (G t).own w → s.words w = pid t ∧ s.holder w = some t
  exact : ∀ t, Live pid s t → ∀ w, s.holder w = some t → (G t).own w
  clean : ∀ t, Live pid s t → ∀ w, (G t).clean w → (G t).own 0 ∧ slot w ∧ s.words w = 0
  dead : ∀ t, Live pid s t → ∀ d, (G t).dead d → s.alive (d % 2 ^ 18) = false
  took : ∀ t, Live pid s t → (G t).own 0 → s.took 0 = (G t).took
  sec : ∀ t, Live pid s t → s.st t = (G t).sec.map (·.1)
  holder : ∀ w, s.words w ≠ 0 → ∃ t, s.holder w = some t ∧ s.words w = pid t
  tk : ∀ w, s.took w = 0 ∨ ∃ t, s.took w = pid t

/-- process ids as the lock expects them -/
def PidsOk (pid : Nat → Nat) : Prop := ∀ t, pid t ≠ 0 ∧ pid t < 2 ^ 18

variable {s s' : St K} {G : Nat → Ghost K} {t : Nat}

theorem LInv.can (h : LInv pid c s G) (ht : Live pid s t) (w : Nat) : (G t).can (pid t) w (s.words w) :=
  ⟨fun ho => (h.own t ht w ho).1, fun hc => (h.clean t ht w hc).2.2⟩

theorem LInv.ok (h : LInv pid c s G) (ht : Live pid s t) : (G t).ok (c t) := lwp_ok (h.lwp t ht)

@[simp] theorem fset_same {β : Type} (f : Nat → β) (a : Nat) (v : β) : fset f a v a = v := by simp [fset]
theorem fset_ne {β : Type} (f : Nat → β) {a x : Nat} (v : β) (h : x ≠ a) : fset f a v x = f x := by simp [fset, h]

/-- a step of thread `t` that changes no lock word -/
theorem LInv.quiet (h : LInv pid c s G) {g' : Ghost K} {p : LProg K Unit}
    (ew : s'.words = s.words) (ea : s'.alive = s.alive) (eh : s'.holder = s.holder) (et : s'.took = s.took)
    (eth : s'.th = fset s.th t p) (est : ∀ u, u ≠ t → s'.st u = s.st u)
    (h1 : Live pid s t → Verif.Lock.lwp (c t) (pid t) p (fun _ g => Rest g) g')
    (h2 : ∀ w, g'.own w ↔ (G t).own w)
    (h3 : Live pid s t → ∀ w, g'.clean w → g'.own 0 ∧ slot w ∧ s.words w = 0)
    (h4 : Live pid s t → ∀ d, g'.dead d → s.alive (d % 2 ^ 18) = false)
    (h5 : g'.took = (G t).took)
    (h6 : s'.st t = g'.sec.map (·.1)) : LInv pid c s' (fset G t g') := by
  constructor
  · intro u hu
    rw [eth]
    by_cases e : u = t
    · subst e; rw [fset_same, fset_same]; exact h1 (by simpa [Live, ea] using hu)
    · rw [fset_ne _ _ e, fset_ne _ _ e]; exact h.lwp u (by simpa [Live, ea] using hu)
  · intro u hu w hw
    rw [ew, eh]
    by_cases e : u = t
    · subst e; rw [fset_same] at hw; exact h.own u (by simpa [Live, ea] using hu) w ((h2 w).1 hw)
    · rw [fset_ne _ _ e] at hw; exact h.own u (by simpa [Live, ea] using hu) w hw
  · intro u hu w hw
    rw [eh] at hw
    have := h.exact u (by simpa [Live, ea] using hu) w hw
    by_cases e : u = t
    · subst e; rw [fset_same]; exact (h2 w).2 this
    · rw [fset_ne _ _ e]; exact this
  · intro u hu w hw
    rw [ew]
    by_cases e : u = t
    · subst e; rw [fset_same] at hw ⊢; exact h3 (by simpa [Live, ea] using hu) w hw
    · rw [fset_ne _ _ e] at hw ⊢; exact h.clean u (by simpa [Live, ea] using hu) w hw
  · intro u hu d hd
    rw [ea]
    by_cases e : u = t
    · subst e; rw [fset_same] at hd; exact h4 (by simpa [Live, ea] using hu) d hd
    · rw [fset_ne _ _ e] at hd; exact h.dead u (by simpa [Live, ea] using hu) d hd
  · intro u hu ho
    rw [et]
    by_cases e : u = t
    · subst e; rw [fset_same] at ho ⊢
      rw [h5]; exact h.took u (by simpa [Live, ea] using hu) ((h2 0).1 ho)
    · rw [fset_ne _ _ e] at ho ⊢; exact h.took u (by simpa [Live, ea] using hu) ho
  · intro u hu
    by_cases e : u = t
    · subst e; rw [fset_same]; exact h6
    · rw [fset_ne _ _ e, est u e]; exact h.sec u (by simpa [Live, ea] using hu)
  · intro w hw; rw [ew] at hw ⊢; rw [eh]; exact h.holder w hw
  · intro w; rw [et]; exact h.tk w

/-- a live thread's word cannot be changed by another thread -/
theorem LInv.safe (h : LInv pid c s G) (hp : PidsOk pid) {u w v : Nat} (ht : Live pid s t) (hu : Live pid s u) (hne : u ≠ t)
    (hm : (G t).may (c t) (pid t) w (s.words w) v) : ¬ (G u).own w := by
  intro ho
  obtain ⟨e1, e2⟩ := h.own u hu w ho
  have hdead : ¬ (G t).dead (pid u) := by
    intro hd
    have := h.dead t ht _ hd
    rw [Nat.mod_eq_of_lt (hp u).2] at this
    exact absurd hu (by simp [Live, this])
  rcases hm with ⟨_, h2, _⟩ | ⟨_, _, h2⟩
  · rcases h2 with h2 | h2
    · exact (hp u).1 (e1.symm.trans h2)
    · rw [e1] at h2; exact hdead h2
  · rcases h2 with ⟨h2, _⟩ | ⟨_, h2, _⟩
    · rw [e1] at h2; exact hdead h2
    · have := (h.own t ht w h2).2
      rw [e2] at this
      injection this with this
      exact hne this

/-- a successful compare-exchange of thread `t` -/
theorem LInv.store (h : LInv pid c s G) (hp : PidsOk pid) {w e v : Nat} {p : LProg K Unit} {g' : Ghost K} (ht : Live pid s t)
    (he : s.words w = e) (hm : (G t).may (c t) (pid t) w e v)
    (h1 : Verif.Lock.lwp (c t) (pid t) p (fun _ g => Rest g) g')
    (hg : g' = (G t).casOk w e v ∨ (v = 0 ∧ g' = ((G t).casOk w e v).seen w)) :
    LInv pid c (s.store t w v p) (fset G t g') := by
  have hsafe : ∀ u, Live pid s u → u ≠ t → ¬ (G u).own w := fun u hu hne => h.safe hp ht hu hne (he ▸ hm)
  have hown : ∀ x, g'.own x ↔ (if x = w then v ≠ 0 else (G t).own x) := by
    intro x; rcases hg with rfl | ⟨_, rfl⟩ <;> exact Iff.rfl
  have hdd : g'.dead = (G t).dead := by rcases hg with rfl | ⟨_, rfl⟩ <;> rfl
  have hss : g'.sec = (G t).sec := by rcases hg with rfl | ⟨_, rfl⟩ <;> rfl
  have htk : g'.took = if w = 0 then e else (G t).took := by rcases hg with rfl | ⟨_, rfl⟩ <;> rfl
  have hv : v ≠ 0 → v = pid t := by
    intro hv; rcases hm with ⟨h, _⟩ | ⟨h, _⟩
    · exact h
    · exact absurd h hv
  constructor
  · intro u hu
    show Verif.Lock.lwp _ _ (fset s.th t p u) _ _
    by_cases e : u = t
    · subst e; rw [fset_same, fset_same]; exact h1
    · rw [fset_ne _ _ e, fset_ne _ _ e]; exact h.lwp u hu
  · intro u hu x hx
    show fset s.words w v x = _ ∧ fset s.holder w _ x = _
    by_cases e : u = t
    · subst e; rw [fset_same, hown] at hx
      by_cases ex : x = w
      · subst ex
        rw [if_pos rfl] at hx
        rw [fset_same, fset_same, if_neg hx]
        exact ⟨hv hx, rfl⟩
      · rw [if_neg ex] at hx
        rw [fset_ne _ _ ex, fset_ne _ _ ex]; exact h.own u hu x hx
    · rw [fset_ne _ _ e] at hx
      have ex : x ≠ w := by rintro rfl; exact hsafe u hu e hx
      rw [fset_ne _ _ ex, fset_ne _ _ ex]; exact h.own u hu x hx
  · intro u hu x hx
    change fset s.holder w _ x = some u at hx
    by_cases ex : x = w
    · subst ex
      rw [fset_same] at hx
      split at hx
      · cases hx
      · rename_i hv0
        cases hx
        rw [fset_same, hown, if_pos rfl]; exact hv0
    · rw [fset_ne _ _ ex] at hx
      have := h.exact u hu x hx
      by_cases e : u = t
      · subst e; rw [fset_same, hown, if_neg ex]; exact this
      · rw [fset_ne _ _ e]; exact this
  · intro u hu x hx
    show _ ∧ _ ∧ fset s.words w v x = 0
    by_cases e : u = t
    · subst e; rw [fset_same] at hx ⊢
      have : ((G u).clean x ∧ ¬ (w = 0) ∧ (x = w → v = 0)) ∨ (x = w ∧ slot w ∧ g'.own 0 ∧ v = 0) := by
        rcases hg with rfl | ⟨hv0, rfl⟩
        · exact Or.inl hx
        · rcases hx with hx | ⟨h1, h2, h3⟩
          · exact Or.inl hx
          · exact Or.inr ⟨h1, h2, h3, hv0⟩
      rcases this with ⟨h2, h3, h4⟩ | ⟨rfl, h3, h4, h5⟩
      · obtain ⟨h5, h6, h7⟩ := h.clean u hu x h2
        refine ⟨?_, h6, ?_⟩
        · rw [hown, if_neg (fun e => h3 e.symm)]; exact h5
        · by_cases ex : x = w
          · subst ex; rw [fset_same]; exact h4 rfl
          · rw [fset_ne _ _ ex]; exact h7
      · exact ⟨h4, h3, by rw [fset_same]; exact h5⟩
    · rw [fset_ne _ _ e] at hx ⊢
      obtain ⟨h5, h6, h7⟩ := h.clean u hu x hx
      refine ⟨h5, h6, ?_⟩
      by_cases ex : x = w
      · subst ex
        rw [fset_same]
        rcases hm with ⟨_, _, h8⟩ | ⟨h8, _⟩
        · have h9 := (h.own t ht 0 (h8 h6).1).2
          have h10 := (h.own u hu 0 h5).2
          rw [h9] at h10
          injection h10 with h10
          exact absurd h10.symm e
        · exact h8
      · rw [fset_ne _ _ ex]; exact h7
  · intro u hu d hd
    show s.alive _ = false
    by_cases e : u = t
    · subst e; rw [fset_same, hdd] at hd; exact h.dead u hu d hd
    · rw [fset_ne _ _ e] at hd; exact h.dead u hu d hd
  · intro u hu ho
    show fset s.took w (s.words w) 0 = _
    by_cases e : u = t
    · subst e; rw [fset_same] at ho ⊢
      rw [htk]
      by_cases ex : w = 0
      · subst ex; rw [fset_same, if_pos rfl]; exact he
      · rw [if_neg ex, fset_ne _ _ (fun e => ex e.symm)]
        rw [hown, if_neg (fun e => ex e.symm)] at ho
        exact h.took u hu ho
    · rw [fset_ne _ _ e] at ho ⊢
      have ex : (0 : Nat) ≠ w := by rintro rfl; exact hsafe u hu e ho
      rw [fset_ne _ _ ex]; exact h.took u hu ho
  · intro u hu
    show s.st u = _
    by_cases e : u = t
    · subst e; rw [fset_same, hss]; exact h.sec u hu
    · rw [fset_ne _ _ e]; exact h.sec u hu
  · intro x hx
    change fset s.words w v x ≠ 0 at hx
    show ∃ u, fset s.holder w _ x = some u ∧ fset s.words w v x = _
    by_cases ex : x = w
    · subst ex
      rw [fset_same] at hx
      rw [fset_same, fset_same, if_neg hx]
      exact ⟨t, rfl, hv hx⟩
    · rw [fset_ne _ _ ex] at hx
      rw [fset_ne _ _ ex, fset_ne _ _ ex]; exact h.holder x hx
  · intro x
    show fset s.took w (s.words w) x = 0 ∨ ∃ t, fset s.took w (s.words w) x = pid t
    by_cases e : x = w
    · subst e
      rw [fset_same]
      by_cases e : s.words x = 0
      · exact Or.inl e
      · obtain ⟨t, _, h⟩ := h.holder x e
        exact Or.inr ⟨t, h⟩
    · rw [fset_ne _ _ e]; exact h.tk x

/-- a writer's stolen token is that of a dead process -/
theorem LInv.stolen (h : LInv pid c s G) (hp : PidsOk pid) (ht : Live pid s t) {n : Nat} {b rem : Body K}
    (hs : (G t).sec = some (.write n, b, rem)) : s.took 0 = n ∧ (n = 0 ∨ ((∃ u, n = pid u) ∧ s.alive n = false)) := by
  have hok := h.ok ht
  unfold Ghost.ok at hok
  rw [hs] at hok
  have htk := h.took t ht hok.1
  rw [hok.2.2.1] at htk
  refine ⟨htk, ?_⟩
  rcases hok.2.2.2 with h1 | h1
  · exact Or.inl h1
  · have h6 := h.dead t ht n h1
    rcases h.tk 0 with h7 | ⟨u, h7⟩
    · rw [htk] at h7; exact Or.inl h7
    · right
      rw [htk] at h7; subst h7
      rw [Nat.mod_eq_of_lt (hp u).2] at h6
      exact ⟨⟨u, rfl⟩, h6⟩

/-- the memory part of the invariant -/
structure MInv (pid : Nat → Nat) (c : Nat → Ctx K) (S : Prop) (m0 : K.M) (s : St K) (G : Nat → Ghost K) (mc : K.M) (d : Bool) : Prop where
  ser : Serial pid S (fun t => (c t).P) (fun p => (∃ u, p = pid u) ∧ s.alive p = false) m0 s.log mc d
  allowed : ∀ t, Live pid s t → ∀ kd b rem, (G t).sec = some (kd, b, rem) → (c t).P kd b
  wr : ∀ t, Live pid s t → ∀ n b rem, (G t).sec = some (.write n, b, rem) → ∃ k, Body.after k b mc = (rem, s.mem)
  idle : (∀ t, Live pid s t → ∀ n b rem, (G t).sec ≠ some (.write n, b, rem)) → s.mem = mc
  rd : ∀ t, Live pid s t → ∀ b rem, (G t).sec = some (.read, b, rem) → ∃ k, Body.after k b mc = (rem, mc)
  dirty : S → d = true → s.words 0 ≠ 0 ∧ ∀ t, Live pid s t → ((G t).own 0 → (G t).took ≠ 0 ∧ ¬ (G t).fixed) ∧
    ∀ w, slot w → ¬ (G t).own w

/-- mutual exclusion -/
theorem LInv.excl (h : LInv pid c s G) (hp : PidsOk pid) {u n : Nat} {b rem b' rem' : Body K} {kd : Kind} (ht : Live pid s t) (hu : Live pid s u)
    (h1 : (G t).sec = some (.write n, b, rem)) (h2 : (G u).sec = some (kd, b', rem')) (hk : kd = .read ∨ ∃ m, kd = .write m) : u = t := by
  have o1 := h.ok ht
  have o2 := h.ok hu
  unfold Ghost.ok at o1 o2
  rw [h1] at o1
  rw [h2] at o2
  have key : (G u).own 0 → u = t := by
    intro h3
    have a := (h.own u hu 0 h3).2
    rw [(h.own t ht 0 o1.1).2] at a
    injection a with a
    exact a.symm
  rcases hk with rfl | ⟨m, rfl⟩
  · rcases o2.2.2 with h3 | ⟨w, h3, h4⟩
    · exact key h3.1
    · have a := (h.own u hu w h4).1
      rw [(h.clean t ht w (o1.2.1 w h3)).2.2] at a
      exact absurd a.symm (hp u).1
  · exact key o2.1

theorem ro_run {b : Body K} : ∀ {m : K.M}, Ro b → (Body.run b m).2 = m := by
  induction b with
  | ret | err | ub => intro m _; rfl
  | step op k ih =>
    intro m h
    have := ih (K.exec op m).1 (m := (K.exec op m).2) (h.2 _)
    rw [h.1 m] at this
    show (Body.run (k _) (K.exec op m).2).2 = m
    rw [h.1 m]; exact this

/-- a live thread in a read section: nothing is broken -/
theorem MInv.not_dirty_read {S : Prop} {m0 mc : K.M} {d : Bool} (hM : MInv pid c S m0 s G mc d) (h : LInv pid c s G)
    (hc : ∀ t, (c t).strict = S) (ht : Live pid s t) {b rem : Body K} (hs : (G t).sec = some (.read, b, rem)) : S → d ≠ true := by
  intro hS hd
  have hok := h.ok ht
  unfold Ghost.ok at hok
  rw [hs] at hok
  have hdt := (hM.dirty hS hd).2 t ht
  rcases hok.2.2 with ⟨h1, _, h3⟩ | ⟨w, h1, h2⟩
  · have h4 := hdt.1 h1
    rcases h3 (by rw [hc t]; exact hS) with h5 | h5
    · exact h4.1 h5
    · exact h4.2 h5
  · exact hdt.2 w h1 h2

/-- a step that touches neither memory nor sections nor word 0's protocol -/
theorem MInv.keep {S : Prop} {m0 mc : K.M} {d : Bool} (hM : MInv pid c S m0 s G mc d) {g' : Ghost K}
    (el : s'.log = s.log) (em : s'.mem = s.mem) (ea : s'.alive = s.alive) (es : g'.sec = (G t).sec)
    (hd : Live pid s t → S → d = true → s'.words 0 ≠ 0 ∧ (g'.own 0 → g'.took ≠ 0 ∧ ¬ g'.fixed) ∧ ∀ w, slot w → ¬ g'.own w)
    (hd' : ¬ Live pid s t → s'.words 0 = s.words 0) :
    MInv pid c S m0 s' (fset G t g') mc d := by
  have hsec : ∀ u, (fset G t g' u).sec = (G u).sec := by
    intro u
    by_cases e : u = t
    · subst e; rw [fset_same]; exact es
    · rw [fset_ne _ _ e]
  have hl : ∀ u, Live pid s' u → Live pid s u := fun u hu => by simpa [Live, ea] using hu
  constructor
  · rw [el]; simp only [ea]; exact hM.ser
  · intro u hu kd b rem h1; rw [hsec] at h1; exact hM.allowed u (hl u hu) kd b rem h1
  · intro u hu n b rem h1; rw [hsec] at h1; rw [em]; exact hM.wr u (hl u hu) n b rem h1
  · intro h1; rw [em]; refine hM.idle fun u hu n b rem h2 => h1 u (by simpa [Live, ea] using hu) n b rem ?_
    rw [hsec]; exact h2
  · intro u hu b rem h1; rw [hsec] at h1; exact hM.rd u (hl u hu) b rem h1
  · intro hS hdd
    have := hM.dirty hS hdd
    refine ⟨?_, ?_⟩
    · by_cases ht : Live pid s t
      · exact (hd ht hS hdd).1
      · rw [hd' ht]; exact this.1
    · intro u hu
      by_cases e : u = t
      · subst e; rw [fset_same]; exact (hd (hl u hu) hS hdd).2
      · rw [fset_ne _ _ e]; exact this.2 u (hl u hu)

/-- What a step does to the sequential execution: nothing, or a live thread finishes an operation, or a live thread dies inside a write section. -/
inductive Adv (pid : Nat → Nat) (S : Prop) (s s' : St K) (G G' : Nat → Ghost K) (mc : K.M) (d : Bool) : K.M → Bool → Prop
  | same : s'.log = s.log → Adv pid S s s' G G' mc d mc d
  | done {t : Nat} {kd : Kind} {b rem : Body K} {r : Verif.Res K.Res} {m' : K.M} : s'.log = s.log ++ [(t, some kd, b, r)] → s'.alive = s.alive → Live pid s t →
      (kd = .read ∨ ∃ n, kd = .write n) → (G t).sec = some (kd, b, rem) → (G' t).sec = none → Body.run b mc = (r, m') →
      (S → d = true → ∃ n, n ≠ 0 ∧ kd = .write n) → (∀ n, kd = .write n → n = 0 ∨ ((∃ u, n = pid u) ∧ s.alive n = false)) →
      Adv pid S s s' G G' mc d m' false
  | crash {t n : Nat} {b rem : Body K} (j : Nat) : s'.log = s.log → Live pid s t → ¬ Live pid s' t → (G t).sec = some (.write n, b, rem) →
      (S → d = true → n ≠ 0) → (n = 0 ∨ ((∃ u, n = pid u) ∧ s'.alive n = false)) →
      Adv pid S s s' G G' mc d (Body.after j b mc).2 true

/-- the section a thread is in after a step is the one it was in before, or it has just entered it -/
def Evo (pid : Nat → Nat) (s s' : St K) (G G' : Nat → Ghost K) : Prop :=
  ∀ u, Live pid s' u → Live pid s u ∧ ∀ kd b rem, (G' u).sec = some (kd, b, rem) →
    (∃ rem', (G u).sec = some (kd, b, rem')) ∨ ∃ k, s.th u = .step (.enter kd b) k

theorem Evo.keep {g' : Ghost K} (ea : s'.alive = s.alive) (es : g'.sec = (G t).sec) : Evo pid s s' G (fset G t g') := by
  intro u hu
  refine ⟨by simpa [Live, ea] using hu, fun kd b rem h1 => Or.inl ⟨rem, ?_⟩⟩
  by_cases e : u = t
  · subst e; rw [fset_same, es] at h1; exact h1
  · rw [fset_ne _ _ e] at h1; exact h1

theorem Evo.left {g' : Ghost K} (ea : s'.alive = s.alive) (es : g'.sec = none) : Evo pid s s' G (fset G t g') := by
  intro u hu
  refine ⟨by simpa [Live, ea] using hu, fun kd b rem h1 => Or.inl ⟨rem, ?_⟩⟩
  by_cases e : u = t
  · subst e; rw [fset_same, es] at h1; cases h1
  · rw [fset_ne _ _ e] at h1; exact h1

/-- **The invariant is preserved by every step**, and what the step does to the sequential execution. -/
theorem inv_adv {S : Prop} {m0 mc : K.M} {d : Bool} {a : Option Nat} (hp : PidsOk pid) (hc : ∀ t, (c t).strict = S)
    (h : LInv pid c s G) (hM : MInv pid c S m0 s G mc d) (hst : Step pid a s s') :
    ∃ G' mc' d', (Adv pid S s s' G G' mc d mc' d' ∧ Evo pid s s' G G') ∧ LInv pid c s' G' ∧ MInv pid c S m0 s' G' mc' d' := by
  have quietD : ∀ (t : Nat) (g' : Ghost K), (g'.own 0 → (G t).own 0) → (∀ w, slot w → g'.own w → (G t).own w) → g'.took = (G t).took →
      (g'.fixed → (G t).fixed) → Live pid s t → S → d = true → s.words 0 ≠ 0 ∧ (g'.own 0 → g'.took ≠ 0 ∧ ¬ g'.fixed) ∧ ∀ w, slot w → ¬ g'.own w := by
    intro t g' h1 h2 h3 h4 ht hS hd
    obtain ⟨h5, h6⟩ := hM.dirty hS hd
    refine ⟨h5, fun h => ?_, fun w hw h => (h6 t ht).2 w hw (h2 w hw h)⟩
    rw [h3]; exact ⟨((h6 t ht).1 (h1 h)).1, fun h7 => ((h6 t ht).1 (h1 h)).2 (h4 h7)⟩
  have storeD : ∀ (t w e v : Nat) (g' : Ghost K), Live pid s t → s.words w = e → (G t).may (c t) (pid t) w e v →
      (g' = (G t).casOk w e v ∨ (v = 0 ∧ g' = ((G t).casOk w e v).seen w)) → S → d = true →
      fset s.words w v 0 ≠ 0 ∧ (g'.own 0 → g'.took ≠ 0 ∧ ¬ g'.fixed) ∧ ∀ w, slot w → ¬ g'.own w := by
    intro t w e v g' ht he hm hg hS hd
    obtain ⟨h5, h6⟩ := hM.dirty hS hd
    have hcalm : (G t).own 0 → (G t).calm (c t) → False := by
      intro h1 h2
      have h3 := (h6 t ht).1 h1
      rcases h2 (by rw [hc t]; exact hS) with h4 | h4
      · exact h3.1 h4
      · exact h3.2 h4
    have hown : ∀ x, g'.own x ↔ (if x = w then v ≠ 0 else (G t).own x) := by
      intro x; rcases hg with rfl | ⟨_, rfl⟩ <;> exact Iff.rfl
    have htk : g'.took = if w = 0 then e else (G t).took := by rcases hg with rfl | ⟨_, rfl⟩ <;> rfl
    have hfx : g'.fixed ↔ (G t).fixed ∧ w ≠ 0 := by rcases hg with rfl | ⟨_, rfl⟩ <;> exact Iff.rfl
    refine ⟨?_, ?_, ?_⟩
    · by_cases ew : (0 : Nat) = w
      · subst ew
        rw [fset_same]
        rcases hm with ⟨h1, _⟩ | ⟨_, _, ⟨_, h2⟩ | ⟨_, h2, h3⟩⟩
        · rw [h1]; exact (hp t).1
        · unfold slot at h2; omega
        · exact (hcalm h2 (h3 rfl)).elim
      · rw [fset_ne _ _ ew]; exact h5
    · intro ho
      rw [htk, hfx]
      by_cases ew : w = 0
      · subst ew
        rw [if_pos rfl, ← he]
        exact ⟨h5, fun h => h.2 rfl⟩
      · rw [if_neg ew]
        rw [hown, if_neg (fun e => ew e.symm)] at ho
        exact ⟨((h6 t ht).1 ho).1, fun h => ((h6 t ht).1 ho).2 h.1⟩
    · intro x hx ho
      rw [hown] at ho
      by_cases ex : x = w
      · subst ex
        rw [if_pos rfl] at ho
        rcases hm with ⟨_, _, h1⟩ | ⟨h1, _⟩
        · exact hcalm (h1 hx).1 (h1 hx).2.2
        · exact ho h1
      · rw [if_neg ex] at ho; exact (h6 t ht).2 x hx ho
  cases hst with
  | @casOk _ t w e v k ht hth he =>
    have hl := h.lwp t ht
    rw [hth] at hl
    have hcan := h.can ht w
    rw [he] at hcan
    have hm := hl.2.1 hcan
    have hg : (if v = 0 ∧ slot w then ((G t).casOk w e v).seen w else (G t).casOk w e v) = (G t).casOk w e v ∨
        (v = 0 ∧ (if v = 0 ∧ slot w then ((G t).casOk w e v).seen w else (G t).casOk w e v) = ((G t).casOk w e v).seen w) := by
      split
      · exact Or.inr ⟨by rename_i h; exact h.1, rfl⟩
      · exact Or.inl rfl
    refine ⟨_, mc, d, ⟨.same rfl, .keep rfl ?_⟩, h.store hp ht he hm (hl.2.2.1 hcan) hg, hM.keep rfl rfl rfl ?_ ?_ (fun h => absurd ht h)⟩
    · rcases hg with h | ⟨_, h⟩ <;> rw [h] <;> rfl
    · rcases hg with h | ⟨_, h⟩ <;> rw [h] <;> rfl
    · intro _ hS hd; exact storeD t w e v _ ht he hm hg hS hd
  | @weakOk _ t w e v k ht hth he =>
    have hl := h.lwp t ht
    rw [hth] at hl
    obtain ⟨_, h1, h2, h3, h4, _⟩ := hl
    have hm : (G t).may (c t) (pid t) w e v := Or.inl ⟨h1, Or.inl h2, fun h => absurd h h3⟩
    refine ⟨_, mc, d, ⟨.same rfl, (by exact .keep rfl rfl)⟩, h.store hp ht he hm h4 (Or.inl rfl), hM.keep rfl rfl rfl rfl ?_ (fun h => absurd ht h)⟩
    intro _ hS hd; exact storeD t w e v _ ht he hm (Or.inl rfl) hS hd
  | @casFail _ t w e v k ht hth he =>
    have hl := h.lwp t ht
    rw [hth] at hl
    refine ⟨_, mc, d, ⟨.same rfl, (by exact .keep rfl rfl)⟩, h.quiet (g' := G t) rfl rfl rfl rfl rfl (fun _ _ => rfl) (fun _ => hl.2.2.2 _ (h.can ht w) he) (fun _ => Iff.rfl)
      (fun _ => h.clean t ht) (fun _ => h.dead t ht) rfl (h.sec t ht), hM.keep rfl rfl rfl rfl ?_ (fun h => absurd ht h)⟩
    exact quietD t (G t) (fun h => h) (fun _ _ h => h) rfl (fun h => h)
  | @weakFail _ t w e v k ht hth =>
    have hl := h.lwp t ht
    rw [hth] at hl
    refine ⟨_, mc, d, ⟨.same rfl, (by exact .keep rfl rfl)⟩, h.quiet (g' := G t) rfl rfl rfl rfl rfl (fun _ _ => rfl) (fun _ => hl.2.2.2.2.2 _ (h.can ht w)) (fun _ => Iff.rfl)
      (fun _ => h.clean t ht) (fun _ => h.dead t ht) rfl (h.sec t ht), hM.keep rfl rfl rfl rfl ?_ (fun h => absurd ht h)⟩
    exact quietD t (G t) (fun h => h) (fun _ _ h => h) rfl (fun h => h)
  | @load _ t w k ht hth =>
    have hl := h.lwp t ht
    rw [hth] at hl
    have h1 := hl.2 _ (h.can ht w)
    by_cases e : s.words w = 0
    · rw [if_pos e] at h1
      refine ⟨_, mc, d, ⟨.same rfl, (by exact .keep rfl rfl)⟩, h.quiet (g' := (G t).seen w) rfl rfl rfl rfl rfl (fun _ _ => rfl) (fun _ => h1) (fun _ => Iff.rfl)
        ?_ (fun _ => h.dead t ht) rfl (h.sec t ht), hM.keep rfl rfl rfl rfl ?_ (fun h => absurd ht h)⟩
      · intro _ x hx
        rcases hx with hx | ⟨rfl, h2, h3⟩
        · exact h.clean t ht x hx
        · exact ⟨h3, h2, e⟩
      · exact quietD t ((G t).seen w) (fun h => h) (fun _ _ h => h) rfl (fun h => h)
    · rw [if_neg e] at h1
      refine ⟨_, mc, d, ⟨.same rfl, (by exact .keep rfl rfl)⟩, h.quiet (g' := G t) rfl rfl rfl rfl rfl (fun _ _ => rfl) (fun _ => h1) (fun _ => Iff.rfl)
        (fun _ => h.clean t ht) (fun _ => h.dead t ht) rfl (h.sec t ht), hM.keep rfl rfl rfl rfl ?_ (fun h => absurd ht h)⟩
      exact quietD t (G t) (fun h => h) (fun _ _ h => h) rfl (fun h => h)
  | @wait _ t w v k b ht hth =>
    have hl := h.lwp t ht
    rw [hth] at hl
    refine ⟨_, mc, d, ⟨.same rfl, (by exact .keep rfl rfl)⟩, h.quiet (g' := G t) rfl rfl rfl rfl rfl (fun _ _ => rfl) (fun _ => hl.2 b) (fun _ => Iff.rfl)
      (fun _ => h.clean t ht) (fun _ => h.dead t ht) rfl (h.sec t ht), hM.keep rfl rfl rfl rfl ?_ (fun h => absurd ht h)⟩
    exact quietD t (G t) (fun h => h) (fun _ _ h => h) rfl (fun h => h)
  | @running _ t dd k ht hth =>
    have hl := h.lwp t ht
    rw [hth] at hl
    cases e : s.alive (dd % 2 ^ 18) with
    | true =>
      refine ⟨_, mc, d, ⟨.same rfl, (by exact .keep rfl rfl)⟩, h.quiet (g' := G t) rfl rfl rfl rfl rfl (fun _ _ => rfl) (fun _ => hl.2.1) (fun _ => Iff.rfl)
        (fun _ => h.clean t ht) (fun _ => h.dead t ht) rfl (h.sec t ht), hM.keep rfl rfl rfl rfl ?_ (fun h => absurd ht h)⟩
      exact quietD t (G t) (fun h => h) (fun _ _ h => h) rfl (fun h => h)
    | false =>
      refine ⟨_, mc, d, ⟨.same rfl, (by exact .keep rfl rfl)⟩, h.quiet (g' := { G t with dead := fun x => (G t).dead x ∨ x = dd }) rfl rfl rfl rfl rfl (fun _ _ => rfl)
        (fun _ => hl.2.2) (fun _ => Iff.rfl)
        (fun _ => h.clean t ht) ?_ rfl (h.sec t ht), hM.keep rfl rfl rfl rfl ?_ (fun h => absurd ht h)⟩
      · intro _ x hx
        rcases hx with hx | rfl
        · exact h.dead t ht x hx
        · exact e
      · exact quietD t _ (fun h => h) (fun _ _ h => h) rfl (fun h => h)
  | @enter _ t kd b k ht hth =>
    have hl := h.lwp t ht
    rw [hth] at hl
    obtain ⟨_, hnone, hP, hl⟩ := hl
    have hok := lwp_ok hl
    have hL : LInv pid c { s.goto t (k ()) with st := fset s.st t (some kd) } (fset G t { G t with sec := some (kd, b, b) }) :=
      h.quiet (g' := { G t with sec := some (kd, b, b) }) rfl rfl rfl rfl rfl (fun u hu => fset_ne _ _ hu) (fun _ => hl) (fun _ => Iff.rfl)
        (fun _ => h.clean t ht) (fun _ => h.dead t ht) rfl (fset_same _ _ _)
    refine ⟨_, mc, d, ⟨.same rfl, fun u hu => ⟨hu, fun kd' b' rem' hs => ?_⟩⟩, hL, ?_⟩
    · by_cases e : u = t
      · subst e; rw [fset_same] at hs; cases hs; exact Or.inr ⟨k, hth⟩
      · rw [fset_ne _ _ e] at hs; exact Or.inl ⟨_, hs⟩
    -- if `kd` is a kind of memory section, nobody is writing
    have hnow : (kd = .read ∨ ∃ n, kd = .write n) → s.mem = mc := by
      intro hk
      refine hM.idle fun u hu n b' rem' hs => ?_
      have hne : u ≠ t := by rintro rfl; rw [hnone] at hs; cases hs
      have : t = u := hL.excl hp (t := u) (u := t) (n := n) (b := b') (rem := rem') (b' := b) (rem' := b) (kd := kd) hu ht
        (by rw [fset_ne _ _ hne]; exact hs) (by rw [fset_same]) hk
      exact hne this.symm
    constructor
    · exact hM.ser
    · intro u hu kd' b' rem' hs
      by_cases e : u = t
      · subst e; rw [fset_same] at hs; cases hs; exact hP
      · rw [fset_ne _ _ e] at hs; exact hM.allowed u hu kd' b' rem' hs
    · intro u hu n b' rem' hs
      by_cases e : u = t
      · subst e; rw [fset_same] at hs; cases hs
        refine ⟨0, ?_⟩
        show Body.after 0 b mc = (b, s.mem)
        rw [hnow (Or.inr ⟨n, rfl⟩)]
        cases b <;> rfl
      · rw [fset_ne _ _ e] at hs; exact hM.wr u hu n b' rem' hs
    · intro h1
      refine hM.idle fun u hu n b' rem' hs => ?_
      have hne : u ≠ t := by rintro rfl; rw [hnone] at hs; cases hs
      exact h1 u hu n b' rem' (by rw [fset_ne _ _ hne]; exact hs)
    · intro u hu b' rem' hs
      by_cases e : u = t
      · subst e; rw [fset_same] at hs; cases hs
        exact ⟨0, by cases b <;> rfl⟩
      · rw [fset_ne _ _ e] at hs; exact hM.rd u hu b' rem' hs
    · intro hS hd
      refine ⟨(hM.dirty hS hd).1, fun u hu => ?_⟩
      by_cases e : u = t
      · subst e; rw [fset_same]; exact (hM.dirty hS hd).2 u hu
      · rw [fset_ne _ _ e]; exact (hM.dirty hS hd).2 u hu
  | @acc _ t op k ht hth =>
    have hl := h.lwp t ht
    rw [hth] at hl
    obtain ⟨hok, kd, b, k', hs, hk, hl⟩ := hl
    have hL : LInv pid c { s.goto t (k (K.exec op s.mem).1) with mem := (K.exec op s.mem).2 }
        (fset G t { G t with sec := some (kd, b, k' (K.exec op s.mem).1) }) :=
      h.quiet (g' := { G t with sec := some (kd, b, k' (K.exec op s.mem).1) }) rfl rfl rfl rfl rfl (fun u hu => rfl) (fun _ => hl _)
        (fun _ => Iff.rfl) (fun _ => h.clean t ht) (fun _ => h.dead t ht) rfl (by have := h.sec t ht; rw [hs] at this; exact this)
    refine ⟨_, mc, d, ⟨.same rfl, fun u hu => ⟨hu, fun kd' b' rem' h1 => Or.inl ?_⟩⟩, hL, ?_⟩
    · by_cases e : u = t
      · subst e; rw [fset_same] at h1; cases h1; exact ⟨_, hs⟩
      · rw [fset_ne _ _ e] at h1; exact ⟨_, h1⟩
    have hsec : ∀ u kd' b' rem', (fset G t { G t with sec := some (kd, b, k' (K.exec op s.mem).1) } u).sec = some (kd', b', rem') →
        ∃ rem'', (G u).sec = some (kd', b', rem'') := by
      intro u kd' b' rem' h1
      by_cases e : u = t
      · subst e; rw [fset_same] at h1; cases h1; exact ⟨_, hs⟩
      · rw [fset_ne _ _ e] at h1; exact ⟨_, h1⟩
    have hdirty : S → d = true → s.words 0 ≠ 0 ∧ ∀ u, Live pid s u →
        ((fset G t { G t with sec := some (kd, b, k' (K.exec op s.mem).1) } u).own 0 →
          (fset G t { G t with sec := some (kd, b, k' (K.exec op s.mem).1) } u).took ≠ 0 ∧
          ¬ (fset G t { G t with sec := some (kd, b, k' (K.exec op s.mem).1) } u).fixed) ∧
        ∀ w, slot w → ¬ (fset G t { G t with sec := some (kd, b, k' (K.exec op s.mem).1) } u).own w := by
      intro hS hd
      refine ⟨(hM.dirty hS hd).1, fun u hu => ?_⟩
      by_cases e : u = t
      · subst e; rw [fset_same]; exact (hM.dirty hS hd).2 u hu
      · rw [fset_ne _ _ e]; exact (hM.dirty hS hd).2 u hu
    rcases hk with rfl | ⟨n, rfl⟩
    · -- a reader: memory stays
      unfold Ghost.ok at hok
      rw [hs] at hok
      have hsame : (K.exec op s.mem).2 = s.mem := hok.2.1.1 _
      have hmc : s.mem = mc := hM.idle fun u hu n b' rem' h1 => by
        have := h.excl hp hu ht h1 hs (Or.inl rfl)
        subst this; rw [hs] at h1; cases h1
      constructor
      · exact hM.ser
      · intro u hu kd' b' rem' h1; obtain ⟨r2, h2⟩ := hsec u _ _ _ h1; exact hM.allowed u hu _ _ _ h2
      · intro u hu n b' rem' h1
        obtain ⟨r2, h2⟩ := hsec u _ _ _ h1
        have := h.excl hp hu ht h2 hs (Or.inl rfl)
        subst this; rw [hs] at h2; cases h2
      · intro _; show (K.exec op s.mem).2 = mc; rw [hsame]; exact hmc
      · intro u hu b' rem' h1
        by_cases e : u = t
        · subst e; rw [fset_same] at h1; cases h1
          obtain ⟨j, hj⟩ := hM.rd u hu b _ hs
          refine ⟨j + 1, ?_⟩
          rw [after_succ j hj, ← hmc]
          exact Prod.ext rfl hsame
        · rw [fset_ne _ _ e] at h1; exact hM.rd u hu b' rem' h1
      · exact hdirty
    · -- the writer
      constructor
      · exact hM.ser
      · intro u hu kd' b' rem' h1; obtain ⟨r2, h2⟩ := hsec u _ _ _ h1; exact hM.allowed u hu _ _ _ h2
      · intro u hu n' b' rem' h1
        by_cases e : u = t
        · subst e; rw [fset_same] at h1; cases h1
          obtain ⟨j, hj⟩ := hM.wr u hu _ _ _ hs
          exact ⟨j + 1, after_succ j hj⟩
        · rw [fset_ne _ _ e] at h1
          exact absurd (h.excl hp ht hu hs h1 (Or.inr ⟨_, rfl⟩)) e
      · intro h1; exact absurd (by rw [fset_same]) (h1 t ht n b (k' (K.exec op s.mem).1))
      · intro u hu b' rem' h1
        obtain ⟨r2, h2⟩ := hsec u _ _ _ h1
        have := h.excl hp ht hu hs h2 (Or.inl rfl)
        subst this; rw [hs] at h2; cases h2
      · exact hdirty
  | @leave _ t b r k ht hth =>
    have hl := h.lwp t ht
    rw [hth] at hl
    obtain ⟨hok, ⟨kd, rem, hs, hk, hrun⟩, hl⟩ := hl
    have hL : LInv pid c { s.goto t (k ()) with st := fset s.st t none, log := s.log ++ [(t, s.st t, b, r)] } (fset G t (G t).left) :=
      h.quiet (g' := (G t).left) rfl rfl rfl rfl rfl (fun u hu => fset_ne _ _ hu) (fun _ => hl)
        (fun _ => Iff.rfl) (fun _ => h.clean t ht) (fun _ => h.dead t ht) rfl (fset_same _ _ _)
    have hst : s.st t = some kd := by rw [h.sec t ht, hs]; rfl
    have hsec : ∀ u kd' b' rem', (fset G t (G t).left u).sec = some (kd', b', rem') → u ≠ t ∧ (G u).sec = some (kd', b', rem') := by
      intro u kd' b' rem' h1
      by_cases e : u = t
      · subst e; rw [fset_same] at h1; cases h1
      · rw [fset_ne _ _ e] at h1; exact ⟨e, h1⟩
    rcases hk with rfl | ⟨n, rfl⟩
    · -- a reader
      have hmc : s.mem = mc := hM.idle fun u hu n b' rem' h1 => by
        have := h.excl hp hu ht h1 hs (Or.inl rfl)
        subst this; rw [hs] at h1; cases h1
      have hnd := hM.not_dirty_read h hc ht hs
      obtain ⟨j, hj⟩ := hM.rd t ht b rem hs
      have hr : Body.run b mc = (r, mc) := by rw [← run_after j, hj]; exact hrun mc
      refine ⟨_, mc, false, ⟨.done (rem := rem) (by rw [← hst]) rfl ht (Or.inl rfl) hs (by rw [fset_same]; rfl) hr (fun hS hd => absurd hd (hnd hS)) (fun n hn => by cases hn), .left rfl rfl⟩, hL, ?_⟩
      constructor
      · show Serial _ _ _ _ _ (s.log ++ [(t, s.st t, b, r)]) mc false
        rw [hst]
        exact .done hM.ser (hM.allowed t ht _ _ _ hs) hr (fun hS hd => absurd hd (hnd hS)) (fun n hn => by cases hn)
      · intro u hu kd' b' rem' h1; exact hM.allowed u hu _ _ _ (hsec u _ _ _ h1).2
      · intro u hu n b' rem' h1
        obtain ⟨h3, h2⟩ := hsec u _ _ _ h1
        exact hM.wr u hu n b' rem' h2
      · intro _; exact hmc
      · intro u hu b' rem' h1
        obtain ⟨h3, h2⟩ := hsec u _ _ _ h1
        exact hM.rd u hu b' rem' h2
      · intro _ h; cases h
    · -- the writer
      obtain ⟨j, hj⟩ := hM.wr t ht n b rem hs
      have hr : Body.run b mc = (r, s.mem) := by rw [← run_after j, hj]; exact hrun _
      have hn0 : S → d = true → n ≠ 0 := by
        intro hS hd
        unfold Ghost.ok at hok
        rw [hs] at hok
        have := (((hM.dirty hS hd).2 t ht).1 hok.1).1
        rw [hok.2.2.1] at this; exact this
      refine ⟨_, s.mem, false, ⟨.done (rem := rem) (by rw [← hst]) rfl ht (Or.inr ⟨n, rfl⟩) hs (by rw [fset_same]; rfl) hr (fun hS hd => ⟨n, hn0 hS hd, rfl⟩)
        (fun n' hn => by cases hn; exact (h.stolen hp ht hs).2), .left rfl rfl⟩, hL, ?_⟩
      have hno : ∀ u, Live pid s u → ∀ kd' b' rem', (fset G t (G t).left u).sec = some (kd', b', rem') →
          (kd' = .read ∨ ∃ m, kd' = .write m) → False := by
        intro u hu kd' b' rem' h1 h2
        obtain ⟨h3, h4⟩ := hsec u _ _ _ h1
        exact h3 (h.excl hp ht hu hs h4 h2)
      constructor
      · show Serial _ _ _ _ _ (s.log ++ [(t, s.st t, b, r)]) _ false
        rw [hst]
        refine .done hM.ser (hM.allowed t ht _ _ _ hs) hr (fun hS hd => ⟨n, ?_, rfl⟩) (fun n' hn => by cases hn; exact (h.stolen hp ht hs).2)
        unfold Ghost.ok at hok
        rw [hs] at hok
        have := (((hM.dirty hS hd).2 t ht).1 hok.1).1
        rw [hok.2.2.1] at this; exact this
      · intro u hu kd' b' rem' h1; exact hM.allowed u hu _ _ _ (hsec u _ _ _ h1).2
      · intro u hu n b' rem' h1; exact (hno u hu _ _ _ h1 (Or.inr ⟨_, rfl⟩)).elim
      · intro _; rfl
      · intro u hu b' rem' h1; exact (hno u hu _ _ _ h1 (Or.inl rfl)).elim
      · intro _ h; cases h
  | @quit _ t k ht hth =>
    have hl := h.lwp t ht
    rw [hth] at hl
    obtain ⟨hok, ⟨w, b, rem, hs⟩, hl⟩ := hl
    have hL : LInv pid c { s.goto t (k ()) with st := fset s.st t none } (fset G t (G t).left) :=
      h.quiet (g' := (G t).left) rfl rfl rfl rfl rfl (fun u hu => fset_ne _ _ hu) (fun _ => hl)
        (fun _ => Iff.rfl) (fun _ => h.clean t ht) (fun _ => h.dead t ht) rfl (fset_same _ _ _)
    have hsec : ∀ u kd' b' rem', (fset G t (G t).left u).sec = some (kd', b', rem') → u ≠ t ∧ (G u).sec = some (kd', b', rem') := by
      intro u kd' b' rem' h1
      by_cases e : u = t
      · subst e; rw [fset_same] at h1; cases h1
      · rw [fset_ne _ _ e] at h1; exact ⟨e, h1⟩
    refine ⟨_, mc, d, ⟨.same rfl, .left rfl rfl⟩, hL, ?_⟩
    constructor
    · exact hM.ser
    · intro u hu kd' b' rem' h1; exact hM.allowed u hu _ _ _ (hsec u _ _ _ h1).2
    · intro u hu n b' rem' h1; exact hM.wr u hu n b' rem' (hsec u _ _ _ h1).2
    · intro h1
      refine hM.idle fun u hu n b' rem' h2 => ?_
      have hne : u ≠ t := by rintro rfl; rw [hs] at h2; cases h2
      exact h1 u hu n b' rem' (by rw [fset_ne _ _ hne]; exact h2)
    · intro u hu b' rem' h1; exact hM.rd u hu b' rem' (hsec u _ _ _ h1).2
    · intro hS hd
      refine ⟨(hM.dirty hS hd).1, fun u hu => ?_⟩
      by_cases e : u = t
      · subst e; rw [fset_same]
        refine ⟨fun ho => ⟨(((hM.dirty hS hd).2 u hu).1 ho).1, ?_⟩, ((hM.dirty hS hd).2 u hu).2⟩
        rintro (h1 | ⟨n, b', rem', h1⟩)
        · exact (((hM.dirty hS hd).2 u hu).1 ho).2 h1
        · rw [hs] at h1; cases h1
      · rw [fset_ne _ _ e]; exact (hM.dirty hS hd).2 u hu
  | @idle _ t k ht hth =>
    have hl := h.lwp t ht
    rw [hth] at hl
    refine ⟨_, mc, d, ⟨.same rfl, (by exact .keep rfl rfl)⟩, h.quiet (g' := G t) rfl rfl rfl rfl rfl (fun _ _ => rfl) (fun _ => hl.2.2) (fun _ => Iff.rfl)
      (fun _ => h.clean t ht) (fun _ => h.dead t ht) rfl (h.sec t ht), hM.keep rfl rfl rfl rfl ?_ (fun h => absurd ht h)⟩
    exact quietD t (G t) (fun h => h) (fun _ _ h => h) rfl (fun h => h)
  | die p =>
    have hmono : ∀ q, ((∃ u, q = pid u) ∧ s.alive q = false) → (∃ u, q = pid u) ∧ fset s.alive p false q = false := by
      intro q hq; refine ⟨hq.1, ?_⟩; unfold fset; split
      · rfl
      · exact hq.2
    have hl : ∀ u, Live pid { s with alive := fset s.alive p false } u → Live pid s u := by
      intro u hu
      change fset s.alive p false (pid u) = true at hu
      unfold fset at hu
      split at hu
      · cases hu
      · exact hu
    have hL : LInv pid c { s with alive := fset s.alive p false } G := by
      constructor
      · exact fun u hu => h.lwp u (hl u hu)
      · exact fun u hu => h.own u (hl u hu)
      · exact fun u hu => h.exact u (hl u hu)
      · exact fun u hu => h.clean u (hl u hu)
      · intro u hu x hx
        have := h.dead u (hl u hu) x hx
        show fset s.alive p false _ = false
        unfold fset; split
        · rfl
        · exact this
      · exact fun u hu => h.took u (hl u hu)
      · exact fun u hu => h.sec u (hl u hu)
      · exact h.holder
      · exact h.tk
    by_cases hw : ∃ t, Live pid s t ∧ ¬ Live pid { s with alive := fset s.alive p false } t ∧ ∃ n b rem, (G t).sec = some (.write n, b, rem)
    · obtain ⟨t, ht, ht', n, b, rem, hs⟩ := hw
      obtain ⟨j, hj⟩ := hM.wr t ht n b rem hs
      have hok := h.ok ht
      unfold Ghost.ok at hok
      rw [hs] at hok
      have hno : ∀ u, Live pid { s with alive := fset s.alive p false } u → ∀ kd' b' rem', (G u).sec = some (kd', b', rem') →
          (kd' = .read ∨ ∃ m, kd' = .write m) → False := by
        intro u hu kd' b' rem' h1 h2
        have := h.excl hp ht (hl u hu) hs h1 h2
        subst this; exact ht' hu
      have hn0 : S → d = true → n ≠ 0 := by
        intro hS hd
        have := (((hM.dirty hS hd).2 t ht).1 hok.1).1
        rw [hok.2.2.1] at this; exact this
      have hadv : Adv pid S s { s with alive := fset s.alive p false } G G mc d (Body.after j b mc).2 true :=
        .crash j rfl ht ht' hs hn0 ((h.stolen hp ht hs).2.imp id (hmono n))
      rw [hj] at hadv
      refine ⟨G, s.mem, true, ⟨hadv, fun u hu => ⟨hl u hu, fun kd b rem h1 => Or.inl ⟨rem, h1⟩⟩⟩, hL, ?_⟩
      constructor
      · have := (hM.ser.mono hmono).crash (t := t) (n := n) (b := b) j (hM.allowed t ht _ _ _ hs) ⟨⟨t, rfl⟩, by simpa [Live] using ht'⟩ (fun hS hd => by
          have := (((hM.dirty hS hd).2 t ht).1 hok.1).1
          rw [hok.2.2.1] at this; exact this) ((h.stolen hp ht hs).2.imp id (hmono n))
        rw [hj] at this
        exact this
      · intro u hu; exact hM.allowed u (hl u hu)
      · intro u hu n' b' rem' h1; exact (hno u hu _ _ _ h1 (Or.inr ⟨_, rfl⟩)).elim
      · intro _; rfl
      · intro u hu b' rem' h1; exact (hno u hu _ _ _ h1 (Or.inl rfl)).elim
      · intro _ _
        have h0 := h.own t ht 0 hok.1
        refine ⟨by show s.words 0 ≠ 0; rw [h0.1]; exact (hp t).1, fun u hu => ?_⟩
        have hne : u ≠ t := by rintro rfl; exact ht' hu
        refine ⟨fun ho => ?_, fun w hw ho => ?_⟩
        · have := (h.own u (hl u hu) 0 ho).2
          rw [h0.2] at this
          injection this with this
          exact absurd this.symm hne
        · have a := (h.own u (hl u hu) w ho).1
          rw [(h.clean t ht w (hok.2.1 w hw)).2.2] at a
          exact absurd a.symm (hp u).1
    · refine ⟨G, mc, d, ⟨.same rfl, fun u hu => ⟨hl u hu, fun kd b rem h1 => Or.inl ⟨rem, h1⟩⟩⟩, hL, ?_⟩
      constructor
      · exact hM.ser.mono hmono
      · intro u hu; exact hM.allowed u (hl u hu)
      · intro u hu; exact hM.wr u (hl u hu)
      · intro h1
        refine hM.idle fun u hu n b rem h2 => ?_
        by_cases hu' : Live pid { s with alive := fset s.alive p false } u
        · exact h1 u hu' n b rem h2
        · exact hw ⟨u, hu, hu', n, b, rem, h2⟩
      · intro u hu; exact hM.rd u (hl u hu)
      · intro hS hd
        exact ⟨(hM.dirty hS hd).1, fun u hu => (hM.dirty hS hd).2 u (hl u hu)⟩

/-- **The invariant is preserved by every step.** -/
theorem inv_step {S : Prop} {m0 mc : K.M} {d : Bool} {a : Option Nat} (hp : PidsOk pid) (hc : ∀ t, (c t).strict = S)
    (h : LInv pid c s G) (hM : MInv pid c S m0 s G mc d) (hst : Step pid a s s') :
    ∃ G' mc' d', LInv pid c s' G' ∧ MInv pid c S m0 s' G' mc' d' := by
  obtain ⟨G', mc', d', -, h1, h2⟩ := inv_adv hp hc h hM hst
  exact ⟨G', mc', d', h1, h2⟩

end Verif.Lock
