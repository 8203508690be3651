import Verif.AtomicVecProof
/-
AtomicVector: bit operations; every method satisfies the rely/guarantee specification; sequential runs; the system invariant.
-/
namespace Verif.AtomicVec
open Verif
variable {sz w : Nat}

theorem mask_getMsbD (hw : 0 < w) (b j : Nat) (hj : j < w) : (mask b : BitVec w).getMsbD j = decide (j = b % w) := by
  have hk : b % w < w := Nat.mod_lt _ hw
  unfold mask
  rw [BitVec.getMsbD_eq_getLsbD, BitVec.getLsbD_shiftLeft, BitVec.getLsbD_one]
  by_cases h : j = b % w
  · subst h; simp; omega
  · simp [h]; omega

theorem ext_msb {x y : BitVec w} (h : ∀ j, j < w → x.getMsbD j = y.getMsbD j) : x = y := BitVec.eq_of_getMsbD_eq (fun i => h i)

theorem test_bit (hw : 0 < w) (b : Nat) (x : BitVec w) : (x &&& mask b != 0#w) = x.getMsbD (b % w) := by
  have hk : b % w < w := Nat.mod_lt _ hw
  cases hx : x.getMsbD (b % w) with
  | true =>
    rw [bne_iff_ne]
    intro h
    have := congrArg (fun y => y.getMsbD (b % w)) h
    simp [BitVec.getMsbD_and, hx, mask_getMsbD hw b _ hk] at this
  | false =>
    have : x &&& mask b = 0#w := by
      apply ext_msb
      intro j hj
      rw [BitVec.getMsbD_and, mask_getMsbD hw b j hj]
      by_cases h : j = b % w
      · subst h; simp [hx]
      · simp [h]
    rw [this]; simp

theorem or_bit (hw : 0 < w) (b : Nat) (x : BitVec w) (j : Nat) (hj : j < w) :
    (x ||| mask b).getMsbD j = if j = b % w then true else x.getMsbD j := by
  rw [BitVec.getMsbD_or, mask_getMsbD hw b j hj]; split <;> simp_all

theorem and_bit (hw : 0 < w) (b : Nat) (x : BitVec w) (j : Nat) (hj : j < w) :
    (x &&& ~~~ mask b).getMsbD j = if j = b % w then false else x.getMsbD j := by
  rw [BitVec.getMsbD_and, BitVec.getMsbD_not, mask_getMsbD hw b j hj]; split <;> simp_all

theorem xor_bit (hw : 0 < w) (b : Nat) (x : BitVec w) (j : Nat) (hj : j < w) :
    (x ^^^ mask b).getMsbD j = if j = b % w then !x.getMsbD j else x.getMsbD j := by
  rw [BitVec.getMsbD_xor, mask_getMsbD hw b j hj]; split <;> simp_all

/-- every method meets its rely/guarantee specification -/
theorem call_twp (hs : 0 < sz) {fuel : Nat} (hf : 0 < fuel) (op : Op (8 * sz)) (hok : op.ok sz) {p : Proc} (hv : 4096 ≤ p.view) :
    twp sz op (call sz fuel op) none p (fun _ => True) := by
  have hw : 0 < 8 * sz := by omega
  cases op with
  | load i => exact elem_twp rfl rfl (by intro _ _ _ h; exact h) hv
  | store i v => exact elem_twp (f := fun _ => v) (res := fun _ => .unit) rfl rfl (by intro _ _ _ h; exact h) hv
  | exchange i v => exact elem_twp rfl rfl (by intro _ _ _ h; exact h) hv
  | cas i e d => exact elem_twp rfl rfl (by intro _ _ _ h; exact h) hv
  | add i v => exact elem_twp rfl rfl (by intro _ _ _ h; exact h) hv
  | sub i v => exact elem_twp rfl rfl (by intro _ _ _ h; exact h) hv
  | and i v => exact elem_twp rfl rfl (by intro _ _ _ h; exact h) hv
  | or i v => exact elem_twp rfl rfl (by intro _ _ _ h; exact h) hv
  | xor i v => exact elem_twp rfl rfl (by intro _ _ _ h; exact h) hv
  | loadBit b =>
    simp only [call, loadBit, load, Prog.bind_assoc, Prog.ret_bind]
    refine elem_twp rfl rfl ?_ hv
    rintro a r a' (h | ⟨h, rfl, rfl⟩)
    · exact Or.inl h
    · exact Or.inr ⟨h, by simp only [test_bit hw], _, rfl, fun j hj => by simp⟩
  | storeBit b v =>
    cases v with
    | true =>
      simp only [call, storeBit, fetchOr, if_true, Prog.bind_assoc, Prog.ret_bind]
      refine elem_twp rfl rfl ?_ hv
      rintro a r a' (h | ⟨h, rfl, rfl⟩)
      · exact Or.inl h
      · exact Or.inr ⟨h, by simp only [test_bit hw], _, rfl, fun j hj => or_bit hw b _ j hj⟩
    | false =>
      simp only [call, storeBit, fetchAnd, Bool.false_eq_true, if_false, Prog.bind_assoc, Prog.ret_bind]
      refine elem_twp rfl rfl ?_ hv
      rintro a r a' (h | ⟨h, rfl, rfl⟩)
      · exact Or.inl h
      · exact Or.inr ⟨h, by simp only [test_bit hw], _, rfl, fun j hj => and_bit hw b _ j hj⟩
  | xorBit b =>
    simp only [call, xorBit, fetchXor, Prog.bind_assoc, Prog.ret_bind]
    refine elem_twp rfl rfl ?_ hv
    rintro a r a' (h | ⟨h, rfl, rfl⟩)
    · exact Or.inl h
    · exact Or.inr ⟨h, by simp only [test_bit hw], _, rfl, fun j hj => xor_bit hw b _ j hj⟩
  | size =>
    refine ⟨hv, fun g hg _ => ⟨trivial, Guar.refl _ _, some (.ok (.num g.a.length)), Or.inr ⟨rfl, _, rfl, rfl, rfl⟩, fun _ => True, fun _ _ _ _ => trivial, trivial, rfl, hv⟩⟩
  | expand n => exact expand_twp rfl hf (by intro _ _ _ h; exact h) hok hv
  | expandBits n =>
    have e : (n + (8 * sz - 1)) % W64 / (8 * sz) = (n + 8 * sz - 1) / (8 * sz) := by
      rw [Nat.mod_eq_of_lt hok.1, Nat.add_sub_assoc (by omega)]
    simp only [call, expandBits, e]
    exact expand_twp rfl hf (by intro _ _ _ h; exact h) hok.2 hv

/-- a run without interruption -/
theorem twp_run {op : Op (8 * sz)} (c : VProg (8 * sz) (Ret (8 * sz))) : ∀ {τ : Option (Out (Ret (8 * sz)))} {p : Proc} {J : G (8 * sz) → Prop} {s : Sh} {g : G (8 * sz)},
    twp sz op c τ p J → J g → Rep sz s g → ∃ out s' p' g', vrun sz c s p = (Out.toRes out, s', p') ∧ Rep sz s' g' ∧ 4096 ≤ p'.view ∧
      ((τ = none ∧ Spec g.a op out g'.a) ∨ (τ = some out ∧ g'.a = g.a)) := by
  induction c with
  | ret r => intro τ p J s g h hJ hr; exact ⟨.ok r, s, p, g, rfl, hr, h.2, Or.inr ⟨h.1, rfl⟩⟩
  | err e => intro τ p J s g h hJ hr; exact ⟨.err e, s, p, g, rfl, hr, h.2, Or.inr ⟨h.1, rfl⟩⟩
  | ub => intro τ p J s g h; exact h.elim
  | step o k ih =>
    intro τ p J s g h hJ hr
    obtain ⟨hv, h⟩ := h
    obtain ⟨h1, h2, τ', h3, J', h4, h5, h6⟩ := h g hr.ok hJ
    obtain ⟨s', he, hr'⟩ := exec_sim hr hv o h1
    obtain ⟨out, s2, p2, g2, e1, e2, e3, e4⟩ := ih _ h6 h5 hr'
    refine ⟨out, s2, p2, g2, ?_, e2, e3, ?_⟩
    · simp only [vrun, he]; exact e1
    · rcases h3 with ⟨h3, h3'⟩ | ⟨h3, r, h3', h3''⟩
      · rw [h3, h3'] at e4; exact e4
      · left
        refine ⟨h3, ?_⟩
        rcases e4 with ⟨e4, -⟩ | ⟨e4, e5⟩
        · rw [h3'] at e4; cases e4
        · rw [h3'] at e4; injection e4 with e4; subst e4; rw [e5]; exact h3''

/-! ### The system -/

/-- Callers that respect the restriction under which AtomicVector works: calls of expand do not overlap each other, nor a
call on an element that did not exist when that call started. -/
def Polite (sz : Nat) (s : Sys (8 * sz)) (t : Nat) (op : Op (8 * sz)) : Prop :=
  op.ok sz ∧
  (op.isExp = true → ∀ u op' c, u ≠ t → s.th u = some (op', c) → op'.isExp = false ∧ ∀ i, op'.idx = some i → i < leRd s.sh.mem 8 8) ∧
  (∀ i, op.idx = some i → leRd s.sh.mem 8 8 ≤ i → ∀ u op' c, s.th u = some (op', c) → op'.isExp = false)

structure SInv (sz : Nat) (a0 : List (BitVec (8 * sz))) (s : Sys (8 * sz)) (g : G (8 * sz)) (lin : List (Nat × Op (8 * sz) × Out (Ret (8 * sz))))
    (st : Nat → Option (Op (8 * sz) × Option (Out (Ret (8 * sz))))) : Prop where
  rep : Rep sz s.sh g
  lin : LinRun a0 s.hist lin g.a st
  idle : ∀ t, s.alive t = true → s.th t = none → st t = none ∧ 4096 ≤ (s.proc t).view
  busy : ∀ t op c, s.alive t = true → s.th t = some (op, c) → ∃ τ J, st t = some (op, τ) ∧ Stable op J ∧ J g ∧ twp sz op c τ (s.proc t) J
  dead : ∀ t, s.alive t = false → s.th t = none
  excl : ∀ t u op op' c c', s.th t = some (op, c) → op.isExp = true → s.th u = some (op', c') → u ≠ t →
    op'.isExp = false ∧ ∀ i, op'.idx = some i → i < g.a.length

theorem upd_same {β : Type} (f : Nat → β) (a : Nat) (v : β) : upd f a v a = v := if_pos rfl
theorem upd_ne {β : Type} (f : Nat → β) {a x : Nat} (v : β) (h : x ≠ a) : upd f a v x = f x := if_neg h

theorem SInv.step {sz fuel : Nat} (hs : 0 < sz) (hf : 0 < fuel) {a0 : List (BitVec (8 * sz))} {s s' : Sys (8 * sz)} {g : G (8 * sz)}
    {lin : List (Nat × Op (8 * sz) × Out (Ret (8 * sz)))} {st : Nat → Option (Op (8 * sz) × Option (Out (Ret (8 * sz))))}
    (h : SInv sz a0 s g lin st) (hst : Step sz fuel (Polite sz) s s') :
    ∃ g' lin' st', SInv sz a0 s' g' lin' st' ∧ g.a.length ≤ g'.a.length := by
  cases hst with
  | @call t op ha hth hp =>
    obtain ⟨hok, hp1, hp2⟩ := hp
    rw [h.rep.count] at hp1 hp2
    obtain ⟨hst, hv⟩ := h.idle t ha hth
    refine ⟨g, lin, upd st t (some (op, none)), ⟨h.rep, .inv h.lin hst, ?_, ?_, ?_, ?_⟩, Nat.le_refl _⟩
    · intro u hu hn
      by_cases e : u = t
      · subst e; simp [upd] at hn
      · simp only [upd_ne _ _ e] at hn ⊢; exact h.idle u hu hn
    · intro u op' c hu hn
      by_cases e : u = t
      · subst e
        simp only [upd_same] at hn ⊢
        cases hn
        exact ⟨none, fun _ => True, rfl, fun _ _ _ _ => trivial, trivial, call_twp hs hf op hok hv⟩
      · simp only [upd_ne _ _ e] at hn ⊢; exact h.busy u op' c hu hn
    · intro u hu
      by_cases e : u = t
      · subst e; rw [ha] at hu; cases hu
      · simp only [upd_ne _ _ e]; exact h.dead u hu
    · intro u v op1 op2 c c' h1 h2 h3 hne
      simp only at h1 h3
      by_cases e1 : u = t
      · subst e1
        rw [upd_same] at h1
        rw [upd_ne _ _ hne] at h3
        cases h1
        exact hp1 h2 v op2 c' hne h3
      · rw [upd_ne _ _ e1] at h1
        by_cases e2 : v = t
        · subst e2
          rw [upd_same] at h3
          cases h3
          refine ⟨?_, ?_⟩
          · cases he : op.isExp with
            | false => rfl
            | true => have := (hp1 he u op1 c e1 h1).1; rw [h2] at this; cases this
          · intro i hi
            by_cases hl : g.a.length ≤ i
            · have := hp2 i hi hl u op1 c h1; rw [h2] at this; cases this
            · omega
        · rw [upd_ne _ _ e2] at h3
          exact h.excl u v op1 op2 c c' h1 h2 h3 hne
  | @step t op o k v sh' p' ha hth hex =>
    obtain ⟨τ, J, h1, h2, h3, hv, h4⟩ := h.busy t _ _ ha hth
    obtain ⟨hpre, hg, τ', hlin, J', hJ', hJg, htw⟩ := h4 g h.rep.ok h3
    obtain ⟨sh2, he, hr'⟩ := exec_sim h.rep hv o hpre
    rw [he] at hex
    simp only [Option.some.injEq, Prod.mk.injEq] at hex
    obtain ⟨rfl, rfl, rfl⟩ := hex
    generalize hgd : (apost sz o g (s.proc t)).2.1 = g' at *
    have hlr : ∃ lin', LinRun a0 s.hist lin' g'.a (upd st t (some (op, τ'))) := by
      rcases hlin with ⟨rfl, e⟩ | ⟨rfl, r, rfl, hsp⟩
      · have : upd st t (some (op, τ')) = st := by
          funext x; by_cases e : x = t
          · subst e; rw [upd_same, h1]
          · rw [upd_ne _ _ e]
        rw [this, e]; exact ⟨lin, h.lin⟩
      · exact ⟨_, .effect h.lin h1 hsp⟩
    obtain ⟨lin', hlr⟩ := hlr
    refine ⟨g', lin', _, ⟨hr', hlr, ?_, ?_, ?_, ?_⟩, hg.len⟩
    · intro u hu hn
      by_cases e : u = t
      · subst e; simp [upd] at hn
      · simp only [upd_ne _ _ e] at hn ⊢; exact h.idle u hu hn
    · intro u op' c hu hn
      by_cases e : u = t
      · subst e
        simp only [upd_same] at hn ⊢
        cases hn
        exact ⟨τ', J', rfl, hJ', hJg, htw⟩
      · simp only [upd_ne _ _ e] at hn ⊢
        obtain ⟨τu, Ju, b1, b2, b3, b4⟩ := h.busy u op' c hu hn
        refine ⟨τu, Ju, b1, b2, b2 g g' ?_ b3, b4⟩
        refine ⟨hg.z, hg.len, hg.lim, ?_, ?_⟩
        · intro hx
          refine hg.exp ?_
          exact (h.excl u t op' op c _ hn hx hth (fun e' => e e'.symm)).1
        · intro i hi hl
          refine (hg.exp ?_).1
          cases hx : op.isExp with
          | false => rfl
          | true => have := (h.excl t u op op' _ c hth hx hn e).2 i hi; omega
    · intro u hu
      by_cases e : u = t
      · subst e; rw [ha] at hu; cases hu
      · simp only [upd_ne _ _ e]; exact h.dead u hu
    · intro u v' op1 op2 c c' h1 h2 h3 hne
      simp only at h1 h3
      have key : ∀ x opx cx, upd s.th t (some (op, k (apost sz o g (s.proc t)).1)) x = some (opx, cx) → ∃ c0, s.th x = some (opx, c0) := by
        intro x opx cx hx
        by_cases e : x = t
        · subst e; rw [upd_same] at hx; cases hx; exact ⟨_, hth⟩
        · rw [upd_ne _ _ e] at hx; exact ⟨_, hx⟩
      obtain ⟨c1, h1⟩ := key _ _ _ h1
      obtain ⟨c2, h3⟩ := key _ _ _ h3
      obtain ⟨r1, r2⟩ := h.excl u v' op1 op2 c1 c2 h1 h2 h3 hne
      exact ⟨r1, fun i hi => Nat.lt_of_lt_of_le (r2 i hi) hg.len⟩
  | @fault t op o k ha hth hex =>
    obtain ⟨τ, J, h1, h2, h3, hv, h4⟩ := h.busy t _ _ ha hth
    obtain ⟨hpre, -⟩ := h4 g h.rep.ok h3
    obtain ⟨sh2, he, -⟩ := exec_sim h.rep hv o hpre
    rw [he] at hex; cases hex
  | @ret t op r ha hth =>
    obtain ⟨τ, J, h1, h2, h3, h4⟩ := h.busy t _ _ ha hth
    obtain ⟨rfl, hv⟩ := h4
    refine ⟨g, lin, _, ⟨h.rep, .res h.lin h1, ?_, ?_, ?_, ?_⟩, Nat.le_refl _⟩
    · intro u hu hn
      by_cases e : u = t
      · subst e; simp only [upd_same]; exact ⟨trivial, hv⟩
      · simp only [upd_ne _ _ e] at hn ⊢; exact h.idle u hu hn
    · intro u op' c hu hn
      by_cases e : u = t
      · subst e; simp [upd] at hn
      · simp only [upd_ne _ _ e] at hn ⊢; exact h.busy u op' c hu hn
    · intro u hu
      by_cases e : u = t
      · subst e; simp [upd]
      · simp only [upd_ne _ _ e]; exact h.dead u hu
    · intro u v op1 op2 c c' h1 h2 h3 hne
      simp only at h1 h3
      by_cases e1 : u = t
      · subst e1; simp [upd] at h1
      by_cases e2 : v = t
      · subst e2; simp [upd] at h3
      rw [upd_ne _ _ e1] at h1
      rw [upd_ne _ _ e2] at h3
      exact h.excl u v op1 op2 c c' h1 h2 h3 hne
  | @throw t op r ha hth =>
    obtain ⟨τ, J, h1, h2, h3, h4⟩ := h.busy t _ _ ha hth
    obtain ⟨rfl, hv⟩ := h4
    refine ⟨g, lin, _, ⟨h.rep, .res h.lin h1, ?_, ?_, ?_, ?_⟩, Nat.le_refl _⟩
    · intro u hu hn
      by_cases e : u = t
      · subst e; simp only [upd_same]; exact ⟨trivial, hv⟩
      · simp only [upd_ne _ _ e] at hn ⊢; exact h.idle u hu hn
    · intro u op' c hu hn
      by_cases e : u = t
      · subst e; simp [upd] at hn
      · simp only [upd_ne _ _ e] at hn ⊢; exact h.busy u op' c hu hn
    · intro u hu
      by_cases e : u = t
      · subst e; simp [upd]
      · simp only [upd_ne _ _ e]; exact h.dead u hu
    · intro u v op1 op2 c c' h1 h2 h3 hne
      simp only at h1 h3
      by_cases e1 : u = t
      · subst e1; simp [upd] at h1
      by_cases e2 : v = t
      · subst e2; simp [upd] at h3
      rw [upd_ne _ _ e1] at h1
      rw [upd_ne _ _ e2] at h3
      exact h.excl u v op1 op2 c c' h1 h2 h3 hne
  | die t =>
    refine ⟨g, lin, st, ⟨h.rep, h.lin, ?_, ?_, ?_, ?_⟩, Nat.le_refl _⟩
    · intro u hu hn
      by_cases e : u = t
      · subst e; simp [upd] at hu
      · simp only [upd_ne _ _ e] at hn hu; exact h.idle u hu hn
    · intro u op' c hu hn
      by_cases e : u = t
      · subst e; simp [upd] at hn
      · simp only [upd_ne _ _ e] at hn hu ⊢; exact h.busy u op' c hu hn
    · intro u hu
      by_cases e : u = t
      · subst e; simp [upd]
      · simp only [upd_ne _ _ e] at hu ⊢; exact h.dead u hu
    · intro u v op1 op2 c c' h1 h2 h3 hne
      simp only at h1 h3
      by_cases e1 : u = t
      · subst e1; simp [upd] at h1
      by_cases e2 : v = t
      · subst e2; simp [upd] at h3
      rw [upd_ne _ _ e1] at h1
      rw [upd_ne _ _ e2] at h3
      exact h.excl u v op1 op2 c c' h1 h2 h3 hne

end Verif.AtomicVec
