import Verif.LogMerge
/-
create_free_blocks tiles a stretch of the pool with free blocks.
-/
namespace Verif.Logarithmic
open Verif
open Verif.Simple (w w_wr w_lt Geo put put_w put_size rwp_r rwp_w)

variable {p : Pool} {T : Tiles} {F : Nat → List Nat} {E : Nat → Prop} {o k : Nat} {s : St}

/-- no two free buddies of the same order outside `P` -/
def CoalP (P : Nat → Prop) (T : Tiles) : Prop :=
  ∀ o k, ¬ P o → ¬ P (o ^^^ 2 ^ k) → T o = some (k, .free) → T (o ^^^ 2 ^ k) ≠ some (k, .free)

theorem CoalP.setFree {P : Nat → Prop} (h : CoalP P T) (hd : 2 ^ k ∣ o) (hb : P o ∨ T (o ^^^ 2 ^ k) ≠ some (k, .free)) :
    CoalP P (tset T o k .free) := by
  intro x j hP1 hP2 h1 h2
  by_cases e1 : x = o
  · subst e1
    rcases hb with hb | hb
    · exact hP1 hb
    · rw [tset_same] at h1
      have := (some_pair h1).1
      subst this
      rw [tset_ne (buddy_ne hd)] at h2
      exact hb h2
  · rw [tset_ne e1] at h1
    by_cases e2 : x ^^^ 2 ^ j = o
    · rcases hb with hb | hb
      · exact hP2 (e2 ▸ hb)
      · rw [e2, tset_same] at h2
        have := (some_pair h2).1
        subst this
        apply hb
        rw [← e2, buddy_buddy]; exact h1
    · rw [tset_ne e2] at h2
      exact h x j hP1 hP2 h1 h2

theorem Geom.none_of_E {S : Nat} (h : Geom T E S) (hE : E o) : T o = none := by
  cases ht : T o with
  | none => rfl
  | some t =>
    obtain ⟨k, s⟩ := t
    exact absurd hE (h.nE ht o (Nat.le_refl _) (by have := Nat.two_pow_pos k; omega))

theorem LInv.congrE (h : LInv p T F E) {E' : Nat → Prop} (hE : ∀ x, E' x ↔ E x) : LInv p T F E' :=
  ⟨h.geo, h.cap, h.geom.congrE hE, h.lst, h.al⟩

/-- create_free_block on uncovered space -/
theorem placeFree_spec (h : LInv p T F E) (hk : 4 ≤ k) (hd : 2 ^ k ∣ o) (hlo : 1168 ≤ o) (hhi : o + 2 ^ k ≤ p.size)
    (hE : ∀ x, o ≤ x → x < o + 2 ^ k → E x) :
    rwp (createFree o k) (fun out p' => out = .ok () ∧
      (∃ F', LInv p' (tset T o k .free) F' (fun x => E x ∧ ¬ (o ≤ x ∧ x < o + 2 ^ k))) ∧
      LKeep 304 T p p' ∧ p'.size = p.size) NoCrash p := by
  have hnone : T o = none := h.geom.none_of_E (hE o (Nat.le_refl _) (by have := Nat.two_pow_pos k; omega))
  have h1 : LInv p (tset T o k .held) F (fun x => E x ∧ ¬ (o ≤ x ∧ x < o + 2 ^ k)) := by
    refine h.reheld (h.geom.place hk hd hlo hhi hE .held) ?_
    intro x j st hst
    by_cases e : x = o
    · subst e; rw [tset_same, hnone]
      constructor
      · intro hx; exact absurd (some_pair hx).2.symm hst
      · intro hx; cases hx
    · rw [tset_ne e]
  refine rwp_mono ?_ (fun _ _ => trivial) (createFree_spec h1 (tset_same _ _ _ _))
  rintro out p' ⟨ho, hi, hkp, hsz⟩
  have e : tset (tset T o k .held) o k .free = tset T o k .free := by
    funext x; unfold tset; split <;> rfl
  rw [e] at hi
  refine ⟨ho, ⟨_, hi⟩, ⟨hkp.hdr, ?_, hkp.mx, hkp.lm⟩, hsz⟩
  intro x j n hx
  refine hkp.blk (o := x) (k := j) (n := n) ?_
  rw [tset_ne]; exact hx
  rintro rfl; rw [hnone] at hx; cases hx

/-- the state while a stretch starting at `o0` is being filled, with everything below `o` done -/
structure Fill (P : Nat → Prop) (p0 : Pool) (T0 : Tiles) (E : Nat → Prop) (o0 : Nat) (p : Pool) (T : Tiles) (o : Nat) : Prop where
  inv : ∃ F, LInv p T F (fun x => E x ∧ ¬ (o0 ≤ x ∧ x < o))
  ext : ∀ x t, T0 x = some t → T x = some t
  new : ∀ x j st, T x = some (j, st) → T0 x = some (j, st) ∨ (st = .free ∧ o0 ≤ x ∧ x < o)
  coal : CoalP P T
  kp : LKeep 304 T0 p0 p
  sz : p.size = p0.size
  first : o0 < o → ∃ j, T o0 = some (j, .free)
  ge : o0 ≤ o

/-- one more block -/
theorem Fill.step {P : Nat → Prop} {p0 : Pool} {T0 : Tiles} {o0 e : Nat} (h : Fill P p0 T0 E o0 p T o)
    (hk : 4 ≤ k) (hd : 2 ^ k ∣ o) (hlo : 1168 ≤ o0) (hhi : o + 2 ^ k ≤ e) (he : e ≤ p0.size)
    (hE : ∀ x, o0 ≤ x → x < e → E x) (hb : P o ∨ T (o ^^^ 2 ^ k) ≠ some (k, .free)) :
    rwp (createFree o k) (fun out p' => out = .ok () ∧ Fill P p0 T0 E o0 p' (tset T o k .free) (o + 2 ^ k)) NoCrash p := by
  obtain ⟨F, hi⟩ := h.inv
  have hp := Nat.two_pow_pos k
  have hge := h.ge
  have hT0 : T o = none := hi.geom.none_of_E ⟨hE o hge (by omega), by omega⟩
  refine rwp_mono ?_ (fun _ h => h) (placeFree_spec hi hk hd (by omega) (by rw [h.sz]; omega)
    (fun x h1 h2 => ⟨hE x (by omega) (by omega), by omega⟩))
  rintro out p' ⟨ho, ⟨F', hi'⟩, hkp, hsz⟩
  refine ⟨ho, ⟨F', hi'.congrE ?_⟩, ?_, ?_, h.coal.setFree hd hb, ?_, hsz.trans h.sz, ?_, by omega⟩
  · intro x
    constructor
    · rintro ⟨h1, h2⟩; exact ⟨⟨h1, by omega⟩, by omega⟩
    · rintro ⟨⟨h1, h2⟩, h3⟩; exact ⟨h1, by omega⟩
  · intro x t hx
    rw [tset_ne]; exact h.ext x t hx
    rintro rfl; rw [h.ext _ _ hx] at hT0; cases hT0
  · intro x j st hx
    by_cases e1 : x = o
    · subst e1; rw [tset_same] at hx; exact Or.inr ⟨(some_pair hx).2.symm, hge, by omega⟩
    · rw [tset_ne e1] at hx
      rcases h.new x j st hx with h1 | ⟨h1, h2, h3⟩
      · exact Or.inl h1
      · exact Or.inr ⟨h1, h2, by omega⟩
  · exact h.kp.trans hkp (fun x j n hx => h.ext _ _ hx)
  · intro _
    by_cases e1 : o0 = o
    · subst e1; exact ⟨k, tset_same _ _ _ _⟩
    · obtain ⟨j, hj⟩ := h.first (by omega)
      exact ⟨j, by rw [tset_ne e1]; exact hj⟩

/-- the alignment of an offset in the pool -/
theorem align_facts {o : Nat} (h16 : o % 16 = 0) (h0 : 0 < o) (h : o < 2 ^ 31) :
    4 ≤ orderAlignment o ∧ 2 ^ orderAlignment o ∣ o ∧ ¬ 2 ^ (orderAlignment o + 1) ∣ o ∧ orderAlignment o < 31 := by
  have h1 := orderAlignment_spec h0 (by omega)
  refine ⟨orderAlignment_ge h0 (by omega) (Nat.dvd_of_mod_eq_zero h16), h1.1, h1.2, ?_⟩
  have : 2 ^ orderAlignment o < 2 ^ 31 := Nat.lt_of_le_of_lt (Nat.le_of_dvd h0 h1.1) h
  exact (Nat.pow_lt_pow_iff_right (by decide)).1 this

/-- adding the alignment raises the alignment -/
theorem align_step {o t : Nat} (hd : 2 ^ t ∣ o) (hn : ¬ 2 ^ (t + 1) ∣ o) : 2 ^ (t + 1) ∣ o + 2 ^ t := by
  rcases buddy_spec hd with ⟨h, -⟩ | ⟨-, h1, -, h2⟩
  · exact absurd h hn
  · have e : o + 2 ^ t = (o - 2 ^ t) + 2 ^ (t + 1) := by rw [Nat.pow_succ]; omega
    rw [e]; exact Nat.dvd_add h2 (Nat.dvd_refl _)

theorem createUp_spec {P : Nat → Prop} {p0 : Pool} {T0 : Tiles} {o0 e : Nat} (hlo : 1168 ≤ o0) (hcap : e < 2 ^ 31)
    (he : e ≤ p0.size) (hE : ∀ x, o0 ≤ x → x < e → E x)
    (h0 : P o0 ∨ T0 (o0 ^^^ 2 ^ orderAlignment o0) ≠ some (orderAlignment o0, .free)) :
    ∀ (fuel : Nat) {p : Pool} {T : Tiles} {o : Nat}, e ≤ o + fuel → o ≤ e → o % 16 = 0 →
    Fill P p0 T0 E o0 p T o → (o = o0 ∧ T = T0 ∨ ∃ o' k' s', T o' = some (k', s') ∧ o' + 2 ^ k' = o ∧ 2 ^ (k' + 1) ∣ o) →
    rwp (createUp e fuel o) (fun out p' => ∃ o' T', out = .ok o' ∧ Fill P p0 T0 E o0 p' T' o' ∧ o' ≤ e ∧ o' % 16 = 0 ∧
      ∃ a, 2 ^ a ∣ o' ∧ e - o' < 2 ^ a) NoCrash p := by
  intro fuel
  induction fuel with
  | zero =>
    intro p T o hf hoe h16 h hprev
    exact ⟨trivial, o, T, rfl, h, hoe, h16, 0, Nat.one_dvd _, by rw [Nat.pow_zero]; omega⟩
  | succ fuel ih =>
    intro p T o hf hoe h16 h hprev
    have hge := h.ge
    unfold createUp
    split
    · rename_i hlt
      have ha := align_facts h16 (by omega) (by omega)
      rw [sizeForOrder_eq ha.2.2.2]
      simp only [Prog.bind_def, Prog.pure_def, Prog.ret_bind]
      split
      · rename_i hgt
        exact ⟨trivial, o, T, rfl, h, hoe, h16, _, ha.2.1, by omega⟩
      · rename_i hfit
        have h16' := pow16 ha.1
        have hst := align_step ha.2.1 ha.2.2.1
        have hnb : P o ∨ T (o ^^^ 2 ^ orderAlignment o) ≠ some (orderAlignment o, .free) := by
          rcases hprev with ⟨e1, e2⟩ | ⟨o', k', s', h1, h2, h3⟩
          · subst e1; subst e2; exact h0
          · right
            intro hc
            obtain ⟨F, hi⟩ := h.inv
            have hk' : k' + 1 ≤ orderAlignment o := orderAlignment_ge (by omega) (by omega) h3
            rcases buddy_spec ha.2.1 with ⟨hbad, -⟩ | ⟨-, h4, h5, -⟩
            · exact ha.2.2.1 hbad
            · rw [h5] at hc
              have hpw : 2 ^ (k' + 1) ≤ 2 ^ orderAlignment o := Nat.pow_le_pow_right (by decide) hk'
              rw [Nat.pow_succ] at hpw
              have hp' := Nat.two_pow_pos k'
              have := hi.geom.same h1 hc (x := o') (Nat.le_refl _) (by omega) (by omega) (by omega)
              omega
        refine rwp_bind_of (h.step ha.1 ha.2.1 hlo (by omega) he hE hnb) (fun _ _ => trivial) ?_
          (by rintro e s' ⟨h, -⟩; cases h)
        rintro - q ⟨-, hq⟩
        refine ih (by omega) (by omega) ?_ hq (Or.inr ⟨o, _, _, tset_same _ _ _ _, rfl, hst⟩)
        have := Nat.mod_eq_zero_of_dvd h16'.1
        omega
    · rename_i hge'
      exact ⟨trivial, o, T, rfl, h, hoe, h16, 0, Nat.one_dvd _, by rw [Nat.pow_zero]; omega⟩

theorem createDown_spec {P : Nat → Prop} {p0 : Pool} {T0 : Tiles} {o0 e : Nat} (hlo : 1168 ≤ o0) (hcap : e < 2 ^ 31)
    (he : e ≤ p0.size) (he16 : e % 16 = 0) (hE : ∀ x, o0 ≤ x → x < e → E x) (hend : ∀ j, T0 e ≠ some (j, .free)) :
    ∀ (fuel : Nat) {p : Pool} {T : Tiles} {o : Nat}, e ≤ o + fuel → o ≤ e → o % 16 = 0 →
    Fill P p0 T0 E o0 p T o → (∃ a, 2 ^ a ∣ o ∧ e - o < 2 ^ a) →
    rwp (createDown e fuel o) (fun out p' => out = .ok () ∧ ∃ T', Fill P p0 T0 E o0 p' T' e) NoCrash p := by
  intro fuel
  induction fuel with
  | zero =>
    intro p T o hf hoe h16 h _
    have : o = e := by omega
    subst this
    exact ⟨trivial, rfl, T, h⟩
  | succ fuel ih =>
    intro p T o hf hoe h16 h ha
    have hge := h.ge
    unfold createDown
    split
    · rename_i hlt
      obtain ⟨a, had, hae⟩ := ha
      have hne : e - o ≠ 0 := by omega
      have hlg := largest_eq hne (by omega)
      have hl1 := Nat.log2_self_le hne
      have hl2 : e - o < 2 ^ (Nat.log2 (e - o) + 1) := Nat.lt_log2_self
      rw [hlg]
      generalize hj : Nat.log2 (e - o) = j at *
      have hj4 : 4 ≤ j := by
        rw [← hj, Nat.le_log2 hne]; show 16 ≤ _; omega
      have hja : j < a := by
        have : 2 ^ j < 2 ^ a := by omega
        exact (Nat.pow_lt_pow_iff_right (by decide)).1 this
      have hd1 : 2 ^ (j + 1) ∣ o := Nat.dvd_trans (Nat.pow_dvd_pow 2 hja) had
      have hd : 2 ^ j ∣ o := Nat.dvd_trans (Nat.pow_dvd_pow 2 (by omega)) hd1
      have hp16 := pow16 hj4
      have hj31 : j < 31 := by
        have : 2 ^ j < 2 ^ 31 := by omega
        exact (Nat.pow_lt_pow_iff_right (by decide)).1 this
      have hnb : T (o ^^^ 2 ^ j) ≠ some (j, .free) := by
        rcases buddy_spec hd with ⟨-, e1⟩ | ⟨hbad, -⟩
        · rw [e1]
          intro hc
          obtain ⟨F, hi⟩ := h.inv
          by_cases hlt2 : o + 2 ^ j < e
          · rw [hi.geom.none_of_E ⟨hE _ (by omega) hlt2, by omega⟩] at hc; cases hc
          · have e2 : o + 2 ^ j = e := by omega
            rw [e2] at hc
            rcases h.new _ _ _ hc with h1 | ⟨-, -, h3⟩
            · exact hend j h1
            · omega
        · exact absurd hd1 hbad
      simp only [Prog.bind_def]
      refine rwp_bind_of (h.step hj4 hd hlo (by omega) he hE (Or.inr hnb)) (fun _ _ => trivial) ?_
        (by rintro e s' ⟨h, -⟩; cases h)
      rintro - q ⟨-, hq⟩
      rw [sizeForOrder_eq hj31]
      simp only [Prog.pure_def, Prog.ret_bind]
      refine ih (by omega) (by omega) ?_ hq ⟨j, Nat.dvd_add hd (Nat.dvd_refl _), ?_⟩
      · have := Nat.mod_eq_zero_of_dvd hp16.1
        omega
      · rw [Nat.pow_succ] at hl2; omega
    · rename_i hge'
      have : o = e := by omega
      subst this
      exact ⟨trivial, rfl, T, h⟩

theorem createFrees_spec {P : Nat → Prop} {o0 n : Nat} (h : LInv p T F E) (hlo : 1168 ≤ o0) (h16 : o0 % 16 = 0) (hn16 : n % 16 = 0)
    (he : o0 + n ≤ p.size) (hE : ∀ x, o0 ≤ x → x < o0 + n → E x) (hc : CoalP P T)
    (h0 : P o0 ∨ T (o0 ^^^ 2 ^ orderAlignment o0) ≠ some (orderAlignment o0, .free))
    (hend : ∀ j, T (o0 + n) ≠ some (j, .free)) :
    rwp (createFrees o0 n) (fun out p' => out = .ok () ∧ ∃ T', Fill P p T E o0 p' T' (o0 + n)) NoCrash p := by
  have hcap := h.cap
  have hf : Fill P p T E o0 p T o0 := ⟨⟨F, h.congrE (fun x => ⟨fun h => h.1, fun h => ⟨h, by omega⟩⟩)⟩, fun _ _ h => h,
    fun _ _ _ h => Or.inl h, hc, LKeep.refl _ _ _, rfl, fun h => absurd h (Nat.lt_irrefl _), Nat.le_refl _⟩
  unfold createFrees
  simp only [Prog.bind_def]
  refine rwp_bind_of (createUp_spec hlo (by omega) he hE h0 n (by omega) (by omega) h16 hf (Or.inl ⟨rfl, rfl⟩))
    (fun _ _ => trivial) ?_ (by rintro e s' ⟨_, _, h, -⟩; cases h)
  rintro o' q ⟨o2, T', e1, hq, hle, h16', ha⟩
  injection e1 with e1
  subst e1
  have := hq.ge
  exact createDown_spec hlo (by omega) he (by omega) hE hend n (by omega) hle h16' hq ha

end Verif.Logarithmic
