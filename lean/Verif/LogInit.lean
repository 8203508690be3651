import Verif.LogOps
/-
The constructor.
-/
namespace Verif.Logarithmic
open Verif
open Verif.Simple (w w_wr w_lt Geo put put_w put_size rwp_r rwp_w Grow)

variable {p : Pool}
theorem start_eq : start = 1168 := rfl
attribute [local irreducible] Pool.size w start

/-- what the clearing loop does -/
structure Zeroed (p p' : Pool) (m : Nat) : Prop where
  geo : Geo p'
  sz : p'.size = p.size
  mx : p'.maxSize = p.maxSize
  lm : p'.lim = p.lim
  lo : ∀ a, a % 8 = 0 → a + 8 ≤ 304 → w p'.mem a = w p.mem a
  zero : ∀ i, i < m → w p'.mem (304 + 8 * i) = 0 ∧ w p'.mem (736 + 8 * i) = 0

theorem zeroLists_spec (hg : Geo p) : ∀ m, m ≤ 60 →
    rwp (zeroLists m) (fun out p' => out = .ok () ∧ Zeroed p p' m) NoCrash p := by
  have hmin := hg.min
  intro m
  induction m with
  | zero => intro _; exact ⟨trivial, rfl, hg, rfl, rfl, rfl, fun _ _ _ => rfl, fun i hi => absurd hi (Nat.not_lt_zero _)⟩
  | succ m ih =>
    intro hm
    unfold zeroLists
    simp only [Prog.bind_def]
    refine rwp_bind_of (ih (by omega)) (fun _ _ => trivial) ?_ (by rintro e s' ⟨h, -⟩; cases h)
    rintro - q ⟨-, hq⟩
    have hzq := hq.sz
    have g1 := hq.geo.put (a := 304 + 8 * m) (v := 0) (by omega)
    have z1 := put_size (p := q) (a := 304 + 8 * m) (v := 0) (by omega)
    have g2 := g1.put (a := 736 + 8 * m) (v := 0) (by omega)
    have z2 := put_size (p := put q (304 + 8 * m) 0) (a := 736 + 8 * m) (v := 0) (by omega)
    refine rwp_w trivial hq.geo (by omega) ?_
    refine ⟨trivial, g1.inb (by omega), trivial, rfl, g2, z2.trans (z1.trans hzq), hq.mx, hq.lm, ?_, ?_⟩
    · intro a h8 ha
      refine Eq.trans (put_w (p := put q (304 + 8 * m) 0) (by omega) h8) ?_
      rw [if_neg (by omega), put_w (by omega) h8, if_neg (by omega)]
      exact hq.lo a h8 ha
    · intro i hi
      have key : ∀ a, a % 8 = 0 → (a = 304 + 8 * m ∨ a = 736 + 8 * m ∨ w q.mem a = 0) →
          w (put (put q (304 + 8 * m) 0) (736 + 8 * m) 0).mem a = 0 := by
        intro a h8 ha
        rw [put_w (by omega) h8]
        split
        · rfl
        · rw [put_w (by omega) h8]
          split
          · rfl
          · rcases ha with ha | ha | ha
            · contradiction
            · contradiction
            · exact ha
      by_cases e : i = m
      · subst e
        exact ⟨key _ (by omega) (Or.inl rfl), key _ (by omega) (Or.inr (Or.inl rfl))⟩
      · have := hq.zero i (by omega)
        exact ⟨key _ (by omega) (Or.inr (Or.inr this.1)), key _ (by omega) (Or.inr (Or.inr this.2))⟩

/-- the constructor on a new pool -/
theorem init_spec {C : Prop} (hg : Geo p) (hs : p.size < 2 ^ 31) (h8 : w p.mem 8 = 0) :
    rwp init (fun out p' => out = .ok () ∧ (∃ T, Ready C p' T ∧ ∀ x j m, T x ≠ some (j, .alloc m)) ∧ p'.size = p.size ∧
      p'.maxSize = p.maxSize ∧ p'.lim = p.lim ∧ w p'.mem 288 = 0 ∧ w p'.mem 296 = 1168 ∧ w p'.mem 280 = 0) NoCrash p := by
  have hmin := hg.min
  have hpg := hg.page
  obtain ⟨st, hst⟩ : ∃ st, start = st := ⟨_, rfl⟩
  obtain ⟨m, hm⟩ : ∃ m, p.size - 1168 = m := ⟨_, rfl⟩
  have hst' : st = 1168 := by rw [← hst]; exact start_eq
  have hsum : st + m = p.size := by omega
  unfold init
  simp only [Prog.bind_def]
  refine rwp_r trivial hg (by omega) ?_
  rw [h8, if_neg (by simp)]
  have g1 := hg.put (a := 8) (v := 1) (by omega)
  have z1 := put_size (p := p) (a := 8) (v := 1) (by omega)
  have g2 := g1.put (a := 280) (v := 0) (by omega)
  have z2 := put_size (p := put p 8 1) (a := 280) (v := 0) (by omega)
  have g3 := g2.put (a := 288) (v := 0) (by omega)
  have z3 := put_size (p := put (put p 8 1) 280 0) (a := 288) (v := 0) (by omega)
  have g4 := g3.put (a := 296) (v := start) (by omega)
  have z4 := put_size (p := put (put (put p 8 1) 280 0) 288 0) (a := 296) (v := start) (by omega)
  refine rwp_w trivial hg (by omega) ?_
  refine rwp_w trivial g1 (by omega) ?_
  refine rwp_w trivial g2 (by omega) ?_
  refine rwp_w trivial g3 (by omega) ?_
  have e288 : w (put (put (put (put p 8 1) 280 0) 288 0) 296 start).mem 288 = 0 := by
    rw [put_w (by decide) (by decide), if_neg (by decide), put_w (by decide) (by decide), if_pos rfl]
  have e296 : w (put (put (put (put p 8 1) 280 0) 288 0) 296 start).mem 296 = 1168 := by
    rw [put_w (by decide) (by decide), if_pos rfl, start_eq]
  have e280 : w (put (put (put (put p 8 1) 280 0) 288 0) 296 start).mem 280 = 0 := by
    rw [put_w (by decide) (by decide), if_neg (by decide), put_w (by decide) (by decide), if_neg (by decide),
      put_w (by decide) (by decide), if_pos rfl]
  have emx : (put (put (put (put p 8 1) 280 0) 288 0) 296 start).maxSize = p.maxSize := rfl
  have elm : (put (put (put (put p 8 1) 280 0) 288 0) 296 start).lim = p.lim := rfl
  have hz4 := z4.trans (z3.trans (z2.trans z1))
  generalize put (put (put (put p 8 1) 280 0) 288 0) 296 start = q at *
  refine rwp_bind_of (zeroLists_spec g4 60 (Nat.le_refl _)) (fun _ _ => trivial) ?_ (by rintro e s' ⟨h, -⟩; cases h)
  rintro - r ⟨-, hr⟩
  have hzr := hr.sz
  refine rwp_r trivial hr.geo (by omega) ?_
  have es : sub64 (w r.mem 0) start = p.size - 1168 := by
    rw [size_w, hzr, hz4]
    rw [start_eq]; unfold sub64
    omega
  rw [es]
  clear es
  have hi : LInv r (fun _ => none) (fun _ => []) (fun _ => True) := by
    refine ⟨hr.geo, by omega, ⟨?_, ?_, ?_, ?_⟩, ⟨?_, ?_, ?_, ?_, ?_⟩, ?_⟩
    · intro o k s h; cases h
    · intro o k s h; cases h
    · intro o k s o' k' s' h; cases h
    · intro x _ _ h; exact absurd trivial h
    · intro k o; simp
    · intro k; exact List.nodup_nil
    · intro k h4 h5
      have := (hr.zero (k - 4) (by omega)).1
      rw [show headA k = 304 + 8 * (k - 4) by unfold headA; omega]; exact this
    · intro k h4 h5
      have := (hr.zero (k - 4) (by omega)).2
      rw [show tailA k = 736 + 8 * (k - 4) by unfold tailA; omega]; exact this
    · intro k; trivial
    · intro o k n h; cases h
  rw [hst, hm]
  refine rwp_mono ?_ (fun _ h => h) (createFrees_spec (P := fun _ => False) (o0 := st) (n := m) hi (by omega) (by omega)
    (by omega) (by omega) (fun _ _ _ => trivial) (by intro o k _ _ h; cases h) (Or.inr (fun h => nomatch h)) (fun j h => nomatch h))
  rintro out p' ⟨ho, T', hf⟩
  obtain ⟨F', hi'⟩ := hf.inv
  rw [hsum] at hi' hf
  have hz' : p'.size = p.size := hf.sz.trans (hzr.trans hz4)
  refine ⟨ho, ⟨T', ⟨⟨F', hi'.congrE' ?_⟩, ?_, hf.nh (by intro x j; simp)⟩, ?_⟩, hz', hf.kp.mx.trans (hr.mx.trans emx),
    hf.kp.lm.trans (hr.lm.trans elm), ?_, ?_, ?_⟩
  · intro x h1 h2
    constructor
    · intro h; exact h.elim
    · rintro ⟨-, h3⟩; omega
  · intro _ x i h3 h5; exact hf.coal x i (by simp) (by simp) h3 h5
  · intro x j m hx
    have := (hf.sameAl x j m).1 hx
    cases this
  · rw [hf.kp.w (by decide) (by decide), hr.lo _ (by decide) (by decide)]; exact e288
  · rw [hf.kp.w (by decide) (by decide), hr.lo _ (by decide) (by decide)]; exact e296
  · rw [hf.kp.w (by decide) (by decide), hr.lo _ (by decide) (by decide)]; exact e280

end Verif.Logarithmic
