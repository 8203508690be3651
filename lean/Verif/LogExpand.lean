import Verif.LogPop
/-
allocate when the pool has to grow.
-/
namespace Verif.Logarithmic
open Verif
open Verif.Simple (w w_wr w_lt Geo put put_w put_size rwp_r rwp_w Grow)

variable {p p' q : Pool} {T : Tiles} {F : Nat → List Nat} {E : Nat → Prop} {o k n : Nat} {s : St} {C : Prop}

/-- the state between calls -/
structure Ready (C : Prop) (p : Pool) (T : Tiles) : Prop where
  inv : ∃ F, LInv p T F (fun _ => False)
  coal : Coal C T
  nh : ∀ x j, T x ≠ some (j, .held)

/-- the pool cannot grow to 2 GiB (sizes are computed in 32-bit `int`s by size_for_order) -/
def Cap (p : Pool) : Prop := p.lim < 2 ^ 31 ∨ (p.maxSize ≠ 0 ∧ p.maxSize < 2 ^ 31)

theorem expand_cap (hg : Geo p) (hc : Cap p) (hs : p.size < 2 ^ 31) (m : Nat) :
    rwp (expand m) (fun out p' => (out = .ok () ∧ Grow p p' ∧ p'.size = max p.size (roundPage m) ∧ p'.size < 2 ^ 31) ∨
      (out = .err .noMem ∧ p' = p)) NoCrash p := by
  refine rwp_mono ?_ (fun _ _ => trivial) (rwp_of_run (Simple.expand_spec hg m))
  rintro out p' ⟨h | h, hr⟩
  · obtain ⟨h1, h2, h3, h4⟩ := h
    refine Or.inl ⟨h1, h2, h3, ?_⟩
    rcases hc with hc | hc
    · rw [run_expand p hg] at hr
      split at hr
      · subst h1; cases hr
      · split at hr
        · have : p' = p := by injection hr with _ hr; exact hr.symm
          omega
        · split at hr
          · omega
          · subst h1; cases hr
    · omega
  · exact Or.inr ⟨h.1, h.2.1⟩

/-! ### the walk over the free blocks at the end -/

/-- with an allocated block at or after `o`, the walk does not reach the end of the pool -/
theorem walk_spec (h : LInv p T F (fun _ => False)) (hnh : ∀ x j, T x ≠ some (j, .held)) {a j m : Nat} (ha : T a = some (j, .alloc m)) :
    ∀ (K : Nat) {o : Nat} {t : Nat × St}, T o = some t → o ≤ a →
    rwp (walk p.size K o) (fun out p' => p' = p ∧ ∃ o' k', out = .ok (o', k') ∧ o' < p.size) NoCrash p := by
  have hat := h.geom.tile ha
  have hpa := Nat.two_pow_pos j
  intro K
  induction K with
  | zero => intro o t ht hoa; exact ⟨trivial, rfl, o, 0, rfl, by omega⟩
  | succ K ih =>
    intro o t ht hoa
    obtain ⟨k, st⟩ := t
    have h0 := h.geom.mod16 ht
    unfold walk
    split
    · rename_i hc
      simp only [Prog.bind_def]
      refine rwp_r trivial h.geo (by omega) ?_
      generalize hv : w p.mem o = v
      split
      · exact ⟨trivial, rfl, o, _, rfl, by omega⟩
      · rename_i hna
        split
        · exact ⟨trivial, rfl, o, _, rfl, by omega⟩
        · rename_i hord
          have hne : o ≠ a := by
            rintro rfl
            have := (h.al ha).1
            have h3 := (h.al ha).2.1
            have h4 := h.cap
            rw [← hv, this, alloc_mkAlloc (by omega)] at hna
            exact hna rfl
          have hd := h.geom.disj ht ha (by omega)
          have hkk : k = K + 1 := by
            cases st with
            | free =>
              obtain ⟨A, B, hF, hw0, -⟩ := h.lst.seg_mem ht
              have hl : lastD A 0 < 2 ^ 57 := h.last_lt (k := k) (fun x hx => by rw [hF]; simp [hx])
              have := h.geom.ord_lt ht h.cap
              rw [hv] at hw0
              rw [hw0, order_mkFree (by omega) hl] at hord
              omega
            | held => exact absurd ht (hnh o k)
            | alloc m' =>
              have := (h.al ht).1
              have h3 := (h.al ht).2.1
              have h4 := h.cap
              have h5 := h.geom.tile ht
              rw [← hv, this, alloc_mkAlloc (by omega)] at hna
              exact absurd rfl hna
          have hk31 := h.geom.ord_lt ht h.cap
          subst hkk
          rw [sizeForOrder_eq hk31]
          simp only [Prog.pure_def, Prog.ret_bind]
          have hp := Nat.two_pow_pos (K + 1)
          obtain ⟨o', k', s', h6, h7, h8⟩ := h.geom.cov (o + 2 ^ (K + 1)) (by omega) (by omega) (by simp)
          have e : o' = o + 2 ^ (K + 1) := by
            rcases Nat.lt_or_ge o o' with h9 | h9
            · have := h.geom.disj ht h6 h9; omega
            · have h10 := Nat.two_pow_pos k'
              by_cases e2 : o' = o
              · subst e2; rw [ht] at h6; have := (some_pair h6).1; subst this; omega
              · have := h.geom.disj h6 ht (by omega); omega
          subst e
          exact ih h6 hd
    · exact ⟨trivial, rfl, o, _, rfl, by omega⟩

/-- a larger pool has an uncovered tail -/
theorem LInv.grow (h : LInv p T F (fun _ => False)) (g : Grow p q) (hs : q.size < 2 ^ 31) : LInv q T F (fun x => p.size ≤ x) := by
  have hmin := h.geo.min
  refine ⟨g.geo, hs, (h.geom.grow g.sz).congrE (fun x => by simp), ⟨h.lst.mem, h.lst.nodup, ?_, ?_, ?_⟩, ?_⟩
  · intro k h4 h5; have := headA_b h4 h5; rw [g.w (by omega) (by omega)]; exact h.lst.head k h4 h5
  · intro k h4 h5; have := tailA_b h4 h5; rw [g.w (by omega) (by omega)]; exact h.lst.tail k h4 h5
  · intro k
    refine (h.lst.seg k).congr (fun x hx => ?_)
    have := h.elem hx
    exact ⟨g.w (by omega) (by omega), g.w (by omega) (by omega)⟩
  · intro x k n hx
    have := h.geom.mod16 hx
    rw [g.w (by omega) (by omega)]; exact h.al hx

/-- only the uncovered part inside the pool matters -/
theorem LInv.congrE' (h : LInv p T F E) {E' : Nat → Prop} (hE : ∀ x, 1168 ≤ x → x < p.size → (E' x ↔ E x)) : LInv p T F E' := by
  refine ⟨h.geo, h.cap, ⟨h.geom.tile, ?_, h.geom.disj, ?_⟩, h.lst, h.al⟩
  · intro o k s ht x h1 h2
    have := h.geom.tile ht
    rw [hE x (by omega) (by omega)]
    exact h.geom.nE ht x h1 h2
  · intro x h1 h2 h3
    rw [hE x h1 h2] at h3
    exact h.geom.cov x h1 h2 h3

theorem Fill.sameAl {P : Nat → Prop} {p0 : Pool} {T0 : Tiles} {o0 : Nat} (h : Fill P p0 T0 E o0 p T o) : SameAl T0 T := by
  intro x j m
  constructor
  · intro hx
    rcases h.new x j _ hx with h1 | ⟨h1, -⟩
    · exact h1
    · cases h1
  · exact h.ext x _
theorem Fill.nh {P : Nat → Prop} {p0 : Pool} {T0 : Tiles} {o0 : Nat} (h : Fill P p0 T0 E o0 p T o)
    (h0 : ∀ x j, T0 x ≠ some (j, .held)) : ∀ x j, T x ≠ some (j, .held) := by
  intro x j hx
  rcases h.new x j _ hx with h1 | ⟨h1, -⟩
  · exact h0 x j h1
  · cases h1

/-- the gap between the old end and the new block -/
theorem fillGap_spec {S a j m : Nat} (h : LInv p T F (fun x => S ≤ x ∧ ¬ (a ≤ x ∧ x < a + 2 ^ j))) (ha : T a = some (j, .alloc m))
    (hc : Coal C T) (hnh : ∀ x j, T x ≠ some (j, .held)) (hS : 1168 ≤ S) (h16 : S % 16 = 0) (hSa : S ≤ a) :
    rwp (fillGap S a) (fun out p' => out = .ok () ∧ ∃ T' F', LInv p' T' F' (fun x => a + 2 ^ j ≤ x) ∧ Coal C T' ∧
      (∀ x j, T' x ≠ some (j, .held)) ∧ SameAl T T' ∧ LKeep 304 T p p' ∧ p'.size = p.size) NoCrash p := by
  have hp := Nat.two_pow_pos j
  have ha0 := h.geom.mod16 ha
  have ha1 := h.geom.tile ha
  unfold fillGap
  split
  · rename_i hlt
    simp only [Prog.bind_def]
    have hsum : S + (a - S) = a := by omega
    refine rwp_bind_of (createFrees_spec (P := fun x => x = S ∨ ¬ C) h hS h16 (by omega) (by omega) ?_ ?_ (Or.inl (Or.inl rfl)) ?_)
      (fun _ _ => trivial) ?_ (by rintro e s' ⟨h, -⟩; cases h)
    · intro x h1 h2; exact ⟨h1, by omega⟩
    · intro x i hn _ h1 h2; exact hc (Classical.byContradiction fun hC => hn (Or.inr hC)) x i h1 h2
    · intro i hi
      rw [hsum, ha] at hi; cases (some_pair hi).2
    · rintro - r ⟨-, T2, hf⟩
      rw [hsum] at hf
      obtain ⟨F2, hi⟩ := hf.inv
      obtain ⟨j2, hj2⟩ := hf.first hlt
      refine rwp_bind_of (mergeAt_spec (C := C) hi hj2 ?_ (hf.nh hnh) ?_) (fun _ _ => trivial) ?_ (by rintro e s' ⟨⟨_, h⟩, -⟩; cases h)
      · intro hC x i h1 h2
        exact hf.coal x i (fun h => h.elim h1 (fun h => h hC)) (fun h => h.elim h2 (fun h => h hC))
      · rintro x ⟨⟨h1, h2⟩, h3⟩
        exact ⟨a, j, m, hf.ext _ _ ha, hlt, by omega⟩
      · rintro - r2 ⟨-, T3, F3, hi3, hc3, hsa, hnh3, hkp, hsz⟩
        refine ⟨trivial, rfl, T3, F3, hi3.congrE ?_, hc3, hnh3, hf.sameAl.trans hsa, ?_, hsz.trans hf.sz⟩
        · intro x
          constructor
          · intro h1; exact ⟨⟨by omega, by omega⟩, by omega⟩
          · rintro ⟨⟨h1, h2⟩, h3⟩; omega
        · exact hf.kp.trans hkp (fun x i n hx => (hf.sameAl x i n).2 hx)
  · rename_i hge
    refine ⟨trivial, rfl, T, F, h.congrE ?_, hc, hnh, SameAl.refl _, LKeep.refl _ _ _, rfl⟩
    intro x
    constructor
    · intro h1; exact ⟨by omega, by omega⟩
    · rintro ⟨h1, h2⟩; omega

/-- what a successful allocation guarantees -/
structure Got (C : Prop) (p : Pool) (T : Tiles) (n k : Nat) (p' : Pool) (T' : Tiles) (o : Nat) : Prop where
  rdy : Ready C p' T'
  al : ∀ x j m, T' x = some (j, .alloc m) ↔ (T x = some (j, .alloc m) ∨ (x = o ∧ j = k ∧ m = n))
  new : ∀ j m, T o ≠ some (j, .alloc m)
  kp : LKeep 288 T p p'
  ba : w p'.mem 288 = (w p.mem 288 + n) % W64
  bc : w p'.mem 296 = (w p.mem 296 + 2 ^ k) % W64
  lt : n + 8 ≤ 2 ^ k
  le : p.size ≤ p'.size

theorem finish_spec {S a : Nat} (h : LInv p T F (fun x => S ≤ x)) (hc : Coal C T) (hnh : ∀ x j, T x ≠ some (j, .held))
    (hS : 1168 ≤ S) (h16 : S % 16 = 0) (hSa : S ≤ a) (hd : 2 ^ k ∣ a) (h4 : 4 ≤ k) (hsz : a + 2 ^ k ≤ p.size)
    (h1 : n + 8 ≤ 2 ^ k) (h2 : 2 ^ k < 2 * (n + 8)) :
    rwp (finish n k (2 ^ k) S a) (fun out p' => out = .ok (a + 8) ∧ (∃ T', Got C p T n k p' T' a) ∧ p'.size = p.size) NoCrash p := by
  have hp := Nat.two_pow_pos k
  have hnone : ∀ x, S ≤ x → T x = none := fun x hx => h.geom.none_of_E hx
  -- the new block
  have hi1 : LInv p (tset T a k .held) F (fun x => S ≤ x ∧ ¬ (a ≤ x ∧ x < a + 2 ^ k)) := by
    refine h.reheld (h.geom.place h4 hd (by omega) hsz (fun x h1 _ => by omega) .held) ?_
    intro x j st hst
    by_cases e : x = a
    · subst e; rw [tset_same, hnone _ hSa]
      constructor
      · intro hx; exact absurd (some_pair hx).2.symm hst
      · intro hx; cases hx
    · rw [tset_ne e]
  have hi2 := hi1.setAlloc (tset_same _ _ _ _) h1 h2
  have e1 : tset (tset T a k .held) a k (.alloc n) = tset T a k (.alloc n) := by
    funext x; unfold tset; split <;> rfl
  rw [e1] at hi2
  have hta := tset_same T a k (.alloc n)
  have ha0 := hi2.geom.mod16 hta
  have hz1 := put_size (p := p) (a := a) (v := mkAlloc n) (by omega)
  have hcap := h.cap
  have hk31 := hi2.geom.ord_lt hta hi2.cap
  have hc2 : Coal C (tset T a k (.alloc n)) := hc.x.alloc
  have hnh2 : ∀ x j, tset T a k (.alloc n) x ≠ some (j, .held) := by
    intro x j hx
    by_cases e : x = a
    · subst e; rw [tset_same] at hx; cases (some_pair hx).2
    · rw [tset_ne e] at hx; exact hnh x j hx
  have hext : ∀ x j m, T x = some (j, .alloc m) → tset T a k (.alloc n) x = some (j, .alloc m) := by
    intro x j m hx
    rw [tset_ne]; exact hx
    rintro rfl; rw [hnone _ hSa] at hx; cases hx
  have hkp1 : LKeep 304 T p (put p a (mkAlloc n)) := by
    refine ⟨?_, ?_, rfl, rfl⟩
    · intro i _ hi; exact leWr_out _ _ _ _ _ (by omega)
    · intro x j m hx i hi1 hi2
      refine leWr_out _ _ _ _ _ (Or.inl ?_)
      have := h.geom.nE hx i hi1 hi2
      omega
  unfold finish
  simp only [Prog.bind_def]
  refine rwp_w trivial h.geo (by omega) ?_
  refine rwp_bind_of (fillGap_spec hi2 hta hc2 hnh2 hS h16 hSa) (fun _ _ => trivial) ?_ (by rintro e s' ⟨h, -⟩; cases h)
  rintro - q ⟨-, T3, F3, hi3, hc3, hnh3, hsa3, hkp3, hsz3⟩
  have hzq : q.size = p.size := hsz3.trans hz1
  have gq := hi3.geo
  have hmin := gq.min
  refine rwp_r trivial gq (by omega) ?_
  have hta3 : T3 a = some (k, .alloc n) := (hsa3 a k n).2 hta
  have es : sub64 (w q.mem 0) (a + 2 ^ k) = p.size - (a + 2 ^ k) := by
    rw [show w q.mem 0 = q.size from rfl, hzq]
    unfold sub64
    rw [Nat.mod_eq_of_lt (a := a + 2 ^ k) (by omega)]
    omega
  rw [es]
  have hdA := pow16 h4
  have hpg := gq.page
  have h16k := Nat.mod_eq_zero_of_dvd hdA.1
  have hsum : a + 2 ^ k + (p.size - (a + 2 ^ k)) = p.size := by omega
  refine rwp_bind_of (createFrees_spec (P := fun _ => ¬ C) hi3 (by omega) (by omega) (by omega) (by omega)
    (fun x h1 _ => h1) (fun x i hn _ h1 h2 => hc3 (Classical.not_not.1 hn) x i h1 h2) (Or.inr ?_) ?_)
      (fun _ _ => trivial) ?_ (by rintro e s' ⟨h, -⟩; cases h)
  · intro hx
    have hal := align_facts (o := a + 2 ^ k) (by omega) (by omega) (by omega)
    have hge : k ≤ orderAlignment (a + 2 ^ k) := orderAlignment_ge (by omega) (by omega) (Nat.dvd_add hd (Nat.dvd_refl _))
    generalize orderAlignment (a + 2 ^ k) = t at *
    rcases buddy_spec hal.2.1 with ⟨hbad, -⟩ | ⟨-, h3, h5, -⟩
    · exact hal.2.2.1 hbad
    · rw [h5] at hx
      have hpw : 2 ^ k ≤ 2 ^ t := Nat.pow_le_pow_right (n := 2) (i := k) (by decide) hge
      have := hi3.geom.same hx hta3 (x := a) (by omega) (by omega) (Nat.le_refl _) (by omega)
      rw [this, hta3] at hx
      cases (some_pair hx).2
  · intro i hx
    rw [hsum] at hx
    have := hi3.geom.tile hx
    have := Nat.two_pow_pos i
    omega
  · rintro - r ⟨-, T4, hf⟩
    rw [hsum] at hf
    obtain ⟨F4, hi4⟩ := hf.inv
    have hzr : r.size = p.size := hf.sz.trans hzq
    refine rwp_bind_of (account_spec (n := n) hi4.geo hk31) (fun _ _ => trivial) ?_ (by rintro e s' ⟨h, -⟩; cases h)
    rintro - r2 ⟨-, rfl⟩
    have hkr : LKeep 304 T p r := (hkp1.trans hkp3 hext).trans hf.kp (fun x j m hx => (hsa3 x j m).2 (hext x j m hx))
    have hsa := hsa3.trans hf.sameAl
    refine ⟨trivial, rfl, ⟨T4, ⟨⟨F4, ?_⟩, ?_, hf.nh hnh3⟩, ?_, ?_, ?_, ?_, ?_, h1, ?_⟩, ?_⟩
    · refine (hi4.counted).congrE' ?_
      intro x h3 h5
      have h6 : x < p.size := by rw [← hzr]; exact Nat.lt_of_lt_of_eq h5 counted_size
      constructor
      · intro hf; exact hf.elim
      · rintro ⟨h7, h8⟩; omega
    · intro hC x i h3 h5; exact hf.coal x i (fun h => h hC) (fun h => h hC) h3 h5
    · intro x j m
      rw [hsa x j m]
      by_cases e : x = a
      · subst e; rw [tset_same, hnone _ hSa]
        constructor
        · intro hx; obtain ⟨e1, e2⟩ := some_pair hx; injection e2 with e2; exact Or.inr ⟨rfl, e1.symm, e2.symm⟩
        · rintro (hx | ⟨-, rfl, rfl⟩)
          · cases hx
          · rfl
      · rw [tset_ne e]
        constructor
        · exact Or.inl
        · rintro (hx | ⟨hx, -⟩)
          · exact hx
          · exact absurd hx e
    · intro j m hx; rw [hnone _ hSa] at hx; cases hx
    · refine LKeep.counted (E := fun x => S ≤ x) ?_ (hkr.weaken (by omega))
      rw [hzr]; exact h.geom
    · rw [counted_w (by decide), if_neg (by decide), if_pos rfl, hkr.w (by decide) (by decide)]
    · rw [counted_w (by decide), if_pos rfl, hkr.w (by decide) (by decide)]
    · rw [counted_size, hzr]; exact Nat.le_refl _
    · rw [counted_size]; exact hzr

end Verif.Logarithmic
