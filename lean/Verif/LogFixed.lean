import Verif.PropsLogarithmic
/-
`allocate` in a pool that cannot grow: whatever lies at the end of the pool, a request for which there is no free block throws
and leaves the pool as it was.
-/
namespace Verif.Logarithmic
open Verif
open Verif.Simple (w w_wr w_lt Geo put put_w put_size rwp_r rwp_w Grow)

variable {p p' q : Pool} {T : Tiles} {F : Nat → List Nat} {E : Nat → Prop} {o k n : Nat} {s : St} {C : Prop}

/-- this opener's maximum or the system's limit has been reached -/
def Full (p : Pool) : Prop := (p.maxSize ≠ 0 ∧ p.maxSize ≤ p.size) ∨ p.lim ≤ p.size

theorem expand_full (hg : Geo p) (hf : Full p) {m : Nat} (hm : p.size < m) (hm2 : m < 2 ^ 62) :
    rwp (expand m) (fun out p' => out = .err .noMem ∧ p' = p) NoCrash p := by
  refine rwp_mono ?_ (fun _ _ => trivial) (rwp_of_run (Simple.expand_spec hg m))
  have hge := (Simple.roundPage_le (n := m) (by omega)).1
  rintro out p' ⟨h, hr⟩
  rw [run_expand p hg] at hr
  rcases h with ⟨h1, -⟩ | ⟨h1, h2, -⟩
  · exfalso
    subst h1
    split at hr
    · cases hr
    · rename_i h1
      rcases hf with hf | hf
      · exact h1 ⟨hf.1, by omega⟩
      · split at hr
        · omega
        · split at hr
          · omega
          · cases hr
  · exact ⟨h1, h2⟩

attribute [local irreducible] Pool.size w

theorem walk_any (h : LInv p T F (fun _ => False)) (hnh : ∀ x j, T x ≠ some (j, .held)) :
    ∀ (K : Nat) {o : Nat}, (o = p.size ∨ ∃ t, T o = some t) →
    rwp (walk p.size K o) (fun out p' => p' = p ∧ ∃ o' k', out = .ok (o', k')) NoCrash p := by
  intro K
  induction K with
  | zero => intro o _; exact ⟨trivial, rfl, o, 0, rfl⟩
  | succ K ih =>
    intro o ht
    unfold walk
    by_cases hc : 4 ≤ K + 1 ∧ o < p.size
    · rw [if_pos hc]
      obtain ⟨⟨k, st⟩, ht⟩ := ht.resolve_left (by omega)
      have h0 := h.geom.mod16 ht
      have h00 := h.geom.tile ht
      simp only [Prog.bind_def]
      refine rwp_r trivial h.geo (by omega) ?_
      generalize hv : w p.mem o = v
      split
      · exact ⟨trivial, rfl, o, _, rfl⟩
      · rename_i hna
        split
        · exact ⟨trivial, rfl, o, _, rfl⟩
        · rename_i hord
          have hkk : k = K + 1 := by
            cases st with
            | free =>
              obtain ⟨A, B, hF, hw0, -⟩ := h.lst.seg_mem ht
              have hl : lastD A 0 < 2 ^ 57 := h.last_lt (k := k) (fun x hx => by rw [hF]; simp [hx])
              have := h.geom.ord_lt ht h.cap
              rw [hv] at hw0
              rw [hw0, order_mkFree (by omega) hl] at hord
              omega
            | held => exact absurd ht (hnh o k)
            | alloc m' =>
              have := (h.al ht).1
              have h3 := (h.al ht).2.1
              have h4 := h.cap
              have h5 := h.geom.tile ht
              rw [← hv, this, alloc_mkAlloc (by omega)] at hna
              exact absurd rfl hna
          have hk31 := h.geom.ord_lt ht h.cap
          subst hkk
          rw [sizeForOrder_eq hk31]
          simp only [Prog.pure_def, Prog.ret_bind]
          have hp := Nat.two_pow_pos (K + 1)
          by_cases hend : o + 2 ^ (K + 1) = p.size
          · exact ih (Or.inl hend)
          · obtain ⟨o', k', s', h6, h7, h8⟩ := h.geom.cov (o + 2 ^ (K + 1)) (by omega) (by omega) (by simp)
            have e : o' = o + 2 ^ (K + 1) := by
              rcases Nat.lt_or_ge o o' with h9 | h9
              · have := h.geom.disj ht h6 h9; omega
              · have h10 := Nat.two_pow_pos k'
                by_cases e2 : o' = o
                · subst e2; rw [ht] at h6; have := (some_pair h6).1; subst this; omega
                · have := h.geom.disj h6 ht (by omega); omega
            subst e
            exact ih (Or.inr ⟨_, h6⟩)
    · rw [if_neg hc]
      exact ⟨trivial, rfl, o, _, rfl⟩

theorem walk_end_any (h : Ready C p T) {b : Nat} (hb : b = p.size / 2 ^ k * 2 ^ k) :
    rwp (walk p.size (largestOrderWithin (p.size - b)) b) (fun out p' => p' = p ∧ ∃ o' k', out = .ok (o', k')) NoCrash p := by
  obtain ⟨F, hi⟩ := h.inv
  have hp := Nat.two_pow_pos k
  have hmin := hi.geo.min
  have hdm := Nat.div_add_mod p.size (2 ^ k)
  have hml := Nat.mod_lt p.size hp
  rw [Nat.mul_comm, ← hb] at hdm
  have hbd : 2 ^ k ∣ b := by rw [hb]; exact Nat.dvd_mul_left _ _
  by_cases hbs : b = p.size
  · exact walk_any hi h.nh _ (Or.inl hbs)
  · have hbl : b < p.size := by omega
    by_cases hlt : p.size < 2 ^ k
    · have hb0 : b = 0 := by rw [hb, Nat.div_eq_of_lt hlt]; simp
      rw [hb0]
      refine rwp_mono ?_ (fun _ h => h) (walk_zero hi)
      rintro out p' ⟨h1, k', h2⟩
      exact ⟨h1, 0, k', h2⟩
    · have hpos : 0 < b := by
        refine Nat.pos_of_ne_zero fun e => ?_
        omega
      have hkb := Nat.le_of_dvd hpos hbd
      obtain ⟨o', k', s', h6, h7, h8⟩ := hi.geom.cov b (by omega) hbl (by simp)
      have ht6 := hi.geom.tile h6
      rcases hi.geom.aligned_start hbd h6 h7 h8 with e | ⟨-, h9, h10⟩
      · rw [e] at h6
        exact walk_any hi h.nh _ (Or.inr ⟨_, h6⟩)
      · omega

theorem allocExpand_full (h : Ready C p T) (hf : Full p) (hk : k < 31) :
    rwp (allocExpand n k) (fun out p' => out = .err .noMem ∧ p' = p) NoCrash p := by
  obtain ⟨F, hi⟩ := h.inv
  have hp := Nat.two_pow_pos k
  have hmin := hi.geo.min
  have hsz := hi.cap
  have hp31 : 2 ^ k < 2 ^ 31 := (Nat.pow_lt_pow_iff_right (by decide)).2 hk
  have hdm := Nat.div_add_mod p.size (2 ^ k)
  have hml := Nat.mod_lt p.size hp
  rw [Nat.mul_comm] at hdm
  unfold allocExpand
  simp only [Prog.bind_def]
  refine rwp_r trivial hi.geo (by omega) ?_
  rw [size_w p, sizeForOrder_eq hk]
  simp only [Prog.pure_def, Prog.ret_bind]
  rw [mask_eq (by omega) (by omega)]
  obtain ⟨b, hb⟩ : ∃ b, p.size / 2 ^ k * 2 ^ k = b := ⟨_, rfl⟩
  rw [hb] at hdm ⊢
  refine rwp_bind_of (walk_end_any h hb.symm) (fun _ _ => trivial) ?_ (by rintro e s' ⟨-, _, _, h⟩; cases h)
  rintro ⟨b', kk⟩ p1 ⟨e1, -⟩
  subst e1
  obtain ⟨a, haa⟩ : ∃ a, (if b' ≥ p1.size then b else (b + 2 ^ k) % W64) = a := ⟨_, rfl⟩
  have ha : p1.size < a + 2 ^ k ∧ a < 2 ^ 33 := by
    rw [Nat.mod_eq_of_lt (by omega)] at haa
    split at haa <;> omega
  show rwp ((expand (((if b' ≥ p1.size then b else (b + 2 ^ k) % W64) + 2 ^ k) % W64)).bind fun _ =>
    (deleteReused (decide (b' ≥ p1.size)) p1.size kk (if b' ≥ p1.size then b else (b + 2 ^ k) % W64)).bind fun _ =>
    finish n k (2 ^ k) p1.size (if b' ≥ p1.size then b else (b + 2 ^ k) % W64)) _ _ _
  rw [haa, Nat.mod_eq_of_lt (by omega : a + 2 ^ k < W64)]
  refine rwp_bind_of (expand_full hi.geo hf ha.1 (by omega)) (fun _ h => h) (by rintro _ _ ⟨h, -⟩; cases h) ?_
  rintro e q ⟨h1, h2⟩
  injection h1 with h1
  subst h1
  exact ⟨rfl, h2⟩

theorem alloc_spec_full (h : Ready C p T) (hcap : Cap p) (hf : Full p) (h1 : 1 ≤ n) (h2 : n + 8 ≤ 2 ^ 30) :
    rwp (alloc n) (fun out p' => (∃ o T', out = .ok (o + 8) ∧ Got C p T n (orderForSize (n + 8)) p' T' o ∧
        (HasRoom T (orderForSize (n + 8)) → p'.size = p.size)) ∨
      (out = .err .noMem ∧ p' = p ∧ ¬ HasRoom T (orderForSize (n + 8)))) NoCrash p := by
  by_cases hr : HasRoom T (orderForSize (n + 8))
  · exact alloc_spec h hcap h1 h2 (Or.inl hr)
  · obtain ⟨F, hi⟩ := h.inv
    obtain ⟨h4, h31, hk1, hk2⟩ := order_facts h1 h2
    unfold alloc
    rw [Nat.mod_eq_of_lt (by omega : n + 8 < W64), if_neg (by omega)]
    generalize orderForSize (n + 8) = k at *
    simp only [Prog.bind_def]
    refine rwp_bind_of (search_spec hi 64 h4 (by omega) (by omega)) (fun _ _ => trivial) ?_ (by rintro e s' ⟨-, _, h, -⟩; cases h)
    rintro r p1 ⟨rfl, r', e, hkr, hempty, hcase⟩
    injection e with e; subst e
    unfold allocFrom
    rcases hcase with ⟨hr2, hF⟩ | hr2
    · exfalso
      obtain ⟨o, rr, hFo⟩ : ∃ o rr, F r = o :: rr := by
        cases hFr : F r with
        | nil => exact absurd hFr hF
        | cons a t => exact ⟨a, t, rfl⟩
      exact hr ⟨o, r, hkr, (hi.lst.mem r o).1 (by rw [hFo]; simp)⟩
    · rw [if_neg (by omega)]
      refine rwp_mono ?_ (fun _ h => h) (allocExpand_full h hf h31)
      rintro out p' ⟨h5, h6⟩
      exact Or.inr ⟨h5, h6, hr⟩

end Verif.Logarithmic
