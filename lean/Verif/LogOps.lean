import Verif.LogExpand
/-
allocate, free and the constructor, complete.
-/
namespace Verif.Logarithmic
open Verif
open Verif.Simple (w w_wr w_lt Geo put put_w put_size rwp_r rwp_w Grow)

variable {p p' q : Pool} {T : Tiles} {F : Nat → List Nat} {E : Nat → Prop} {o k n : Nat} {s : St} {C : Prop}

theorem size_w (p : Pool) : w p.mem 0 = p.size := rfl
attribute [local irreducible] Pool.size w

/-- the expansion does not try to reuse free blocks at the end of the pool -/
def Guard (p : Pool) (T : Tiles) (k : Nat) : Prop :=
  p.size % 2 ^ k = 0 ∨ p.size < 2 ^ k ∨ ∃ a j m, T a = some (j, .alloc m) ∧ p.size / 2 ^ k * 2 ^ k ≤ a

/-- the walk when the pool is smaller than the block: it looks at the size word and stops -/
theorem walk_zero (hi : LInv p T F (fun _ => False)) :
    rwp (walk p.size (largestOrderWithin (p.size - 0)) 0) (fun out p' => p' = p ∧ ∃ k', out = .ok (0, k')) NoCrash p := by
  have hmin := hi.geo.min
  have hsz := hi.cap
  have h57 : hdrOrder p.size = 0 := by rw [hdrOrder_eq, Nat.div_eq_of_lt (by omega)]
  have h63 : hdrAlloc p.size = false := by rw [hdrAlloc_eq, Nat.div_eq_of_lt (by omega)]; decide
  rw [Nat.sub_zero, largest_eq (by omega) (by omega)]
  have hl : 4 ≤ Nat.log2 p.size := by rw [Nat.le_log2 (by omega)]; show 16 ≤ _; omega
  obtain ⟨K, hK⟩ : ∃ K, Nat.log2 p.size = K + 1 := ⟨Nat.log2 p.size - 1, by omega⟩
  rw [hK] at hl ⊢
  unfold walk
  rw [if_pos ⟨hl, by omega⟩]
  simp only [Prog.bind_def]
  refine rwp_r trivial hi.geo (by omega) ?_
  rw [size_w p, h57, h63]
  rw [if_neg (by decide), if_pos (by simp)]
  exact ⟨trivial, rfl, _, rfl⟩

theorem walk_end (h : Ready C p T) {b : Nat} (hb : b = p.size / 2 ^ k * 2 ^ k) (hg : Guard p T k) :
    rwp (walk p.size (largestOrderWithin (p.size - b)) b) (fun out p' => p' = p ∧ ∃ o' k', out = .ok (o', k') ∧
      ((b = p.size ∧ o' = p.size) ∨ (b < p.size ∧ o' < p.size))) NoCrash p := by
  obtain ⟨F, hi⟩ := h.inv
  have hp := Nat.two_pow_pos k
  have hmin := hi.geo.min
  have hdm := Nat.div_add_mod p.size (2 ^ k)
  have hml := Nat.mod_lt p.size hp
  rw [Nat.mul_comm, ← hb] at hdm
  have hbd : 2 ^ k ∣ b := by rw [hb]; exact Nat.dvd_mul_left _ _
  by_cases hbs : b = p.size
  · have e : largestOrderWithin (p.size - b) = 0 := by rw [hbs, Nat.sub_self]; decide
    rw [e]
    exact ⟨trivial, rfl, b, 0, rfl, Or.inl ⟨hbs, hbs⟩⟩
  · have hbl : b < p.size := by omega
    by_cases hlt : p.size < 2 ^ k
    · have hb0 : b = 0 := by rw [hb, Nat.div_eq_of_lt hlt]; simp
      rw [hb0]
      refine rwp_mono ?_ (fun _ h => h) (walk_zero hi)
      rintro out p' ⟨h1, k', h2⟩
      exact ⟨h1, 0, k', h2, Or.inr ⟨by omega, by omega⟩⟩
    · rcases hg with hg | hg | ⟨a, j, m, ha, hba⟩
      · omega
      · omega
      · rw [← hb] at hba
        have hpos : 0 < b := by
          refine Nat.pos_of_ne_zero fun e => ?_
          omega
        have hkb := Nat.le_of_dvd hpos hbd
        obtain ⟨o', k', s', h6, h7, h8⟩ := hi.geom.cov b (by omega) hbl (by simp)
        have ht6 := hi.geom.tile h6
        rcases hi.geom.aligned_start hbd h6 h7 h8 with e | ⟨-, h9, h10⟩
        · rw [e] at h6
          refine rwp_mono ?_ (fun _ h => h) (walk_spec hi h.nh ha _ h6 hba)
          rintro out p' ⟨h11, o2, k2, h12, h13⟩
          exact ⟨h11, o2, k2, h12, Or.inr ⟨hbl, h13⟩⟩
        · omega

theorem deleteReused_nop {r : Bool} {S k a : Nat} (h : S ≤ a) : rwp (deleteReused r S k a) (fun out p' => out = .ok () ∧ p' = q) NoCrash q := by
  unfold deleteReused
  cases r
  · exact ⟨trivial, rfl, rfl⟩
  · rw [if_pos rfl]
    unfold deleteBlocks
    rw [if_neg (by omega)]
    exact ⟨trivial, rfl, rfl⟩

/-- the part after the walk -/
theorem expandAt_spec (h : Ready C p T) (hcap : Cap p) (h4 : 4 ≤ k) (hk : k < 31) (h1 : n + 8 ≤ 2 ^ k) (h2 : 2 ^ k < 2 * (n + 8))
    {a : Nat} (r : Bool) (kk : Nat) (had : 2 ^ k ∣ a) (hSa : p.size ≤ a) (ha : a < 2 ^ 32) :
    rwp ((expand (a + 2 ^ k)).bind fun _ => (deleteReused r p.size kk a).bind fun _ => finish n k (2 ^ k) p.size a)
      (fun out p' => (∃ o T', out = .ok (o + 8) ∧ Got C p T n k p' T' o) ∨ (out = .err .noMem ∧ p' = p)) NoCrash p := by
  obtain ⟨F, hi⟩ := h.inv
  have hp31 : 2 ^ k < 2 ^ 31 := (Nat.pow_lt_pow_iff_right (by decide)).2 hk
  have hmin := hi.geo.min
  have hpg := hi.geo.page
  refine rwp_bind_of (expand_cap hi.geo hcap hi.cap (a + 2 ^ k)) (fun _ _ => trivial) ?_ ?_
  · rintro _ q (⟨-, hG, hqs, hq31⟩ | ⟨hbad, hb2⟩)
    · have hrp := Simple.roundPage_le (n := a + 2 ^ k) (by omega)
      have hiq := hi.grow hG hq31
      refine rwp_bind_of (deleteReused_nop hSa) (fun _ _ => trivial) ?_ (by rintro e s' ⟨h, -⟩; cases h)
      rintro - q' ⟨-, rfl⟩
      refine rwp_mono ?_ (fun _ h => h) (finish_spec hiq h.coal h.nh (by omega) (by omega) hSa had h4 (by omega) h1 h2)
      rintro out p' ⟨ho, ⟨T', hgot⟩, -⟩
      have hle := hgot.le
      refine Or.inl ⟨a, T', ho, hgot.rdy, hgot.al, hgot.new, ?_, ?_, ?_, h1, by omega⟩
      · have hk1 : LKeep 288 T p q' := by
          refine ⟨fun i h1 h2 => hG.mem i h1 (by omega), ?_, hG.mx, hG.lm⟩
          intro x j m hx i h1 h2
          have := hi.geom.tile hx
          exact hG.mem i (by omega) (by omega)
        exact hk1.trans hgot.kp (fun _ _ _ h => h)
      · rw [hgot.ba, hG.w (by omega) (by omega)]
      · rw [hgot.bc, hG.w (by omega) (by omega)]
    · cases hbad
  · rintro e q (⟨h, -⟩ | ⟨h, h'⟩)
    · cases h
    · injection h with h; subst h; exact Or.inr ⟨rfl, h'⟩

theorem allocExpand_spec (h : Ready C p T) (hcap : Cap p) (h4 : 4 ≤ k) (hk : k < 31) (h1 : n + 8 ≤ 2 ^ k) (h2 : 2 ^ k < 2 * (n + 8))
    (hg : Guard p T k) :
    rwp (allocExpand n k) (fun out p' => (∃ o T', out = .ok (o + 8) ∧ Got C p T n k p' T' o) ∨ (out = .err .noMem ∧ p' = p)) NoCrash p := by
  obtain ⟨F, hi⟩ := h.inv
  have hp := Nat.two_pow_pos k
  have hmin := hi.geo.min
  have hsz := hi.cap
  have hp31 : 2 ^ k < 2 ^ 31 := (Nat.pow_lt_pow_iff_right (by decide)).2 hk
  have hdm := Nat.div_add_mod p.size (2 ^ k)
  have hml := Nat.mod_lt p.size hp
  rw [Nat.mul_comm] at hdm
  unfold allocExpand
  simp only [Prog.bind_def]
  refine rwp_r trivial hi.geo (by omega) ?_
  rw [size_w p, sizeForOrder_eq hk]
  simp only [Prog.pure_def, Prog.ret_bind]
  rw [mask_eq (by omega) (by omega)]
  obtain ⟨b, hb⟩ : ∃ b, p.size / 2 ^ k * 2 ^ k = b := ⟨_, rfl⟩
  rw [hb] at hdm ⊢
  have hbd : 2 ^ k ∣ b := by rw [← hb]; exact Nat.dvd_mul_left _ _
  refine rwp_bind_of (walk_end h hb.symm hg) (fun _ _ => trivial) ?_ (by rintro e s' ⟨-, _, _, h, -⟩; cases h)
  rintro ⟨b', kk⟩ p1 ⟨e1, o2, k2, e2, hcase⟩
  subst e1
  injection e2 with e2
  obtain ⟨rfl, rfl⟩ := Prod.mk.inj e2
  obtain ⟨a, haa⟩ : ∃ a, (if b' ≥ p1.size then b else (b + 2 ^ k) % W64) = a := ⟨_, rfl⟩
  have ha : 2 ^ k ∣ a ∧ p1.size ≤ a ∧ a < 2 ^ 32 := by
    rcases hcase with ⟨h5, h6⟩ | ⟨h5, h6⟩
    · rw [if_pos (by omega)] at haa
      subst haa; exact ⟨hbd, by omega, by omega⟩
    · rw [if_neg (by omega), Nat.mod_eq_of_lt (by omega)] at haa
      subst haa; exact ⟨Nat.dvd_add hbd (Nat.dvd_refl _), by omega, by omega⟩
  show rwp ((expand (((if b' ≥ p1.size then b else (b + 2 ^ k) % W64) + 2 ^ k) % W64)).bind fun _ =>
    (deleteReused (decide (b' ≥ p1.size)) p1.size kk (if b' ≥ p1.size then b else (b + 2 ^ k) % W64)).bind fun _ =>
    finish n k (2 ^ k) p1.size (if b' ≥ p1.size then b else (b + 2 ^ k) % W64)) _ _ _
  rw [haa, Nat.mod_eq_of_lt (by omega : a + 2 ^ k < W64)]
  exact expandAt_spec h hcap h4 hk h1 h2 _ _ ha.1 ha.2.1 ha.2.2

/-- the order of a request -/
theorem order_facts (h1 : 1 ≤ n) (h2 : n + 8 ≤ 2 ^ 30) :
    4 ≤ orderForSize (n + 8) ∧ orderForSize (n + 8) < 31 ∧ n + 8 ≤ 2 ^ orderForSize (n + 8) ∧
    2 ^ orderForSize (n + 8) < 2 * (n + 8) := by
  obtain ⟨h3, h4⟩ := orderForSize_spec (n := n + 8) (by omega) (by omega)
  have h5 := h4 30 h2
  generalize orderForSize (n + 8) = k at *
  have h6 : 4 ≤ k := by
    refine Nat.not_lt.1 fun hc => ?_
    have : 2 ^ k ≤ 2 ^ 3 := Nat.pow_le_pow_right (n := 2) (by decide) (by omega)
    omega
  refine ⟨h6, by omega, h3, ?_⟩
  refine Nat.not_le.1 fun hc => ?_
  obtain ⟨j, rfl⟩ : ∃ j, k = j + 1 := ⟨k - 1, by omega⟩
  rw [Nat.pow_succ] at hc
  have := h4 j (by omega)
  omega

/-- a free block of at least order `k` -/
def HasRoom (T : Tiles) (k : Nat) : Prop := ∃ o j, k ≤ j ∧ T o = some (j, .free)

theorem alloc_spec (h : Ready C p T) (hcap : Cap p) (h1 : 1 ≤ n) (h2 : n + 8 ≤ 2 ^ 30)
    (hg : HasRoom T (orderForSize (n + 8)) ∨ Guard p T (orderForSize (n + 8))) :
    rwp (alloc n) (fun out p' => (∃ o T', out = .ok (o + 8) ∧ Got C p T n (orderForSize (n + 8)) p' T' o ∧
        (HasRoom T (orderForSize (n + 8)) → p'.size = p.size)) ∨
      (out = .err .noMem ∧ p' = p ∧ ¬ HasRoom T (orderForSize (n + 8)))) NoCrash p := by
  obtain ⟨F, hi⟩ := h.inv
  obtain ⟨h4, h31, hk1, hk2⟩ := order_facts h1 h2
  unfold alloc
  rw [Nat.mod_eq_of_lt (by omega : n + 8 < W64), if_neg (by omega)]
  generalize orderForSize (n + 8) = k at *
  simp only [Prog.bind_def]
  refine rwp_bind_of (search_spec hi 64 h4 (by omega) (by omega)) (fun _ _ => trivial) ?_ (by rintro e s' ⟨-, _, h, -⟩; cases h)
  rintro r p1 ⟨rfl, r', e, hkr, hempty, hcase⟩
  injection e with e; subst e
  unfold allocFrom
  rcases hcase with ⟨hr, hF⟩ | hr
  · rw [if_pos (by omega)]
    simp only [Prog.bind_def]
    obtain ⟨o, rr, hFo⟩ : ∃ o rr, F r = o :: rr := by
      cases hFr : F r with
      | nil => exact absurd hFr hF
      | cons a t => exact ⟨a, t, rfl⟩
    have er : k + (r - k) = r := by omega
    have hFo' : F (k + (r - k)) = o :: rr := by rw [er]; exact hFo
    refine rwp_bind_of (splitDown_spec h4 (r - k) hi hFo' (by intro j a b; exact hempty j a (by omega)) h.coal.x h.nh)
      (fun _ _ => trivial) ?_ (by rintro e s' ⟨h, -⟩; cases h)
    rintro - q ⟨-, T', F', r', hi', hF', hcx, hnh, hsa, hkp, hsz⟩
    refine rwp_mono ?_ (fun _ _ => trivial) (popHead_spec (n := n) hi' hF' hk1 hk2)
    rintro out p' ⟨ho, ⟨F2, hi2⟩, hkp2, hsz2, hba, hbc⟩
    have hto : T' o = some (k, .free) := hi'.lst.hd_mem hF'
    refine Or.inl ⟨o, _, ho, ⟨⟨⟨F2, hi2⟩, hcx.alloc, ?_⟩, ?_, ?_, ?_, ?_, ?_, hk1, Nat.le_of_eq (hsz2.trans hsz).symm⟩, fun _ => hsz2.trans hsz⟩
    · intro x j hx
      by_cases e : x = o
      · subst e; rw [tset_same] at hx; cases (some_pair hx).2
      · rw [tset_ne e] at hx; exact hnh x j hx
    · intro x j m
      by_cases e : x = o
      · subst e
        have : T x = some (j, .alloc m) ↔ False := by
          rw [← hsa x j m, hto]; constructor
          · intro hx; cases (some_pair hx).2
          · intro hx; cases hx
        rw [tset_same, this]
        constructor
        · intro hx; obtain ⟨e1, e2⟩ := some_pair hx; injection e2 with e2; exact Or.inr ⟨rfl, e1.symm, e2.symm⟩
        · rintro (hx | ⟨-, rfl, rfl⟩)
          · cases hx
          · rfl
      · rw [tset_ne e, hsa x j m]
        constructor
        · exact Or.inl
        · rintro (hx | ⟨hx, -⟩)
          · exact hx
          · exact absurd hx e
    · intro j m hx
      rw [← hsa o j m, hto] at hx; cases (some_pair hx).2
    · exact (hkp.weaken (by omega)).trans hkp2 (fun x j m hx => (hsa x j m).2 hx)
    · rw [hba, hkp.w (by decide) (by decide)]
    · rw [hbc, hkp.w (by decide) (by decide)]
  · have hno : ¬ HasRoom T k := by
      rintro ⟨o, j, hj, ht⟩
      have hm := (hi.lst.mem j o).2 ht
      have hj31 := hi.geom.ord_lt ht hi.cap
      rw [hempty j hj (by omega)] at hm
      cases hm
    rw [if_neg (by omega)]
    refine rwp_mono ?_ (fun _ h => h) (allocExpand_spec h hcap h4 h31 hk1 hk2 (hg.resolve_left hno))
    rintro out p' (⟨o, T', ho, hgot⟩ | ⟨ho, hp⟩)
    · exact Or.inl ⟨o, T', ho, hgot, fun h => absurd h hno⟩
    · exact Or.inr ⟨ho, hp, hno⟩

/-- what free guarantees -/
structure Freed (C : Prop) (p : Pool) (T : Tiles) (n k : Nat) (p' : Pool) (T' : Tiles) (o : Nat) : Prop where
  rdy : Ready C p' T'
  al : ∀ x j m, T' x = some (j, .alloc m) ↔ (x ≠ o ∧ T x = some (j, .alloc m))
  kp : LKeep 288 T' p p'
  ba : w p'.mem 288 = sub64 (w p.mem 288) n
  bc : w p'.mem 296 = sub64 (w p.mem 296) (2 ^ k)
  sz : p'.size = p.size

/-- a crash inside free: the headers describe a tiling in which the block is still allocated or not, and all other allocated blocks
are untouched -/
structure FreeCr (p : Pool) (T : Tiles) (n k : Nat) (o : Nat) (p' : Pool) : Prop where
  ex : ∃ T', Disk p' T' (fun _ => False) ∧ (∀ x j m, x ≠ o → (T' x = some (j, .alloc m) ↔ T x = some (j, .alloc m))) ∧
    (T' o = some (k, .alloc n) ∨ ∀ j m, T' o ≠ some (j, .alloc m)) ∧ LKeep 288 T' p p'
  sz : p'.size = p.size

theorem free_spec (h : Ready C p T) (ht : T o = some (k, .alloc n)) :
    rwp (free (o + 8)) (fun out p' => out = .ok () ∧ ∃ T', Freed C p T n k p' T' o) (FreeCr p T n k o) p := by
  obtain ⟨F, hi⟩ := h.inv
  have hmin := hi.geo.min
  have hcap := hi.cap
  have h0 := hi.geom.mod16 ht
  have h1 := hi.geom.tile ht
  have hk := hi.geom.ord_lt ht hi.cap
  obtain ⟨hw0, hal1, hal2⟩ := hi.al ht
  have hord : orderForSize (n + 8) = k := by
    obtain ⟨h3, h4⟩ := orderForSize_spec (n := n + 8) (by omega) (by omega)
    have h5 := h4 k hal1
    generalize orderForSize (n + 8) = j at *
    refine Nat.le_antisymm h5 ?_
    refine Nat.not_lt.1 fun hc => ?_
    have : 2 ^ (j + 1) ≤ 2 ^ k := Nat.pow_le_pow_right (n := 2) (i := j + 1) (by decide) hc
    rw [Nat.pow_succ] at this; omega
  -- the three ways a crash leaves the pool
  have crA : ∀ {p'}, CrU 288 T p p' → FreeCr p T n k o p' := fun hc =>
    ⟨⟨T, (hi.disk h.nh).cru hc, fun _ _ _ _ => Iff.rfl, Or.inl ht, hc.kp⟩, hc.sz⟩
  have c0 : CrU 288 T p p := CrU.refl _ _ hi.geo
  have c1 : CrU 288 T p (put p 288 (sub64 (w p.mem 288) n)) :=
    c0.put (by decide) (by decide) hi.geom (Or.inl (by omega)) (by omega) (by omega) (by omega)
  have c2 : CrU 288 T p (put (put p 288 (sub64 (w p.mem 288) n)) 296 (sub64 (w p.mem 296) (2 ^ k))) :=
    c1.put (by decide) (by decide) hi.geom (Or.inl (by omega)) (by omega) (by omega) (by omega)
  unfold free
  simp only [Prog.bind_def]
  refine rwp_r (crA c0) hi.geo (by omega) ?_
  rw [size_w p, if_neg (by unfold start; omega)]
  refine rwp_r (crA c0) hi.geo (by omega) ?_
  rw [show o + 8 - 8 = o from rfl, hw0, alloc_mkAlloc (by omega), size_mkAlloc (by omega),
    Nat.mod_eq_of_lt (by omega : n + 8 < W64), hord, sizeForOrder_eq hk]
  rw [if_neg (by decide)]
  simp only [Prog.pure_def, Prog.ret_bind]
  refine rwp_r (crA c0) hi.geo (by omega) ?_
  refine rwp_w (crA c0) hi.geo (by omega) ?_
  have g1 := hi.geo.put (a := 288) (v := sub64 (w p.mem 288) n) (by decide)
  have z1 := put_size (p := p) (a := 288) (v := sub64 (w p.mem 288) n) (by decide)
  refine rwp_r (crA c1) g1 (by omega) ?_
  rw [put_w (by decide) (by decide), if_neg (by decide)]
  refine rwp_w (crA c1) g1 (by omega) ?_
  have hi2 := (hi.put_hdr (a := 288) (v := sub64 (w p.mem 288) n) (by decide) (by decide) (by decide)).put_hdr
    (a := 296) (v := sub64 (w p.mem 296) (2 ^ k)) (by decide) (by decide) (by decide)
  generalize hq : put (put p 288 (sub64 (w p.mem 288) n)) 296 (sub64 (w p.mem 296) (2 ^ k)) = q at hi2 c2 ⊢
  have hzq : q.size = p.size := by rw [← hq, put_size (by decide), put_size (by decide)]
  have hba : w q.mem 288 = sub64 (w p.mem 288) n := by
    rw [← hq, put_w (by decide) (by decide), if_neg (by decide), put_w (by decide) (by decide), if_pos rfl]
    exact Nat.mod_eq_of_lt (Nat.mod_lt _ (by decide))
  have hbc : w q.mem 296 = sub64 (w p.mem 296) (2 ^ k) := by
    rw [← hq, put_w (by decide) (by decide), if_pos rfl]
    exact Nat.mod_eq_of_lt (Nat.mod_lt _ (by decide))
  have hkq : LKeep 288 T p q := by
    rw [← hq]
    exact LKeep.put (by decide) (by decide) hi.geom
      (LKeep.put (by decide) (by decide) hi.geom (LKeep.refl _ _ _) (Or.inl (by omega))) (Or.inl (by omega))
  have crB : ∀ {p' T'}, Disk p' T' (fun _ => False) → (∀ x j m, T' x = some (j, .alloc m) ↔ (x ≠ o ∧ T x = some (j, .alloc m))) →
      LKeep 304 T' q p' → p'.size = q.size → FreeCr p T n k o p' := by
    intro p' T' hd hall hk hs
    refine ⟨⟨T', hd, ?_, Or.inr ?_, ?_⟩, hs.trans hzq⟩
    · intro x j m hx; rw [hall]; exact ⟨fun h => h.2, fun h => ⟨hx, h⟩⟩
    · intro j m hx; exact ((hall _ _ _).1 hx).1 rfl
    · refine ⟨fun i a b => (hk.hdr i a (by omega)).trans (hkq.hdr i a b), ?_, hk.mx.trans hkq.mx, hk.lm.trans hkq.lm⟩
      intro x j m hx i a b
      exact (hk.blk hx i a b).trans (hkq.blk ((hall x j m).1 hx).2 i a b)
  have hall0 : ∀ x j m, tset T o k .free x = some (j, .alloc m) ↔ (x ≠ o ∧ T x = some (j, .alloc m)) := by
    intro x j m
    by_cases e : x = o
    · subst e; rw [tset_same]
      constructor
      · intro hx; cases (some_pair hx).2
      · rintro ⟨hx, -⟩; exact absurd rfl hx
    · rw [tset_ne e]; exact ⟨fun hx => ⟨e, hx⟩, fun hx => hx.2⟩
  have hall0' : ∀ x j m, tset T o k .held x = some (j, .alloc m) ↔ (x ≠ o ∧ T x = some (j, .alloc m)) := by
    intro x j m
    by_cases e : x = o
    · subst e; rw [tset_same]
      constructor
      · intro hx; cases (some_pair hx).2
      · rintro ⟨hx, -⟩; exact absurd rfl hx
    · rw [tset_ne e]; exact ⟨fun hx => ⟨e, hx⟩, fun hx => hx.2⟩
  have e1' : tset (tset T o k .held) o k .free = tset T o k .free := by
    funext x; unfold tset; split <;> rfl
  have tk : ∀ {T1 T2 : Tiles} {a b : Pool}, LKeep 304 T1 a b → (∀ x j m, T2 x = some (j, .alloc m) → T1 x = some (j, .alloc m)) →
      LKeep 304 T2 a b := fun h hT => ⟨h.hdr, fun hx => h.blk (hT _ _ _ hx), h.mx, h.lm⟩
  refine rwp_bind_of (createFree_spec (hi2.release ht) (tset_same _ _ _ _)) ?_ ?_ (by rintro e s' ⟨h, -⟩; cases h)
  · intro p' hc
    rcases (hi2.release ht).disk_crF (tset_same _ _ _ _) (fun x j hx => by
      by_cases e : x = o
      · exact e
      · rw [tset_ne e] at hx; exact absurd hx (h.nh x j)) hc with rfl | ⟨h1, h2, h3⟩
    · exact crA c2
    · rw [e1'] at h1
      exact crB h1 hall0 (tk h2 (fun x j m hx => (hall0' x j m).2 ((hall0 x j m).1 hx))) h3
  rintro - q2 ⟨-, hi3, hkp3, hsz3⟩
  have hkp3' : LKeep 304 (tset T o k .free) q q2 := tk hkp3 (fun x j m hx => (hall0' x j m).2 ((hall0 x j m).1 hx))
  have e1 : tset (tset T o k .held) o k .free = tset T o k .free := by
    funext x; unfold tset; split <;> rfl
  rw [e1] at hi3
  have hcx : CoalX C (tset T o k .free) o := by
    intro hC x j h2 h3 h4 h5
    rw [tset_ne h2] at h4
    rw [tset_ne h3] at h5
    exact h.coal hC x j h4 h5
  have hnh3 : ∀ x j, tset T o k .free x ≠ some (j, .held) := by
    intro x j hx
    by_cases e : x = o
    · subst e; rw [tset_same] at hx; cases (some_pair hx).2
    · rw [tset_ne e] at hx; exact h.nh x j hx
  have crC : ∀ p', (CrU 304 (tset T o k .free) q2 p' ∨ ∃ T', Disk p' T' (fun _ => False) ∧ SameAl (tset T o k .free) T' ∧
      LKeep 304 (tset T o k .free) q2 p' ∧ p'.size = q2.size) → FreeCr p T n k o p' := by
    rintro p' (hc | ⟨T', hd, hs, hk, hz⟩)
    · exact crB ((hi3.disk hnh3).cru hc) hall0 (hkp3'.trans hc.kp (fun _ _ _ h => h)) (hc.sz.trans hsz3)
    · refine crB hd (fun x j m => (hs x j m).trans (hall0 x j m)) ?_ (hz.trans hsz3)
      exact tk (hkp3'.trans hk (fun _ _ _ h => h)) (fun x j m hx => (hs x j m).1 hx)
  refine rwp_bind_of (rwp_post (mergeAt_spec hi3 (tset_same _ _ _ _) hcx hnh3 (by intro x hx; exact hx.elim))) crC ?_
    (by rintro e s' ⟨⟨⟨_, h⟩, -⟩, -⟩; cases h)
  · rintro - q3 ⟨⟨-, T', F', hi4, hc4, hsa, hnh4, hkp4, hsz4⟩, hcc⟩
    have hall : ∀ x j m, T' x = some (j, .alloc m) ↔ (x ≠ o ∧ T x = some (j, .alloc m)) := by
      intro x j m
      rw [hsa x j m]
      by_cases e : x = o
      · subst e; rw [tset_same]
        constructor
        · intro hx; cases (some_pair hx).2
        · rintro ⟨hx, -⟩; exact absurd rfl hx
      · rw [tset_ne e]; exact ⟨fun hx => ⟨e, hx⟩, fun hx => hx.2⟩
    have hk3 : LKeep 304 T' q q3 := by
      refine ⟨fun i a b => (hkp4.hdr i a b).trans (hkp3.hdr i a b), ?_, hkp4.mx.trans hkp3.mx, hkp4.lm.trans hkp3.lm⟩
      intro x j m hx i a b
      obtain ⟨hne, hx'⟩ := (hall x j m).1 hx
      exact (hkp4.blk (by rw [tset_ne hne]; exact hx') i a b).trans (hkp3.blk (by rw [tset_ne hne]; exact hx') i a b)
    refine ⟨crC _ hcc, rfl, T', ⟨⟨F', hi4⟩, hc4, hnh4⟩, hall, ?_, ?_, ?_, hsz4.trans (hsz3.trans hzq)⟩
    · refine ⟨fun i a b => (hk3.hdr i a (by omega)).trans (hkq.hdr i a b), ?_, hk3.mx.trans hkq.mx, hk3.lm.trans hkq.lm⟩
      intro x j m hx i a b
      exact (hk3.blk hx i a b).trans (hkq.blk ((hall x j m).1 hx).2 i a b)
    · rw [hk3.w (by decide) (by decide)]; exact hba
    · rw [hk3.w (by decide) (by decide)]; exact hbc

end Verif.Logarithmic
