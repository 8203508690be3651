import Verif.LogLive
/-
C12-C14: LogarithmicAllocator (/repo/src/LogarithmicAllocator.{hh,cc}).
-/
namespace Verif.Logarithmic
open Verif
open Verif.Simple (w w_wr w_lt Geo put put_w put_size rwp_r rwp_w Grow)

variable {p0 p p' : Pool} {T : Tiles} {live : List (Nat × Nat)} {C : Prop}

theorem lalloc_run (h : LiveInv C p T live) {n : Nat} (h1 : 1 ≤ n) (h2 : n + 8 ≤ 2 ^ 30)
    (hg : HasRoom T (orderForSize (n + 8)) ∨ Guard p T (orderForSize (n + 8))) :
    ∃ out p', run (alloc n) p = (Out.toRes out, p') ∧
      ((∃ o T', out = .ok (o + 8) ∧ Got C p T n (orderForSize (n + 8)) p' T' o ∧
          (HasRoom T (orderForSize (n + 8)) → p'.size = p.size)) ∨
        (out = .err .noMem ∧ p' = p ∧ ¬ HasRoom T (orderForSize (n + 8)))) := by
  obtain ⟨o, h3, h4⟩ := rwp_run (alloc_spec h.rdy h.cap h1 h2 hg)
  exact ⟨o, _, run_eta h3, h4⟩

theorem lfree_run (h : LiveInv C p T live) {x j n : Nat} (ht : T x = some (j, .alloc n)) :
    ∃ p' T', run (free (x + 8)) p = (.ok (), p') ∧ Freed C p T n j p' T' x := by
  obtain ⟨o, h3, h4, T', h5⟩ := rwp_run (free_spec h.rdy ht)
  exact ⟨_, T', run_eta (h3.trans (by rw [h4]; rfl)), h5⟩

theorem LInv.reopen {F : Nat → List Nat} {D : Nat → Prop} (m : Nat) (h : LInv p T F D) : LInv { p with maxSize := m } T F D := by
  refine h.congr ⟨h.geo.le, h.geo.page, h.geo.min, h.geo.max, h.geo.lim⟩ rfl (fun _ _ _ _ => rfl) (fun _ => ⟨rfl, rfl⟩) (fun _ => rfl)

theorem run_blockSize {p : Pool} {y n : Nat} (hy : y + 8 < W64) (hin : p.inb y 8) (e : w p.mem y = mkAlloc n) (hn : n < 2 ^ 63) :
    run (blockSize (y + 8)) p = (.ok n, p) := by
  have hsb : sub64 (y + 8) 8 = y := by show (y + 8 + (W64 - 8 % W64)) % W64 = y; omega
  have e : leRd p.mem y 8 = mkAlloc n := e
  simp only [blockSize, R.rd64, R.rd, Prog.bind_def, Prog.step_bind, Prog.ret_bind, hsb, run, if_pos hin, forceN_eq, Prog.pure_def, e]
  rw [size_mkAlloc hn]
theorem run_bytesAllocated {p : Pool} {v : Nat} (hin : p.inb 288 8) (e : w p.mem 288 = v) : run bytesAllocated p = (.ok v, p) := by
  have e : leRd p.mem 288 8 = v := e
  simp only [bytesAllocated, R.rd64, R.rd, Prog.bind_def, Prog.step_bind, Prog.ret_bind, run, if_pos hin, forceN_eq, Prog.pure_def, e]
theorem run_bytesFree {p : Pool} {v : Nat} (hin0 : p.inb 0 8) (hin : p.inb 296 8) (e : w p.mem 296 = v) :
    run bytesFree p = (.ok (sub64 p.size v), p) := by
  have e : leRd p.mem 296 8 = v := e
  simp only [bytesFree, R.rd64, R.rd, Prog.bind_def, Prog.step_bind, Prog.ret_bind, run, if_pos hin, if_pos hin0, forceN_eq, Prog.pure_def, e]
  rfl

section
attribute [local irreducible] run alloc free init Pool.size w

/-- a successful allocation -/
theorem LiveInv.got (h : LiveInv C p T live) {n o : Nat} {T' : Tiles} (h1 : 1 ≤ n) (h2 : n + 8 ≤ 2 ^ 30)
    (g : Got C p T n (orderForSize (n + 8)) p' T' o) : LiveInv C p' T' ((o + 8, n) :: live) := by
  have hord : 2 ^ orderForSize (n + 8) = blk n := by rw [order_log n (by omega)]; rfl
  obtain ⟨F', hi'⟩ := g.rdy.inv
  have hnew : T' o = some (orderForSize (n + 8), .alloc n) := (g.al _ _ _).2 (Or.inr ⟨rfl, rfl, rfl⟩)
  have hto := hi'.geom.tile hnew
  have hsum := h.sum_le
  obtain ⟨F, hi⟩ := h.rdy.inv
  have hmem' : ∀ x j m, T' x = some (j, .alloc m) ↔ ((x + 8, m) ∈ (o + 8, n) :: live ∧ 2 ^ j = blk m) := by
    intro x j m
    rw [g.al, h.mem, List.mem_cons]
    constructor
    · rintro (⟨h3, h4⟩ | ⟨rfl, rfl, rfl⟩)
      · exact ⟨Or.inr h3, h4⟩
      · exact ⟨Or.inl rfl, hord⟩
    · rintro ⟨h3 | h3, h4⟩
      · right
        have e1 : x + 8 = o + 8 := congrArg Prod.fst h3
        have e2 : m = n := congrArg Prod.snd h3
        subst e2
        rw [← hord] at h4
        exact ⟨by omega, (Nat.pow_right_inj (by decide)).1 h4, rfl⟩
      · exact Or.inl ⟨h3, h4⟩
  have hlo' : ∀ x ∈ (o + 8, n) :: live, 1176 ≤ x.1 := by
    intro x hx
    rcases List.mem_cons.1 hx with rfl | hx
    · show 1176 ≤ o + 8; omega
    · exact h.lo x hx
  have hnd' : ((o + 8, n) :: live).Nodup := by
    refine List.nodup_cons.2 ⟨?_, h.nodup⟩
    intro hc
    obtain ⟨x, j, e, ht, -⟩ := h.tile hc
    have : x = o := by omega
    subst this
    exact g.new _ _ ht
  -- the sum of the blocks fits in the pool, so the counters do not wrap
  have hfit : 1168 + (((o + 8, n) :: live).map (fun x => blk x.2)).sum ≤ p'.size := by
    have hmin := hi'.geo.min
    have hblk : ∀ x ∈ (o + 8, n) :: live, ∃ y j, x.1 = y + 8 ∧ T' y = some (j, .alloc x.2) ∧ 2 ^ j = blk x.2 := by
      rintro ⟨a, m⟩ hx
      have := hlo' _ hx
      simp only at this
      refine ⟨a - 8, Nat.log2 (m + 7) + 1, by simp only; omega, (hmem' _ _ _).2 ⟨?_, rfl⟩, rfl⟩
      rw [Nat.sub_add_cancel (by omega)]; exact hx
    have := sum_disjoint (len := fun x => blk x.2) _ ((o + 8, n) :: live) 1176 (p'.size + 8) (Nat.le_refl _) (by
      refine List.Pairwise.imp_of_mem ?_ hnd'
      intro x y hx hy hne
      obtain ⟨a, j, e1, t1, b1⟩ := hblk x hx
      obtain ⟨b, j', e2, t2, b2⟩ := hblk y hy
      rw [← b1, ← b2, e1, e2]
      rcases Nat.lt_trichotomy a b with h3 | h3 | h3
      · have := hi'.geom.disj t1 t2 h3; omega
      · exfalso
        subst h3
        rw [t1] at t2
        have := (some_pair t2).2
        injection this with this
        exact hne (Prod.ext (e1.trans e2.symm) this)
      · have := hi'.geom.disj t2 t1 h3; omega) (by
      intro x hx
      obtain ⟨a, j, e1, t1, b1⟩ := hblk x hx
      have := hi'.geom.tile t1
      rw [← b1, e1]; omega) (by omega)
    omega
  have hcap' := hi'.cap
  have hs1 := h.sums
  simp only [List.map_cons, List.sum_cons] at hfit
  have hn8 := g.lt
  rw [hord] at hn8
  refine ⟨g.rdy, hmem', hlo', hnd', ?_, ?_, ?_⟩
  · rw [g.ba, h.ba]
    simp only [List.map_cons, List.sum_cons]
    rw [Nat.mod_eq_of_lt (by omega)]; omega
  · rw [g.bc, h.bc, hord]
    simp only [List.map_cons, List.sum_cons]
    rw [Nat.mod_eq_of_lt (by omega)]; omega
  · unfold Cap; rw [g.kp.lm, g.kp.mx]; exact h.cap

theorem sum_erase {f : Nat × Nat → Nat} {l : List (Nat × Nat)} {x : Nat × Nat} (h : x ∈ l) :
    (l.map f).sum = f x + ((l.erase x).map f).sum := by
  have := ((List.perm_cons_erase h).map f).sum_nat
  simpa using this

/-- a free -/
theorem LiveInv.freed (h : LiveInv C p T live) {x j n : Nat} {T' : Tiles} (ht : T x = some (j, .alloc n))
    (g : Freed C p T n j p' T' x) : LiveInv C p' T' (live.erase (x + 8, n)) := by
  obtain ⟨hm, hj⟩ := (h.mem x j n).1 ht
  have hsum := h.sum_le
  have hs1 := h.sums
  obtain ⟨F, hi⟩ := h.rdy.inv
  have hcap := hi.cap
  have e1 := sum_erase (f := fun x => x.2) hm
  have e2 := sum_erase (f := fun x => blk x.2) hm
  simp only at e1 e2
  refine ⟨g.rdy, ?_, fun y hy => h.lo y (List.mem_of_mem_erase hy), h.nodup.erase _, ?_, ?_, ?_⟩
  · intro y i m
    rw [g.al, h.mem]
    constructor
    · rintro ⟨h1, h2, h3⟩
      refine ⟨(List.mem_erase_of_ne ?_).2 h2, h3⟩
      intro e; have := congrArg Prod.fst e; simp only at this; omega
    · rintro ⟨h2, h3⟩
      have h4 := List.mem_of_mem_erase h2
      refine ⟨?_, h4, h3⟩
      rintro rfl
      have h5 : T y = some (i, .alloc m) := (h.mem _ _ _).2 ⟨h4, h3⟩
      rw [ht] at h5
      have := (some_pair h5).2
      injection this with this
      subst this
      exact (List.Nodup.not_mem_erase h.nodup) h2
  · rw [g.ba, h.ba]
    unfold sub64
    rw [Nat.mod_eq_of_lt (by omega : n < W64)]; omega
  · rw [g.bc, h.bc, hj]
    unfold sub64
    rw [Nat.mod_eq_of_lt (by omega : blk n < W64)]; omega
  · unfold Cap; rw [g.kp.lm, g.kp.mx]; exact h.cap

/-- a client's write into its own block -/
theorem LiveInv.write (h : LiveInv C p T live) {o n i : Nat} {bs : Bytes} (hm : (o, n) ∈ live) (hi : i + bs.length ≤ n) :
    LiveInv C { p with mem := bsWr p.mem (o + i) bs } T live := by
  obtain ⟨x, j, rfl, ht, hj⟩ := h.tile hm
  obtain ⟨F, hI⟩ := h.rdy.inv
  have h0 := hI.geom.tile ht
  have hal := (hI.al ht).2
  have hs : Pool.size { p with mem := bsWr p.mem (x + 8 + i) bs } = p.size := size_bsWr (by omega)
  have hw : ∀ a, (a + 8 ≤ x + 8 ∨ x + 2 ^ j ≤ a) → w (bsWr p.mem (x + 8 + i) bs) a = w p.mem a := by
    intro a ha
    unfold w
    refine leRd_congr _ _ _ _ (fun b h1 h2 => bsWr_out _ _ _ _ (by omega))
  have htile : ∀ y j' s', T y = some (j', s') → y ≠ x → y + 2 ^ j' ≤ x ∨ x + 2 ^ j ≤ y := by
    intro y j' s' hy hne
    rcases Nat.lt_or_gt_of_ne hne with h1 | h1
    · exact Or.inl (hI.geom.disj hy ht h1)
    · exact Or.inr (hI.geom.disj ht hy h1)
  have hI' : LInv { p with mem := bsWr p.mem (x + 8 + i) bs } T F (fun _ => False) := by
    refine hI.congr ⟨?_, ?_, ?_, ?_, hI.geo.lim⟩ hs ?_ ?_ ?_
    · rw [hs]; exact hI.geo.le
    · rw [hs]; exact hI.geo.page
    · rw [hs]; exact hI.geo.min
    · rw [hs]; exact hI.geo.max
    · intro a _ _ ha; exact hw a (by omega)
    · intro y j' hy
      have hne : y ≠ x := by rintro rfl; rw [ht] at hy; cases (some_pair hy).2
      have h1 := htile y _ _ hy hne
      have h2 := hI.geom.mod16 hy
      exact ⟨hw _ (by omega), hw _ (by omega)⟩
    · intro y j' m hy
      have h2 := hI.geom.mod16 hy
      by_cases hne : y = x
      · subst hne; exact hw _ (by omega)
      · have h1 := htile y _ _ hy hne
        exact hw _ (by omega)
  exact ⟨⟨⟨F, hI'⟩, h.rdy.coal, h.rdy.nh⟩, h.mem, h.lo, h.nodup, (hw 288 (by omega)).trans h.ba, (hw 296 (by omega)).trans h.bc, h.cap⟩

theorem LHist.inv (h : LHist p0 p live) : ∃ T, LiveInv True p T live := by
  induction h with
  | start hg hs hc h8 hr =>
    obtain ⟨o, h1, h2⟩ := rwp_run (init_spec hg hs (by unfold w; exact h8))
    rw [hr] at h2
    obtain ⟨-, ⟨T, hT, hno⟩, h3, h4, h5, h6, h7, -⟩ := h2
    refine ⟨T, hT, ?_, by simp, List.nodup_nil, h6, h7, ?_⟩
    · intro x j n
      constructor
      · intro hx; exact absurd hx (hno x j n)
      · rintro ⟨hx, -⟩; cases hx
    · unfold Cap; rw [h5, h4]; exact hc
  | @alloc p live n o p' h h1 h2 ht hr ih =>
    obtain ⟨T, hI⟩ := ih
    obtain ⟨out, p'', h3, h4⟩ := lalloc_run hI h1 h2 (hI.guard h1 (by omega) ht)
    rw [hr] at h3
    injection h3 with h3 h3'
    subst h3'
    rcases h4 with ⟨o', T', ho, hg, -⟩ | ⟨ho, -⟩
    · rw [ho] at h3
      injection h3 with h3
      subst h3
      exact ⟨T', hI.got h1 h2 hg⟩
    · rw [ho] at h3; cases h3
  | @allocFail p live n e p' h h1 h2 ht hr ih =>
    obtain ⟨T, hI⟩ := ih
    obtain ⟨out, p'', h3, h4⟩ := lalloc_run hI h1 h2 (hI.guard h1 (by omega) ht)
    rw [hr] at h3
    injection h3 with h3 h3'
    subst h3'
    rcases h4 with ⟨o', T', ho, -⟩ | ⟨ho, hp, -⟩
    · rw [ho] at h3; cases h3
    · rw [hp]; exact ⟨T, hI⟩
  | @free p live o n r p' h hm hr ih =>
    obtain ⟨T, hI⟩ := ih
    obtain ⟨x, j, rfl, ht, hj⟩ := hI.tile hm
    obtain ⟨p'', T', h3, h4⟩ := lfree_run hI ht
    rw [hr] at h3
    injection h3 with h3 h3'
    subst h3'
    exact ⟨T', hI.freed ht h4⟩
  | @write p live o n i bs r p' h hm hi hr ih =>
    obtain ⟨T, hI⟩ := ih
    have hb := hI.block hm
    obtain ⟨F, hL⟩ := hI.rdy.inv
    have hle := hL.geo.le
    simp only at hb
    have hin : p.inb (o + i) bs.length := ⟨by omega, by omega⟩
    have hrun : run (R.wrB (o + i) bs) p = (.ok (), { p with mem := bsWr p.mem (o + i) bs }) := by
      simp only [R.wrB, run, if_pos hin]
    rw [hr] at hrun
    injection hrun with _ hrun
    subst hrun
    exact ⟨T, hI.write hm hi⟩
  | @setBase p live v r p' h hr ih =>
    obtain ⟨T, hI⟩ := ih
    obtain ⟨F, hL⟩ := hI.rdy.inv
    have hmin := hL.geo.min
    have hin : p.inb 280 8 := hL.geo.inb (by omega)
    have hrun : run (Logarithmic.setBase v) p = (.ok (), put p 280 v) := by
      simp only [Logarithmic.setBase, R.wr64, R.wr, run, if_pos hin, forceN_eq]; rfl
    rw [hr] at hrun
    injection hrun with _ hrun
    subst hrun
    refine ⟨T, ⟨⟨F, hL.put_hdr (by decide) (by decide) (by decide)⟩, hI.rdy.coal, hI.rdy.nh⟩, hI.mem, hI.lo, hI.nodup, ?_, ?_, hI.cap⟩
    · rw [put_w (by decide) (by decide), if_neg (by decide)]; exact hI.ba
    · rw [put_w (by decide) (by decide), if_neg (by decide)]; exact hI.bc
  | reopen m h hc ih =>
    obtain ⟨T, hI⟩ := ih
    obtain ⟨F, hL⟩ := hI.rdy.inv
    exact ⟨T, ⟨⟨F, hL.reopen m⟩, hI.rdy.coal, hI.rdy.nh⟩, hI.mem, hI.lo, hI.nodup, hI.ba, hI.bc, hc⟩


theorem LiveInv.disj2 (h : LiveInv C p T live) {x y : Nat × Nat} (hx : x ∈ live) (hy : y ∈ live) (hne : x ≠ y) :
    x.1 + blk x.2 ≤ y.1 ∨ y.1 + blk y.2 ≤ x.1 := by
  obtain ⟨F, hi⟩ := h.rdy.inv
  obtain ⟨o, n⟩ := x
  obtain ⟨o', n'⟩ := y
  obtain ⟨x, j, rfl, ht, hj⟩ := h.tile hx
  obtain ⟨y, j', rfl, ht', hj'⟩ := h.tile hy
  simp only
  rw [← hj, ← hj']
  rcases Nat.lt_trichotomy x y with h1 | h1 | h1
  · have := hi.geom.disj ht ht' h1; omega
  · subst h1
    rw [ht] at ht'
    have := (some_pair ht').2
    injection this with this
    subst this
    exact absurd rfl hne
  · have := hi.geom.disj ht' ht h1; omega

/-! ### C13, C14: what a client observes -/

/-- **C13, true part (geometry).** After any history, every live block lies inside the pool, behind the allocator's own data, is
8-aligned, and no two live blocks (with their rounded-up sizes) overlap.  Missing: allocate(0), requests above 2^30, pools of
2^31 bytes and more, and expansions that reuse free blocks at the end of the pool (`Tidy`); see `C13_false_zero` and
`C13_false_reuse`. -/
theorem C13_live_blocks_partial (h : LHist p0 p live) :
    (∀ x ∈ live, 1168 ≤ x.1 ∧ x.1 % 8 = 0 ∧ x.1 + x.2 ≤ p.size ∧ p.size ≤ p.fsize) ∧
    live.Pairwise (fun x y => x.1 + x.2 ≤ y.1 ∨ y.1 + y.2 ≤ x.1) := by
  obtain ⟨T, hI⟩ := h.inv
  obtain ⟨F, hL⟩ := hI.rdy.inv
  have hle := hL.geo.le
  constructor
  · intro x hx
    have := hI.block hx
    omega
  · refine List.Pairwise.imp_of_mem ?_ hI.disj
    intro x y hx hy h1
    have := hI.block hx
    have := hI.block hy
    omega

/-- **C13, true part (allocate).** allocate returns a block or throws bad_alloc and changes nothing at all; it never runs into
undefined behaviour.  When it returns, the new block is inside the pool and apart from every live block, every
byte of every live block is unchanged, and so is the base object offset. -/
theorem C13_allocate_partial (h : LHist p0 p live) {n : Nat} (h1 : 1 ≤ n) (h2 : n + 8 ≤ 2 ^ 30) (ht : Tidy p live n) :
    run (alloc n) p = (.err .noMem, p) ∨
    ∃ o p', run (alloc n) p = (.ok o, p') ∧ 1168 ≤ o ∧ o + n ≤ p'.size ∧ p.size ≤ p'.size ∧
      (∀ x ∈ live, x.1 + x.2 ≤ o ∨ o + n ≤ x.1) ∧
      (∀ x ∈ live, ∀ i, i < x.2 → p'.mem (x.1 + i) = p.mem (x.1 + i)) ∧
      leRd p'.mem 280 8 = leRd p.mem 280 8 := by
  obtain ⟨T, hI⟩ := h.inv
  obtain ⟨out, p', h3, h4⟩ := lalloc_run hI h1 h2 (hI.guard h1 (by omega) ht)
  rcases h4 with ⟨o, T', ho, hg, -⟩ | ⟨ho, hp, -⟩
  · right
    subst ho
    have h5 : run (alloc n) p = (.ok (o + 8), p') := h3
    have h6 := C13_live_blocks_partial (h.alloc h1 h2 ht h5)
    have h7 := h6.1 (o + 8, n) (by simp)
    have h8 := (List.pairwise_cons.1 h6.2).1
    refine ⟨o + 8, p', h5, h7.1, h7.2.2.1, hg.le, ?_, ?_, ?_⟩
    · intro x hx
      have := h8 x hx
      simp only at this
      omega
    · intro x hx i hi
      obtain ⟨a, m⟩ := x
      obtain ⟨y, j, rfl, hy, hj⟩ := hI.tile hx
      have h9 := (hI.block hx).2.2.2.1
      simp only at h9 hi ⊢
      exact hg.kp.blk hy _ (by omega) (by omega)
    · exact leRd_congr _ _ _ _ (fun i h9 h10 => hg.kp.hdr i (by omega) (by omega))
  · left; rw [h3, ho, hp]; rfl

/-- **C13, true part (free).** free of a live block returns normally, leaves the size of the pool, the base object offset and every
byte of every other live block as they were. -/
theorem C13_free_partial (h : LHist p0 p live) {o n : Nat} (hm : (o, n) ∈ live) :
    ∃ p', run (free o) p = (.ok (), p') ∧ p'.size = p.size ∧
      (∀ x ∈ live.erase (o, n), ∀ i, i < x.2 → p'.mem (x.1 + i) = p.mem (x.1 + i)) ∧
      leRd p'.mem 280 8 = leRd p.mem 280 8 := by
  obtain ⟨T, hI⟩ := h.inv
  obtain ⟨x, j, rfl, ht, hj⟩ := hI.tile hm
  obtain ⟨p', T', h3, h4⟩ := lfree_run hI ht
  have hI' := hI.freed ht h4
  refine ⟨p', h3, h4.sz, ?_, ?_⟩
  · intro x hx i hi
    have h9 := (hI'.block hx).2.2.2.1
    obtain ⟨a, m⟩ := x
    obtain ⟨y, j, rfl, hy, hj⟩ := hI'.tile hx
    simp only at h9 hi ⊢
    exact h4.kp.blk hy _ (by omega) (by omega)
  · exact leRd_congr _ _ _ _ (fun i h9 h10 => h4.kp.hdr i (by omega) (by omega))

/-- **C13, true part (sizes and counters).** block_size of a live block is the size it was requested with, bytes_allocated is the
sum of the live sizes, and bytes_free is the pool's size without the 1168 bytes of the allocator's data and the live
blocks, each counted as the least power of two that holds it and its 8-byte header. -/
theorem C13_counters_partial (h : LHist p0 p live) :
    (∀ x ∈ live, run (blockSize x.1) p = (.ok x.2, p)) ∧
    run bytesAllocated p = (.ok (live.map (·.2)).sum, p) ∧
    run bytesFree p = (.ok (p.size - 1168 - (live.map (fun x => blk x.2)).sum), p) ∧
    1168 + (live.map (fun x => blk x.2)).sum ≤ p.size := by
  obtain ⟨T, hI⟩ := h.inv
  obtain ⟨F, hL⟩ := hI.rdy.inv
  have hmin := hL.geo.min
  have hsum := hI.sum_le
  have hcap := hL.cap
  refine ⟨?_, ?_, ?_, hsum⟩
  · rintro ⟨a, n⟩ hx
    have hb := hI.block hx
    obtain ⟨y, j, rfl, hy, hj⟩ := hI.tile hx
    have h1 := (hL.al hy)
    simp only at hb ⊢
    exact run_blockSize (by omega) (hL.geo.inb (by omega)) h1.1 (by omega)
  · exact run_bytesAllocated (hL.geo.inb (by omega)) hI.ba
  · rw [run_bytesFree (hL.geo.inb (by omega)) (hL.geo.inb (by omega)) hI.bc]
    have : sub64 p.size (1168 + (live.map (fun x => blk x.2)).sum) = p.size - 1168 - (live.map (fun x => blk x.2)).sum := by
      unfold sub64
      rw [Nat.mod_eq_of_lt (by omega : 1168 + _ < W64)]
      omega
    rw [this]

/-- **C14.** If somewhere in the pool an aligned region of the block's size is free (`Room`: no live block in it), allocate
succeeds without growing the pool: free blocks are always coalesced. -/
theorem C14_reuses_room_partial (h : LHist p0 p live) {n : Nat} (h1 : 1 ≤ n) (h2 : n + 8 ≤ 2 ^ 30) (hr : Room p live n) :
    ∃ o p', run (alloc n) p = (.ok o, p') ∧ p'.size = p.size := by
  obtain ⟨T, hI⟩ := h.inv
  obtain ⟨out, p', h3, h4⟩ := lalloc_run hI h1 h2 (hI.guard h1 (by omega) (Or.inl hr))
  have hroom := hI.room (by omega) hr
  rcases h4 with ⟨o, T', ho, -, hsz⟩ | ⟨-, -, hno⟩
  · subst ho
    exact ⟨_, _, h3, hsz hroom⟩
  · exact absurd hroom hno

/-- **C14.** After freeing a block, a request of at most its size succeeds without growing the pool. -/
theorem C14_free_then_allocate_partial (h : LHist p0 p live) {o n m : Nat} (hm : (o, n) ∈ live) (h1 : 1 ≤ m) (hmn : m ≤ n)
    {p' : Pool} {r : Res Unit} (hf : run (free o) p = (r, p')) (h2 : n + 8 ≤ 2 ^ 30) :
    ∃ o' p'', run (alloc m) p' = (.ok o', p'') ∧ p''.size = p.size := by
  have h' := h.free hm hf
  obtain ⟨q, hq, hsz, -⟩ := C13_free_partial h hm
  rw [hf] at hq
  injection hq with _ hq
  subst hq
  obtain ⟨T, hI⟩ := h.inv
  have hb := hI.block hm
  have hd := hI.disj
  simp only at hb
  have hle : blk m ∣ blk n := Nat.pow_dvd_pow 2 (Nat.succ_le_succ ((Nat.le_log2 (by omega)).2 (Nat.le_trans (Nat.log2_self_le (by omega)) (by omega))))
  have hle' := Nat.le_of_dvd (by omega) hle
  obtain ⟨o', p'', h3, h4⟩ := C14_reuses_room_partial h' (n := m) h1 (by omega) ⟨o - 8, Nat.dvd_trans hle hb.2.1, by omega, by rw [hsz]; omega, by
    intro x hx
    have hx' := List.mem_of_mem_erase hx
    have hne : x ≠ (o, n) := fun e => (List.Nodup.not_mem_erase hI.nodup) (e ▸ hx)
    have : x.1 + blk x.2 ≤ o ∨ o + blk n ≤ x.1 := by
      exact hI.disj2 hx' hm hne
    omega⟩
  exact ⟨o', p'', h3, h4.trans hsz⟩

/-- **C14.** When every block has been freed, bytes_allocated is 0, bytes_free is everything but the allocator's own data, and
a request succeeds without growing the pool whenever an aligned region of its size exists in the pool at all. -/
theorem C14_all_freed_partial (h : LHist p0 p []) :
    run bytesAllocated p = (.ok 0, p) ∧ run bytesFree p = (.ok (p.size - 1168), p) ∧
    ∀ n, 1 ≤ n → n + 8 ≤ 2 ^ 30 → (∃ a, blk n ∣ a ∧ 1168 ≤ a ∧ a + blk n ≤ p.size) →
      ∃ o p', run (alloc n) p = (.ok o, p') ∧ p'.size = p.size := by
  obtain ⟨h1, h2, h3, h4⟩ := C13_counters_partial h
  refine ⟨h2, ?_, ?_⟩
  · simpa using h3
  · rintro n hn1 hn2 ⟨a, ha⟩
    exact C14_reuses_room_partial h hn1 hn2 ⟨a, ha.1, ha.2.1, ha.2.2, by simp⟩

end

/-! ### C12 -/

/-- **C12, true part (orders).** For every 64-bit size and offset: order_for_size is the least order that holds the size and is
exact on powers of two, largest_order_within_size is the largest that fits, order_alignment_of_size is the largest that
divides the offset; next_order_boundary is the least multiple of the order's size at or after the offset.  size_for_order is the
power of two for orders up to 30.  Missing: larger orders (`C12_false`). -/
theorem C12_orders_partial :
    (∀ n, 0 < n → n < 2 ^ 64 → n ≤ 2 ^ orderForSize n ∧ ∀ j, n ≤ 2 ^ j → orderForSize n ≤ j) ∧
    (∀ k, k < 64 → orderForSize (2 ^ k) = k) ∧
    (∀ n, 0 < n → n < 2 ^ 64 → 2 ^ largestOrderWithin n ≤ n ∧ ∀ j, 2 ^ j ≤ n → j ≤ largestOrderWithin n) ∧
    (∀ o, 0 < o → o < 2 ^ 64 → 2 ^ orderAlignment o ∣ o ∧ ∀ j, 2 ^ j ∣ o → j ≤ orderAlignment o) ∧
    (∀ k, k < 31 → sizeForOrder k = pure (2 ^ k)) ∧
    (∀ o k, k < 31 → o + 2 ^ k ≤ 2 ^ 64 →
      2 ^ k ∣ nextBoundary o k ∧ o ≤ nextBoundary o k ∧ ∀ m, 2 ^ k ∣ m → o ≤ m → nextBoundary o k ≤ m) := by
  refine ⟨fun n h1 h2 => orderForSize_spec (by omega) h2, fun k => orderForSize_pow, ?_, ?_, ?_, ?_⟩
  · intro n h1 h2
    rw [largest_eq (by omega) h2]
    exact ⟨Nat.log2_self_le (by omega), fun j hj => (Nat.le_log2 (by omega)).2 hj⟩
  · intro o h1 h2
    exact ⟨(orderAlignment_spec h1 h2).1, fun j => orderAlignment_ge h1 h2⟩
  · intro k hk; unfold sizeForOrder; rw [if_pos hk]
  · intro o k hk ho
    have hp := Nat.two_pow_pos k
    unfold nextBoundary
    rw [Nat.and_two_pow_sub_one_eq_mod]
    by_cases h0 : o % 2 ^ k = 0
    · rw [if_neg (by simpa using h0)]
      exact ⟨Nat.dvd_of_mod_eq_zero h0, Nat.le_refl _, fun _ _ h => h⟩
    · rw [if_pos h0, Nat.mod_eq_of_lt (by omega), mask_eq (by omega) (by omega)]
      have h1 := Nat.div_add_mod (o + (2 ^ k - 1)) (2 ^ k)
      have h2 := Nat.mod_lt (o + (2 ^ k - 1)) hp
      rw [Nat.mul_comm] at h1
      refine ⟨Nat.dvd_mul_left _ _, by omega, ?_⟩
      rintro m ⟨c, rfl⟩ hm
      have h3 : (o + (2 ^ k - 1)) / 2 ^ k ≤ c := by
        refine Nat.le_of_lt_succ ((Nat.div_lt_iff_lt_mul hp).2 ?_)
        rw [Nat.succ_mul, Nat.mul_comm c]; omega
      rw [Nat.mul_comm (2 ^ k) c]
      exact Nat.mul_le_mul_right _ h3

/-- **C12 (headers).** The packed headers decode to what was encoded: for every order below 64 and every offset below 2^57, and for
every size below 2^63. -/
theorem C12_headers :
    (∀ order prev, order < 64 → prev < 2 ^ 57 →
      mkFree order prev < 2 ^ 64 ∧ hdrAlloc (mkFree order prev) = false ∧ hdrOrder (mkFree order prev) = order ∧
      hdrPrev (mkFree order prev) = prev) ∧
    (∀ size, size < 2 ^ 63 → mkAlloc size < 2 ^ 64 ∧ hdrAlloc (mkAlloc size) = true ∧ hdrSize (mkAlloc size) = size) :=
  ⟨fun _ _ h1 h2 => ⟨Nat.lt_trans (mkFree_lt h1 h2) (by decide), alloc_mkFree h1 h2, order_mkFree h1 h2, prev_mkFree h2⟩,
    fun _ h => ⟨mkAlloc_lt h, alloc_mkAlloc h, size_mkAlloc h⟩⟩

/-- **C12 is false** for large orders: `1 << order` is an int, so the size of order 31 is 2^64 - 2^31 and larger orders, up
to the maximum order 57, are undefined. -/
theorem C12_false : sizeForOrder 31 = pure (2 ^ 64 - 2 ^ 31) ∧ (∀ k, 31 < k → k ≤ 57 → sizeForOrder k = .ub) := by
  refine ⟨by unfold sizeForOrder; rw [if_neg (by decide), if_pos rfl], ?_⟩
  intro k h1 _
  unfold sizeForOrder
  rw [if_neg (by omega), if_neg (by omega)]

/-! ### where the properties fail -/

/-- **C13 is false for size 0**: in a new pool `allocate(0)` returns 1176, a following `allocate(8)` returns the same offset, and a
following `allocate(0)` returns 16, inside the allocator's own lock. -/
theorem C13_false_zero : ∃ p p1 p2 p3 : Pool,
    run init (newPool (2 ^ 30)) = (.ok (), p) ∧ run (alloc 0) p = (.ok 1176, p1) ∧ run (alloc 8) p1 = (.ok 1176, p2) ∧
    run (alloc 0) p1 = (.ok 16, p3) := by
  refine ⟨_, _, _, _, run_eta ?_, run_eta ?_, run_eta ?_, run_eta ?_⟩ <;> decide +kernel

/-- **C13 is false when the pool grows over free blocks at its end**: after allocating two blocks of 4088 bytes, writing into
the second, freeing it and allocating 8184 bytes, a byte of the first (still live) block has changed. -/
theorem C13_false_reuse : ∃ p p1 p2 p3 p4 p5 : Pool,
    run init (newPool (2 ^ 30)) = (.ok (), p) ∧ run (alloc 4088) p = (.ok 4104, p1) ∧ run (alloc 4088) p1 = (.ok 8200, p2) ∧
    run (R.wrB (8200 + 2040) [0, 0, 0, 0, 0, 0, 0, 24, 8, 16, 0, 0, 0, 0, 0, 0]) p2 = (.ok (), p3) ∧
    run (free 8200) p3 = (.ok (), p4) ∧ run (alloc 8184) p4 = (.ok 8200, p5) ∧
    p4.mem (4104 + 7) = 0 ∧ p5.mem (4104 + 7) = 24 := by
  refine ⟨_, _, _, _, _, _, run_eta ?_, run_eta ?_, run_eta ?_, run_eta ?_, run_eta ?_, run_eta ?_,
    ?_, ?_⟩ <;> decide +kernel

/-- **C54 is false**: a process dies inside `allocate(600)` while it splits a free block; the next process runs
repair, which succeeds, and then `allocate(2040)` returns offset 3080, whose bytes reach into the live block at 4104. -/
theorem C54_false : ∃ p p1 p2 p3 p4 p5 p6 : Pool,
    run init (newPool (2 ^ 30)) = (.ok (), p) ∧ run (alloc 4088) p = (.ok 4104, p1) ∧ run (alloc 2000) p1 = (.ok 2056, p2) ∧
    run (R.wrB (2056 + 1016) [0, 0, 0, 0, 0, 0, 0, 22]) p2 = (.ok (), p3) ∧ run (free 2056) p3 = (.ok (), p4) ∧
    run repair (crashAt 12 (alloc 600) p4) = (.ok (), p5) ∧ run (alloc 2040) p5 = (.ok 3080, p6) ∧ 4104 < 3080 + 2040 := by
  refine ⟨_, _, _, _, _, _, _, run_eta ?_, run_eta ?_, run_eta ?_, run_eta ?_, run_eta ?_, run_eta ?_,
    run_eta ?_, ?_⟩ <;> decide +kernel

/-- **C54 is false also when the pool grows**: a process dies inside `allocate(4088)` on a new pool, after the pool has been expanded and before the header of the new block is
written; repair then finds zeros where the new blocks' headers should be, takes them for free blocks of order 0, overwrites what it goes on
to read, and ends in a failed assertion or an access outside of the pool.  One step earlier or later it succeeds. -/
theorem C54_false_growth : ∃ p p1 p2 : Pool, run init (newPool (2 ^ 30)) = (.ok (), p) ∧
    (run repair (crashAt 52 (alloc 4088) p)).1 = .ub ∧ run repair (crashAt 51 (alloc 4088) p) = (.ok (), p1) ∧ run repair (crashAt 53 (alloc 4088) p) = (.ok (), p2) := by
  refine ⟨_, _, _, run_eta ?_, ?_, run_eta ?_, run_eta ?_⟩ <;> decide +kernel

/-! ### a concrete history, showing that `LHist` is inhabited non-trivially -/

theorem newPool_cap : Cap (newPool (2 ^ 30)) := Or.inr ⟨by decide, by decide⟩

/-- allocate 100 bytes, 4088 bytes (growing the pool), 100 bytes, free the first, write into the last -/
example : ∃ p live, LHist (newPool (2 ^ 30)) p live ∧ live = [(1416, 100), (4104, 4088)] ∧ Room p live 100 ∧ Tidy p live 4000 := by
  have h0 : LHist (newPool (2 ^ 30)) (run init (newPool (2 ^ 30))).2 [] :=
    .start (newPool_geo _) (by rw [newPool_size]; decide) newPool_cap (by decide +kernel) (run_eta (by decide +kernel))
  have h1 := h0.alloc (n := 100) (o := 1288) (by decide) (by decide) (Or.inr (Or.inl (by decide +kernel))) (run_eta (by decide +kernel))
  have h2 := h1.alloc (n := 4088) (o := 4104) (by decide) (by decide) (Or.inr (Or.inl (by decide +kernel))) (run_eta (by decide +kernel))
  have h3 := h2.alloc (n := 100) (o := 1416) (by decide) (by decide) (Or.inr (Or.inl (by decide +kernel))) (run_eta (by decide +kernel))
  have h4 := h3.free (o := 1288) (n := 100) (by simp) (run_eta (r := .ok ()) (by decide +kernel))
  have h5 := h4.write (o := 1416) (n := 100) (i := 3) (bs := [1, 2, 3]) (r := .ok ()) (by decide) (by decide) (run_eta (by decide +kernel))
  refine ⟨_, _, h5, by decide +kernel, ⟨1280, by decide +kernel, by decide, by decide +kernel, by decide +kernel⟩,
    Or.inr (Or.inl (by decide +kernel))⟩

end Verif.Logarithmic
