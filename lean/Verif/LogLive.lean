import Verif.LogInit
import Verif.PropsSimple
/-
Client histories of the LogarithmicAllocator and what holds after each of them.
-/
namespace Verif.Logarithmic
open Verif
open Verif.Simple (w w_wr w_lt Geo put put_w put_size rwp_r rwp_w Grow)

/-- what a request for `n` bytes occupies: the least power of two that holds the data and an 8-byte header -/
def blk (n : Nat) : Nat := 2 ^ (Nat.log2 (n + 7) + 1)

theorem order_log (n : Nat) (h : n + 8 < W64) : orderForSize (n + 8) = Nat.log2 (n + 7) + 1 := by
  obtain ⟨h1, h2⟩ := orderForSize_spec (n := n + 8) (by omega) h
  have h3 : n + 7 < 2 ^ (Nat.log2 (n + 7) + 1) := Nat.lt_log2_self
  have h4 : 2 ^ Nat.log2 (n + 7) ≤ n + 7 := Nat.log2_self_le (by omega)
  refine Nat.le_antisymm (h2 _ (by omega)) ?_
  refine Nat.not_lt.1 fun hc => ?_
  have : 2 ^ orderForSize (n + 8) ≤ 2 ^ Nat.log2 (n + 7) := Nat.pow_le_pow_right (n := 2) (by decide) (by omega)
  omega

/-- a block-sized, block-aligned region inside the pool that no live block occupies -/
def Room (p : Pool) (live : List (Nat × Nat)) (n : Nat) : Prop :=
  ∃ a, blk n ∣ a ∧ 1168 ≤ a ∧ a + blk n ≤ p.size ∧ ∀ x ∈ live, a + blk n + 8 ≤ x.1 ∨ x.1 + blk x.2 ≤ a + 8

/-- Either there is room, or growing the pool does not try to reuse free blocks at its end: the pool's size is a multiple
of the block's, or the pool is smaller than the block, or a live block lies in the last (partial) block-sized region. -/
def Tidy (p : Pool) (live : List (Nat × Nat)) (n : Nat) : Prop :=
  Room p live n ∨ p.size % blk n = 0 ∨ p.size < blk n ∨ ∃ x ∈ live, p.size / blk n * blk n ≤ x.1

/-- Client histories of one pool.  `live`: the (offset, size) pairs the client holds. -/
inductive LHist (p0 : Pool) : Pool → List (Nat × Nat) → Prop
  | start {p} : Geo p0 → p0.size < 2 ^ 31 → Cap p0 → leRd p0.mem 8 8 = 0 → run init p0 = (.ok (), p) → LHist p0 p []
  | alloc {p live n o p'} : LHist p0 p live → 1 ≤ n → n + 8 ≤ 2 ^ 30 → Tidy p live n → run (alloc n) p = (.ok o, p') →
      LHist p0 p' ((o, n) :: live)
  | allocFail {p live n e p'} : LHist p0 p live → 1 ≤ n → n + 8 ≤ 2 ^ 30 → Tidy p live n → run (alloc n) p = (.err e, p') →
      LHist p0 p' live
  | free {p live o n r p'} : LHist p0 p live → (o, n) ∈ live → run (free o) p = (r, p') → LHist p0 p' (live.erase (o, n))
  | write {p live o n i bs r p'} : LHist p0 p live → (o, n) ∈ live → i + bs.length ≤ n →
      run (R.wrB (o + i) bs) p = (r, p') → LHist p0 p' live
  | setBase {p live v r p'} : LHist p0 p live → run (setBase v) p = (r, p') → LHist p0 p' live
  | reopen {p live} (m : Nat) : LHist p0 p live → Cap { p with maxSize := m } → LHist p0 { p with maxSize := m } live

/-! ### disjoint intervals -/

theorem sum_filter_split (f : Nat × Nat → Nat) (c : Nat × Nat → Bool) (l : List (Nat × Nat)) :
    (l.map f).sum = ((l.filter c).map f).sum + ((l.filter (fun x => !c x)).map f).sum := by
  induction l with
  | nil => rfl
  | cons a t ih =>
    cases h : c a
    · simp only [List.map_cons, List.sum_cons, List.filter_cons, h, Bool.false_eq_true, if_false, Bool.not_false, if_true]
      omega
    · simp only [List.map_cons, List.sum_cons, List.filter_cons, h, if_true, Bool.not_true, Bool.false_eq_true, if_false]
      omega

theorem sum_disjoint {len : Nat × Nat → Nat} : ∀ (m : Nat) (l : List (Nat × Nat)) (lo hi : Nat), l.length ≤ m →
    l.Pairwise (fun x y => x.1 + len x ≤ y.1 ∨ y.1 + len y ≤ x.1) → (∀ x ∈ l, lo ≤ x.1 ∧ x.1 + len x ≤ hi) → lo ≤ hi →
    lo + (l.map len).sum ≤ hi := by
  intro m
  induction m with
  | zero =>
    intro l lo hi hl _ _ h
    cases l with
    | nil => simpa using h
    | cons a t => simp at hl
  | succ m ih =>
    intro l lo hi hl hp hb h
    cases l with
    | nil => simpa using h
    | cons a t =>
      have ha := hb a (by simp)
      rw [List.pairwise_cons] at hp
      have hlen : t.length ≤ m := by simpa using hl
      have h1 := ih (t.filter (fun x => decide (x.1 + len x ≤ a.1))) lo a.1 (Nat.le_trans (List.length_filter_le _ _) hlen)
        (hp.2.filter _) (by
          intro x hx
          rw [List.mem_filter] at hx
          have := hb x (by simp [hx.1])
          exact ⟨this.1, by simpa using hx.2⟩) ha.1
      have h2 := ih (t.filter (fun x => !decide (x.1 + len x ≤ a.1))) (a.1 + len a) hi (Nat.le_trans (List.length_filter_le _ _) hlen)
        (hp.2.filter _) (by
          intro x hx
          rw [List.mem_filter] at hx
          have h3 := hb x (by simp [hx.1])
          have h4 : ¬ x.1 + len x ≤ a.1 := by simpa using hx.2
          have h5 := hp.1 x hx.1
          exact ⟨by omega, h3.2⟩) ha.2
      have h3 := sum_filter_split len (fun x => decide (x.1 + len x ≤ a.1)) t
      simp only [List.map_cons, List.sum_cons]
      omega

/-! ### the invariant of histories -/

/-- the tiles and the client's list agree -/
structure LiveInv (C : Prop) (p : Pool) (T : Tiles) (live : List (Nat × Nat)) : Prop where
  rdy : Ready C p T
  mem : ∀ x j n, T x = some (j, .alloc n) ↔ ((x + 8, n) ∈ live ∧ 2 ^ j = blk n)
  lo : ∀ x ∈ live, 1176 ≤ x.1
  nodup : live.Nodup
  ba : w p.mem 288 = (live.map (·.2)).sum
  bc : w p.mem 296 = 1168 + (live.map (fun x => blk x.2)).sum
  cap : Cap p

variable {p p' : Pool} {T : Tiles} {live : List (Nat × Nat)} {C : Prop}

theorem LiveInv.tile (h : LiveInv C p T live) {o n : Nat} (hm : (o, n) ∈ live) :
    ∃ x j, o = x + 8 ∧ T x = some (j, .alloc n) ∧ 2 ^ j = blk n := by
  have h1 := h.lo _ hm
  simp only at h1
  refine ⟨o - 8, Nat.log2 (n + 7) + 1, by omega, (h.mem _ _ _).2 ⟨?_, rfl⟩, rfl⟩
  rw [Nat.sub_add_cancel (by omega)]; exact hm

/-- a live block: where it lies, and its size -/
theorem LiveInv.block (h : LiveInv C p T live) {x : Nat × Nat} (hm : x ∈ live) :
    1176 ≤ x.1 ∧ blk x.2 ∣ x.1 - 8 ∧ x.1 + blk x.2 ≤ p.size + 8 ∧ x.2 + 8 ≤ blk x.2 ∧ blk x.2 < 2 * (x.2 + 8) ∧ 16 ≤ blk x.2 ∧
    x.1 % 16 = 8 := by
  obtain ⟨o, n⟩ := x
  obtain ⟨x, j, rfl, ht, hj⟩ := h.tile hm
  obtain ⟨F, hi⟩ := h.rdy.inv
  have h1 := hi.geom.tile ht
  have h2 := (hi.al ht).2
  have h3 := hi.geom.mod16 ht
  rw [hj] at h1 h2 h3
  simp only
  refine ⟨by omega, by rw [Nat.add_sub_cancel]; exact h1.2.1, by omega, h2.1, h2.2, h3.2.2.2, by omega⟩

theorem LiveInv.disj (h : LiveInv C p T live) :
    live.Pairwise (fun x y => x.1 + blk x.2 ≤ y.1 ∨ y.1 + blk y.2 ≤ x.1) := by
  obtain ⟨F, hi⟩ := h.rdy.inv
  refine List.Pairwise.imp_of_mem ?_ h.nodup
  rintro ⟨o, n⟩ ⟨o', n'⟩ hx hy hne
  obtain ⟨x, j, rfl, ht, hj⟩ := h.tile hx
  obtain ⟨y, j', rfl, ht', hj'⟩ := h.tile hy
  simp only
  rw [← hj, ← hj']
  rcases Nat.lt_trichotomy x y with h1 | h1 | h1
  · have := hi.geom.disj ht ht' h1; omega
  · subst h1
    rw [ht] at ht'
    have := (some_pair ht').2
    injection this with this
    subst this
    exact absurd rfl hne
  · have := hi.geom.disj ht' ht h1; omega

theorem LiveInv.sum_le (h : LiveInv C p T live) : 1168 + (live.map (fun x => blk x.2)).sum ≤ p.size := by
  obtain ⟨F, hi⟩ := h.rdy.inv
  have hmin := hi.geo.min
  have := sum_disjoint (len := fun x => blk x.2) live.length live 1176 (p.size + 8) (Nat.le_refl _) h.disj
    (fun x hx => ⟨(h.block hx).1, (h.block hx).2.2.1⟩) (by omega)
  omega

theorem sum_n_le {l : List (Nat × Nat)} (h : ∀ x ∈ l, x.2 ≤ blk x.2) : (l.map (·.2)).sum ≤ (l.map (fun x => blk x.2)).sum := by
  induction l with
  | nil => exact Nat.le_refl _
  | cons a t ih =>
    have h1 := h a (by simp)
    have h2 := ih (fun x hx => h x (by simp [hx]))
    simp only [List.map_cons, List.sum_cons]; omega

theorem LiveInv.sums (h : LiveInv C p T live) : (live.map (·.2)).sum ≤ (live.map (fun x => blk x.2)).sum :=
  sum_n_le (fun x hx => by have := (h.block hx).2.2.2.1; omega)

/-! ### room -/

/-- no free tile lies strictly inside a free aligned region: it would have been merged with its buddy -/
theorem no_small {S : Nat} (hg : Geom T (fun _ => False) S) (hc : Coal True T) (hnh : ∀ x j, T x ≠ some (j, .held)) {a k : Nat}
    (hd : 2 ^ k ∣ a) (hlo : 1168 ≤ a) (hhi : a + 2 ^ k ≤ S)
    (hfree : ∀ x j m, T x = some (j, .alloc m) → x + 2 ^ j ≤ a ∨ a + 2 ^ k ≤ x) :
    ∀ (j : Nat), j < k → ∀ x, a ≤ x → x + 2 ^ j ≤ a + 2 ^ k → T x ≠ some (j, .free) := by
  intro j
  induction j using Nat.strongRecOn with
  | ind j ih =>
    intro hjk x hax hxa ht
    have hp := Nat.two_pow_pos j
    have h0 := hg.tile ht
    have hd1 : 2 ^ (j + 1) ∣ a := Nat.dvd_trans (Nat.pow_dvd_pow 2 hjk) hd
    have hd2 : 2 ^ (j + 1) ∣ a + 2 ^ k := Nat.dvd_add hd1 (Nat.pow_dvd_pow 2 hjk)
    -- the buddy lies in the region
    have hb : a ≤ x ^^^ 2 ^ j ∧ (x ^^^ 2 ^ j) + 2 ^ j ≤ a + 2 ^ k := by
      rcases buddy_spec h0.2.1 with ⟨h1, e⟩ | ⟨-, h1, e, h2⟩
      · rw [e]
        have := aligned_le h1 hd2 (by omega)
        rw [Nat.pow_succ] at this
        omega
      · rw [e]
        have : a ≤ x - 2 ^ j := by
          refine Nat.not_lt.1 fun hlt => ?_
          have := aligned_le (k := j + 1) (e ▸ h2) hd1 (by omega)
          rw [Nat.pow_succ] at this
          omega
        omega
    obtain ⟨j', s', hb'⟩ := hg.buddy_tile ht (by intro y hy; exact hy.elim) (by omega) (by omega)
    have h0' := hg.tile hb'
    have hp' := Nat.two_pow_pos j'
    have hs' : s' = .free := by
      cases s' with
      | free => rfl
      | held => exact absurd hb' (hnh _ _)
      | alloc m =>
        rcases hfree _ _ _ hb' with h1 | h1 <;> omega
    subst hs'
    rcases Nat.lt_trichotomy j' j with h1 | h1 | h1
    · have : 2 ^ j' ≤ 2 ^ j := Nat.pow_le_pow_right (n := 2) (by decide) (by omega)
      exact ih j' h1 (by omega) _ hb.1 (by omega) hb'
    · subst h1; exact hc trivial x j' ht hb'
    · -- the buddy's tile would contain `x`
      have hbd : 2 ^ (j + 1) ∣ x ^^^ 2 ^ j := Nat.dvd_trans (Nat.pow_dvd_pow 2 h1) h0'.2.1
      have hpw : 2 ^ (j + 1) ≤ 2 ^ j' := Nat.pow_le_pow_right (n := 2) (i := j + 1) (by decide) h1
      rw [Nat.pow_succ] at hpw
      have hne := buddy_ne h0.2.1
      have : x ^^^ 2 ^ j ≤ x ∧ x < (x ^^^ 2 ^ j) + 2 ^ j' := by
        rcases buddy_spec h0.2.1 with ⟨h2, e⟩ | ⟨-, h2, e, -⟩
        · exfalso
          rw [e] at hbd
          have := (Nat.dvd_add_right h2).1 hbd
          have := Nat.le_of_dvd hp this
          rw [Nat.pow_succ] at this; omega
        · rw [e]; omega
      exact hne (hg.same hb' ht this.1 this.2 (Nat.le_refl _) (by omega))

theorem room_tile {S : Nat} (hg : Geom T (fun _ => False) S) (hc : Coal True T) (hnh : ∀ x j, T x ≠ some (j, .held)) {a k : Nat}
    (hd : 2 ^ k ∣ a) (hlo : 1168 ≤ a) (hhi : a + 2 ^ k ≤ S)
    (hfree : ∀ x j m, T x = some (j, .alloc m) → x + 2 ^ j ≤ a ∨ a + 2 ^ k ≤ x) : HasRoom T k := by
  have hp := Nat.two_pow_pos k
  obtain ⟨x, j, st, ht, h1, h2⟩ := hg.cov a hlo (by omega) (by simp)
  have hst : st = .free := by
    cases st with
    | free => rfl
    | held => exact absurd ht (hnh _ _)
    | alloc m => rcases hfree _ _ _ ht with h3 | h3 <;> omega
  subst hst
  rcases Nat.lt_or_ge j k with hjk | hjk
  · exfalso
    have hpw : 2 ^ j ≤ 2 ^ k := Nat.pow_le_pow_right (n := 2) (by decide) (by omega)
    rcases hg.aligned_start hd ht h1 h2 with e | ⟨h3, -⟩
    · subst e
      exact no_small hg hc hnh hd hlo hhi hfree j hjk x (Nat.le_refl _) (by omega) ht
    · omega
  · exact ⟨x, j, hjk, ht⟩

theorem LiveInv.room (h : LiveInv True p T live) {n : Nat} (hn : n + 8 < W64) (hr : Room p live n) : HasRoom T (orderForSize (n + 8)) := by
  obtain ⟨F, hi⟩ := h.rdy.inv
  obtain ⟨a, h1, h2, h3, h4⟩ := hr
  rw [order_log n hn]
  refine room_tile hi.geom h.rdy.coal h.rdy.nh h1 h2 h3 ?_
  intro x j m hx
  obtain ⟨hm, hj⟩ := (h.mem x j m).1 hx
  have := h4 _ hm
  simp only at this
  rw [hj]
  unfold blk at *
  omega

/-- The last three cases of `Tidy`: growing the pool does not try to reuse free blocks at its end. -/
def TidyEnd (p : Pool) (live : List (Nat × Nat)) (n : Nat) : Prop :=
  p.size % blk n = 0 ∨ p.size < blk n ∨ ∃ x ∈ live, p.size / blk n * blk n ≤ x.1

theorem LiveInv.guardEnd (h : LiveInv C p T live) {n : Nat} (h1 : 1 ≤ n) (hn : n + 8 < W64) (ht : TidyEnd p live n) :
    Guard p T (orderForSize (n + 8)) := by
  rcases ht with ht | ht | ⟨⟨o, m⟩, hm, ht⟩
  · left; rw [order_log n hn]; exact ht
  · right; left; rw [order_log n hn]; exact ht
  · right; right
    obtain ⟨x, j, rfl, hx, hj⟩ := h.tile hm
    obtain ⟨F, hi⟩ := h.rdy.inv
    have h3 := hi.geom.mod16 hx
    refine ⟨x, j, m, hx, ?_⟩
    rw [order_log n hn]
    have h16 : 16 ∣ blk n := (pow16 (by
      have : 3 ≤ Nat.log2 (n + 7) := by rw [Nat.le_log2 (by omega)]; show 8 ≤ _; omega
      omega)).1
    have := Nat.mod_eq_zero_of_dvd (Nat.dvd_trans h16 (Nat.dvd_mul_left (blk n) (p.size / blk n)))
    show p.size / blk n * blk n ≤ x
    simp only at ht
    omega

theorem LiveInv.guard (h : LiveInv True p T live) {n : Nat} (h1 : 1 ≤ n) (hn : n + 8 < W64) (ht : Tidy p live n) :
    HasRoom T (orderForSize (n + 8)) ∨ Guard p T (orderForSize (n + 8)) := by
  rcases ht with ht | ht
  · exact Or.inl (h.room hn ht)
  · exact Or.inr (h.guardEnd h1 hn ht)

end Verif.Logarithmic
