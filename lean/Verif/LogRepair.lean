import Verif.LogLive
/-
repair rebuilds the free lists from the block headers.
-/
namespace Verif.Logarithmic
open Verif
open Verif.Simple (w w_wr w_lt Geo put put_w put_size rwp_r rwp_w Grow)

variable {p p' q : Pool} {T : Tiles} {F : Nat → List Nat} {E : Nat → Prop} {o k n : Nat} {s : St} {live : List (Nat × Nat)}

/-- blocks in nobody's hands have the header of a free block -/
theorem Disk.norm (h : Disk p T E) : ∃ T', Disk p T' E ∧ (∀ x j, T' x ≠ some (j, .held)) ∧ SameAl T T' := by
  have key : ∀ x j st, (match T x with | some (k, .held) => some (k, St.free) | t => t) = some (j, st) →
      st ≠ .held ∧ ∃ st', T x = some (j, st') ∧ (∀ hh, HdrIs hh j st' → HdrIs hh j st) ∧ (∀ m, st = .alloc m ↔ st' = .alloc m) := by
    intro x j st hx
    cases ht : T x with
    | none => rw [ht] at hx; cases hx
    | some t =>
      obtain ⟨k, s⟩ := t
      rw [ht] at hx
      cases s with
      | free =>
        obtain ⟨e1, e2⟩ := some_pair hx
        subst e1; subst e2
        exact ⟨by simp, _, rfl, fun _ h => h, fun _ => Iff.rfl⟩
      | alloc m =>
        obtain ⟨e1, e2⟩ := some_pair hx
        subst e1; subst e2
        exact ⟨by simp, _, rfl, fun _ h => h, fun _ => Iff.rfl⟩
      | held =>
        obtain ⟨e1, e2⟩ := some_pair hx
        subst e1; subst e2
        exact ⟨by simp, _, rfl, fun _ h => h, fun m => by simp⟩
  refine ⟨fun x => match T x with | some (k, .held) => some (k, .free) | t => t, ⟨h.geo, h.cap, ⟨?_, ?_, ?_, ?_⟩, ?_, h.top⟩, ?_, ?_⟩
  · intro x j st hx; obtain ⟨-, st', hx', -⟩ := key x j st hx; exact h.geom.tile hx'
  · intro x j st hx; obtain ⟨-, st', hx', -⟩ := key x j st hx; exact h.geom.nE hx'
  · intro x j st x' j' st' hx hx'
    obtain ⟨-, _, hx, -⟩ := key x j st hx
    obtain ⟨-, _, hx', -⟩ := key x' j' st' hx'
    exact h.geom.disj hx hx'
  · intro x h1 h2 h3
    obtain ⟨a, j, st, ht, h4⟩ := h.geom.cov x h1 h2 h3
    cases st with
    | held => exact ⟨a, j, .free, by simp only [ht], h4⟩
    | free => exact ⟨a, j, .free, by simp only [ht], h4⟩
    | alloc m => exact ⟨a, j, .alloc m, by simp only [ht], h4⟩
  · intro x j st hx
    obtain ⟨-, st', hx', hh, -⟩ := key x j st hx
    exact hh _ (h.hdr hx')
  · intro x j hx; exact (key x j _ hx).1 rfl
  · intro x j m
    constructor
    · intro hx
      obtain ⟨-, st', hx', -, hm⟩ := key x j _ hx
      rw [(hm m).1 rfl] at hx'; exact hx'
    · intro hx; simp only [hx]

/-- the free blocks from `o` on are not on a list yet -/
def hideFrom (T : Tiles) (o : Nat) : Tiles := fun x =>
  match T x with
  | some (k, .free) => if x < o then some (k, .free) else some (k, .held)
  | t => t

theorem hide_alloc {x j m : Nat} : hideFrom T o x = some (j, .alloc m) ↔ T x = some (j, .alloc m) := by
  unfold hideFrom
  cases ht : T x with
  | none => exact Iff.rfl
  | some t =>
    obtain ⟨k, s⟩ := t
    cases s with
    | free =>
      simp only
      split
      · exact Iff.rfl
      · constructor <;> intro hx <;> cases (some_pair hx).2
    | held => exact Iff.rfl
    | alloc m => exact Iff.rfl

theorem hide_ord {x j : Nat} {st : St} (hx : hideFrom T o x = some (j, st)) : ∃ st', T x = some (j, st') := by
  unfold hideFrom at hx
  cases ht : T x with
  | none => rw [ht] at hx; cases hx
  | some t =>
    obtain ⟨k, s⟩ := t
    rw [ht] at hx
    cases s with
    | free =>
      simp only at hx
      split at hx <;> (obtain ⟨e1, -⟩ := some_pair hx; subst e1; exact ⟨_, rfl⟩)
    | held => obtain ⟨e1, -⟩ := some_pair hx; subst e1; exact ⟨_, rfl⟩
    | alloc m => obtain ⟨e1, -⟩ := some_pair hx; subst e1; exact ⟨_, rfl⟩

theorem hide_free {x j : Nat} (hx : hideFrom T o x = some (j, .free)) : T x = some (j, .free) ∧ x < o := by
  unfold hideFrom at hx
  cases ht : T x with
  | none => rw [ht] at hx; cases hx
  | some t =>
    obtain ⟨k, s⟩ := t
    rw [ht] at hx
    cases s with
    | free =>
      simp only at hx
      split at hx
      · rename_i hlt; exact ⟨hx, hlt⟩
      · cases (some_pair hx).2
    | held => cases (some_pair hx).2
    | alloc m => cases (some_pair hx).2

theorem Geom.hide {S : Nat} (h : Geom T E S) (o : Nat) : Geom (hideFrom T o) E S := by
  refine ⟨?_, ?_, ?_, ?_⟩
  · intro x j st hx; obtain ⟨_, hx⟩ := hide_ord hx; exact h.tile hx
  · intro x j st hx; obtain ⟨_, hx⟩ := hide_ord hx; exact h.nE hx
  · intro x j st x' j' st' hx hx'
    obtain ⟨_, hx⟩ := hide_ord hx
    obtain ⟨_, hx'⟩ := hide_ord hx'
    exact h.disj hx hx'
  · intro x h1 h2 h3
    obtain ⟨a, j, st, ht, h4⟩ := h.cov x h1 h2 h3
    have : ∃ st', hideFrom T o a = some (j, st') := by
      unfold hideFrom
      rw [ht]
      cases st with
      | free => simp only; split <;> exact ⟨_, rfl⟩
      | held => exact ⟨_, rfl⟩
      | alloc m => exact ⟨_, rfl⟩
    obtain ⟨st', h5⟩ := this
    exact ⟨a, j, st', h5, h4⟩

theorem hide_skip {S : Nat} (hg : Geom T E S) (ht : T o = some (k, .alloc n)) : hideFrom T (o + 2 ^ k) = hideFrom T o := by
  funext x
  unfold hideFrom
  cases hx : T x with
  | none => rfl
  | some t =>
    obtain ⟨j, s⟩ := t
    cases s with
    | held => rfl
    | alloc m => rfl
    | free =>
      simp only
      have hp := Nat.two_pow_pos k
      by_cases h1 : x < o
      · rw [if_pos h1, if_pos (by omega)]
      · have hne : x ≠ o := by rintro rfl; rw [ht] at hx; cases (some_pair hx).2
        have := hg.disj ht hx (by omega)
        rw [if_neg h1, if_neg (by omega)]

theorem hide_next {S : Nat} (hg : Geom T E S) (ht : T o = some (k, .free)) :
    hideFrom T (o + 2 ^ k) = tset (hideFrom T o) o k .free := by
  have hp := Nat.two_pow_pos k
  funext x
  by_cases e : x = o
  · subst e
    rw [tset_same]
    unfold hideFrom
    rw [ht]
    simp only
    rw [if_pos (by omega)]
  · rw [tset_ne e]
    unfold hideFrom
    cases hx : T x with
    | none => rfl
    | some t =>
      obtain ⟨j, s⟩ := t
      cases s with
      | held => rfl
      | alloc m => rfl
      | free =>
        simp only
        by_cases h1 : x < o
        · rw [if_pos h1, if_pos (by omega)]
        · have := hg.disj ht hx (by omega)
          rw [if_neg h1, if_neg (by omega)]

theorem hide_here (ht : T o = some (k, .free)) : hideFrom T o o = some (k, .held) := by
  unfold hideFrom; rw [ht]; simp

theorem hide_all {S : Nat} (hg : Geom T E S) : hideFrom T S = T := by
  funext x
  unfold hideFrom
  cases hx : T x with
  | none => rfl
  | some t =>
    obtain ⟨j, s⟩ := t
    cases s with
    | held => rfl
    | alloc m => rfl
    | free =>
      have := hg.tile hx
      have := Nat.two_pow_pos j
      simp only
      rw [if_pos (by omega)]

section
attribute [local irreducible] Pool.size w start
/-- clearing the lists changes no header -/
theorem clearLists_spec (h : Disk p T E) : ∀ m, m ≤ 53 →
    rwp (clearLists m) (fun out p' => out = .ok () ∧ CrU 304 T p p' ∧
      ∀ i, i < m → w p'.mem (304 + 8 * i) = 0 ∧ w p'.mem (736 + 8 * i) = 0) (CrU 304 T p) p := by
  have hmin := h.geo.min
  intro m
  induction m with
  | zero =>
    intro _
    exact ⟨CrU.refl _ _ h.geo, rfl, CrU.refl _ _ h.geo, fun i hi => absurd hi (Nat.not_lt_zero _)⟩
  | succ m ih =>
    intro hm
    unfold clearLists
    simp only [Prog.bind_def]
    refine rwp_bind_of (ih (by omega)) (fun _ h => h) ?_ (by rintro e s' ⟨h, -⟩; cases h)
    rintro - q ⟨-, hq, hz⟩
    have hsz := hq.sz
    have c1 := hq.put (a := 304 + 8 * m) (v := 0) (by decide) (by decide) h.geom (Or.inl (by omega)) (by omega) (by omega) (by omega)
    have c2 := c1.put (a := 736 + 8 * m) (v := 0) (by decide) (by decide) h.geom (Or.inl (by omega)) (by omega) (by omega) (by omega)
    refine rwp_w hq hq.geo (by omega) ?_
    have hsz1 := c1.sz
    refine ⟨c1, c1.geo.inb (by omega), c2, rfl, c2, ?_⟩
    have key : ∀ a, a % 8 = 0 → (a = 304 + 8 * m ∨ a = 736 + 8 * m ∨ w q.mem a = 0) →
        w (put (put q (304 + 8 * m) 0) (736 + 8 * m) 0).mem a = 0 := by
      intro a h8 ha
      rw [put_w (by omega) h8]
      split
      · rfl
      · rw [put_w (by omega) h8]
        split
        · rfl
        · rcases ha with ha | ha | ha
          · contradiction
          · contradiction
          · exact ha
    intro i hi
    by_cases e : i = m
    · subst e
      exact ⟨key _ (by omega) (Or.inl rfl), key _ (by omega) (Or.inr (Or.inl rfl))⟩
    · have := hz i (by omega)
      exact ⟨key _ (by omega) (Or.inr (Or.inr this.1)), key _ (by omega) (Or.inr (Or.inr this.2))⟩

end

/-- with empty lists, the headers give the invariant in which no free block is on a list -/
theorem Disk.cleared (h : Disk p T (fun _ => False))
    (hz : ∀ i, i < 53 → w p.mem (304 + 8 * i) = 0 ∧ w p.mem (736 + 8 * i) = 0) :
    LInv p (hideFrom T 1168) (fun _ => []) (fun _ => False) := by
  refine ⟨h.geo, h.cap, h.geom.hide _, ⟨?_, fun _ => List.nodup_nil, ?_, ?_, fun _ => trivial⟩, ?_⟩
  · intro j x
    constructor
    · intro hx; cases hx
    · intro hx
      have h1 := hide_free hx
      have := h.geom.tile h1.1
      omega
  · intro j h4 h57
    show _ = 0
    by_cases e : j = 57
    · subst e; exact h.top.1
    · have := (hz (j - 4) (by omega)).1
      rw [show headA j = 304 + 8 * (j - 4) from by unfold headA; omega]; exact this
  · intro j h4 h57
    show _ = 0
    by_cases e : j = 57
    · subst e; exact h.top.2
    · have := (hz (j - 4) (by omega)).2
      rw [show tailA j = 736 + 8 * (j - 4) from by unfold tailA; omega]; exact this
  · intro x j m hx
    exact h.hdr (hide_alloc.1 hx)

/-- the part of a sum that belongs to blocks before `o` -/
def sumTo (f : Nat × Nat → Nat) (live : List (Nat × Nat)) (o : Nat) : Nat :=
  (live.map (fun x => if x.1 < o + 8 then f x else 0)).sum

theorem sum_congr {f g : Nat × Nat → Nat} {l : List (Nat × Nat)} (h : ∀ x ∈ l, f x = g x) : (l.map f).sum = (l.map g).sum := by
  induction l with
  | nil => rfl
  | cons a t ih =>
    simp only [List.map_cons, List.sum_cons, h a (by simp), ih (fun x hx => h x (by simp [hx]))]

theorem sum_erase' {f : Nat × Nat → Nat} {l : List (Nat × Nat)} {x : Nat × Nat} (h : x ∈ l) :
    (l.map f).sum = f x + ((l.erase x).map f).sum := by
  have := ((List.perm_cons_erase h).map f).sum_nat
  simpa using this

/-- what the client holds and what the headers say -/
structure DiskLive (p : Pool) (T : Tiles) (live : List (Nat × Nat)) : Prop where
  disk : Disk p T (fun _ => False)
  nh : ∀ x j, T x ≠ some (j, .held)
  mem : ∀ x j n, T x = some (j, .alloc n) ↔ ((x + 8, n) ∈ live ∧ 2 ^ j = blk n)
  lo : ∀ x ∈ live, 1176 ≤ x.1
  nodup : live.Nodup
  cap : Cap p

theorem DiskLive.tile (h : DiskLive p T live) {o n : Nat} (hm : (o, n) ∈ live) :
    ∃ x j, o = x + 8 ∧ T x = some (j, .alloc n) ∧ 2 ^ j = blk n := by
  have h1 := h.lo _ hm
  simp only at h1
  refine ⟨o - 8, Nat.log2 (n + 7) + 1, by omega, (h.mem _ _ _).2 ⟨?_, rfl⟩, rfl⟩
  rw [Nat.sub_add_cancel (by omega)]; exact hm

theorem DiskLive.sums (h : DiskLive p T live) :
    1168 + (live.map (fun x => blk x.2)).sum ≤ p.size ∧ (live.map (·.2)).sum ≤ (live.map (fun x => blk x.2)).sum := by
  have hmin := h.disk.geo.min
  constructor
  · have := sum_disjoint (len := fun x => blk x.2) live.length live 1176 (p.size + 8) (Nat.le_refl _) (by
      refine List.Pairwise.imp_of_mem ?_ h.nodup
      rintro ⟨o, n⟩ ⟨o', n'⟩ hx hy hne
      obtain ⟨x, j, rfl, ht, hj⟩ := h.tile hx
      obtain ⟨y, j', rfl, ht', hj'⟩ := h.tile hy
      simp only
      rw [← hj, ← hj']
      rcases Nat.lt_trichotomy x y with h1 | h1 | h1
      · have := h.disk.geom.disj ht ht' h1; omega
      · subst h1
        rw [ht] at ht'
        have := (some_pair ht').2
        injection this with this
        subst this
        exact absurd rfl hne
      · have := h.disk.geom.disj ht' ht h1; omega) (by
      rintro ⟨o, n⟩ hx
      obtain ⟨x, j, rfl, ht, hj⟩ := h.tile hx
      have := h.disk.geom.tile ht
      simp only
      rw [← hj]; omega) (by omega)
    omega
  · refine sum_n_le ?_
    rintro ⟨o, n⟩ hx
    obtain ⟨x, j, rfl, ht, hj⟩ := h.tile hx
    have := (h.disk.hdr ht).2.1
    simp only
    omega

theorem sumTo_le (f : Nat × Nat → Nat) (live : List (Nat × Nat)) (o : Nat) : sumTo f live o ≤ (live.map f).sum := by
  unfold sumTo
  induction live with
  | nil => exact Nat.le_refl _
  | cons a t ih =>
    simp only [List.map_cons, List.sum_cons]
    split <;> omega

theorem sumTo_free (h : DiskLive p T live) (f : Nat × Nat → Nat) (ht : T o = some (k, .free)) : sumTo f live (o + 2 ^ k) = sumTo f live o := by
  have hp := Nat.two_pow_pos k
  refine sum_congr ?_
  rintro ⟨a, m⟩ hx
  obtain ⟨x, j, rfl, hx', -⟩ := h.tile hx
  simp only
  have hne : x ≠ o := by rintro rfl; rw [ht] at hx'; cases (some_pair hx').2
  by_cases h1 : x < o
  · rw [if_pos (by omega), if_pos (by omega)]
  · have := h.disk.geom.disj ht hx' (by omega)
    rw [if_neg (by omega), if_neg (by omega)]

theorem sumTo_alloc (h : DiskLive p T live) (f : Nat × Nat → Nat) (ht : T o = some (k, .alloc n)) :
    sumTo f live (o + 2 ^ k) = sumTo f live o + f (o + 8, n) := by
  have hp := Nat.two_pow_pos k
  have hm := ((h.mem o k n).1 ht).1
  unfold sumTo
  rw [sum_erase' hm, sum_erase' (f := fun x => if x.1 < o + 8 then f x else 0) hm]
  simp only
  rw [if_pos (by omega), if_neg (by omega), Nat.zero_add, Nat.add_comm]
  congr 1
  refine sum_congr ?_
  rintro ⟨a, m⟩ hx
  have hx0 := List.mem_of_mem_erase hx
  obtain ⟨x, j, rfl, hx', -⟩ := h.tile hx0
  simp only
  have hne : x ≠ o := by
    rintro rfl
    rw [ht] at hx'
    have := (some_pair hx').2
    injection this with this
    subst this
    exact (List.Nodup.not_mem_erase h.nodup) hx
  by_cases h1 : x < o
  · rw [if_pos (by omega), if_pos (by omega)]
  · have := h.disk.geom.disj ht hx' (by omega)
    rw [if_neg (by omega), if_neg (by omega)]

theorem sumTo_end (h : DiskLive p T live) (f : Nat × Nat → Nat) : sumTo f live p.size = (live.map f).sum := by
  refine sum_congr ?_
  rintro ⟨a, m⟩ hx
  obtain ⟨x, j, rfl, hx', -⟩ := h.tile hx
  have := h.disk.geom.tile hx'
  have := Nat.two_pow_pos j
  simp only
  rw [if_pos (by omega)]

theorem sumTo_start (h : DiskLive p T live) (f : Nat × Nat → Nat) : sumTo f live 1168 = 0 := by
  have : sumTo f live 1168 = (live.map (fun _ => 0)).sum := by
    refine sum_congr ?_
    intro x hx
    have := h.lo x hx
    rw [if_neg (by omega)]
  rw [this]
  clear this h
  induction live with
  | nil => rfl
  | cons a t ih => simpa using ih

theorem HdrIs.order {h k n : Nat} (hh : HdrIs h k (.alloc n)) (hn : n + 8 < W64) : orderForSize (n + 8) = k := by
  obtain ⟨-, hal1, hal2⟩ := hh
  obtain ⟨h3, h4⟩ := orderForSize_spec (n := n + 8) (by omega) (by omega)
  have h5 := h4 k hal1
  generalize orderForSize (n + 8) = j at *
  refine Nat.le_antisymm h5 ?_
  refine Nat.not_lt.1 fun hc => ?_
  have : 2 ^ (j + 1) ≤ 2 ^ k := Nat.pow_le_pow_right (n := 2) (i := j + 1) (by decide) hc
  rw [Nat.pow_succ] at this; omega

/-- the block after a block -/
theorem Geom.next {S : Nat} (h : Geom T (fun _ => False) S) (ht : T o = some (k, s)) :
    o + 2 ^ k = S ∨ ∃ j st, T (o + 2 ^ k) = some (j, st) := by
  have h1 := h.tile ht
  have hp := Nat.two_pow_pos k
  rcases Nat.lt_or_ge (o + 2 ^ k) S with h2 | h2
  · right
    obtain ⟨a, j, st, ht', h3, h4⟩ := h.cov (o + 2 ^ k) (by omega) h2 (fun h => h)
    have : a = o + 2 ^ k := by
      rcases Nat.lt_trichotomy a o with h5 | h5 | h5
      · have := h.disj ht' ht h5; omega
      · subst h5
        rw [ht] at ht'
        obtain ⟨e, -⟩ := some_pair ht'
        subst e; omega
      · have := h.disj ht ht' h5; omega
    subst this
    exact ⟨j, st, ht'⟩
  · left; omega

/-- re-creating a free block keeps every header -/
theorem CrF.cru {q : Pool} (hq : CrU 304 T p q) (hd : Disk p T E) (ht : T o = some (k, .free)) {T' : Tiles}
    (hT : ∀ x j m, T x = some (j, .alloc m) → T' x = some (j, .alloc m)) (hc : CrF 304 T' q o k p') : CrU 304 T p p' := by
  have hdq := hd.cru hq
  have h16 := hd.geom.mod16 ht
  rcases hc with e | ⟨hk, v, hv, h1, h2, hc⟩
  · rw [e]; exact hq
  · have hh : hdrAlloc (w q.mem o) = false ∧ hdrOrder (w q.mem o) = k := hdqhdr hdq ht
    have hz := put_size (p := q) (a := o) (v := v) (by omega)
    refine ⟨hq.kp.trans hk hT, (hc.sz.trans hz).trans hq.sz, hc.geo,
      (HK.put_hdr hq.hk (by omega) hv hh.1 h2 (h1.trans hh.2.symm)).trans hc.hk, ?_, ?_⟩
    · refine hc.top.1.trans ?_
      rw [put_w (by omega) (by decide), if_neg (by omega)]
      exact hq.top.1
    · refine hc.top.2.trans ?_
      rw [put_w (by omega) (by decide), if_neg (by omega)]
      exact hq.top.2
where hdqhdr {q : Pool} {T : Tiles} {E : Nat → Prop} {o k : Nat} (hdq : Disk q T E) (ht : T o = some (k, .free)) :
    hdrAlloc (w q.mem o) = false ∧ hdrOrder (w q.mem o) = k := hdq.hdr ht

theorem repairLoop_spec (h : DiskLive p T live) : ∀ (fuel : Nat) {q : Pool} {F : Nat → List Nat} {o : Nat}, CrU 304 T p q →
    LInv q (hideFrom T o) F (fun _ => False) → (o = p.size ∨ ∃ j st, T o = some (j, st)) → p.size < o + 16 * fuel →
    rwp (repairLoop fuel o (sumTo (·.2) live o) (1168 + sumTo (fun x => blk x.2) live o))
      (fun out p' => out = .ok ((live.map (·.2)).sum, 1168 + (live.map (fun x => blk x.2)).sum) ∧ CrU 304 T p p' ∧
        ∃ F', LInv p' T F' (fun _ => False)) (CrU 304 T p) q := by
  have hmin := h.disk.geo.min
  have hcap := h.disk.cap
  have hsum := h.sums
  intro fuel
  induction fuel with
  | zero =>
    intro q F o _ _ ho hf
    exfalso
    rcases ho with ho | ⟨j, st, ho⟩
    · omega
    · have := h.disk.geom.mod16 ho; omega
  | succ fuel ih =>
    intro q F o hq hi ho hf
    have hz := hq.sz
    have hgq := hq.geo
    have hdq := h.disk.cru hq
    rcases ho with ho | ⟨k, st, ht⟩
    · subst ho
      rw [sumTo_end h, sumTo_end h]
      rw [hide_all h.disk.geom] at hi
      unfold repairLoop
      simp only [Prog.bind_def]
      refine rwp_r hq hgq (by omega) ?_
      rw [size_w, hz, if_neg (by omega)]
      exact ⟨hq, rfl, hq, F, hi⟩
    · have h1 := h.disk.geom.tile ht
      have h16 := h.disk.geom.mod16 ht
      have hk := h.disk.geom.ord_lt ht hcap
      have hnx := h.disk.geom.next ht
      cases st with
      | held => exact absurd ht (h.nh _ _)
      | alloc n =>
        have hh := hdq.hdr ht
        have hn := hh.2.1
        have hord := hh.order (by omega)
        have hw0 := hh.1
        have hn1 := sumTo_alloc h (·.2) ht
        have hb1 := sumTo_alloc h (fun x => blk x.2) ht
        have hl1 := sumTo_le (·.2) live (o + 2 ^ k)
        have hl2 := sumTo_le (fun x => blk x.2) live (o + 2 ^ k)
        simp only at hn1 hb1
        rw [← ((h.mem o k n).1 ht).2] at hb1
        have := ih (o := o + 2 ^ k) hq (by rw [hide_skip h.disk.geom ht]; exact hi) hnx (by omega)
        unfold repairLoop
        simp only [Prog.bind_def]
        refine rwp_r hq hgq (by omega) ?_
        rw [size_w, hz, if_pos (by omega)]
        refine rwp_r hq hgq (by omega) ?_
        rw [hw0, alloc_mkAlloc (by omega), size_mkAlloc (by omega), Nat.mod_eq_of_lt (by omega : n + 8 < W64), hord,
          sizeForOrder_eq hk]
        rw [if_pos rfl]
        simp only [Prog.pure_def, Prog.ret_bind]
        rw [Nat.mod_eq_of_lt (by omega : sumTo (·.2) live o + n < W64),
          Nat.mod_eq_of_lt (by omega : 1168 + sumTo (fun x => blk x.2) live o + 2 ^ k < W64), ← hn1, Nat.add_assoc, ← hb1]
        exact this
      | free =>
        have hh := hdq.hdr ht
        have hh1 := hh.1
        have hh2 := hh.2
        have hcf := createFree_spec hi (hide_here ht)
        have hal : ∀ x j m, T x = some (j, .alloc m) → hideFrom T o x = some (j, .alloc m) := fun x j m hx => hide_alloc.2 hx
        unfold repairLoop
        simp only [Prog.bind_def]
        refine rwp_r hq hgq (by omega) ?_
        rw [size_w, hz, if_pos (by omega)]
        refine rwp_r hq hgq (by omega) ?_
        rw [hh1, hh2, if_neg (by decide), sizeForOrder_eq hk]
        simp only [Prog.pure_def, Prog.ret_bind]
        refine rwp_bind_of (rwp_post hcf) (fun _ hc => CrF.cru hq h.disk ht hal hc) ?_ (by rintro e s' ⟨⟨h, -⟩, -⟩; cases h)
        rintro _ r ⟨⟨-, hi', -, -⟩, hc⟩
        have hr := CrF.cru hq h.disk ht hal hc
        have := ih (o := o + 2 ^ k) hr (by rw [hide_next h.disk.geom ht]; exact hi') hnx (by omega)
        rw [sumTo_free h _ ht, sumTo_free h _ ht] at this
        exact this

theorem Disk.first (h : Disk p T (fun _ => False)) : 1168 = p.size ∨ ∃ j st, T 1168 = some (j, st) := by
  have hmin := h.geo.min
  rcases Nat.lt_or_ge 1168 p.size with h2 | h2
  · right
    obtain ⟨a, j, st, ht', h3, h4⟩ := h.geom.cov 1168 (by omega) h2 (fun h => h)
    have := h.geom.tile ht'
    have : a = 1168 := by omega
    subst this
    exact ⟨j, st, ht'⟩
  · left; omega

/-- repair after a crash: whatever the lists and the counters contain, the pool is as the headers say -/
theorem repair_spec (h : DiskLive p T live) :
    rwp repair (fun out p' => out = .ok () ∧ LiveInv False p' T live ∧ CrU 288 T p p') (CrU 288 T p) p := by
  have hmin := h.disk.geo.min
  have hcap := h.disk.cap
  have hsum := h.sums
  have c0 : CrU 304 T p p := CrU.refl _ _ h.disk.geo
  unfold repair
  simp only [Prog.bind_def]
  refine rwp_r (c0.weaken (by decide)) h.disk.geo (by omega) ?_
  rw [size_w]
  refine rwp_bind_of (clearLists_spec h.disk 53 (Nat.le_refl _)) (fun _ hc => hc.weaken (by decide)) ?_ (by rintro e s' ⟨h, -⟩; cases h)
  rintro _ q ⟨-, hq, hz⟩
  have hL := Disk.cleared (h.disk.cru hq) hz
  have hs := repairLoop_spec h (p.size + 1) hq hL h.disk.first (by omega)
  rw [sumTo_start h, sumTo_start h] at hs
  refine rwp_bind_of hs (fun _ hc => hc.weaken (by decide)) ?_ (by rintro e s' ⟨h, -⟩; cases h)
  rintro ⟨ba, bc⟩ r ⟨hr, hcr, F, hi⟩
  injection hr with hr
  obtain ⟨e1, e2⟩ := Prod.mk.inj hr
  subst e1; subst e2
  have hzr := hcr.sz
  have d0 := hcr.weaken (c' := 288) (by decide)
  have d1 := d0.put (a := 288) (v := (live.map (·.2)).sum) (by decide) (by decide) h.disk.geom (Or.inl (by decide)) (by decide) (by decide) (by decide)
  have d2 := d1.put (a := 296) (v := 1168 + (live.map (fun x => blk x.2)).sum) (by decide) (by decide) h.disk.geom (Or.inl (by decide)) (by decide) (by decide) (by decide)
  refine rwp_w d0 hcr.geo (by omega) ?_
  have hz1 := d1.sz
  refine ⟨d1, d1.geo.inb (by omega), d2, rfl, ⟨⟨⟨F, ?_⟩, fun hc => hc.elim, h.nh⟩, h.mem, h.lo, h.nodup, ?_, ?_, ?_⟩, d2⟩
  · exact (hi.put_hdr (by decide) (by decide) (by decide)).put_hdr (by decide) (by decide) (by decide)
  · refine Eq.trans (put_w (p := put r 288 _) (by decide) (by decide)) ?_
    rw [if_neg (by decide), put_w (by decide) (by decide), if_pos rfl]
    exact Nat.mod_eq_of_lt (by omega)
  · refine Eq.trans (put_w (p := put r 288 _) (by decide) (by decide)) ?_
    rw [if_pos rfl]
    exact Nat.mod_eq_of_lt (by omega)
  · have := h.cap
    unfold Cap at *
    have e1 := d2.kp.mx
    have e2 := d2.kp.lm
    exact e1 ▸ e2 ▸ this

end Verif.Logarithmic
