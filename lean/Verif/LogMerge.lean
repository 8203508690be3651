import Verif.LogList
/-
merge_blocks_at.
-/
namespace Verif.Logarithmic
open Verif
open Verif.Simple (w w_wr w_lt Geo put put_w put_size rwp_r rwp_w)

variable {p : Pool} {T : Tiles} {F : Nat → List Nat} {E : Nat → Prop} {o k : Nat} {s : St} {C : Prop}

/-- no two free buddies of the same order (claimed only if `C`: after a crash and a repair it may fail) -/
def Coal (C : Prop) (T : Tiles) : Prop := C → ∀ o k, T o = some (k, .free) → T (o ^^^ 2 ^ k) ≠ some (k, .free)
/-- the same, except that one of the two may be the block at `x` -/
def CoalX (C : Prop) (T : Tiles) (x : Nat) : Prop :=
  C → ∀ o k, o ≠ x → o ^^^ 2 ^ k ≠ x → T o = some (k, .free) → T (o ^^^ 2 ^ k) ≠ some (k, .free)

/-- same allocated tiles -/
def SameAl (T T' : Tiles) : Prop := ∀ o k n, T' o = some (k, .alloc n) ↔ T o = some (k, .alloc n)

theorem SameAl.refl (T : Tiles) : SameAl T T := fun _ _ _ => Iff.rfl
theorem SameAl.trans {T T' T'' : Tiles} (h : SameAl T T') (h' : SameAl T' T'') : SameAl T T'' :=
  fun o k n => (h' o k n).trans (h o k n)

theorem SameAl.tset {st : St} (ht : T o = some (k, s)) (hs : ∀ n, s ≠ .alloc n) (hst : ∀ n, st ≠ .alloc n) :
    SameAl T (tset T o k st) := by
  intro x j n
  by_cases e : x = o
  · subst e; rw [tset_same, ht]
    constructor
    · intro h; exact absurd (some_pair h).2 (hst n)
    · intro h; exact absurd (some_pair h).2 (hs n)
  · rw [tset_ne e]

theorem Coal.anti {T' : Tiles} (h : Coal C T) (hs : ∀ x j, T' x = some (j, .free) → T x = some (j, .free)) : Coal C T' :=
  fun hC o k h1 h2 => h hC o k (hs _ _ h1) (hs _ _ h2)

theorem CoalX.held {x j : Nat} (h : CoalX C T x) : Coal C (Logarithmic.tset T x j .held) := by
  intro hC o k h1 h2
  have e1 : o ≠ x := by rintro rfl; rw [tset_same] at h1; cases (some_pair h1).2
  have e2 : o ^^^ 2 ^ k ≠ x := by
    intro e; rw [e, tset_same] at h2; cases (some_pair h2).2
  rw [tset_ne e1] at h1
  rw [tset_ne e2] at h2
  exact h hC o k e1 e2 h1 h2

theorem Coal.setFree (h : Coal C T) (hd : 2 ^ k ∣ o) (hb : T (o ^^^ 2 ^ k) ≠ some (k, .free)) : Coal C (Logarithmic.tset T o k .free) := by
  intro hC x j h1 h2
  by_cases e1 : x = o
  · subst e1
    rw [tset_same] at h1
    have := (some_pair h1).1
    subst this
    rw [tset_ne (buddy_ne hd)] at h2
    exact hb h2
  · rw [tset_ne e1] at h1
    by_cases e2 : x ^^^ 2 ^ j = o
    · rw [e2, tset_same] at h2
      have := (some_pair h2).1
      subst this
      apply hb
      rw [← e2, buddy_buddy]; exact h1
    · rw [tset_ne e2] at h2
      exact h hC x j h1 h2

/-- retiling the blocks that are in nobody's hands -/
theorem LInv.reheld (h : LInv p T F E) {T' : Tiles} {E' : Nat → Prop} (hg : Geom T' E' p.size)
    (hT : ∀ x j s, s ≠ .held → (T' x = some (j, s) ↔ T x = some (j, s))) : LInv p T' F E' := by
  refine ⟨h.geo, h.cap, hg, ⟨?_, h.lst.nodup, h.lst.head, h.lst.tail, h.lst.seg⟩, ?_⟩
  · intro j x; rw [hT x j .free (by simp)]; exact h.lst.mem j x
  · intro x j n hx; exact h.al ((hT x j _ (by simp)).1 hx)

/-- between calls the headers describe the tiling -/
theorem LInv.hdr (h : LInv p T F E) (ht : T o = some (k, s)) (hs : s ≠ .held) : HdrIs (w p.mem o) k s := by
  have hk := h.geom.ord_lt ht h.cap
  cases s with
  | alloc n => exact h.al ht
  | held => exact absurd rfl hs
  | free =>
    obtain ⟨A, B, hF, hw0, -⟩ := h.lst.seg_mem ht
    have hlast : lastD A 0 < 2 ^ 57 := h.last_lt (k := k) (fun x hx => by rw [hF]; simp [hx])
    rw [hw0]
    exact ⟨alloc_mkFree (by omega) hlast, order_mkFree (by omega) hlast⟩

theorem LInv.top (h : LInv p T F E) : w p.mem 728 = 0 ∧ w p.mem 1160 = 0 := by
  have : F 57 = [] := by
    cases hF : F 57 with
    | nil => rfl
    | cons a t => have := h.elem (k := 57) (x := a) (by rw [hF]; simp); omega
  have h1 := h.lst.head 57 (by decide) (by decide)
  have h2 := h.lst.tail 57 (by decide) (by decide)
  rw [this] at h1 h2
  exact ⟨h1, h2⟩

theorem LInv.disk (h : LInv p T F E) (hon : ∀ x j, T x ≠ some (j, .held)) : Disk p T E :=
  ⟨h.geo, h.cap, h.geom, fun {o k s} ht => h.hdr ht (by rintro rfl; exact hon o k ht), h.top⟩

/-- the only block in nobody's hands gets a header -/
theorem LInv.disk_put (h : LInv p T F E) (ht : T o = some (k, .held)) (hon : ∀ x j, T x = some (j, .held) → x = o) {v : Nat}
    (hv : v < W64) (h1 : hdrOrder v = k) (h2 : hdrAlloc v = false) : Disk (put p o v) (tset T o k .free) E := by
  have h0 := h.geom.mod16 ht
  have hsz := put_size (p := p) (a := o) (v := v) (by omega)
  refine ⟨h.geo.put (by omega), by rw [hsz]; exact h.cap, by rw [hsz]; exact h.geom.setSt ht _, ?_, ?_⟩
  · intro x j st hx
    by_cases e : x = o
    · subst e
      rw [tset_same] at hx
      obtain ⟨e1, e2⟩ := some_pair hx
      subst e1; subst e2
      rw [put_w (by omega) (by omega), if_pos rfl, Nat.mod_eq_of_lt hv]
      exact ⟨h2, h1⟩
    · rw [tset_ne e] at hx
      have := h.geom.mod16 hx
      rw [put_w (by omega) (by omega), if_neg e]
      exact h.hdr hx (by rintro rfl; exact e (hon x j hx))
  · rw [put_w (by omega) (by decide), put_w (by omega) (by decide), if_neg (by omega), if_neg (by omega)]
    exact h.top

/-- a crash inside create_free_block at the only block in nobody's hands: nothing has happened, or the headers say it is free -/
theorem LInv.disk_crF {c : Nat} {p' : Pool} (h : LInv p T F E) (ht : T o = some (k, .held))
    (hon : ∀ x j, T x = some (j, .held) → x = o) (hc : CrF c T p o k p') :
    p' = p ∨ (Disk p' (tset T o k .free) E ∧ LKeep c T p p' ∧ p'.size = p.size) := by
  rcases hc with hc | ⟨hkp, v, hv, h1, h2, hc⟩
  · exact Or.inl hc
  · have h0 := h.geom.mod16 ht
    exact Or.inr ⟨(h.disk_put ht hon hv h1 h2).cru hc, hkp, hc.sz.trans (put_size (by omega))⟩

theorem sizeForOrder_eq {k : Nat} (h : k < 31) : sizeForOrder k = pure (2 ^ k) := by
  unfold sizeForOrder; rw [if_pos h]

/-- the buddy of a tile, if it lies inside the pool, starts at a tile boundary -/
theorem Geom.buddy_tile {S : Nat} (h : Geom T E S) (ht : T o = some (k, s))
    (hE : ∀ x, E x → ∃ a j n, T a = some (j, .alloc n) ∧ o < a ∧ a < x) (h1 : 1168 ≤ o ^^^ 2 ^ k)
    (h2 : (o ^^^ 2 ^ k) + 2 ^ k ≤ S) : ∃ j s', T (o ^^^ 2 ^ k) = some (j, s') := by
  have h0 := h.tile ht
  have hp := Nat.two_pow_pos k
  have hbs := buddy_spec h0.2.1
  have hbd := buddy_dvd h0.2.1
  have hbn := buddy_ne h0.2.1
  generalize o ^^^ 2 ^ k = b at *
  have hnE : ¬ E b := by
    intro hc
    obtain ⟨a, j, n, ha, h3, h4⟩ := hE b hc
    have := h.disj ht ha h3
    rcases hbs with ⟨-, e⟩ | ⟨-, -, e, -⟩ <;> omega
  obtain ⟨o1, k1, s1, h3, h4, h5⟩ := h.cov b h1 (by omega) hnE
  rcases h.aligned_start hbd h3 h4 h5 with e | ⟨hk, h6, h7⟩
  · subst e; exact ⟨_, _, h3⟩
  · exfalso
    have h8 := h.tile h3
    have hd1 : 2 ^ (k + 1) ∣ o1 := Nat.dvd_trans (Nat.pow_dvd_pow 2 hk) h8.2.1
    have hd2 : 2 ^ (k + 1) ∣ o1 + 2 ^ k1 := Nat.dvd_add hd1 (Nat.pow_dvd_pow 2 hk)
    have key : o1 ≤ o ∧ o < o1 + 2 ^ k1 := by
      rcases hbs with ⟨hd, e⟩ | ⟨hd, h9, e, hd'⟩
      · constructor
        · refine Nat.not_lt.1 fun hlt => ?_
          have := aligned_le hd hd1 hlt
          rw [Nat.pow_succ] at this; omega
        · omega
      · constructor
        · omega
        · have := aligned_le (e ▸ hd') hd2 h5
          rw [Nat.pow_succ] at this; omega
    have := h.same ht h3 (Nat.le_refl _) (by omega) key.1 key.2
    subst this
    rw [ht] at h3
    have := (some_pair h3).1
    omega

/-- what merging guarantees -/
structure Merged (C : Prop) (p : Pool) (T : Tiles) (E : Nat → Prop) (o : Nat) (p' : Pool) (T' : Tiles) (F' : Nat → List Nat)
    (o' k' : Nat) : Prop where
  inv : LInv p' T' F' E
  here : T' o' = some (k', .held)
  nb : T' (o' ^^^ 2 ^ k') ≠ some (k', .free)
  coal : Coal C T'
  only : ∀ x j, T' x = some (j, .held) → x = o'
  al : SameAl T T'
  le : o' ≤ o
  kp : LKeep 304 T p p'
  sz : p'.size = p.size

theorem mergeLoop_spec : ∀ (fuel : Nat) {p : Pool} {T : Tiles} {F : Nat → List Nat} {o k : Nat}, 32 ≤ fuel + k →
    LInv p T F E → T o = some (k, .held) → Coal C T → (∀ x j, T x = some (j, .held) → x = o) →
    (∀ x, E x → ∃ a j n, T a = some (j, .alloc n) ∧ o < a ∧ a < x) →
    rwp (mergeLoop fuel o k) (fun out p' => ∃ T' F' o' k', out = .ok (o', k') ∧ Merged C p T E o p' T' F' o' k') (CrU 304 T p) p := by
  intro fuel
  induction fuel with
  | zero =>
    intro p T F o k hf h ht
    have := h.geom.ord_lt ht h.cap
    omega
  | succ fuel ih =>
    intro p T F o k hf h ht hc hon hE
    have hk := h.geom.ord_lt ht h.cap
    have h0 := h.geom.tile ht
    have hmin := h.geo.min
    have hp := Nat.two_pow_pos k
    have hcap := h.cap
    have stop : T (o ^^^ 2 ^ k) ≠ some (k, .free) → Merged C p T E o p T F o k := fun hnb =>
      ⟨h, ht, hnb, hc, hon, SameAl.refl _, Nat.le_refl _, LKeep.refl _ _ _, rfl⟩
    have c0 : CrU 304 T p p := CrU.refl _ _ h.geo
    unfold mergeLoop
    rw [sizeForOrder_eq hk]
    simp only [Prog.bind_def, Prog.pure_def, Prog.ret_bind]
    split
    · rename_i hlt
      refine ⟨c0, T, F, o, k, rfl, stop ?_⟩
      intro hc; have := h.geom.tile hc; unfold start at hlt; omega
    · rename_i hge
      refine rwp_r c0 h.geo (by omega) ?_
      rw [show w p.mem 0 = p.size from rfl]
      split
      · rename_i hgt
        refine ⟨c0, T, F, o, k, rfl, stop ?_⟩
        intro hc; have := h.geom.tile hc; omega
      · rename_i hle
        unfold start at hge
        obtain ⟨j, s', hb⟩ := h.geom.buddy_tile ht hE (by omega) (by omega)
        have hb0 := h.geom.mod16 hb
        have hbj := h.geom.ord_lt hb h.cap
        refine rwp_r c0 h.geo (by omega) ?_
        cases s' with
        | held => exact absurd (hon _ _ hb) (buddy_ne h0.2.1)
        | alloc n =>
          have ha := h.al hb
          have hn : n < 2 ^ 63 := by have := h.geom.tile hb; omega
          rw [ha.1, alloc_mkAlloc hn]
          simp only [if_true]
          refine ⟨c0, T, F, o, k, rfl, stop ?_⟩
          rw [hb]; intro hc; cases (some_pair hc).2
        | free =>
          obtain ⟨A, B, hF, hw0, hw8⟩ := h.lst.seg_mem hb
          have hlast : lastD A 0 < 2 ^ 57 := h.last_lt (k := j) (fun x hx => by rw [hF]; simp [hx])
          rw [hw0, alloc_mkFree (by omega) hlast, order_mkFree (by omega) hlast]
          simp only [Bool.false_eq_true, if_false]
          split
          · rename_i hne
            refine ⟨c0, T, F, o, k, rfl, stop ?_⟩
            rw [hb]; intro hc; exact hne (some_pair hc).1
          · rename_i heq
            have heq : j = k := Classical.not_not.1 heq
            subst heq
            refine rwp_bind_of (rwp_post (unlink_spec h hb)) (fun _ h => h) ?_ (by rintro e s' ⟨⟨h, -⟩, -⟩; cases h)
            rintro - q ⟨⟨-, ⟨A, B, hF', hq⟩, hkp, hsz⟩, hcq⟩
            have hbs := buddy_spec h0.2.1
            have hbn := buddy_ne h0.2.1
            generalize o ^^^ 2 ^ j = b at *
            have hto : tset T b j .held o = some (j, .held) := by rw [tset_ne (Ne.symm hbn)]; exact ht
            have htb := tset_same T b j .held
            have hal1 : SameAl T (tset T b j .held) := SameAl.tset hb (by intro n; simp) (by intro n; simp)
            have hfr1 : ∀ x i, tset T b j .held x = some (i, .free) → T x = some (i, .free) := by
              intro x i hx
              by_cases e : x = b
              · subst e; rw [tset_same] at hx; cases (some_pair hx).2
              · rw [tset_ne e] at hx; exact hx
            have hh1 : ∀ x i, tset T b j .held x = some (i, .held) → x = b ∨ x = o := by
              intro x i hx
              by_cases e : x = b
              · exact Or.inl e
              · rw [tset_ne e] at hx; exact Or.inr (hon _ _ hx)
            generalize tset T b j .held = T1 at *
            -- the merged tile
            have key : ∀ lo hi : Nat, hi = lo + 2 ^ j → 2 ^ (j + 1) ∣ lo → T1 lo = some (j, .held) → T1 hi = some (j, .held) →
                (∀ x i, T1 x = some (i, .held) → x = lo ∨ x = hi) → lo ≤ o →
                rwp (mergeLoop fuel lo (j + 1))
                  (fun out p' => ∃ T' F' o' k', out = .ok (o', k') ∧ Merged C p T E o p' T' F' o' k') (CrU 304 T p) q := by
              intro lo hi hhi hd hlo hhi' hh2 hle2
              subst hhi
              have hg2 := hq.geom.merge hlo hhi' hd .held
              have hne : lo + 2 ^ j ≠ lo := by omega
              have hinv2 : LInv q (tset (tdel T1 (lo + 2 ^ j)) lo (j + 1) .held) (fupd F j (A ++ B)) E := by
                refine hq.reheld hg2 ?_
                intro x i st hst
                by_cases e : x = lo
                · subst e; rw [tset_same, hlo]
                  constructor <;> intro hx <;> exact absurd (some_pair hx).2.symm hst
                · rw [tset_ne e]
                  by_cases e2 : x = lo + 2 ^ j
                  · subst e2; rw [tdel_same, hhi']
                    constructor
                    · intro hx; cases hx
                    · intro hx; exact absurd (some_pair hx).2.symm hst
                  · rw [tdel_ne e2]
              have hal2 : SameAl T1 (tset (tdel T1 (lo + 2 ^ j)) lo (j + 1) .held) := by
                intro x i n
                by_cases e : x = lo
                · subst e; rw [tset_same, hlo]
                  constructor <;> intro hx <;> cases (some_pair hx).2
                · rw [tset_ne e]
                  by_cases e2 : x = lo + 2 ^ j
                  · subst e2; rw [tdel_same, hhi']
                    constructor
                    · intro hx; cases hx
                    · intro hx; cases (some_pair hx).2
                  · rw [tdel_ne e2]
              have hal := hal1.trans hal2
              refine Verif.rwp_mono ?_ (fun _ h => hcq.trans h (fun x i n hx => (hal x i n).2 hx)) (ih (by omega) hinv2 (tset_same _ _ _ _) ?_ ?_ ?_)
              · rintro out p' ⟨T', F', o', k', ho, hm⟩
                exact ⟨T', F', o', k', ho, hm.inv, hm.here, hm.nb, hm.coal, hm.only, hal.trans hm.al, by have := hm.le; omega,
                  hkp.trans hm.kp (fun x i n hx => (hal x i n).2 hx), hm.sz.trans hsz⟩
              · refine hc.anti ?_
                intro x i hx
                refine hfr1 x i ?_
                by_cases e : x = lo
                · subst e; rw [tset_same] at hx; cases (some_pair hx).2
                · rw [tset_ne e] at hx
                  by_cases e2 : x = lo + 2 ^ j
                  · subst e2; rw [tdel_same] at hx; cases hx
                  · rw [tdel_ne e2] at hx; exact hx
              · intro x i hx
                by_cases e : x = lo
                · exact e
                · rw [tset_ne e] at hx
                  by_cases e2 : x = lo + 2 ^ j
                  · subst e2; rw [tdel_same] at hx; cases hx
                  · rw [tdel_ne e2] at hx
                    rcases hh2 _ _ hx with h | h
                    · exact h
                    · exact absurd h e2
              · intro x hx
                obtain ⟨a, i, n, ha, h1, h2⟩ := hE x hx
                exact ⟨a, i, n, (hal a i n).2 ha, by omega, h2⟩
            rcases hbs with ⟨hd, e⟩ | ⟨hd, h9, e, hd'⟩
            · rw [if_neg (by omega)]
              exact key o b e hd hto htb (fun x i hx => (hh1 x i hx).symm) (Nat.le_refl _)
            · rw [if_pos (by omega)]
              exact key b o (by omega) (e ▸ hd') htb hto hh1 (by omega)

/-- merge_blocks_at on a free block: afterwards no two free buddies remain -/
theorem mergeAt_spec (h : LInv p T F E) (ht : T o = some (k, .free)) (hc : CoalX C T o)
    (hon : ∀ x j, T x ≠ some (j, .held))
    (hE : ∀ x, E x → ∃ a j n, T a = some (j, .alloc n) ∧ o < a ∧ a < x) :
    rwp (mergeAt o) (fun out p' => (∃ r, out = .ok r) ∧ ∃ T' F', LInv p' T' F' E ∧ Coal C T' ∧ SameAl T T' ∧
      (∀ x j, T' x ≠ some (j, .held)) ∧ LKeep 304 T p p' ∧ p'.size = p.size)
      (fun p' => CrU 304 T p p' ∨ ∃ T', Disk p' T' E ∧ SameAl T T' ∧ LKeep 304 T p p' ∧ p'.size = p.size) p := by
  have h0 := h.geom.mod16 ht
  have hk := h.geom.ord_lt ht h.cap
  obtain ⟨A, B, hF, hw0, hw8⟩ := h.lst.seg_mem ht
  have hlast : lastD A 0 < 2 ^ 57 := h.last_lt (k := k) (fun x hx => by rw [hF]; simp [hx])
  have c0 : CrU 304 T p p := CrU.refl _ _ h.geo
  unfold mergeAt
  simp only [Prog.bind_def]
  refine rwp_r (Or.inl c0) h.geo (by omega) ?_
  rw [hw0, order_mkFree (by omega) hlast]
  refine rwp_bind_of (rwp_post (unlink_spec h ht)) (fun _ h => Or.inl h) ?_ (by rintro e s' ⟨⟨h, -⟩, -⟩; cases h)
  rintro - q ⟨⟨-, ⟨A, B, hF', hq⟩, hkp, hsz⟩, hcq⟩
  have hal1 : SameAl T (tset T o k .held) := SameAl.tset ht (by intro n; simp) (by intro n; simp)
  refine rwp_bind_of (rwp_post (mergeLoop_spec 64 (by omega) hq (tset_same _ _ _ _) hc.held ?_ ?_))
    (fun _ h => Or.inl (hcq.trans h (fun x i n hx => (hal1 x i n).2 hx))) ?_
    (by rintro e s' ⟨⟨T', F', o', k', h, -⟩, -⟩; cases h)
  · intro x j hx
    by_cases e : x = o
    · exact e
    · rw [tset_ne e] at hx; exact absurd hx (hon x j)
  · intro x hx
    obtain ⟨a, j, n, ha, h1, h2⟩ := hE x hx
    exact ⟨a, j, n, (hal1 a j n).2 ha, h1, h2⟩
  · rintro ⟨o', k'⟩ r ⟨⟨T', F', o2, k2, e, hm⟩, hcr⟩
    injection e with e
    obtain ⟨rfl, rfl⟩ := Prod.mk.inj e
    have hal := hal1.trans hm.al
    have hal3 : SameAl T' (tset T' o' k' .free) := SameAl.tset hm.here (by intro n; simp) (by intro n; simp)
    have hcr' := hcq.trans hcr (fun x i n hx => (hal1 x i n).2 hx)
    have hcF : ∀ r', CrF 304 T' r o' k' r' →
        CrU 304 T p r' ∨ ∃ T', Disk r' T' E ∧ SameAl T T' ∧ LKeep 304 T p r' ∧ r'.size = p.size := by
      intro r' hc
      rcases hm.inv.disk_crF hm.here hm.only hc with rfl | ⟨h1, h2, h3⟩
      · exact Or.inl hcr'
      · exact Or.inr ⟨_, h1, hal.trans hal3, hcr'.kp.trans h2 (fun x i n hx => (hal x i n).2 hx), h3.trans hcr'.sz⟩
    refine rwp_bind_of (rwp_post (createFree_spec hm.inv hm.here)) hcF ?_ (by rintro e s' ⟨⟨h, -⟩, -⟩; cases h)
    rintro - r' ⟨⟨-, hr, hkp2, hsz2⟩, hcr2⟩
    refine ⟨hcF _ hcr2, ⟨_, rfl⟩, _, _, hr, hm.coal.setFree (hm.inv.geom.tile hm.here).2.1 hm.nb, hal.trans hal3, ?_, ?_, ?_⟩
    · intro x j hx
      by_cases e : x = o'
      · subst e; rw [tset_same] at hx; cases (some_pair hx).2
      · rw [tset_ne e] at hx; exact e (hm.only x j hx)
    · exact (hkp.trans hm.kp (fun x i n hx => (hal1 x i n).2 hx)).trans hkp2 (fun x i n hx => (hal x i n).2 hx)
    · exact hsz2.trans (hm.sz.trans hsz)

end Verif.Logarithmic
