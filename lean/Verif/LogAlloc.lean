import Verif.LogFill
import Verif.PropsPool
/-
allocate: the search, the splitting loop and taking the first block of a list.
-/
namespace Verif

/-- a `rwp` result also describes the completed run -/
theorem rwp_of_run {α : Type} {p : RProg α} {Q : Out α → Pool → Prop} {I : Pool → Prop} :
    ∀ {s}, rwp p Q I s → rwp p (fun o s' => Q o s' ∧ run p s = (Out.toRes o, s')) I s := by
  induction p with
  | ret a => exact fun h => ⟨h.1, h.2, rfl⟩
  | err e => exact fun h => ⟨h.1, h.2, rfl⟩
  | ub => exact fun h => h
  | step op k ih =>
    intro s h
    cases op with
    | rd a n | wr a n v | rdB a n | wrB a bs =>
      refine ⟨h.1, h.2.1, rwp_mono ?_ (fun _ h => h) (ih _ h.2.2)⟩
      rintro o s' ⟨h1, h2⟩
      refine ⟨h1, ?_⟩
      simp only [run, if_pos h.2.1, forceN_eq, forceB_eq]
      exact h2
    | trunc n =>
      refine ⟨h.1, fun hc => rwp_mono ?_ (fun _ h => h) (ih _ (h.2.1 hc)), fun hc => rwp_mono ?_ (fun _ h => h) (ih _ (h.2.2 hc))⟩
      · rintro o s' ⟨h1, h2⟩
        refine ⟨h1, ?_⟩
        simp only [run, if_pos hc]; exact h2
      · rintro o s' ⟨h1, h2⟩
        refine ⟨h1, ?_⟩
        simp only [run, if_neg hc]; exact h2
    | maxSize =>
      refine ⟨h.1, rwp_mono ?_ (fun _ h => h) (ih _ h.2)⟩
      rintro o s' ⟨h1, h2⟩
      exact ⟨h1, h2⟩

end Verif

namespace Verif.Logarithmic
open Verif
open Verif.Simple (w w_wr w_lt Geo put put_w put_size rwp_r rwp_w)

variable {p : Pool} {T : Tiles} {F : Nat → List Nat} {E : Nat → Prop} {o k : Nat} {s : St}

/-! ### search -/

theorem LInv.empty_big (h : LInv p T F E) (hk : 31 ≤ k) : F k = [] := by
  refine List.eq_nil_iff_forall_not_mem.2 fun x hx => ?_
  have := h.geom.ord_lt ((h.lst.mem k x).1 hx) h.cap
  omega

/-- the search returns the least order, from `k` up, that has a free block, or 58 -/
theorem search_spec (h : LInv p T F E) : ∀ (fuel : Nat) {k : Nat}, 4 ≤ k → k ≤ 58 → 59 ≤ fuel + k →
    rwp (search fuel k) (fun out p' => p' = p ∧ ∃ r, out = .ok r ∧ k ≤ r ∧ (∀ j, k ≤ j → j < r → F j = []) ∧
      ((r < 31 ∧ F r ≠ []) ∨ r = 58)) NoCrash p := by
  intro fuel
  induction fuel with
  | zero => intro k h4 h58 hf; omega
  | succ fuel ih =>
    intro k h4 h58 hf
    have hmin := h.geo.min
    have hb : headA k + 8 ≤ p.size := by unfold headA; omega
    have hcase : (57 < k) ∨ (k ≤ 57 ∧ F k = []) ∨ (k ≤ 57 ∧ F k ≠ []) := by
      by_cases h1 : F k = []
      · rcases Nat.lt_or_ge 57 k with hk | hk
        · exact Or.inl hk
        · exact Or.inr (Or.inl ⟨hk, h1⟩)
      · rcases Nat.lt_or_ge 57 k with hk | hk
        · exact Or.inl hk
        · exact Or.inr (Or.inr ⟨hk, h1⟩)
    show rwp ((R.rd64 (headA k)).bind fun h => if h = 0 ∧ k ≤ 57 then search fuel (k + 1) else pure k) _ _ _
    refine rwp_r trivial h.geo hb ?_
    generalize hv : w p.mem (headA k) = v
    rcases hcase with hk | ⟨hk, hF⟩ | ⟨hk, hF⟩
    · rw [if_neg (by omega)]
      exact ⟨trivial, rfl, k, rfl, Nat.le_refl _, by intro j a b; omega, Or.inr (by omega)⟩
    · rw [h.lst.head k h4 hk, hF] at hv
      rw [if_pos ⟨hv.symm, hk⟩]
      refine rwp_mono ?_ (fun _ h => h) (ih (k := k + 1) (by omega) (by omega) (by omega))
      rintro out p' ⟨h1, r, h2, h3, h4', h5⟩
      refine ⟨h1, r, h2, by omega, ?_, h5⟩
      intro j hj hjr
      by_cases e : j = k
      · rw [e]; exact hF
      · exact h4' j (by omega) hjr
    · have hx := h.elem (hdD_mem hF 0)
      rw [h.lst.head k h4 hk] at hv
      rw [if_neg (by omega)]
      refine ⟨trivial, rfl, k, rfl, Nat.le_refl _, by intro j a b; omega, Or.inl ⟨?_, hF⟩⟩
      exact h.geom.ord_lt hx.1 h.cap

/-! ### splitting -/

theorem Lists.hd_mem {m : Nat → UInt8} {r : List Nat} (h : Lists m T F) (hF : F k = o :: r) : T o = some (k, .free) :=
  (h.mem k o).1 (by rw [hF]; simp)

/-- splitting keeps `CoalX` at the block being split -/
theorem CoalX.split {C : Prop} (h : CoalX C T o) (hd : 2 ^ (k + 1) ∣ o) :
    CoalX C (tset (tset T o k .free) (o + 2 ^ k) k .free) o := by
  have hd0 : 2 ^ k ∣ o := Nat.dvd_trans (Nat.pow_dvd_pow 2 (by omega)) hd
  have hb : o ^^^ 2 ^ k = o + 2 ^ k := by
    rcases buddy_spec hd0 with ⟨-, e⟩ | ⟨hn, -⟩
    · exact e
    · exact absurd hd hn
  intro hC x j h1 h2 h3 h4
  by_cases e : x = o + 2 ^ k
  · subst e
    rw [tset_same] at h3
    have := (some_pair h3).1
    subst this
    rw [← hb, buddy_buddy] at h2
    exact h2 rfl
  · rw [tset_ne e, tset_ne h1] at h3
    by_cases e2 : x ^^^ 2 ^ j = o + 2 ^ k
    · rw [e2, tset_same] at h4
      have := (some_pair h4).1
      subst this
      rw [← hb] at e2
      apply h1
      have := congrArg (· ^^^ 2 ^ k) e2
      simp only [buddy_buddy] at this
      exact this
    · rw [tset_ne e2, tset_ne h2] at h4
      exact h hC x j h1 h2 h3 h4

theorem splitDown_spec {C : Prop} {need : Nat} (h4 : 4 ≤ need) : ∀ (d : Nat) {p : Pool} {T : Tiles} {F : Nat → List Nat} {r : List Nat},
    LInv p T F E → F (need + d) = o :: r → (∀ j, need ≤ j → j < need + d → F j = []) → CoalX C T o →
    (∀ x j, T x ≠ some (j, .held)) →
    rwp (splitDown need d) (fun out p' => out = .ok () ∧ ∃ T' F' r', LInv p' T' F' E ∧ F' need = o :: r' ∧ CoalX C T' o ∧
      (∀ x j, T' x ≠ some (j, .held)) ∧ SameAl T T' ∧ LKeep 304 T p p' ∧ p'.size = p.size) NoCrash p := by
  intro d
  induction d with
  | zero =>
    intro p T F r h hF he hc hh
    exact ⟨trivial, rfl, T, F, r, h, hF, hc, hh, SameAl.refl _, LKeep.refl _ _ _, rfl⟩
  | succ d ih =>
    intro p T F r h hF he hc hh
    have hmin := h.geo.min
    have ht : T o = some (need + d + 1, .free) := h.lst.hd_mem hF
    have hk := h.geom.ord_lt ht h.cap
    have h0 := h.geom.tile ht
    have hp := Nat.two_pow_pos (need + d)
    unfold splitDown
    simp only [Prog.bind_def]
    refine rwp_r trivial h.geo (by unfold headA; omega) ?_
    rw [h.lst.head _ (by omega) (by omega), show need + d + 1 = need + (d + 1) from rfl, hF]
    show rwp ((sizeForOrder (need + d)).bind _) _ _ _
    rw [sizeForOrder_eq (by omega)]
    simp only [Prog.pure_def, Prog.ret_bind, hdD]
    refine rwp_bind_of (unlink_spec h ht) (fun _ _ => trivial) ?_ (by rintro e s' ⟨h, -⟩; cases h)
    rintro - q ⟨-, ⟨A, B, hF', hq⟩, hkp, hsz⟩
    -- the held block is cut in two
    have hq1 : LInv q (tset (tset T o (need + d) .held) (o + 2 ^ (need + d)) (need + d) .held)
        (fupd F (need + d + 1) (A ++ B)) E := by
      have hg := (hq.geom).split (tset_same _ _ _ _) (by omega) .held .held
      have e1 : tset (tset (tset T o (need + d + 1) .held) o (need + d) .held) (o + 2 ^ (need + d)) (need + d) .held =
          tset (tset T o (need + d) .held) (o + 2 ^ (need + d)) (need + d) .held := by
        funext x; unfold tset; by_cases e1 : x = o + 2 ^ (need + d) <;> by_cases e2 : x = o <;> simp only [e1, e2, if_true, if_false]
      rw [e1] at hg
      refine hq.reheld hg ?_
      intro x j st hst
      by_cases e1 : x = o + 2 ^ (need + d)
      · subst e1
        rw [tset_same, tset_ne (by omega)]
        constructor
        · intro hx; exact absurd (some_pair hx).2.symm hst
        · intro hx
          have := h.geom.disj ht hx (by omega)
          rw [Nat.pow_succ] at this; omega
      · rw [tset_ne e1]
        by_cases e2 : x = o
        · subst e2; rw [tset_same, tset_same]
          constructor
          · intro hx; exact absurd (some_pair hx).2.symm hst
          · intro hx; exact absurd (some_pair hx).2.symm hst
        · rw [tset_ne e2, tset_ne e2]
    have hto : tset (tset T o (need + d) .held) (o + 2 ^ (need + d)) (need + d) .held o = some (need + d, .held) := by
      rw [tset_ne (by omega), tset_same]
    refine rwp_bind_of (createFree_spec hq1 hto) (fun _ _ => trivial) ?_ (by rintro e s' ⟨h, -⟩; cases h)
    rintro - q2 ⟨-, hq2, hkp2, hsz2⟩
    refine rwp_bind_of (createFree_spec hq2 (by rw [tset_ne (by omega), tset_same])) (fun _ _ => trivial) ?_
      (by rintro e s' ⟨h, -⟩; cases h)
    rintro - q3 ⟨-, hq3, hkp3, hsz3⟩
    have eT : tset (tset (tset (tset T o (need + d) .held) (o + 2 ^ (need + d)) (need + d) .held) o (need + d) .free)
        (o + 2 ^ (need + d)) (need + d) .free = tset (tset T o (need + d) .free) (o + 2 ^ (need + d)) (need + d) .free := by
      funext x; unfold tset; by_cases e1 : x = o + 2 ^ (need + d) <;> by_cases e2 : x = o <;> simp only [e1, e2, if_true, if_false]
    rw [eT] at hq3
    have hne2 : T (o + 2 ^ (need + d)) = none := by
      cases hx : T (o + 2 ^ (need + d)) with
      | none => rfl
      | some t =>
        obtain ⟨j, st⟩ := t
        have := h.geom.disj ht hx (by omega)
        rw [Nat.pow_succ] at this; omega
    have hal : SameAl T (tset (tset T o (need + d) .free) (o + 2 ^ (need + d)) (need + d) .free) := by
      intro x j n
      by_cases e1 : x = o + 2 ^ (need + d)
      · subst e1; rw [tset_same, hne2]
        constructor
        · intro hx; cases (some_pair hx).2
        · intro hx; cases hx
      · rw [tset_ne e1]
        by_cases e2 : x = o
        · subst e2; rw [tset_same, ht]
          constructor
          · intro hx; cases (some_pair hx).2
          · intro hx; cases (some_pair hx).2
        · rw [tset_ne e2]
    have hal1 : ∀ x j n, T x = some (j, .alloc n) → x ≠ o ∧ x ≠ o + 2 ^ (need + d) := by
      intro x j n hx
      constructor
      · rintro rfl; rw [ht] at hx; cases (some_pair hx).2
      · rintro rfl; rw [hne2] at hx; cases hx
    have hF3 : (fupd (fupd (fupd F (need + d + 1) (A ++ B)) (need + d) (fupd F (need + d + 1) (A ++ B) (need + d) ++ [o])) (need + d)
        (fupd (fupd F (need + d + 1) (A ++ B)) (need + d) (fupd F (need + d + 1) (A ++ B) (need + d) ++ [o]) (need + d) ++
          [o + 2 ^ (need + d)])) (need + d) = o :: [o + 2 ^ (need + d)] := by
      rw [fupd_same, fupd_same, fupd_ne (by omega), he (need + d) (by omega) (by omega)]
      rfl
    refine rwp_mono ?_ (fun _ h => h) (ih hq3 hF3 ?_ (hc.split h0.2.1) ?_)
    · rintro out p' ⟨h1, T', F', r', h2, h3, h4, h5, h6, h7, h8⟩
      refine ⟨h1, T', F', r', h2, h3, h4, h5, hal.trans h6, ?_, h8.trans (hsz3.trans (hsz2.trans hsz))⟩
      refine (((hkp.trans hkp2 ?_).trans hkp3 ?_).trans h7 ?_)
      · intro x j n hx
        have := hal1 x j n hx
        rw [tset_ne this.2, tset_ne this.1]; exact hx
      · intro x j n hx
        have := hal1 x j n hx
        rw [tset_ne this.1, tset_ne this.2, tset_ne this.1]; exact hx
      · intro x j n hx; exact (hal x j n).2 hx
    · intro j h1 h2
      rw [fupd_ne (by omega), fupd_ne (by omega), fupd_ne (by omega)]
      exact he j h1 (by omega)
    · intro x j hx
      by_cases e1 : x = o + 2 ^ (need + d)
      · subst e1; rw [tset_same] at hx; cases (some_pair hx).2
      · rw [tset_ne e1] at hx
        by_cases e2 : x = o
        · subst e2; rw [tset_same] at hx; cases (some_pair hx).2
        · rw [tset_ne e2] at hx; exact hh x j hx

end Verif.Logarithmic
