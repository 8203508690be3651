import Verif.CostSimple
import Verif.PropsLogarithmic
/-
C72, LogarithmicAllocator: what allocate and free cost.
-/
namespace Verif
variable {α β : Type}

/-- at most `x` accesses, whatever the memory holds, and no ftruncate -/
def RB (p : RProg α) (x : Nat) : Prop := ∀ c, REvery p c fun _ c' => c.RUp c' x 0

theorem rb_ret {a : α} : RB (.ret a) 0 := fun c => Cost.RUp.refl c
theorem rb_ub {x : Nat} : RB (.ub : RProg α) x := fun _ => trivial
theorem rb_rd {a n : Nat} : RB (R.rd a n) 1 := by
  intro c v _
  constructor <;> simp [rcost]
theorem rb_wr {a n v : Nat} : RB (R.wr a n v) 1 := by
  intro c _ _
  constructor <;> simp [rcost]
theorem RB.mono {p : RProg α} {x y : Nat} (h : RB p x) (hxy : x ≤ y) : RB p y := fun c => (h c).mono fun _ _ u => u.mono hxy (Nat.le_refl _)
theorem RB.bind {p : RProg α} {f : α → RProg β} {x y : Nat} (hp : RB p x) (hf : ∀ a, RB (f a) y) : RB (p.bind f) (x + y) := by
  intro c
  refine every_bind_of (hp c) ?_ ?_
  · intro a c' u
    exact (hf a c').mono fun _ _ v => u.trans v
  · intro e c' u
    exact u.mono (Nat.le_add_right _ _) (Nat.le_refl _)
theorem RB.ite {P : Prop} [Decidable P] {p q : RProg α} {x : Nat} (hp : P → RB p x) (hq : ¬ P → RB q x) : RB (if P then p else q) x := by
  split
  · exact hp ‹_›
  · exact hq ‹_›
theorem rcev_rb {p : RProg α} {x : Nat} {c : Cost} {s : Pool} (h : RB p x) : rcev p (fun _ c' _ => c.RUp c' x 0) c s := rcev_every (h c)
theorem rcev_bind_wp {p : RProg α} {f : α → RProg β} {Qp : Out α → Pool → Prop} {I : Pool → Prop} {R : Out α → Cost → Pool → Prop} {Q : Out β → Cost → Pool → Prop} {c : Cost} {s : Pool}
    (h1 : rwp p Qp I s) (h2 : rcev p R c s) (hk : ∀ a c' s', Qp (.ok a) s' → R (.ok a) c' s' → rcev (f a) Q c' s')
    (he : ∀ e c' s', Qp (.err e) s' → R (.err e) c' s' → Q (.err e) c' s') : rcev (p.bind f) Q c s :=
  rcev_bind (fun a c' s' h => hk a c' s' h.1 h.2) (fun e c' s' h => he e c' s' h.1 h.2) (rcev_wp h1 h2)
end Verif

namespace Verif.Logarithmic
open Verif
open Verif.Simple (w w_wr w_lt Geo put put_w put_size Grow)

theorem sizeForOrder_rb (k : Nat) : RB (sizeForOrder k) 0 := RB.ite (fun _ => rb_ret) fun _ => RB.ite (fun _ => rb_ret) fun _ => rb_ub

theorem createFree_rb (o k : Nat) : RB (createFree o k) 7 := by
  unfold createFree
  simp only [Prog.bind_def]
  refine (rb_rd.bind fun t => rb_wr.bind fun _ => rb_wr.bind fun _ => rb_rd.bind (y := 3) fun t => RB.ite (fun _ => ?_) fun _ => ?_).mono (by decide)
  · exact rb_rd.bind (y := 2) fun h => RB.ite (fun _ => rb_ub) fun _ => rb_wr.bind (y := 1) fun _ => rb_wr
  · exact (rb_wr.bind (y := 1) fun _ => rb_wr).mono (by decide)

theorem unlink_rb (o : Nat) : RB (unlink o) 7 := by
  unfold unlink unlinkNext unlinkPrev
  simp only [Prog.bind_def]
  refine (rb_rd.bind (y := 6) fun h => (RB.bind (x := 3) (y := 3) ?_ fun _ => ?_))
  · exact rb_rd.bind (y := 2) fun nx => RB.ite (fun _ => rb_rd.bind (y := 1) fun _ => rb_wr) fun _ => rb_rd.bind (y := 1) fun _ => rb_wr
  · exact rb_rd.bind (y := 2) fun nx => RB.ite (fun _ => rb_rd.bind (y := 1) fun _ => rb_wr) fun _ => rb_rd.bind (y := 1) fun _ => rb_wr

theorem account_rb (n k : Nat) : RB (account n k) 4 := by
  unfold account
  simp only [Prog.bind_def]
  exact rb_rd.bind (y := 3) fun _ => rb_wr.bind (y := 2) fun _ => ((sizeForOrder_rb k).bind (y := 2) fun _ => rb_rd.bind (y := 1) fun _ => rb_wr).mono (by decide)

theorem popHead_rb (n k : Nat) : RB (popHead n k) 10 := by
  unfold popHead popFix
  simp only [Prog.bind_def]
  exact rb_rd.bind (y := 9) fun _ => rb_rd.bind (y := 8) fun _ => rb_wr.bind (y := 7) fun _ => rb_rd.bind (y := 6) fun _ =>
    (RB.ite (fun _ => rb_wr) fun _ => rb_wr).bind (y := 5) fun _ => (account_rb n k).bind (y := 1) fun _ => rb_wr.bind (y := 0) fun _ => rb_ret

/-- the search looks at each of the 54 lists at most once -/
theorem search_rb : ∀ (fuel : Nat) {k : Nat}, k ≤ 58 → RB (search fuel k) (59 - k) := by
  intro fuel
  induction fuel with
  | zero => intro k _; exact rb_ub
  | succ fuel ih =>
    intro k h
    unfold search
    simp only [Prog.bind_def]
    refine (rb_rd.bind (y := 58 - k) fun v => RB.ite (fun hc => ?_) fun hc => rb_ret.mono (Nat.zero_le _)).mono (by omega)
    exact (ih (by omega)).mono (by omega)

theorem splitDown_rb (need : Nat) : ∀ d, RB (splitDown need d) (22 * d) := by
  intro d
  induction d with
  | zero => exact rb_ret
  | succ d ih =>
    unfold splitDown
    simp only [Prog.bind_def]
    exact (rb_rd.bind fun _ => (sizeForOrder_rb _).bind fun _ => (unlink_rb _).bind fun _ => (createFree_rb _ _).bind fun _ => (createFree_rb _ _).bind fun _ => ih).mono (by omega)

theorem walk_rb (S : Nat) : ∀ (K o : Nat), RB (walk S K o) K := by
  intro K
  induction K with
  | zero => intro o; exact rb_ret
  | succ K ih =>
    intro o
    unfold walk
    refine RB.ite (fun _ => ?_) fun _ => rb_ret.mono (Nat.zero_le _)
    simp only [Prog.bind_def]
    refine (rb_rd.bind (y := K) fun h => RB.ite (fun _ => rb_ret.mono (Nat.zero_le _)) fun _ => RB.ite (fun _ => rb_ret.mono (Nat.zero_le _)) fun _ => ?_).mono (by omega)
    exact ((sizeForOrder_rb _).bind (y := K) fun sz => ih _).mono (by omega)

/-- nine accesses for every order the block grows by -/
theorem mergeLoop_every : ∀ (fuel o k : Nat) (c : Cost), REvery (mergeLoop fuel o k) c fun r c' => ∀ o' k', r = .ok (o', k') → k ≤ k' ∧ c.RUp c' (9 * (k' - k) + 2) 0 := by
  intro fuel
  induction fuel with
  | zero => intro o k c; exact trivial
  | succ fuel ih =>
    intro o k c
    have stop : ∀ c' : Cost, c.RUp c' 2 0 → ∀ o' k', (Out.ok (o, k) : Out (Nat × Nat)) = .ok (o', k') → k ≤ k' ∧ c.RUp c' (9 * (k' - k) + 2) 0 := by
      intro c' u o' k' h
      injection h with h
      obtain ⟨rfl, rfl⟩ := Prod.mk.inj h
      exact ⟨Nat.le_refl _, u.mono (by omega) (Nat.le_refl _)⟩
    unfold mergeLoop
    simp only [Prog.bind_def]
    refine every_bind_of (sizeForOrder_rb k c) ?_ (by intro e c' _ o' k' h; cases h)
    intro sz c1 u1
    split
    · exact stop _ (u1.mono (by omega) (Nat.le_refl _))
    · refine every_bind_of (rb_rd c1) ?_ (by intro e c' _ o' k' h; cases h)
      intro s c2 u2
      have u2 := u1.trans u2
      split
      · exact stop _ (u2.mono (by omega) (Nat.le_refl _))
      · refine every_bind_of (rb_rd c2) ?_ (by intro e c' _ o' k' h; cases h)
        intro h c3 u3
        have u3 := u2.trans u3
        split
        · exact stop _ (u3.mono (by omega) (Nat.le_refl _))
        · split
          · exact stop _ (u3.mono (by omega) (Nat.le_refl _))
          · refine every_bind_of (unlink_rb _ c3) ?_ (by intro e c' _ o' k' h; cases h)
            intro _ c4 u4
            have u4 := u3.trans u4
            refine (ih _ (k + 1) c4).mono ?_
            intro r c5 h5 o' k' hr
            obtain ⟨h6, h7⟩ := h5 o' k' hr
            exact ⟨by omega, (u4.trans h7).mono (by omega) (by omega)⟩

/-- the first loop of create_free_blocks: the orders go up -/
theorem createUp_rb {e K : Nat} (he : e < 2 ^ 31) (hK : e < 2 ^ K) : ∀ (fuel : Nat) {o : Nat}, o % 16 = 0 → 0 < o → RB (createUp e fuel o) (7 * (K - orderAlignment o)) := by
  intro fuel
  induction fuel with
  | zero => intro o _ _; exact rb_ret.mono (Nat.zero_le _)
  | succ fuel ih =>
    intro o h16 h0
    unfold createUp
    refine RB.ite (fun hlt => ?_) fun _ => rb_ret.mono (Nat.zero_le _)
    obtain ⟨h4, hd, hn, h31⟩ := align_facts h16 h0 (by omega)
    rw [sizeForOrder_eq h31]
    simp only [Prog.bind_def, Prog.pure_def, Prog.ret_bind]
    refine RB.ite (fun _ => rb_ret.mono (Nat.zero_le _)) fun hfit => ?_
    have hle : 2 ^ orderAlignment o < 2 ^ K := by omega
    have hlt2 : orderAlignment o < K := (Nat.pow_lt_pow_iff_right (by decide)).1 hle
    have hst := align_step hd hn
    have h16' := pow16 h4
    have hm := Nat.mod_eq_zero_of_dvd h16'.1
    have hge : orderAlignment o + 1 ≤ orderAlignment (o + 2 ^ orderAlignment o) := orderAlignment_ge (by omega) (by omega) hst
    exact ((createFree_rb _ _).bind fun _ => ih (by omega) (by omega)).mono (by omega)

/-- the second loop: the orders go down -/
theorem createDown_rb {e : Nat} (he : e < 2 ^ 31) : ∀ (fuel : Nat) {K o : Nat}, e - o < 2 ^ K → RB (createDown e fuel o) (7 * K) := by
  intro fuel
  induction fuel with
  | zero => intro K o _; exact rb_ret.mono (Nat.zero_le _)
  | succ fuel ih =>
    intro K o hK
    unfold createDown
    refine RB.ite (fun hlt => ?_) fun _ => rb_ret.mono (Nat.zero_le _)
    have hne : e - o ≠ 0 := by omega
    rw [largest_eq hne (by omega)]
    have hl1 := Nat.log2_self_le hne
    have hl2 : e - o < 2 ^ (Nat.log2 (e - o) + 1) := Nat.lt_log2_self
    generalize Nat.log2 (e - o) = j at *
    have hjK : j < K := (Nat.pow_lt_pow_iff_right (a := 2) (by decide)).1 (by omega)
    have hj31 : j < 31 := (Nat.pow_lt_pow_iff_right (a := 2) (by decide)).1 (by omega)
    simp only [Prog.bind_def]
    refine ((createFree_rb _ _).bind (y := 7 * j) fun _ => ?_).mono (by omega)
    rw [sizeForOrder_eq hj31]
    simp only [Prog.pure_def, Prog.ret_bind]
    exact ih (by rw [Nat.pow_succ] at hl2; omega)

theorem createFrees_rb {o n K : Nat} (he : o + n < 2 ^ 31) (hK : o + n < 2 ^ K) (h16 : o % 16 = 0) (h0 : 0 < o) : RB (createFrees o n) (14 * K) := by
  unfold createFrees
  simp only [Prog.bind_def]
  refine ((createUp_rb he hK n h16 h0).bind fun o' => createDown_rb he n (K := K) (by omega)).mono (by omega)

variable {p p' q : Pool} {T : Tiles} {F : Nat → List Nat} {E : Nat → Prop} {o k n : Nat} {s : St} {C : Prop}
attribute [local irreducible] rcev

/-- merge_blocks_at -/
theorem mergeAt_cost (h : LInv p T F E) (ht : T o = some (k, .free)) (hc : CoalX C T o) (hon : ∀ x j, T x ≠ some (j, .held))
    (hE : ∀ x, E x → ∃ a j n, T a = some (j, .alloc n) ∧ o < a ∧ a < x) {K : Nat} (hK : p.size < 2 ^ K) (c : Cost) :
    rcev (mergeAt o) (fun _ c' _ => c.RUp c' (9 * K + 17) 0) c p := by
  have h0 := h.geom.mod16 ht
  have hk := h.geom.ord_lt ht h.cap
  obtain ⟨A, B, hF, hw0, hw8⟩ := h.lst.seg_mem ht
  have hlast : lastD A 0 < 2 ^ 57 := h.last_lt (k := k) (fun x hx => by rw [hF]; simp [hx])
  unfold mergeAt
  simp only [Prog.bind_def]
  refine rcev_rd ?_
  rw [show leRd p.mem o 8 = w p.mem o from rfl, hw0, order_mkFree (by omega) hlast]
  refine rcev_bind_wp (unlink_spec h ht) (rcev_rb (unlink_rb o)) ?_ (by rintro e _ s' ⟨h, -⟩; cases h)
  rintro - c1 q ⟨-, ⟨A, B, hF', hq⟩, hkp, hsz⟩ u1
  have hal1 : SameAl T (tset T o k .held) := SameAl.tset ht (by intro n; simp) (by intro n; simp)
  refine rcev_bind_wp (mergeLoop_spec 64 (by omega) hq (tset_same _ _ _ _) hc.held ?_ ?_) (rcev_every (mergeLoop_every 64 o k c1)) ?_
    (by rintro e _ s' ⟨T', F', o', k', h, -⟩; cases h)
  · intro x j hx
    by_cases e : x = o
    · exact e
    · rw [tset_ne e] at hx; exact absurd hx (hon x j)
  · intro x hx
    obtain ⟨a, j, n, ha, h1, h2⟩ := hE x hx
    exact ⟨a, j, n, (hal1 a j n).2 ha, h1, h2⟩
  · rintro ⟨o', k'⟩ c2 r ⟨T', F', o2, k2, e, hm⟩ u2
    injection e with e
    obtain ⟨rfl, rfl⟩ := Prod.mk.inj e
    obtain ⟨h3, u2⟩ := u2 _ _ rfl
    have hg := (hm.inv.geom.tile hm.here)
    have hz : r.size = p.size := hm.sz.trans hsz
    have hkK : k' < K := (Nat.pow_lt_pow_iff_right (a := 2) (by decide)).1 (by omega)
    have h4 := (h.geom.tile ht).1
    refine rcev_bind ?_ ?_ (rcev_rb (createFree_rb o' k'))
    · intro _ c3 s3 u3
      refine rcev_ret ?_
      obtain ⟨a1, a2⟩ := u1
      obtain ⟨b1, b2⟩ := u2
      obtain ⟨d1, d2⟩ := u3
      simp at a1 a2
      constructor <;> omega
    · intro _ c3 s3 u3
      obtain ⟨a1, a2⟩ := u1
      obtain ⟨b1, b2⟩ := u2
      obtain ⟨d1, d2⟩ := u3
      simp at a1 a2
      constructor <;> omega

/-- the gap between the old end and the new block -/
theorem fillGap_cost {S a j m : Nat} (h : LInv p T F (fun x => S ≤ x ∧ ¬ (a ≤ x ∧ x < a + 2 ^ j))) (ha : T a = some (j, .alloc m))
    (hc : Coal C T) (hnh : ∀ x j, T x ≠ some (j, .held)) (hS : 1168 ≤ S) (h16 : S % 16 = 0) {K : Nat} (hK : p.size < 2 ^ K) (c : Cost) :
    rcev (fillGap S a) (fun _ c' _ => c.RUp c' (23 * K + 17) 0) c p := by
  have hp := Nat.two_pow_pos j
  have ha0 := h.geom.mod16 ha
  have ha1 := h.geom.tile ha
  have hcap := h.cap
  unfold fillGap
  by_cases hlt : a > S
  · rw [if_pos hlt]
    simp only [Prog.bind_def]
    have hsum : S + (a - S) = a := by omega
    refine rcev_bind_wp (createFrees_spec (P := fun x => x = S ∨ ¬ C) h hS h16 (by omega) (by omega) ?_ ?_ (Or.inl (Or.inl rfl)) ?_)
      (rcev_rb (createFrees_rb (K := K) (by omega) (by omega) h16 (by omega))) ?_ (by rintro e _ s' ⟨h, -⟩; cases h)
    · intro x h1 h2; exact ⟨h1, by omega⟩
    · intro x i hn _ h1 h2; exact hc (Classical.byContradiction fun hC => hn (Or.inr hC)) x i h1 h2
    · intro i hi
      rw [hsum, ha] at hi; cases (some_pair hi).2
    · rintro - c1 r ⟨-, T2, hf⟩ u1
      rw [hsum] at hf
      obtain ⟨F2, hi⟩ := hf.inv
      obtain ⟨j2, hj2⟩ := hf.first hlt
      refine rcev_bind ?_ ?_ (mergeAt_cost (C := C) hi hj2 ?_ (hf.nh hnh) ?_ (K := K) (by rw [hf.sz]; exact hK) c1)
      · intro _ c2 s2 u2
        exact rcev_ret ((u1.trans u2).mono (by omega) (Nat.le_refl _))
      · intro _ c2 s2 u2
        exact (u1.trans u2).mono (by omega) (Nat.le_refl _)
      · intro hC x i h1 h2
        exact hf.coal x i (fun h => h.elim h1 (fun h => h hC)) (fun h => h.elim h2 (fun h => h hC))
      · rintro x ⟨⟨h1, h2⟩, h3⟩
        exact ⟨a, j, m, hf.ext _ _ ha, hlt, by omega⟩
  · rw [if_neg hlt]
    exact rcev_ret (Cost.RUp.refl c)

theorem finish_cost {S a : Nat} (h : LInv p T F (fun x => S ≤ x)) (hc : Coal C T) (hnh : ∀ x j, T x ≠ some (j, .held))
    (hS : 1168 ≤ S) (h16 : S % 16 = 0) (hSa : S ≤ a) (hd : 2 ^ k ∣ a) (h4 : 4 ≤ k) (hsz : a + 2 ^ k ≤ p.size)
    (h1 : n + 8 ≤ 2 ^ k) (h2 : 2 ^ k < 2 * (n + 8)) {K : Nat} (hK : p.size < 2 ^ K) (c : Cost) :
    rcev (finish n k (2 ^ k) S a) (fun _ c' _ => c.RUp c' (37 * K + 23) 0) c p := by
  have hp := Nat.two_pow_pos k
  have hnone : ∀ x, S ≤ x → T x = none := fun x hx => h.geom.none_of_E hx
  have hi1 : LInv p (tset T a k .held) F (fun x => S ≤ x ∧ ¬ (a ≤ x ∧ x < a + 2 ^ k)) := by
    refine h.reheld (h.geom.place h4 hd (by omega) hsz (fun x h1 _ => by omega) .held) ?_
    intro x j st hst
    by_cases e : x = a
    · subst e; rw [tset_same, hnone _ hSa]
      constructor
      · intro hx; exact absurd (some_pair hx).2.symm hst
      · intro hx; cases hx
    · rw [tset_ne e]
  have hi2 := hi1.setAlloc (tset_same _ _ _ _) h1 h2
  have e1 : tset (tset T a k .held) a k (.alloc n) = tset T a k (.alloc n) := by
    funext x; unfold tset; split <;> rfl
  rw [e1] at hi2
  have hta := tset_same T a k (.alloc n)
  have ha0 := hi2.geom.mod16 hta
  have hz1 := put_size (p := p) (a := a) (v := mkAlloc n) (by omega)
  have hcap := h.cap
  have hc2 : Coal C (tset T a k (.alloc n)) := hc.x.alloc
  have hnh2 : ∀ x j, tset T a k (.alloc n) x ≠ some (j, .held) := by
    intro x j hx
    by_cases e : x = a
    · subst e; rw [tset_same] at hx; cases (some_pair hx).2
    · rw [tset_ne e] at hx; exact hnh x j hx
  unfold finish
  simp only [Prog.bind_def]
  refine rcev_wr ?_
  refine rcev_bind_wp (s := put p a (mkAlloc n)) (fillGap_spec hi2 hta hc2 hnh2 hS h16 hSa) (fillGap_cost hi2 hta hc2 hnh2 hS h16 (K := K) (by rw [hz1]; exact hK) _) ?_
    (by rintro e _ s' ⟨h, -⟩; cases h)
  rintro - c1 q ⟨-, T3, F3, hi3, hc3, hnh3, hsa3, hkp3, hsz3⟩ u1
  have hzq : q.size = p.size := hsz3.trans hz1
  refine rcev_rd ?_
  have es : sub64 (leRd q.mem 0 8) (a + 2 ^ k) = p.size - (a + 2 ^ k) := by
    rw [show leRd q.mem 0 8 = q.size from rfl, hzq]
    unfold sub64
    rw [Nat.mod_eq_of_lt (a := a + 2 ^ k) (by omega)]
    omega
  rw [es]
  have h16k := Nat.mod_eq_zero_of_dvd (pow16 h4).1
  obtain ⟨a1, a2⟩ := u1
  simp at a1 a2
  refine rcev_bind ?_ ?_ (rcev_rb (createFrees_rb (K := K) (by omega) (by omega) (by omega) (by omega)))
  · rintro _ c2 s2 ⟨b1, b2⟩
    simp at b1 b2
    refine rcev_bind ?_ ?_ (rcev_rb (account_rb n k))
    · rintro _ c3 s3 ⟨d1, d2⟩
      refine rcev_ret ?_
      constructor <;> omega
    · rintro _ c3 s3 ⟨d1, d2⟩
      constructor <;> omega
  · rintro _ c2 s2 ⟨b1, b2⟩
    simp at b1 b2
    constructor <;> omega

theorem expandAt_cost (h : Ready C p T) (hcap : Cap p) (h4 : 4 ≤ k) (hk : k < 31) (h1 : n + 8 ≤ 2 ^ k) (h2 : 2 ^ k < 2 * (n + 8))
    {a : Nat} (r : Bool) (kk : Nat) (had : 2 ^ k ∣ a) (hSa : p.size ≤ a) (ha : a < 2 ^ 32) (c : Cost) :
    rcev ((expand (a + 2 ^ k)).bind fun _ => (deleteReused r p.size kk a).bind fun _ => finish n k (2 ^ k) p.size a)
      (fun _ c' p' => p.size ≤ p'.size ∧ ∀ K, p'.size < 2 ^ K → c.RUp c' (37 * K + 26) 1) c p := by
  obtain ⟨F, hi⟩ := h.inv
  have hp31 : 2 ^ k < 2 ^ 31 := (Nat.pow_lt_pow_iff_right (by decide)).2 hk
  have hmin := hi.geo.min
  have hpg := hi.geo.page
  refine rcev_bind_wp (expand_cap hi.geo hcap hi.cap (a + 2 ^ k)) (rcev_every (expand_every (a + 2 ^ k)).from) ?_ ?_
  · rintro _ c1 q (⟨-, hG, hqs, hq31⟩ | ⟨hbad, hb2⟩) ⟨e, rfl, u1, u2⟩
    · have hrp := Simple.roundPage_le (n := a + 2 ^ k) (by omega)
      have hiq := hi.grow hG hq31
      have hdel : rcev (deleteReused r p.size kk a) (fun _ c' _ => (c + e).RUp c' 0 0) (c + e) q := by
        unfold deleteReused
        cases r
        · exact rcev_ret (Cost.RUp.refl _)
        · rw [if_pos rfl]
          unfold deleteBlocks
          rw [if_neg (by omega)]
          exact rcev_ret (Cost.RUp.refl _)
      refine rcev_bind_wp (deleteReused_nop hSa) hdel ?_ (by rintro e _ s' ⟨h, -⟩; cases h)
      rintro - c2 q' ⟨-, e1⟩ ⟨v1, v2⟩
      rw [e1]
      have hfs := finish_spec (n := n) hiq h.coal h.nh (by omega) (by omega) hSa had h4 (by omega) h1 h2
      have hall : ∀ K, q.size < 2 ^ K → rcev (finish n k (2 ^ k) p.size a) (fun _ c' _ => c2.RUp c' (37 * K + 23) 0) c2 q := fun K hK =>
        finish_cost hiq h.coal h.nh (by omega) (by omega) hSa had h4 (by omega) h1 h2 hK c2
      have hex : q.size < 2 ^ (Nat.log2 q.size + 1) := Nat.lt_log2_self
      refine rcev_mono ?_ (rcev_wp hfs (hall _ hex))
      rintro out c3 p' ⟨⟨-, -, hz⟩, w1, w2⟩
      refine ⟨by rw [hz, hqs]; omega, fun K hK => ?_⟩
      rw [hz] at hK
      have hl : Nat.log2 q.size + 1 ≤ K := (Nat.log2_lt (by omega)).2 hK
      simp at u1 u2 v1 v2
      constructor <;> omega
    · cases hbad
  · rintro e c1 q (⟨h, -⟩ | ⟨h, h'⟩) ⟨e, rfl, u1, u2⟩
    · cases h
    · rw [h']
      refine ⟨Nat.le_refl _, fun K _ => ?_⟩
      simp at u1 u2
      constructor <;> simp <;> omega

theorem allocExpand_cost (h : Ready C p T) (hcap : Cap p) (h4 : 4 ≤ k) (hk : k < 31) (h1 : n + 8 ≤ 2 ^ k) (h2 : 2 ^ k < 2 * (n + 8))
    (hg : Guard p T k) (c : Cost) :
    rcev (allocExpand n k) (fun _ c' p' => p.size ≤ p'.size ∧ ∀ K, p'.size < 2 ^ K → c.RUp c' (38 * K + 27) 1) c p := by
  obtain ⟨F, hi⟩ := h.inv
  have hp := Nat.two_pow_pos k
  have hmin := hi.geo.min
  have hsz := hi.cap
  have hp31 : 2 ^ k < 2 ^ 31 := (Nat.pow_lt_pow_iff_right (by decide)).2 hk
  have hdm := Nat.div_add_mod p.size (2 ^ k)
  have hml := Nat.mod_lt p.size hp
  rw [Nat.mul_comm] at hdm
  unfold allocExpand
  simp only [Prog.bind_def]
  refine rcev_rd ?_
  rw [show leRd p.mem 0 8 = p.size from rfl, sizeForOrder_eq hk]
  simp only [Prog.pure_def, Prog.ret_bind]
  rw [mask_eq (by omega) (by omega)]
  obtain ⟨b, hb⟩ : ∃ b, p.size / 2 ^ k * 2 ^ k = b := ⟨_, rfl⟩
  rw [hb] at hdm ⊢
  have hbd : 2 ^ k ∣ b := by rw [← hb]; exact Nat.dvd_mul_left _ _
  refine rcev_bind_wp (walk_end h hb.symm hg) (rcev_rb (walk_rb _ _ _)) ?_ (by rintro e _ s' ⟨-, _, _, h, -⟩; cases h)
  rintro ⟨b', kk⟩ c1 p1 ⟨e1, o2, k2, e2, hcase⟩ ⟨u1, u2⟩
  rw [e1]
  injection e2 with e2
  obtain ⟨rfl, rfl⟩ := Prod.mk.inj e2
  obtain ⟨a, haa⟩ : ∃ a, (if b' ≥ p.size then b else (b + 2 ^ k) % W64) = a := ⟨_, rfl⟩
  have ha : 2 ^ k ∣ a ∧ p.size ≤ a ∧ a < 2 ^ 32 := by
    rcases hcase with ⟨h5, h6⟩ | ⟨h5, h6⟩
    · rw [if_pos (by omega)] at haa
      subst haa; exact ⟨hbd, by omega, by omega⟩
    · rw [if_neg (by omega), Nat.mod_eq_of_lt (by omega)] at haa
      subst haa; exact ⟨Nat.dvd_add hbd (Nat.dvd_refl _), by omega, by omega⟩
  have hw : ∀ K, p.size < 2 ^ K → largestOrderWithin (p.size - b) ≤ K := by
    intro K hK
    by_cases e : p.size - b = 0
    · rw [e]; exact Nat.le_trans (show largestOrderWithin 0 ≤ 0 by decide) (Nat.zero_le _)
    · rw [largest_eq e (by omega)]
      exact Nat.le_of_lt ((Nat.log2_lt e).2 (by omega))
  generalize largestOrderWithin (p.size - b) = L at *
  show rcev ((expand (((if b' ≥ p.size then b else (b + 2 ^ k) % W64) + 2 ^ k) % W64)).bind fun _ =>
    (deleteReused (decide (b' ≥ p.size)) p.size kk (if b' ≥ p.size then b else (b + 2 ^ k) % W64)).bind fun _ =>
    finish n k (2 ^ k) p.size (if b' ≥ p.size then b else (b + 2 ^ k) % W64)) _ _ _
  rw [haa, Nat.mod_eq_of_lt (by omega : a + 2 ^ k < W64)]
  refine rcev_mono ?_ (expandAt_cost h hcap h4 hk h1 h2 _ _ ha.1 ha.2.1 ha.2.2 c1)
  rintro out c2 p' ⟨hle, hc⟩
  refine ⟨hle, fun K hK => ?_⟩
  obtain ⟨v1, v2⟩ := hc K hK
  have := hw K (by omega)
  simp at u1 u2
  constructor <;> omega

theorem lalloc_cost (h : Ready C p T) (hcap : Cap p) (h1 : 1 ≤ n) (h2 : n + 8 ≤ 2 ^ 30)
    (hg : HasRoom T (orderForSize (n + 8)) ∨ Guard p T (orderForSize (n + 8))) (c : Cost) :
    rcev (alloc n) (fun _ c' p' => ∀ K, p'.size < 2 ^ K → c.RUp c' (38 * K + 82) 1) c p := by
  obtain ⟨F, hi⟩ := h.inv
  obtain ⟨h4, h31, hk1, hk2⟩ := order_facts h1 h2
  unfold alloc
  rw [Nat.mod_eq_of_lt (by omega : n + 8 < W64), if_neg (by omega)]
  generalize orderForSize (n + 8) = k at *
  simp only [Prog.bind_def]
  refine rcev_bind_wp (search_spec hi 64 h4 (by omega) (by omega)) (rcev_rb (search_rb 64 (by omega))) ?_ (by rintro e _ s' ⟨-, _, h, -⟩; cases h)
  rintro r c1 p1 ⟨e1, r', e, hkr, hempty, hcase⟩ ⟨u1, u2⟩
  rw [e1]
  injection e with e; subst e
  unfold allocFrom
  rcases hcase with ⟨hr, hF⟩ | hr
  · rw [if_pos (by omega)]
    simp only [Prog.bind_def]
    obtain ⟨o, rr, hFo⟩ : ∃ o rr, F r = o :: rr := by
      cases hFr : F r with
      | nil => exact absurd hFr hF
      | cons a t => exact ⟨a, t, rfl⟩
    have hti := hi.geom.tile (hi.lst.hd_mem hFo)
    have er : k + (r - k) = r := by omega
    have hFo' : F (k + (r - k)) = o :: rr := by rw [er]; exact hFo
    refine rcev_bind_wp (splitDown_spec h4 (r - k) hi hFo' (by intro j a b; exact hempty j a (by omega)) h.coal.x h.nh)
      (rcev_rb (splitDown_rb k (r - k))) ?_ (by rintro e _ s' ⟨h, -⟩; cases h)
    rintro - c2 q ⟨-, T', F', r', hi', hF', hcx, hnh, hsa, hkp, hsz⟩ ⟨v1, v2⟩
    refine rcev_mono ?_ (rcev_wp (popHead_spec (n := n) hi' hF' hk1 hk2) (rcev_rb (popHead_rb n k)))
    rintro out c3 p' ⟨⟨-, -, -, hsz2, -⟩, w1, w2⟩ K hK
    have hrK : r < K := (Nat.pow_lt_pow_iff_right (a := 2) (by decide)).1 (by omega)
    constructor <;> omega
  · have hno : ¬ HasRoom T k := by
      rintro ⟨o, j, hj, ht⟩
      have hm := (hi.lst.mem j o).2 ht
      have hj31 := hi.geom.ord_lt ht hi.cap
      rw [hempty j hj (by omega)] at hm
      cases hm
    rw [if_neg (by omega)]
    refine rcev_mono ?_ (allocExpand_cost h hcap h4 h31 hk1 hk2 (hg.resolve_left hno) c1)
    rintro out c2 p' ⟨-, hc⟩ K hK
    obtain ⟨v1, v2⟩ := hc K hK
    constructor <;> omega

theorem lfree_cost (h : Ready C p T) (ht : T o = some (k, .alloc n)) {K : Nat} (hK : p.size < 2 ^ K) (c : Cost) :
    rcev (free (o + 8)) (fun _ c' _ => c.RUp c' (9 * K + 30) 0) c p := by
  obtain ⟨F, hi⟩ := h.inv
  have hmin := hi.geo.min
  have hcap := hi.cap
  have h0 := hi.geom.mod16 ht
  have h1 := hi.geom.tile ht
  have hk := hi.geom.ord_lt ht hi.cap
  obtain ⟨hw0, hal1, hal2⟩ := hi.al ht
  have hord : orderForSize (n + 8) = k := by
    obtain ⟨h3, h4⟩ := orderForSize_spec (n := n + 8) (by omega) (by omega)
    have h5 := h4 k hal1
    generalize orderForSize (n + 8) = j at *
    refine Nat.le_antisymm h5 ?_
    refine Nat.not_lt.1 fun hc => ?_
    have : 2 ^ (j + 1) ≤ 2 ^ k := Nat.pow_le_pow_right (n := 2) (i := j + 1) (by decide) hc
    rw [Nat.pow_succ] at this; omega
  unfold free
  simp only [Prog.bind_def]
  refine rcev_rd ?_
  rw [show leRd p.mem 0 8 = p.size from rfl, if_neg (by unfold start; omega)]
  refine rcev_rd ?_
  rw [show leRd p.mem (o + 8 - 8) 8 = w p.mem o from rfl, show o + 8 - 8 = o from rfl, hw0, alloc_mkAlloc (by omega), size_mkAlloc (by omega),
    Nat.mod_eq_of_lt (by omega : n + 8 < W64), hord, sizeForOrder_eq hk]
  rw [if_neg (by decide)]
  simp only [Prog.pure_def, Prog.ret_bind]
  refine rcev_rd (rcev_wr (rcev_rd (rcev_wr ?_)))
  have e2 : leRd (leWr p.mem 288 8 (sub64 (leRd p.mem 288 8) n)) 296 8 = w p.mem 296 := by
    show w (put p 288 (sub64 (leRd p.mem 288 8) n)).mem 296 = _
    rw [put_w (by decide) (by decide), if_neg (by decide)]
  have hi2 := (hi.put_hdr (a := 288) (v := sub64 (w p.mem 288) n) (by decide) (by decide) (by decide)).put_hdr
    (a := 296) (v := sub64 (w p.mem 296) (2 ^ k)) (by decide) (by decide) (by decide)
  rw [e2]
  show rcev _ _ _ (put (put p 288 (sub64 (w p.mem 288) n)) 296 (sub64 (w p.mem 296) (2 ^ k)))
  have hzq : (put (put p 288 (sub64 (w p.mem 288) n)) 296 (sub64 (w p.mem 296) (2 ^ k))).size = p.size := by rw [put_size (by decide), put_size (by decide)]
  generalize put (put p 288 (sub64 (w p.mem 288) n)) 296 (sub64 (w p.mem 296) (2 ^ k)) = q at *
  refine rcev_bind_wp (createFree_spec (hi2.release ht) (tset_same _ _ _ _)) (rcev_rb (createFree_rb o k)) ?_ (by rintro e _ s' ⟨h, -⟩; cases h)
  rintro - c1 q2 ⟨-, hi3, hkp3, hsz3⟩ ⟨u1, u2⟩
  have e1 : tset (tset T o k .held) o k .free = tset T o k .free := by
    funext x; unfold tset; split <;> rfl
  rw [e1] at hi3
  have hcx : CoalX C (tset T o k .free) o := by
    intro hC x j h2 h3 h4 h5
    rw [tset_ne h2] at h4
    rw [tset_ne h3] at h5
    exact h.coal hC x j h4 h5
  have hnh3 : ∀ x j, tset T o k .free x ≠ some (j, .held) := by
    intro x j hx
    by_cases e : x = o
    · subst e; rw [tset_same] at hx; cases (some_pair hx).2
    · rw [tset_ne e] at hx; exact h.nh x j hx
  simp at u1 u2
  refine rcev_bind ?_ ?_ (mergeAt_cost hi3 (tset_same _ _ _ _) hcx hnh3 (by intro x hx; exact hx.elim) (K := K) (by rw [hsz3, hzq]; exact hK) c1)
  · rintro _ c2 s2 ⟨v1, v2⟩
    refine rcev_ret ?_
    constructor <;> omega
  · rintro _ c2 s2 ⟨v1, v2⟩
    constructor <;> omega
end Verif.Logarithmic

namespace Verif
open Logarithmic

section
attribute [local irreducible] run rcev rwp crashAt Logarithmic.alloc Logarithmic.free rcounted Prog.tally

/-- **C72, LogarithmicAllocator::allocate.** After any history of calls, allocate makes at most 38 accesses for every doubling of the pool's size (the size after the call, if it expands the pool), 120 more,
and one call of ftruncate, whether it succeeds or throws.  `Tidy` excludes the expansions that try to reuse free blocks at the end of the pool, which the code gets wrong (C13_false_reuse). -/
theorem C72_logarithmic_allocate_partial {p0 p : Pool} {live : List (Nat × Nat)} (h : LHist p0 p live) {n : Nat} (h1 : 1 ≤ n) (h2 : n + 8 ≤ 2 ^ 30) (ht : Tidy p live n) :
    ∃ r c p', run (rcounted (Logarithmic.alloc n)) p = (.ok (r, c), p') ∧ run (Logarithmic.alloc n) p = (r.toRes, p') ∧ c.acc ≤ 38 * Nat.log2 p'.size + 120 ∧ c.truncs ≤ 1 := by
  obtain ⟨T, hI⟩ := h.inv
  have hg := hI.guard h1 (by omega) ht
  obtain ⟨r, c, p', h3, -, h4⟩ := rcev_run' (Logarithmic.alloc_spec hI.rdy hI.cap h1 h2 hg) (lalloc_cost hI.rdy hI.cap h1 h2 hg {})
  obtain ⟨u1, u2⟩ := h4 _ Nat.lt_log2_self
  simp at u1 u2
  exact ⟨r, c, p', h3, counts h3, by omega, u2⟩

/-- **C72, LogarithmicAllocator::free.** After any history of calls, free makes at most 9 accesses for every doubling of the pool's size and 39 more. -/
theorem C72_logarithmic_free {p0 p : Pool} {live : List (Nat × Nat)} (h : LHist p0 p live) {o n : Nat} (hm : (o, n) ∈ live) :
    ∃ c p', run (rcounted (Logarithmic.free o)) p = (.ok (.ok (), c), p') ∧ run (Logarithmic.free o) p = (.ok (), p') ∧ c.acc ≤ 9 * Nat.log2 p.size + 39 ∧ c.truncs = 0 := by
  obtain ⟨T, hI⟩ := h.inv
  obtain ⟨x, j, rfl, ht, hj⟩ := hI.tile hm
  obtain ⟨r, c, p', h3, ⟨rfl, -⟩, u1, u2⟩ := rcev_run' (Logarithmic.free_spec hI.rdy ht) (lfree_cost hI.rdy ht (K := Nat.log2 p.size + 1) Nat.lt_log2_self {})
  simp at u1 u2
  exact ⟨c, p', h3, counts h3, by omega, u2⟩
end
example : ∃ p live, LHist (newPool (2 ^ 30)) p live ∧ live.length = 2 ∧ p.size = 8192 ∧ Tidy p live 4000 ∧ (run (rcounted (Logarithmic.alloc 4000)) p).1 = .ok (.ok 8200, { acc := 57, truncs := 1 }) ∧
    (run (rcounted (Logarithmic.free 4104)) p).1 = .ok (.ok (), { acc := 26 }) := by
  have h0 : LHist (newPool (2 ^ 30)) (run init (newPool (2 ^ 30))).2 [] :=
    .start (newPool_geo _) (by rw [newPool_size]; decide) newPool_cap (by decide +kernel) (run_eta (by decide +kernel))
  have h1 := h0.alloc (n := 100) (o := 1288) (by decide) (by decide) (Or.inr (Or.inl (by decide +kernel))) (run_eta (by decide +kernel))
  have h2 := h1.alloc (n := 4088) (o := 4104) (by decide) (by decide) (Or.inr (Or.inl (by decide +kernel))) (run_eta (by decide +kernel))
  refine ⟨_, _, h2, rfl, by decide +kernel, Or.inr (Or.inl (by decide +kernel)), ?_, ?_⟩
  all_goals decide +kernel
end Verif
