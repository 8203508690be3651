import Verif.LogArith
import Verif.SimpleOps
/-
The LogarithmicAllocator's invariant: the arena is tiled by aligned blocks, the free ones are exactly the members of the
doubly linked list of their order.
-/
namespace Verif.Logarithmic
open Verif
open Verif.Simple (w w_wr w_lt Geo put put_w put_size rwp_r rwp_w)

/-- what a tile is: on a free list, in nobody's hands (being moved), or allocated with a size -/
inductive St
  | free
  | held
  | alloc (n : Nat)
  deriving DecidableEq

/-- tiles by offset: order and state -/
abbrev Tiles := Nat → Option (Nat × St)

def tset (T : Tiles) (o k : Nat) (s : St) : Tiles := fun x => if x = o then some (k, s) else T x
def tdel (T : Tiles) (o : Nat) : Tiles := fun x => if x = o then none else T x

theorem tset_same (T : Tiles) (o k : Nat) (s : St) : tset T o k s o = some (k, s) := by simp [tset]
theorem tset_ne {T : Tiles} {o k : Nat} {s : St} {x : Nat} (h : x ≠ o) : tset T o k s x = T x := by simp [tset, h]
theorem tdel_same (T : Tiles) (o : Nat) : tdel T o o = none := by simp [tdel]
theorem tdel_ne {T : Tiles} {o x : Nat} (h : x ≠ o) : tdel T o x = T x := by simp [tdel, h]

theorem some_pair {a c : Nat} {b d : St} (h : some (a, b) = some (c, d)) : a = c ∧ b = d := by
  simpa using h

/-- the tiles are aligned, disjoint and cover `[1168, S)` except for `E` -/
structure Geom (T : Tiles) (E : Nat → Prop) (S : Nat) : Prop where
  tile : ∀ {o k s}, T o = some (k, s) → 4 ≤ k ∧ 2 ^ k ∣ o ∧ 1168 ≤ o ∧ o + 2 ^ k ≤ S
  nE : ∀ {o k s}, T o = some (k, s) → ∀ x, o ≤ x → x < o + 2 ^ k → ¬ E x
  disj : ∀ {o k s o' k' s'}, T o = some (k, s) → T o' = some (k', s') → o < o' → o + 2 ^ k ≤ o'
  cov : ∀ x, 1168 ≤ x → x < S → ¬ E x → ∃ o k s, T o = some (k, s) ∧ o ≤ x ∧ x < o + 2 ^ k

section geom
variable {T : Tiles} {E : Nat → Prop} {S o k : Nat} {s : St}

theorem pow16 {k : Nat} (h : 4 ≤ k) : 16 ∣ 2 ^ k ∧ 16 ≤ 2 ^ k := by
  have h1 : 2 ^ 4 ∣ 2 ^ k := Nat.pow_dvd_pow 2 h
  exact ⟨h1, Nat.le_of_dvd (Nat.two_pow_pos k) h1⟩

theorem Geom.mod16 (h : Geom T E S) (ht : T o = some (k, s)) : o % 16 = 0 ∧ 1168 ≤ o ∧ o + 16 ≤ S ∧ 16 ≤ 2 ^ k := by
  have h1 := h.tile ht
  have h2 := pow16 h1.1
  exact ⟨Nat.mod_eq_zero_of_dvd (Nat.dvd_trans h2.1 h1.2.1), h1.2.2.1, by omega, h2.2⟩

theorem Geom.ord_lt (h : Geom T E S) (ht : T o = some (k, s)) (hS : S < 2 ^ 31) : k < 31 := by
  have h1 := h.tile ht
  have h2 : 2 ^ k < 2 ^ 31 := by omega
  exact (Nat.pow_lt_pow_iff_right (by decide)).1 h2

theorem Geom.setSt (h : Geom T E S) (ht : T o = some (k, s)) (s' : St) : Geom (tset T o k s') E S := by
  have key : ∀ {x k' t}, tset T o k s' x = some (k', t) → ∃ t', T x = some (k', t') := by
    intro x k' t hx
    by_cases e : x = o
    · subst e; rw [tset_same] at hx
      obtain ⟨h1, h2⟩ := some_pair hx
      subst h1; exact ⟨_, ht⟩
    · rw [tset_ne e] at hx; exact ⟨_, hx⟩
  refine ⟨?_, ?_, ?_, ?_⟩
  · intro x k' t hx; obtain ⟨t', hx⟩ := key hx; exact h.tile hx
  · intro x k' t hx; obtain ⟨t', hx⟩ := key hx; exact h.nE hx
  · intro x k1 t x' k2 t' hx hx'
    obtain ⟨t1, hx⟩ := key hx
    obtain ⟨t2, hx'⟩ := key hx'
    exact h.disj hx hx'
  · intro x h1 h2 h3
    obtain ⟨o', k', t, h4, h5⟩ := h.cov x h1 h2 h3
    by_cases e : o' = o
    · subst e; rw [ht] at h4; obtain ⟨h6, h7⟩ := some_pair h4; subst h6
      exact ⟨o', _, s', tset_same _ _ _ _, h5⟩
    · exact ⟨o', k', t, by rw [tset_ne e]; exact h4, h5⟩

/-- cutting a tile in two -/
theorem Geom.split (h : Geom T E S) (ht : T o = some (k + 1, s)) (hk : 4 ≤ k) (s1 s2 : St) :
    Geom (tset (tset T o k s1) (o + 2 ^ k) k s2) E S := by
  have hp := Nat.two_pow_pos k
  have h0 := h.tile ht
  rw [Nat.pow_succ] at h0
  have key : ∀ {x k' t}, tset (tset T o k s1) (o + 2 ^ k) k s2 x = some (k', t) →
      (x = o + 2 ^ k ∧ k' = k) ∨ (x = o ∧ k' = k) ∨ (x ≠ o ∧ T x = some (k', t)) := by
    intro x k' t hx
    by_cases e : x = o + 2 ^ k
    · subst e; rw [tset_same] at hx; obtain ⟨h1, h2⟩ := some_pair hx; exact Or.inl ⟨rfl, h1.symm⟩
    · rw [tset_ne e] at hx
      by_cases e : x = o
      · subst e; rw [tset_same] at hx; obtain ⟨h1, h2⟩ := some_pair hx; exact Or.inr (Or.inl ⟨rfl, h1.symm⟩)
      · rw [tset_ne e] at hx; exact Or.inr (Or.inr ⟨e, hx⟩)
  have hd : 2 ^ k ∣ o := Nat.dvd_trans (Nat.dvd_mul_right _ _) h0.2.1
  refine ⟨?_, ?_, ?_, ?_⟩
  · intro x k' t hx
    rcases key hx with ⟨rfl, rfl⟩ | ⟨rfl, rfl⟩ | ⟨-, hx⟩
    · exact ⟨hk, Nat.dvd_add hd (Nat.dvd_refl _), by omega, by omega⟩
    · exact ⟨hk, hd, by omega, by omega⟩
    · exact h.tile hx
  · intro x k' t hx y h1 h2
    rcases key hx with ⟨rfl, rfl⟩ | ⟨rfl, rfl⟩ | ⟨-, hx⟩
    · exact h.nE ht y (by omega) (by rw [Nat.pow_succ]; omega)
    · exact h.nE ht y (by omega) (by rw [Nat.pow_succ]; omega)
    · exact h.nE hx y h1 h2
  · intro x k1 t x' k2 t' hx hx' hlt
    rcases key hx with ⟨rfl, rfl⟩ | ⟨rfl, rfl⟩ | ⟨e1, ha⟩ <;> rcases key hx' with ⟨rfl, rfl⟩ | ⟨rfl, rfl⟩ | ⟨e2, hb⟩
    · omega
    · omega
    · have := h.disj ht hb (by omega); rw [Nat.pow_succ] at this; omega
    · omega
    · omega
    · have := h.disj ht hb (by omega); rw [Nat.pow_succ] at this; omega
    · by_cases e : x < o
      · have := h.disj ha ht e; omega
      · have := h.disj ht ha (by omega); rw [Nat.pow_succ] at this; omega
    · exact h.disj ha ht hlt
    · exact h.disj ha hb hlt
  · intro x h1 h2 h3
    obtain ⟨o', k', t, h4, h5, h6⟩ := h.cov x h1 h2 h3
    by_cases e : o' = o
    · subst e; rw [ht] at h4; obtain ⟨h7, h8⟩ := some_pair h4; subst h7
      rw [Nat.pow_succ] at h6
      by_cases hx : x < o' + 2 ^ k
      · refine ⟨o', k, s1, ?_, h5, hx⟩
        rw [tset_ne (by omega), tset_same]
      · exact ⟨o' + 2 ^ k, k, s2, tset_same _ _ _ _, by omega, by omega⟩
    · refine ⟨o', k', t, ?_, h5, h6⟩
      rw [tset_ne, tset_ne e]; exact h4
      intro e2
      subst e2
      have := h.disj ht h4 (by omega)
      rw [Nat.pow_succ] at this; omega

/-- joining two tiles -/
theorem Geom.merge (h : Geom T E S) {s1 s2 : St} (ht : T o = some (k, s1)) (ht' : T (o + 2 ^ k) = some (k, s2))
    (hd : 2 ^ (k + 1) ∣ o) (s' : St) : Geom (tset (tdel T (o + 2 ^ k)) o (k + 1) s') E S := by
  have hp := Nat.two_pow_pos k
  have h0 := h.tile ht
  have h0' := h.tile ht'
  have key : ∀ {x k' t}, tset (tdel T (o + 2 ^ k)) o (k + 1) s' x = some (k', t) →
      (x = o ∧ k' = k + 1) ∨ (x ≠ o ∧ x ≠ o + 2 ^ k ∧ T x = some (k', t)) := by
    intro x k' t hx
    by_cases e : x = o
    · subst e; rw [tset_same] at hx; obtain ⟨h1, h2⟩ := some_pair hx; exact Or.inl ⟨rfl, h1.symm⟩
    · rw [tset_ne e] at hx
      by_cases e2 : x = o + 2 ^ k
      · subst e2; rw [tdel_same] at hx; cases hx
      · rw [tdel_ne e2] at hx; exact Or.inr ⟨e, e2, hx⟩
  refine ⟨?_, ?_, ?_, ?_⟩
  · intro x k' t hx
    rcases key hx with ⟨rfl, rfl⟩ | ⟨-, -, hx⟩
    · exact ⟨by omega, hd, by omega, by rw [Nat.pow_succ]; omega⟩
    · exact h.tile hx
  · intro x k' t hx y h1 h2
    rcases key hx with ⟨rfl, rfl⟩ | ⟨-, -, hx⟩
    · rw [Nat.pow_succ] at h2
      by_cases hy : y < x + 2 ^ k
      · exact h.nE ht y h1 hy
      · exact h.nE ht' y (by omega) (by omega)
    · exact h.nE hx y h1 h2
  · intro x k1 t x' k2 t' hx hx' hlt
    rcases key hx with ⟨rfl, rfl⟩ | ⟨e1, e2, ha⟩ <;> rcases key hx' with ⟨rfl, rfl⟩ | ⟨e3, e4, hb⟩
    · omega
    · have h1 := h.disj ht hb hlt
      have h2 := h.disj ht' hb (by omega)
      rw [Nat.pow_succ]; omega
    · exact h.disj ha ht hlt
    · exact h.disj ha hb hlt
  · intro x h1 h2 h3
    obtain ⟨o', k', t, h4, h5, h6⟩ := h.cov x h1 h2 h3
    by_cases e : o' = o
    · subst e; rw [ht] at h4; obtain ⟨h7, h8⟩ := some_pair h4; subst h7
      exact ⟨o', k + 1, s', tset_same _ _ _ _, h5, by rw [Nat.pow_succ]; omega⟩
    · by_cases e2 : o' = o + 2 ^ k
      · subst e2; rw [ht'] at h4; obtain ⟨h7, h8⟩ := some_pair h4; subst h7
        exact ⟨o, k + 1, s', tset_same _ _ _ _, by omega, by rw [Nat.pow_succ]; omega⟩
      · refine ⟨o', k', t, ?_, h5, h6⟩
        rw [tset_ne e, tdel_ne e2]; exact h4

/-- putting a tile into uncovered space -/
theorem Geom.place (h : Geom T E S) (hk : 4 ≤ k) (hd : 2 ^ k ∣ o) (hlo : 1168 ≤ o) (hhi : o + 2 ^ k ≤ S)
    (hE : ∀ x, o ≤ x → x < o + 2 ^ k → E x) (s : St) :
    Geom (tset T o k s) (fun x => E x ∧ ¬ (o ≤ x ∧ x < o + 2 ^ k)) S := by
  have hp := Nat.two_pow_pos k
  have key : ∀ {x k' t}, tset T o k s x = some (k', t) → (x = o ∧ k' = k) ∨ (x ≠ o ∧ T x = some (k', t)) := by
    intro x k' t hx
    by_cases e : x = o
    · subst e; rw [tset_same] at hx; obtain ⟨h1, h2⟩ := some_pair hx; exact Or.inl ⟨rfl, h1.symm⟩
    · rw [tset_ne e] at hx; exact Or.inr ⟨e, hx⟩
  have sep : ∀ {x k' t}, T x = some (k', t) → x + 2 ^ k' ≤ o ∨ o + 2 ^ k ≤ x := by
    intro x k' t hx
    refine Classical.byContradiction fun hc => ?_
    have hp' := Nat.two_pow_pos k'
    by_cases e : o ≤ x
    · exact h.nE hx x (Nat.le_refl _) (by omega) (hE x e (by omega))
    · exact h.nE hx o (by omega) (by omega) (hE o (Nat.le_refl _) (by omega))
  refine ⟨?_, ?_, ?_, ?_⟩
  · intro x k' t hx
    rcases key hx with ⟨rfl, rfl⟩ | ⟨-, hx⟩
    · exact ⟨hk, hd, hlo, hhi⟩
    · exact h.tile hx
  · intro x k' t hx y h1 h2
    rcases key hx with ⟨rfl, rfl⟩ | ⟨-, hx⟩
    · intro h3; exact h3.2 ⟨h1, h2⟩
    · intro h3; exact h.nE hx y h1 h2 h3.1
  · intro x k1 t x' k2 t' hx hx' hlt
    rcases key hx with ⟨rfl, rfl⟩ | ⟨e1, ha⟩ <;> rcases key hx' with ⟨rfl, rfl⟩ | ⟨e3, hb⟩
    · omega
    · have := Nat.two_pow_pos k2
      rcases sep hb with h1 | h1 <;> omega
    · have := Nat.two_pow_pos k1
      rcases sep ha with h1 | h1 <;> omega
    · exact h.disj ha hb hlt
  · intro x h1 h2 h3
    by_cases hx : o ≤ x ∧ x < o + 2 ^ k
    · exact ⟨o, k, s, tset_same _ _ _ _, hx⟩
    · obtain ⟨o', k', t, h4, h5, h6⟩ := h.cov x h1 h2 (fun h => h3 ⟨h, hx⟩)
      refine ⟨o', k', t, ?_, h5, h6⟩
      rw [tset_ne]; exact h4
      intro e
      subst e
      have := Nat.two_pow_pos k'
      rcases sep h4 with h7 | h7 <;> omega

/-- a larger pool -/
theorem Geom.grow (h : Geom T E S) {S' : Nat} (hS : S ≤ S') : Geom T (fun x => E x ∨ S ≤ x) S' := by
  refine ⟨?_, ?_, h.disj, ?_⟩
  · intro o k s ht; have := h.tile ht; exact ⟨this.1, this.2.1, this.2.2.1, by omega⟩
  · intro o k s ht x h1 h2 h3
    rcases h3 with h3 | h3
    · exact h.nE ht x h1 h2 h3
    · have := h.tile ht; omega
  · intro x h1 h2 h3
    exact h.cov x h1 (by refine Nat.not_le.1 ?_; tauto) (by tauto)

theorem Geom.congrE (h : Geom T E S) {E' : Nat → Prop} (hE : ∀ x, E' x ↔ E x) : Geom T E' S := by
  have : E' = E := funext fun x => propext (hE x)
  rw [this]; exact h

/-- two tiles that share a byte are the same -/
theorem Geom.same (h : Geom T E S) {o' k' x : Nat} {s' : St} (ht : T o = some (k, s)) (ht' : T o' = some (k', s'))
    (h1 : o ≤ x) (h2 : x < o + 2 ^ k) (h3 : o' ≤ x) (h4 : x < o' + 2 ^ k') : o = o' := by
  rcases Nat.lt_trichotomy o o' with h5 | h5 | h5
  · have := h.disj ht ht' h5; omega
  · exact h5
  · have := h.disj ht' ht h5; omega

end geom

theorem aligned_le {a b k : Nat} (ha : 2 ^ k ∣ a) (hb : 2 ^ k ∣ b) (h : a < b) : a + 2 ^ k ≤ b := by
  obtain ⟨m, rfl⟩ := ha
  obtain ⟨n, rfl⟩ := hb
  have : m < n := Nat.lt_of_mul_lt_mul_left h
  calc 2 ^ k * m + 2 ^ k = 2 ^ k * (m + 1) := by rw [Nat.mul_add, Nat.mul_one]
    _ ≤ 2 ^ k * n := Nat.mul_le_mul_left _ this

/-- The tile containing the start of an aligned block either starts there or contains the whole block. -/
theorem Geom.aligned_start {T : Tiles} {E : Nat → Prop} {S o k k' o' : Nat} {s' : St} (h : Geom T E S)
    (hd : 2 ^ k ∣ o) (ht : T o' = some (k', s')) (h1 : o' ≤ o) (h2 : o < o' + 2 ^ k') :
    o' = o ∨ (k < k' ∧ o' ≤ o ∧ o + 2 ^ k ≤ o' + 2 ^ k') := by
  have h0 := h.tile ht
  by_cases e : o' = o
  · exact Or.inl e
  · right
    have hlt : o' < o := by omega
    by_cases hk : k < k'
    · refine ⟨hk, h1, ?_⟩
      have hd' : 2 ^ k ∣ o' + 2 ^ k' :=
        Nat.dvd_add (Nat.dvd_trans (Nat.pow_dvd_pow 2 (Nat.le_of_lt hk)) h0.2.1) (Nat.pow_dvd_pow 2 (Nat.le_of_lt hk))
      exact aligned_le hd hd' h2
    · exfalso
      have hd' : 2 ^ k' ∣ o := Nat.dvd_trans (Nat.pow_dvd_pow 2 (by omega)) hd
      have := aligned_le h0.2.1 hd' hlt
      omega

/-! ### free lists -/

def hdD : List Nat → Nat → Nat
  | [], e => e
  | a :: _, _ => a
def lastD : List Nat → Nat → Nat
  | [], e => e
  | a :: t, _ => lastD t a

theorem hdD_append (A B : List Nat) (e : Nat) : hdD (A ++ B) e = hdD A (hdD B e) := by cases A <;> rfl
theorem lastD_append (A B : List Nat) (e : Nat) : lastD (A ++ B) e = lastD B (lastD A e) := by
  induction A generalizing e with
  | nil => rfl
  | cons c t ih => simp only [List.cons_append, lastD, ih]

theorem hdD_mem {l : List Nat} (h : l ≠ []) (e : Nat) : hdD l e ∈ l := by
  cases l with
  | nil => exact absurd rfl h
  | cons a t => simp [hdD]
theorem lastD_mem {l : List Nat} (h : l ≠ []) (e : Nat) : lastD l e ∈ l := by
  induction l generalizing e with
  | nil => exact absurd rfl h
  | cons a t ih =>
    cases t with
    | nil => simp [lastD]
    | cons b t => exact List.mem_cons_of_mem _ (ih (by simp) a)
theorem lastD_snoc {l : List Nat} (h : l ≠ []) (e : Nat) : ∃ l0, l = l0 ++ [lastD l e] := by
  obtain ⟨l0, x, rfl⟩ : ∃ A b, l = A ++ [b] := ⟨_, _, (List.dropLast_concat_getLast h).symm⟩
  exact ⟨l0, by rw [lastD_append]; rfl⟩

/-- the words of a run of list members of order `k` -/
def Seg (m : Nat → UInt8) (k : Nat) : Nat → List Nat → Nat → Prop
  | _, [], _ => True
  | pv, o :: t, e => w m o = mkFree k pv ∧ w m (o + 8) = hdD t e ∧ Seg m k o t e

theorem Seg.append_iff {m : Nat → UInt8} {k : Nat} {A B : List Nat} {pv e : Nat} :
    Seg m k pv (A ++ B) e ↔ Seg m k pv A (hdD B e) ∧ Seg m k (lastD A pv) B e := by
  induction A generalizing pv with
  | nil => simp [Seg, lastD]
  | cons c t ih => simp only [List.cons_append, Seg, lastD, ih, hdD_append, and_assoc]

theorem Seg.congr {m m' : Nat → UInt8} {k : Nat} {l : List Nat} {pv e : Nat}
    (h : ∀ x ∈ l, w m' x = w m x ∧ w m' (x + 8) = w m (x + 8)) (hs : Seg m k pv l e) : Seg m' k pv l e := by
  induction l generalizing pv with
  | nil => trivial
  | cons a t ih =>
    refine ⟨?_, ?_, ih (fun x hx => h x (by simp [hx])) hs.2.2⟩
    · rw [(h a (by simp)).1]; exact hs.1
    · rw [(h a (by simp)).2]; exact hs.2.1

theorem Seg.mem {m : Nat → UInt8} {k : Nat} {l : List Nat} {pv e x : Nat} (hs : Seg m k pv l e) (hx : x ∈ l) :
    ∃ A B, l = A ++ x :: B ∧ w m x = mkFree k (lastD A pv) ∧ w m (x + 8) = hdD B e := by
  obtain ⟨A, B, rfl⟩ := List.append_of_mem hx
  rw [Seg.append_iff] at hs
  exact ⟨A, B, rfl, hs.2.1, hs.2.2.1⟩

def fupd (F : Nat → List Nat) (k : Nat) (l : List Nat) : Nat → List Nat := fun j => if j = k then l else F j
theorem fupd_same (F : Nat → List Nat) (k : Nat) (l : List Nat) : fupd F k l k = l := by simp [fupd]
theorem fupd_ne {F : Nat → List Nat} {k j : Nat} {l : List Nat} (h : j ≠ k) : fupd F k l j = F j := by simp [fupd, h]

structure Lists (m : Nat → UInt8) (T : Tiles) (F : Nat → List Nat) : Prop where
  mem : ∀ k o, o ∈ F k ↔ T o = some (k, .free)
  nodup : ∀ k, (F k).Nodup
  head : ∀ k, 4 ≤ k → k ≤ 57 → w m (headA k) = hdD (F k) 0
  tail : ∀ k, 4 ≤ k → k ≤ 57 → w m (tailA k) = lastD (F k) 0
  seg : ∀ k, Seg m k 0 (F k) 0

/-- the invariant -/
structure LInv (p : Pool) (T : Tiles) (F : Nat → List Nat) (E : Nat → Prop) : Prop where
  geo : Geo p
  cap : p.size < 2 ^ 31
  geom : Geom T E p.size
  lst : Lists p.mem T F
  al : ∀ {o k n}, T o = some (k, .alloc n) → w p.mem o = mkAlloc n ∧ n + 8 ≤ 2 ^ k ∧ 2 ^ k < 2 * (n + 8)

/-- bytes that must not change: the header from 8 up to `c`, and the allocated tiles -/
structure LKeep (c : Nat) (T : Tiles) (p p' : Pool) : Prop where
  hdr : ∀ i, 8 ≤ i → i < c → p'.mem i = p.mem i
  blk : ∀ {o k n}, T o = some (k, .alloc n) → ∀ i, o ≤ i → i < o + 2 ^ k → p'.mem i = p.mem i
  mx : p'.maxSize = p.maxSize
  lm : p'.lim = p.lim

theorem LKeep.refl (c : Nat) (T : Tiles) (p : Pool) : LKeep c T p p :=
  ⟨fun _ _ _ => rfl, fun _ _ _ _ => rfl, rfl, rfl⟩
theorem LKeep.trans {c : Nat} {T T' : Tiles} {p q r : Pool} (h1 : LKeep c T p q) (h2 : LKeep c T' q r)
    (hT : ∀ o k n, T o = some (k, .alloc n) → T' o = some (k, .alloc n)) : LKeep c T p r :=
  ⟨fun i a b => (h2.hdr i a b).trans (h1.hdr i a b),
    fun ht i a b => (h2.blk (hT _ _ _ ht) i a b).trans (h1.blk ht i a b), h2.mx.trans h1.mx, h2.lm.trans h1.lm⟩
theorem LKeep.weaken {c c' : Nat} {T : Tiles} {p q : Pool} (h : LKeep c T p q) (hc : c' ≤ c) : LKeep c' T p q :=
  ⟨fun i a b => h.hdr i a (by omega), h.blk, h.mx, h.lm⟩
theorem LKeep.w {c : Nat} {T : Tiles} {p q : Pool} (h : LKeep c T p q) {a : Nat} (h8 : 8 ≤ a) (ha : a + 8 ≤ c) :
    w q.mem a = w p.mem a :=
  leRd_congr _ _ _ _ (by intro i h1 h2; exact h.hdr _ (by omega) (by omega))

/-- where a store may go without touching a client's bytes -/
def Safe (c : Nat) (T : Tiles) (a : Nat) : Prop :=
  (c ≤ a ∧ a + 8 ≤ 1168) ∨ ∃ o k s, T o = some (k, s) ∧ (∀ n, s ≠ .alloc n) ∧ o ≤ a ∧ a + 8 ≤ o + 2 ^ k

theorem LKeep.put {c : Nat} {T : Tiles} {E : Nat → Prop} {S : Nat} {p q : Pool} {a v : Nat} (hc : 8 ≤ c) (hc2 : c ≤ 1168)
    (hg : Geom T E S) (h : LKeep c T p q) (hs : Safe c T a) : LKeep c T p (put q a v) := by
  refine ⟨?_, ?_, h.mx, h.lm⟩
  · intro i h1 h2
    refine (leWr_out _ _ _ _ _ ?_).trans (h.hdr i h1 h2)
    rcases hs with hs | ⟨o, k, s, ht, -, h3, h4⟩
    · omega
    · have := hg.tile ht; omega
  · intro o k n ht i h1 h2
    refine (leWr_out _ _ _ _ _ ?_).trans (h.blk ht i h1 h2)
    have h0 := hg.tile ht
    rcases hs with hs | ⟨o', k', s, ht', hn, h3, h4⟩
    · omega
    · have hne : o ≠ o' := by
        intro e; subst e; rw [ht] at ht'; obtain ⟨e1, e2⟩ := some_pair ht'
        exact hn n e2.symm
      rcases Nat.lt_or_gt_of_ne hne with h5 | h5
      · have := hg.disj ht ht' h5; omega
      · have := hg.disj ht' ht h5; omega

/-! ### what a crash must not change -/

/-- every word at which a block header may lie keeps its allocated flag and its order, and its size if it is allocated -/
def HK (m m' : Nat → UInt8) : Prop :=
  ∀ o, o % 16 = 0 → 1168 ≤ o → hdrOrder (w m' o) = hdrOrder (w m o) ∧ hdrAlloc (w m' o) = hdrAlloc (w m o) ∧
    (hdrAlloc (w m o) = true → w m' o = w m o)

theorem HK.refl (m : Nat → UInt8) : HK m m := fun _ _ _ => ⟨rfl, rfl, fun _ => rfl⟩
theorem HK.trans {m m' m'' : Nat → UInt8} (h : HK m m') (h' : HK m' m'') : HK m m'' := by
  intro o h1 h2
  obtain ⟨a1, a2, a3⟩ := h o h1 h2
  obtain ⟨b1, b2, b3⟩ := h' o h1 h2
  exact ⟨b1.trans a1, b2.trans a2, fun h => (b3 (a2.trans h)).trans (a3 h)⟩
/-- a store that is not to a header -/
theorem HK.put {m : Nat → UInt8} {q : Pool} {a v : Nat} (h : HK m q.mem) (h8 : a % 8 = 0) (ha : a % 16 = 8 ∨ a < 1168) :
    HK m (put q a v).mem := by
  refine h.trans ?_
  intro o h1 h2
  rw [put_w h8 (by omega), if_neg (by omega)]
  exact ⟨rfl, rfl, fun _ => rfl⟩
/-- a store to a header that keeps the order -/
theorem HK.put_hdr {m : Nat → UInt8} {q : Pool} {a v : Nat} (h : HK m q.mem) (h8 : a % 8 = 0) (hv : v < W64)
    (h1 : hdrAlloc (w q.mem a) = false) (h2 : hdrAlloc v = false) (h3 : hdrOrder v = hdrOrder (w q.mem a)) :
    HK m (Simple.put q a v).mem := by
  refine h.trans ?_
  intro o h4 h5
  rw [put_w h8 (by omega)]
  split
  · rename_i e
    subst e
    rw [Nat.mod_eq_of_lt hv]
    exact ⟨h3, h2.trans h1.symm, fun hc => absurd hc (by rw [h1]; simp)⟩
  · exact ⟨rfl, rfl, fun _ => rfl⟩

/-- a crash during which nothing but list links changed -/
structure CrU (c : Nat) (T : Tiles) (p p' : Pool) : Prop where
  kp : LKeep c T p p'
  sz : p'.size = p.size
  geo : Geo p'
  hk : HK p.mem p'.mem
  top : w p'.mem 728 = w p.mem 728 ∧ w p'.mem 1160 = w p.mem 1160   -- the list of order 57

theorem CrU.refl (c : Nat) (T : Tiles) {p : Pool} (h : Geo p) : CrU c T p p := ⟨LKeep.refl _ _ _, rfl, h, HK.refl _, rfl, rfl⟩
theorem CrU.trans {c : Nat} {T T' : Tiles} {p q r : Pool} (h1 : CrU c T p q) (h2 : CrU c T' q r)
    (hT : ∀ o k n, T o = some (k, .alloc n) → T' o = some (k, .alloc n)) : CrU c T p r :=
  ⟨h1.kp.trans h2.kp hT, h2.sz.trans h1.sz, h2.geo, h1.hk.trans h2.hk, h2.top.1.trans h1.top.1, h2.top.2.trans h1.top.2⟩
theorem CrU.weaken {c c' : Nat} {T : Tiles} {p q : Pool} (h : CrU c T p q) (hc : c' ≤ c) : CrU c' T p q :=
  ⟨h.kp.weaken hc, h.sz, h.geo, h.hk, h.top⟩
theorem CrU.put {c : Nat} {T : Tiles} {E : Nat → Prop} {S : Nat} {p q : Pool} {a v : Nat} (h : CrU c T p q) (hc : 8 ≤ c)
    (hc2 : c ≤ 1168) (hg : Geom T E S) (hs : Safe c T a) (h8 : a % 8 = 0) (ha8 : 8 ≤ a) (ha : (a % 16 = 8 ∨ a < 1168) ∧ a ≠ 728 ∧ a ≠ 1160) :
    CrU c T p (put q a v) := by
  refine ⟨h.kp.put hc hc2 hg hs, (put_size ha8).trans h.sz, h.geo.put ha8, h.hk.put h8 ha.1, ?_⟩
  rw [put_w h8 (by decide), put_w h8 (by decide), if_neg (by omega), if_neg (by omega)]
  exact h.top

/-- a crash inside create_free_block: nothing has happened, or the header is there -/
def CrF (c : Nat) (T : Tiles) (p : Pool) (o k : Nat) (p' : Pool) : Prop :=
  p' = p ∨ (LKeep c T p p' ∧ ∃ v, v < W64 ∧ hdrOrder v = k ∧ hdrAlloc v = false ∧ CrU c T (put p o v) p')

/-- what the header word of a block says -/
def HdrIs (h k : Nat) : St → Prop
  | .alloc n => h = mkAlloc n ∧ n + 8 ≤ 2 ^ k ∧ 2 ^ k < 2 * (n + 8)
  | _ => hdrAlloc h = false ∧ hdrOrder h = k

/-- the block headers in the pool describe the tiling; nothing is said about the lists -/
structure Disk (p : Pool) (T : Tiles) (E : Nat → Prop) : Prop where
  geo : Geo p
  cap : p.size < 2 ^ 31
  geom : Geom T E p.size
  hdr : ∀ {o k s}, T o = some (k, s) → HdrIs (w p.mem o) k s
  top : w p.mem 728 = 0 ∧ w p.mem 1160 = 0

theorem Disk.cru {c : Nat} {T T' : Tiles} {E : Nat → Prop} {p p' : Pool} (h : Disk p T E) (hc : CrU c T' p p') : Disk p' T E := by
  refine ⟨hc.geo, by rw [hc.sz]; exact h.cap, by rw [hc.sz]; exact h.geom, ?_, hc.top.1.trans h.top.1, hc.top.2.trans h.top.2⟩
  intro o k s ht
  have h1 := h.geom.mod16 ht
  have h2 := h.geom.tile ht
  have hcap := h.cap
  obtain ⟨a, b, d⟩ := hc.hk o h1.1 h1.2.1
  have h3 := h.hdr ht
  cases s with
  | alloc n =>
    obtain ⟨e1, e2, e3⟩ := h3
    refine ⟨?_, e2, e3⟩
    rw [d (by rw [e1, alloc_mkAlloc (by omega)]), e1]
  | free => exact ⟨b.trans h3.1, a.trans h3.2⟩
  | held => exact ⟨b.trans h3.1, a.trans h3.2⟩

theorem Disk.free {T : Tiles} {E : Nat → Prop} {p : Pool} {o k : Nat} (h : Disk p T E) (ht : T o = some (k, .held)) :
    Disk p (tset T o k .free) E := by
  refine ⟨h.geo, h.cap, h.geom.setSt ht _, ?_, h.top⟩
  intro x j s hx
  by_cases e : x = o
  · subst e
    rw [tset_same] at hx
    obtain ⟨e1, e2⟩ := some_pair hx
    subst e1; subst e2
    have : HdrIs (w p.mem x) k .held := h.hdr ht
    exact this
  · rw [tset_ne e] at hx; exact h.hdr hx

/-! ### one list changes -/

section
variable {p p' : Pool} {T : Tiles} {F : Nat → List Nat} {E : Nat → Prop} {o k : Nat} {s st : St} {l' : List Nat}

set_option maxHeartbeats 1000000 in
theorem LInv.ofList (h : LInv p T F E) (ht : T o = some (k, s)) (hs : ∀ n, s ≠ .alloc n)
    (hst : ∀ n, st ≠ .alloc n) (hgeo : Geo p') (hsz : p'.size = p.size)
    (hw : ∀ a, a % 8 = 0 → 304 ≤ a → a ≠ headA k → a ≠ tailA k → (∀ x ∈ o :: F k, a ≠ x ∧ a ≠ x + 8) →
      w p'.mem a = w p.mem a)
    (hm : ∀ x, x ∈ l' ↔ (x = o ∧ st = .free) ∨ (x ≠ o ∧ x ∈ F k)) (hnd : l'.Nodup)
    (hh : w p'.mem (headA k) = hdD l' 0) (htl : w p'.mem (tailA k) = lastD l' 0) (hsg : Seg p'.mem k 0 l' 0) :
    LInv p' (tset T o k st) (fupd F k l') E := by
  have hg := h.geom
  have hk31 : k < 31 := hg.ord_lt ht h.cap
  have hk4 := (hg.tile ht).1
  have hmem := h.lst.mem
  have hX : ∀ x ∈ o :: F k, x % 16 = 0 ∧ 1168 ≤ x ∧ ∃ s, T x = some (k, s) ∧ ∀ n, s ≠ .alloc n := by
    intro x hx
    rcases List.mem_cons.1 hx with e | hx
    · subst e; have := hg.mod16 ht; exact ⟨this.1, this.2.1, s, ht, hs⟩
    · have hx' := (hmem k x).1 hx
      have := hg.mod16 hx'; exact ⟨this.1, this.2.1, _, hx', by intro n; simp⟩
  have hword : ∀ y, y % 16 = 0 → 1168 ≤ y → y ∉ o :: F k → k ≤ 57 → w p'.mem y = w p.mem y ∧ w p'.mem (y + 8) = w p.mem (y + 8) := by
    intro y h1 h2 h3 hk
    have hne : ∀ x ∈ o :: F k, y ≠ x := fun x hx e => h3 (e ▸ hx)
    constructor
    · refine hw y (by omega) (by omega) (by unfold headA; omega) (by unfold tailA; omega) ?_
      intro x hx
      have := hX x hx
      exact ⟨hne x hx, by omega⟩
    · refine hw (y + 8) (by omega) (by omega) (by unfold headA; omega) (by unfold tailA; omega) ?_
      intro x hx
      have := hX x hx
      have := hne x hx
      exact ⟨by omega, by omega⟩
  refine ⟨hgeo, by rw [hsz]; exact h.cap, by rw [hsz]; exact hg.setSt ht st, ?_, ?_⟩
  · refine ⟨?_, ?_, ?_, ?_, ?_⟩
    · intro j x
      by_cases e : j = k
      · subst e
        rw [fupd_same, hm]
        by_cases e : x = o
        · subst e; rw [tset_same]; simp
        · rw [tset_ne e, hmem]; simp [e]
      · rw [fupd_ne e, hmem]
        by_cases e2 : x = o
        · subst e2; rw [tset_same, ht]
          constructor
          · intro h3; obtain ⟨h4, h5⟩ := some_pair h3; exact absurd h4.symm e
          · intro h3; obtain ⟨h4, h5⟩ := some_pair h3; exact absurd h4.symm e
        · rw [tset_ne e2]
    · intro j
      by_cases e : j = k
      · subst e; rw [fupd_same]; exact hnd
      · rw [fupd_ne e]; exact h.lst.nodup j
    · intro j h4 h5
      by_cases e : j = k
      · subst e; rw [fupd_same]; exact hh
      · have e1 : w p'.mem (headA j) = w p.mem (headA j) := by
          refine hw _ ?_ ?_ ?_ ?_ ?_
          · unfold headA; omega
          · unfold headA; omega
          · unfold headA; omega
          · unfold headA tailA; omega
          · intro x hx; have h1 := (hX x hx).2.1; unfold headA; constructor <;> omega
        rw [fupd_ne e, e1]
        exact h.lst.head j h4 h5
    · intro j h4 h5
      by_cases e : j = k
      · subst e; rw [fupd_same]; exact htl
      · have e1 : w p'.mem (tailA j) = w p.mem (tailA j) := by
          refine hw _ ?_ ?_ ?_ ?_ ?_
          · unfold tailA; omega
          · unfold tailA; omega
          · unfold headA tailA; omega
          · unfold tailA; omega
          · intro x hx; have h1 := (hX x hx).2.1; unfold tailA; constructor <;> omega
        rw [fupd_ne e, e1]
        exact h.lst.tail j h4 h5
    · intro j
      by_cases e : j = k
      · subst e; rw [fupd_same]; exact hsg
      · rw [fupd_ne e]
        refine (h.lst.seg j).congr ?_
        intro x hx
        have hx' := (hmem j x).1 hx
        have h16 := hg.mod16 hx'
        refine hword x h16.1 h16.2.1 ?_ (by omega)
        intro h6
        obtain ⟨-, -, s', h7, -⟩ := hX x h6
        rw [hx'] at h7; obtain ⟨h8, h9⟩ := some_pair h7; exact e h8
  · intro x j n hx
    by_cases e : x = o
    · subst e; rw [tset_same] at hx; obtain ⟨h8, h9⟩ := some_pair hx; exact absurd h9 (hst n)
    · rw [tset_ne e] at hx
      have h16 := hg.mod16 hx
      have hnot : x ∉ o :: F k := by
        intro h6
        obtain ⟨-, -, s', h7, h8⟩ := hX x h6
        rw [hx] at h7; obtain ⟨h9, h10⟩ := some_pair h7; exact h8 n h10.symm
      rw [(hword x h16.1 h16.2.1 hnot (by omega)).1]
      exact h.al hx

end
end Verif.Logarithmic
