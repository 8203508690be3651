import Verif.PrefixTreeClear
import Mathlib.Data.Finset.Card
/-
Positions in a tree as lists of numbers, and their order.

The value of key k has position `K k`; the slots of the node at p from byte j on have position `enc p ++ [j + 1]`.
-/
namespace Verif.PrefixTree
open Verif

def enc (k : Bytes) : List Nat := k.map (fun b => b.toNat + 1)
def K (k : Bytes) : List Nat := enc k ++ [0]

@[simp] theorem enc_nil : enc [] = [] := rfl
@[simp] theorem enc_cons (b : UInt8) (k : Bytes) : enc (b :: k) = (b.toNat + 1) :: enc k := rfl
@[simp] theorem enc_append (k k' : Bytes) : enc (k ++ k') = enc k ++ enc k' := by simp [enc]
@[simp] theorem K_nil : K [] = [0] := rfl
@[simp] theorem K_cons (b : UInt8) (k : Bytes) : K (b :: k) = (b.toNat + 1) :: K k := rfl
@[simp] theorem K_append (k k' : Bytes) : K (k ++ k') = enc k ++ K k' := by simp [K]

theorem enc_inj {k k' : Bytes} (h : enc k = enc k') : k = k' := by
  induction k generalizing k' with
  | nil => cases k' with
    | nil => rfl
    | cons b k' => simp at h
  | cons b k ih => cases k' with
    | nil => simp at h
    | cons b' k' =>
      simp only [enc_cons, List.cons.injEq] at h
      rw [ih h.2, toNat_inj (by omega : b.toNat = b'.toNat)]

/-- the order of keys: bytes, lexicographically, a prefix first -/
theorem K_lt {k k' : Bytes} : K k < K k' ↔ k < k' := by
  induction k generalizing k' with
  | nil => cases k' with
    | nil => simp
    | cons b k' => simp [List.cons_lt_cons_iff]
  | cons b k ih => cases k' with
    | nil => simp [List.cons_lt_cons_iff]
    | cons b' k' =>
      simp only [K_cons, List.cons_lt_cons_iff, ih, UInt8.lt_iff_toNat_lt]
      constructor
      · rintro (h | ⟨h, h'⟩)
        · left; omega
        · right; exact ⟨toNat_inj (by omega), h'⟩
      · rintro (h | ⟨h, h'⟩)
        · left; omega
        · right; exact ⟨by rw [h], h'⟩

theorem K_le {k k' : Bytes} : K k ≤ K k' ↔ k ≤ k' := by
  rw [← List.not_lt, ← List.not_lt, K_lt]

theorem app_lt {a u v : List Nat} : a ++ u < a ++ v ↔ u < v := by
  induction a with
  | nil => simp
  | cons x a ih => simp [List.cons_lt_cons_iff, ih]

theorem app_le {a u v : List Nat} : a ++ u ≤ a ++ v ↔ u ≤ v := by
  rw [← List.not_lt, ← List.not_lt, app_lt]

/-- between two lists with a common prefix all have that prefix -/
theorem sandwich {a u v l : List Nat} (h1 : a ++ u ≤ l) (h2 : l < a ++ v) : ∃ m, l = a ++ m ∧ u ≤ m ∧ m < v := by
  induction a generalizing l with
  | nil => exact ⟨l, rfl, h1, h2⟩
  | cons x a ih =>
    cases l with
    | nil =>
      rw [← List.not_lt] at h1
      exact absurd (by simp) h1
    | cons y l =>
      simp only [List.cons_append] at h1 h2
      rw [List.cons_le_cons_iff] at h1
      rw [List.cons_lt_cons_iff] at h2
      have e : x = y := by omega
      subst e
      obtain ⟨m, h3, h4, h5⟩ := ih (l := l) (by
        rcases h1 with h1 | h1
        · omega
        · exact h1.2) (by
        rcases h2 with h2 | h2
        · omega
        · exact h2.2)
      exact ⟨m, by rw [h3]; rfl, h4, h5⟩

theorem K_split {p k : Bytes} {m : List Nat} (h : K k = enc p ++ m) : ∃ r, k = p ++ r ∧ m = K r := by
  induction p generalizing k with
  | nil => exact ⟨k, rfl, h.symm⟩
  | cons b p ih =>
    cases k with
    | nil => simp at h
    | cons c k =>
      simp only [K_cons, enc_cons, List.cons_append, List.cons.injEq] at h
      obtain ⟨r, h1, h2⟩ := ih h.2
      exact ⟨r, by rw [h1, toNat_inj (by omega : c.toNat = b.toNat)]; rfl, h2⟩

/-- keys between two positions in the same node -/
theorem keyMid {p k : Bytes} {u v : List Nat} (h1 : enc p ++ u ≤ K k) (h2 : K k < enc p ++ v) : ∃ r, k = p ++ r ∧ u ≤ K r ∧ K r < v := by
  obtain ⟨m, h3, h4, h5⟩ := sandwich h1 h2
  obtain ⟨r, h6, h7⟩ := K_split h3
  exact ⟨r, h6, by rw [← h7]; exact h4, by rw [← h7]; exact h5⟩

/-- keys in the child slots a ≤ x < c of a node -/
theorem keySlots {p k : Bytes} {a c : Nat} {t : List Nat} (h1 : enc p ++ [a + 1] ≤ K k) (h2 : K k < enc p ++ (c + 1) :: t) (ht : ∀ r, t ≤ K r) :
    ∃ x s, k = p ++ x :: s ∧ a ≤ x.toNat ∧ x.toNat < c := by
  obtain ⟨r, h3, h4, h5⟩ := keyMid h1 h2
  cases r with
  | nil => rw [K_nil, ← List.not_lt] at h4; exact absurd (by simp [List.cons_lt_cons_iff]) h4
  | cons x s =>
    rw [K_cons, List.cons_le_cons_iff] at h4
    rw [K_cons, List.cons_lt_cons_iff] at h5
    refine ⟨x, s, h3, by omega, ?_⟩
    rcases h5 with h5 | ⟨-, h5⟩
    · omega
    · exact absurd h5 (List.not_lt.2 (ht s))

theorem nil_le_K (r : Bytes) : [] ≤ K r := List.nil_le _
theorem zero_le_K (r : Bytes) : [0] ≤ K r := by
  rw [← K_nil, K_le]; exact List.nil_le _

section
variable {base : Nat} {F : Nat → Option Block} {g : G} {ni nn : Nat} {h : Heap} {I : Heap → Prop}

/-- nothing lies out of the range of a node -/
theorem Tr.outside' (t : Tr base F g ni nn h) {p : Bytes} {b : UInt8} {hd : Hd} (hn : g.nd p = some hd) (hb : b.toNat < hd.s ∨ hd.e < b.toNat) (s : Bytes) : g.vl (p ++ b :: s) = none := by
  obtain ⟨h1, h2⟩ := t.outside hn hb
  by_cases hs : s = []
  · subst hs; exact h2
  · have := (t.below h1 hs).2
    simpa using this

/-- nothing lies in an empty slot -/
theorem Tr.empty' (t : Tr base F g ni nn h) {p : Bytes} {b : UInt8} (hn : g.nd (p ++ [b]) = none) (hv : g.vl (p ++ [b]) = none) (s : Bytes) : g.vl (p ++ b :: s) = none := by
  by_cases hs : s = []
  · subst hs; exact hv
  · have := (t.below hn hs).2
    simpa using this

end
end Verif.PrefixTree
