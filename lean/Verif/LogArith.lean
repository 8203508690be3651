import Verif.Logarithmic
import Mathlib.Tactic.Tauto
/-
Arithmetic of orders, headers and buddies.
-/
namespace Verif.Logarithmic
open Verif

/-! ### headers -/

theorem mkFree_eq {k pv : Nat} (hp : pv < 2 ^ 57) : mkFree k pv = k * 2 ^ 57 + pv := by
  unfold mkFree
  rw [← Nat.shiftLeft_add_eq_or_of_lt hp, Nat.shiftLeft_eq]
theorem mkAlloc_eq {n : Nat} (h : n < 2 ^ 63) : mkAlloc n = 2 ^ 63 + n := by
  unfold mkAlloc
  rw [Nat.or_comm, ← Nat.shiftLeft_add_eq_or_of_lt h, Nat.shiftLeft_eq, Nat.one_mul]
theorem hdrPrev_eq (h : Nat) : hdrPrev h = h % 2 ^ 57 := by
  unfold hdrPrev
  exact Nat.and_two_pow_sub_one_eq_mod h 57
theorem hdrOrder_eq (h : Nat) : hdrOrder h = h / 2 ^ 57 % 64 := by
  unfold hdrOrder
  rw [Nat.shiftRight_eq_div_pow]
  exact Nat.and_two_pow_sub_one_eq_mod _ 6
theorem hdrSize_eq (h : Nat) : hdrSize h = h % 2 ^ 63 := by
  unfold hdrSize
  exact Nat.and_two_pow_sub_one_eq_mod h 63
theorem hdrAlloc_eq (h : Nat) : hdrAlloc h = decide (h / 2 ^ 63 % 2 ≠ 0) := by
  unfold hdrAlloc
  rw [Nat.shiftRight_eq_div_pow, show h / 2 ^ 63 &&& 1 = h / 2 ^ 63 % 2 from Nat.and_two_pow_sub_one_eq_mod _ 1]

section
variable {k pv n : Nat}
theorem mkFree_lt (hk : k < 64) (hp : pv < 2 ^ 57) : mkFree k pv < 2 ^ 63 := by rw [mkFree_eq hp]; omega
theorem prev_mkFree (hp : pv < 2 ^ 57) : hdrPrev (mkFree k pv) = pv := by
  rw [mkFree_eq hp, hdrPrev_eq]; omega
theorem order_mkFree (hk : k < 64) (hp : pv < 2 ^ 57) : hdrOrder (mkFree k pv) = k := by
  rw [mkFree_eq hp, hdrOrder_eq]; omega
theorem alloc_mkFree (hk : k < 64) (hp : pv < 2 ^ 57) : hdrAlloc (mkFree k pv) = false := by
  rw [mkFree_eq hp, hdrAlloc_eq]; simp only [ne_eq, decide_eq_false_iff_not, Decidable.not_not]; omega
theorem alloc_mkAlloc (h : n < 2 ^ 63) : hdrAlloc (mkAlloc n) = true := by
  rw [mkAlloc_eq h, hdrAlloc_eq]; simp only [ne_eq, decide_eq_true_eq]; omega
theorem size_mkAlloc (h : n < 2 ^ 63) : hdrSize (mkAlloc n) = n := by
  rw [mkAlloc_eq h, hdrSize_eq]; omega
theorem mkAlloc_lt (h : n < 2 ^ 63) : mkAlloc n < W64 := by rw [mkAlloc_eq h]; omega
end

/-! ### orders -/

theorem log2_lt64 {n : Nat} (h0 : n ≠ 0) (h : n < W64) : Nat.log2 n < 64 := by
  rw [Nat.log2_lt h0]; exact h

theorem largest_eq {n : Nat} (h0 : n ≠ 0) (h : n < W64) : largestOrderWithin n = Nat.log2 n := by
  have := log2_lt64 h0 h
  unfold largestOrderWithin clz; omega

/-- order_for_size is the least order that holds `n` bytes -/
theorem orderForSize_spec {n : Nat} (h0 : n ≠ 0) (h : n < W64) :
    n ≤ 2 ^ orderForSize n ∧ ∀ j, n ≤ 2 ^ j → orderForSize n ≤ j := by
  have hl := log2_lt64 h0 h
  unfold orderForSize clz
  by_cases hp : n.isPowerOfTwo
  · rw [if_pos ((Nat.and_sub_one_eq_zero_iff_isPowerOfTwo h0).2 hp)]
    obtain ⟨k, rfl⟩ := hp
    rw [Nat.log2_two_pow] at hl ⊢
    rw [show 63 - (63 - k) = k by omega]
    refine ⟨Nat.le_refl _, ?_⟩
    intro j hj
    exact (Nat.pow_le_pow_iff_right (by decide)).1 hj
  · rw [if_neg (fun h' => hp ((Nat.and_sub_one_eq_zero_iff_isPowerOfTwo h0).1 h'))]
    rw [show 64 - (63 - n.log2) = n.log2 + 1 by omega]
    refine ⟨Nat.le_of_lt Nat.lt_log2_self, ?_⟩
    intro j hj
    have h1 : 2 ^ n.log2 ≤ n := Nat.log2_self_le h0
    have h2 : 2 ^ n.log2 ≠ n := by
      intro e; exact hp ⟨_, e.symm⟩
    have h3 : 2 ^ n.log2 < 2 ^ j := by omega
    exact (Nat.pow_lt_pow_iff_right (by decide)).1 h3

theorem orderForSize_pow {k : Nat} (h : k < 64) : orderForSize (2 ^ k) = k := by
  have hlt : 2 ^ k < W64 := Nat.pow_lt_pow_right (by decide) h
  have hne : 2 ^ k ≠ 0 := Nat.ne_of_gt (Nat.two_pow_pos k)
  obtain ⟨h1, h2⟩ := orderForSize_spec hne hlt
  have h3 := h2 k (Nat.le_refl _)
  have h4 := (Nat.pow_le_pow_iff_right (a := 2) (by decide)).1 h1
  omega

/-! ### alignment -/

theorem xor_pred_odd {o : Nat} (h : o % 2 = 1) : o ^^^ (o - 1) = 1 := by
  have h1 : (o ^^^ (o - 1)) / 2 = 0 := by
    rw [Nat.xor_div_two, show (o - 1) / 2 = o / 2 by omega, Nat.xor_self]
  have h2 : (o ^^^ (o - 1)) % 2 = 1 := by
    rw [Nat.xor_mod_two_eq_one]; omega
  omega
theorem xor_pred_even {o : Nat} (h : 0 < o) : (2 * o) ^^^ (2 * o - 1) = 2 * (o ^^^ (o - 1)) + 1 := by
  have h1 : ((2 * o) ^^^ (2 * o - 1)) / 2 = o ^^^ (o - 1) := by
    rw [Nat.xor_div_two, show (2 * o - 1) / 2 = o - 1 by omega, show 2 * o / 2 = o by omega]
  have h2 : ((2 * o) ^^^ (2 * o - 1)) % 2 = 1 := by
    rw [Nat.xor_mod_two_eq_one]; omega
  omega
theorem xor_pred {t m : Nat} : (2 ^ t * (2 * m + 1)) ^^^ (2 ^ t * (2 * m + 1) - 1) = 2 ^ (t + 1) - 1 := by
  induction t with
  | zero => simp only [Nat.pow_zero, Nat.one_mul]; rw [xor_pred_odd (by omega)]
  | succ t ih =>
    have hp : 0 < 2 ^ t * (2 * m + 1) := Nat.mul_pos (Nat.two_pow_pos t) (by omega)
    have e : 2 ^ (t + 1) * (2 * m + 1) = 2 * (2 ^ t * (2 * m + 1)) := by
      rw [Nat.pow_succ, Nat.mul_comm (2 ^ t) 2, Nat.mul_assoc]
    rw [e, xor_pred_even hp, ih]
    have : 0 < 2 ^ (t + 1) := Nat.two_pow_pos _
    rw [Nat.pow_succ 2 (t + 1)]
    omega

/-- every positive number is an odd multiple of a power of two -/
theorem odd_part {o : Nat} (h : 0 < o) : ∃ t m, o = 2 ^ t * (2 * m + 1) := by
  induction o using Nat.strongRecOn with
  | ind o ih =>
    by_cases hp : o % 2 = 1
    · exact ⟨0, o / 2, by rw [Nat.pow_zero]; omega⟩
    · obtain ⟨t, m, e⟩ := ih (o / 2) (by omega) (by omega)
      refine ⟨t + 1, m, ?_⟩
      rw [Nat.pow_succ, Nat.mul_comm (2 ^ t) 2, Nat.mul_assoc, ← e]; omega

theorem orderAlignment_odd {t m : Nat} (h : t < 64) : orderAlignment (2 ^ t * (2 * m + 1)) = t := by
  unfold orderAlignment
  have : 0 < 2 ^ (t + 1) := Nat.two_pow_pos _
  rw [xor_pred, Nat.sub_add_cancel this, Nat.shiftRight_eq_div_pow, Nat.pow_one, Nat.pow_succ,
    Nat.mul_div_cancel _ (by decide), orderForSize_pow h]

/-- order_alignment_of_size is the largest order that divides the offset -/
theorem orderAlignment_spec {o : Nat} (h : 0 < o) (h2 : o < W64) :
    2 ^ orderAlignment o ∣ o ∧ ¬ 2 ^ (orderAlignment o + 1) ∣ o := by
  obtain ⟨t, m, rfl⟩ := odd_part h
  have ht : t < 64 := by
    have : 2 ^ t < 2 ^ 64 := Nat.lt_of_le_of_lt (Nat.le_mul_of_pos_right _ (by omega)) h2
    exact (Nat.pow_lt_pow_iff_right (by decide)).1 this
  rw [orderAlignment_odd ht]
  refine ⟨Nat.dvd_mul_right _ _, ?_⟩
  rw [Nat.pow_succ]
  intro h3
  have := Nat.dvd_of_mul_dvd_mul_left (Nat.two_pow_pos t) h3
  omega

theorem orderAlignment_ge {o k : Nat} (h : 0 < o) (h2 : o < W64) (hd : 2 ^ k ∣ o) : k ≤ orderAlignment o := by
  refine Nat.not_lt.1 ?_
  intro hlt
  exact (orderAlignment_spec h h2).2 (Nat.dvd_trans (Nat.pow_dvd_pow 2 hlt) hd)

/-! ### buddies -/

theorem xor_one (m : Nat) : m ^^^ 1 = if m % 2 = 0 then m + 1 else m - 1 := by
  have h1 : (m ^^^ 1) / 2 = m / 2 := by rw [Nat.xor_div_two]; simp
  by_cases h : m % 2 = 0
  · have h2 : (m ^^^ 1) % 2 = 1 := by rw [Nat.xor_mod_two_eq_one]; omega
    rw [if_pos h]; omega
  · have h2 : ¬ (m ^^^ 1) % 2 = 1 := by rw [Nat.xor_mod_two_eq_one]; omega
    rw [if_neg h]; omega

theorem buddy_mul (m k : Nat) : (2 ^ k * m) ^^^ 2 ^ k = 2 ^ k * (m ^^^ 1) := by
  have := @Nat.shiftLeft_xor_distrib k m 1
  rw [Nat.shiftLeft_eq, Nat.shiftLeft_eq, Nat.shiftLeft_eq, Nat.one_mul] at this
  rw [Nat.mul_comm _ m, ← this, Nat.mul_comm]

/-- the buddy of a block of order `k`: the other half of the block of order `k + 1` that contains it -/
theorem buddy_spec {o k : Nat} (h : 2 ^ k ∣ o) :
    (2 ^ (k + 1) ∣ o ∧ o ^^^ 2 ^ k = o + 2 ^ k) ∨
    (¬ 2 ^ (k + 1) ∣ o ∧ 2 ^ k ≤ o ∧ o ^^^ 2 ^ k = o - 2 ^ k ∧ 2 ^ (k + 1) ∣ o - 2 ^ k) := by
  obtain ⟨m, rfl⟩ := h
  rw [buddy_mul, xor_one, Nat.pow_succ]
  have hp := Nat.two_pow_pos k
  by_cases hm : m % 2 = 0
  · left
    rw [if_pos hm, Nat.mul_add, Nat.mul_one]
    exact ⟨Nat.mul_dvd_mul_left _ (Nat.dvd_of_mod_eq_zero hm), rfl⟩
  · right
    rw [if_neg hm, Nat.mul_sub, Nat.mul_one]
    refine ⟨?_, Nat.le_mul_of_pos_right _ (by omega), rfl, ?_⟩
    · intro h; have := Nat.dvd_of_mul_dvd_mul_left hp h; omega
    · have : 2 ^ k * m - 2 ^ k = 2 ^ k * (m - 1) := by rw [Nat.mul_sub, Nat.mul_one]
      rw [this]
      exact Nat.mul_dvd_mul_left _ (Nat.dvd_of_mod_eq_zero (by omega))

theorem buddy_ne {o k : Nat} (h : 2 ^ k ∣ o) : o ^^^ 2 ^ k ≠ o := by
  have hp := Nat.two_pow_pos k
  rcases buddy_spec h with ⟨-, e⟩ | ⟨-, h1, e, -⟩ <;> omega
theorem buddy_dvd {o k : Nat} (h : 2 ^ k ∣ o) : 2 ^ k ∣ o ^^^ 2 ^ k := by
  rcases buddy_spec h with ⟨-, e⟩ | ⟨-, h1, e, -⟩
  · rw [e]; exact Nat.dvd_add h (Nat.dvd_refl _)
  · rw [e]; exact Nat.dvd_sub h (Nat.dvd_refl _)
theorem buddy_buddy (o k : Nat) : (o ^^^ 2 ^ k) ^^^ 2 ^ k = o := by
  rw [Nat.xor_assoc, Nat.xor_self, Nat.xor_zero]

/-- rounding down to a multiple of `2^n` -/
theorem mask_eq {s n : Nat} (hs : s < W64) (hn : n ≤ 64) : s &&& (W64 - 2 ^ n) = s / 2 ^ n * 2 ^ n := by
  have e : W64 - 2 ^ n = (2 ^ (64 - n) - 1) <<< n := by
    rw [Nat.shiftLeft_eq, Nat.sub_mul, Nat.one_mul, ← Nat.pow_add, show 64 - n + n = 64 by omega]
  have e2 : s / 2 ^ n * 2 ^ n = (s >>> n) <<< n := by rw [Nat.shiftLeft_eq, Nat.shiftRight_eq_div_pow]
  rw [e, e2]
  apply Nat.eq_of_testBit_eq
  intro i
  rw [Nat.testBit_and, Nat.testBit_shiftLeft, Nat.testBit_shiftLeft, Nat.testBit_shiftRight, Nat.testBit_two_pow_sub_one]
  by_cases h : n ≤ i
  · by_cases h2 : i < 64
    · simp [h, show i - n < 64 - n by omega, show n + (i - n) = i by omega]
    · have : s.testBit i = false := by
        refine Nat.testBit_lt_two_pow (Nat.lt_of_lt_of_le hs ?_)
        exact Nat.pow_le_pow_right (n := 2) (i := 64) (by decide) (by omega)
      simp [h, show n + (i - n) = i by omega, this]
  · simp [h]

end Verif.Logarithmic
