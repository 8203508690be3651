import Verif.PrefixTreeFollow
/-
The contents words of a prefix tree: every value is read back as it was stored (C41).
-/
namespace Verif.PrefixTree
open Verif
attribute [local irreducible] Block.rd Block.rdB

theorem or_tag {o t : Nat} (ho : o % 8 = 0) (ht : t < 8) : o ||| t = o + t := by
  have := Nat.two_pow_add_eq_or_of_lt (i := 3) (b := t) ht (o / 8)
  have h8 : 2 ^ 3 * (o / 8) = o := by omega
  rw [h8] at this; exact this.symm

/-! short strings -/

theorem packBytes_or : ∀ (bs : Bytes) (w s : Nat), packBytes w s bs = w ||| packBytes 0 s bs := by
  intro bs
  induction bs with
  | nil => intro w s; simp [packBytes]
  | cons b bs ih =>
    intro w s
    show packBytes (w ||| b.toNat <<< s) (s - 8) bs = w ||| packBytes (0 ||| b.toNat <<< s) (s - 8) bs
    rw [ih (w ||| _), ih (0 ||| _), Nat.zero_or, Nat.or_assoc]

theorem packBytes_cons (b : UInt8) (bs : Bytes) (s : Nat) : packBytes 0 s (b :: bs) = b.toNat <<< s ||| packBytes 0 (s - 8) bs := by
  show packBytes (0 ||| b.toNat <<< s) (s - 8) bs = _
  rw [packBytes_or, Nat.zero_or]

theorem byte_shift_lt (b : UInt8) (s : Nat) : b.toNat <<< s < 2 ^ (s + 8) := by
  have hb := b.toNat_lt
  rw [Nat.shiftLeft_eq, Nat.pow_add, Nat.mul_comm]
  exact Nat.mul_lt_mul_of_pos_left (by omega) (Nat.two_pow_pos s)

theorem packBytes_lt : ∀ (bs : Bytes) (s : Nat), 8 * bs.length ≤ s + 8 → packBytes 0 s bs < 2 ^ (s + 8) := by
  intro bs
  induction bs with
  | nil => intro s _; exact Nat.two_pow_pos _
  | cons b bs ih =>
    intro s hs
    rw [packBytes_cons]
    refine Nat.or_lt_two_pow (byte_shift_lt b s) ?_
    by_cases hb : bs = []
    · subst hb; exact Nat.two_pow_pos _
    · have : 1 ≤ bs.length := List.length_pos_iff.2 hb
      simp only [List.length_cons] at hs
      have := ih (s - 8) (by omega)
      exact Nat.lt_of_lt_of_le this (Nat.pow_le_pow_right (by omega) (by omega))

theorem packBytes_low : ∀ (bs : Bytes) (s i : Nat), 8 * bs.length ≤ s → i < 8 → (packBytes 0 s bs).testBit i = false := by
  intro bs
  induction bs with
  | nil => intro s i _ _; simp [packBytes]
  | cons b bs ih =>
    intro s i hs hi
    simp only [List.length_cons] at hs
    rw [packBytes_cons, Nat.testBit_or, ih (s - 8) i (by omega) hi, Nat.testBit_shiftLeft]
    have : ¬ (s ≤ i) := by omega
    simp [this]

theorem byte_bits (b : UInt8) (c s : Nat) (hc : ∀ i, i < 8 → c.testBit (s + i) = b.toNat.testBit i) : UInt8.ofNat ((c >>> s) &&& 0xFF) = b := by
  have : (c >>> s) &&& 0xFF = b.toNat := by
    apply Nat.eq_of_testBit_eq
    intro i
    rw [Nat.testBit_and, Nat.testBit_shiftRight, show (0xFF : Nat) = 2 ^ 8 - 1 from rfl, Nat.testBit_two_pow_sub_one]
    by_cases hi : i < 8
    · rw [hc i hi]; simp [hi]
    · have : b.toNat < 2 ^ i := Nat.lt_of_lt_of_le b.toNat_lt (Nat.pow_le_pow_right (by omega) (by omega) : 2 ^ 8 ≤ 2 ^ i)
      rw [Nat.testBit_lt_two_pow this]; simp [hi]
  rw [this]; simp

theorem unpack_pack : ∀ (bs : Bytes) (s c : Nat), 8 * bs.length ≤ s → (∀ i, 8 ≤ i → i < s + 8 → c.testBit i = (packBytes 0 s bs).testBit i) →
    unpackBytes c bs.length s = bs := by
  intro bs
  induction bs with
  | nil => intro s c _ _; rfl
  | cons b bs ih =>
    intro s c hs hc
    simp only [List.length_cons] at hs
    show UInt8.ofNat ((c >>> s) &&& 0xFF) :: unpackBytes c bs.length (s - 8) = b :: bs
    rw [byte_bits b c s ?_, ih (s - 8) c (by omega) ?_]
    · intro i h1 h2
      rw [hc i h1 (by omega), packBytes_cons, Nat.testBit_or, Nat.testBit_shiftLeft]
      have : ¬ (s ≤ i) := by omega
      simp [this]
    · intro i hi
      rw [hc (s + i) (by omega) (by omega), packBytes_cons, Nat.testBit_or, Nat.testBit_shiftLeft]
      have h1 : (packBytes 0 (s - 8) bs).testBit (s + i) = false := by
        apply Nat.testBit_lt_two_pow
        have := packBytes_lt bs (s - 8) (by omega)
        exact Nat.lt_of_lt_of_le this (Nat.pow_le_pow_right (by omega) (by omega))
      rw [h1]; simp

/-- length and tag of a SHORT_STRING word -/
theorem head_lt {n : Nat} (h : n < 8) : (n <<< 3) ||| 6 = 8 * n + 6 := by
  rw [or_tag (by rw [Nat.shiftLeft_eq]; omega) (by omega), Nat.shiftLeft_eq]; omega

theorem shortWord_low {v : Bytes} (h : v.length < 8) : shortWord v % 256 = 8 * v.length + 6 := by
  unfold shortWord
  rw [packBytes_or, head_lt h]
  apply Nat.eq_of_testBit_eq
  intro i
  rw [show (256 : Nat) = 2 ^ 8 from rfl, Nat.testBit_mod_two_pow, Nat.testBit_or]
  by_cases hi : i < 8
  · rw [packBytes_low v 56 i (by omega) hi]; simp [hi]
  · have : 8 * v.length + 6 < 2 ^ i := Nat.lt_of_lt_of_le (by omega : _ < 2 ^ 8) (Nat.pow_le_pow_right (by omega) (by omega))
    rw [Nat.testBit_lt_two_pow this]; simp [hi]

theorem shortWord_lt {v : Bytes} (h : v.length < 8) : shortWord v < W64 := by
  unfold shortWord
  rw [packBytes_or, head_lt h]
  exact Nat.or_lt_two_pow (n := 64) (by omega) (packBytes_lt v 56 (by omega))

theorem shortWord_unpack {v : Bytes} (h : v.length < 8) : unpackBytes (shortWord v) ((shortWord v >>> 3) &&& 7) 56 = v := by
  have h1 : (shortWord v >>> 3) &&& 7 = v.length := by
    have := shortWord_low h
    rw [show (7 : Nat) = 2 ^ 3 - 1 from rfl, Nat.and_two_pow_sub_one_eq_mod, Nat.shiftRight_eq_div_pow]
    omega
  rw [h1]
  refine unpack_pack v 56 _ (by omega) ?_
  intro i h2 h3
  unfold shortWord
  rw [packBytes_or, head_lt h, Nat.testBit_or]
  have : 8 * v.length + 6 < 2 ^ i := Nat.lt_of_lt_of_le (by omega : _ < 2 ^ 8) (Nat.pow_le_pow_right (by omega) (by omega))
  rw [Nat.testBit_lt_two_pow this, Bool.false_or]

/-! integers -/

theorem intWord_eq (v : BitVec 64) : intWord v = 8 * (v.toNat % 2305843009213693952) + 2 := by
  unfold intWord
  rw [BitVec.toNat_or, BitVec.toNat_shiftLeft, Nat.shiftLeft_eq]
  have hm : v.toNat * 2 ^ 3 % 2 ^ 64 = 8 * (v.toNat % 2305843009213693952) := by omega
  rw [hm, show (2#64).toNat = 2 from rfl, or_tag (by omega) (by omega)]

theorem intWord_lt (v : BitVec 64) : intWord v < W64 := (((v <<< 3) ||| 2#64)).isLt

theorem fits_bits {v : BitVec 64} (h : fits v = true) : ∀ i, 60 ≤ i → i < 64 → v.getLsbD i = v.getLsbD 60 := by
  intro i h1 h2
  have key : ∀ j, j < 4 → ((v.sshiftRight 60) &&& 0x0F#64).getLsbD j = v.getLsbD (60 + j) := by
    intro j hj
    rw [BitVec.getLsbD_and, BitVec.getLsbD_sshiftRight]
    have e : (0x0F#64).getLsbD j = true := by
      rcases (by omega : j = 0 ∨ j = 1 ∨ j = 2 ∨ j = 3) with rfl | rfl | rfl | rfl <;> decide
    have h3 : ¬ (64 ≤ j) := by omega
    have h4 : 60 + j < 64 := by omega
    simp [e, h3, h4]
  have hk := key (i - 60) (by omega)
  have h0 := key 0 (by omega)
  rw [show 60 + (i - 60) = i by omega] at hk
  rw [← hk, ← h0]
  unfold fits at h
  simp only [Bool.or_eq_true, decide_eq_true_eq] at h
  rcases h with h | h
  · rw [h]; simp
  · rw [h]
    have : i - 60 < 4 := by omega
    rcases (by omega : i - 60 = 0 ∨ i - 60 = 1 ∨ i - 60 = 2 ∨ i - 60 = 3) with e | e | e | e <;> rw [e] <;> decide

theorem intOf_intWord {v : BitVec 64} (h : fits v = true) : intOf (intWord v) = v := by
  have hv : BitVec.ofNat 64 (valOf (intWord v)) = v <<< 3 := by
    apply BitVec.eq_of_toNat_eq
    rw [BitVec.toNat_ofNat, BitVec.toNat_shiftLeft, Nat.shiftLeft_eq]
    unfold valOf
    rw [intWord_eq]
    omega
  unfold intOf
  rw [hv]
  have hb := fits_bits h
  have hs : ∀ i, ((v <<< 3) >>> 3).getLsbD i = (decide (i < 61) && v.getLsbD i) := by
    intro i
    rw [BitVec.getLsbD_ushiftRight, BitVec.getLsbD_shiftLeft]
    by_cases hi : i < 61
    · have h1 : 3 + i < 64 := by omega
      have h2 : ¬ (3 + i < 3) := by omega
      simp [hi, h1, h2]
    · have h1 : ¬ (3 + i < 64) := by omega
      simp [hi, h1]
  have hcond : ((v <<< 3) >>> 3 &&& 0x1000000000000000#64 ≠ 0#64) ↔ v.getLsbD 60 = true := by
    have hbit : ∀ i, (0x1000000000000000#64).getLsbD i = decide (i = 60) := by
      intro i
      rw [show (0x1000000000000000#64) = BitVec.twoPow 64 60 from by decide, BitVec.getLsbD_twoPow]
      by_cases hi : i = 60
      · subst hi; decide
      · have : ¬ (60 = i) := fun e => hi e.symm
        simp [hi, this]
    constructor
    · intro hne
      refine Classical.byContradiction fun hf => hne ?_
      apply BitVec.eq_of_getLsbD_eq
      intro i hi
      rw [BitVec.getLsbD_and, hs, hbit]
      by_cases e : i = 60
      · subst e; simp at hf; simp [hf]
      · simp [e]
    · intro ht hz
      have := congrArg (fun x => BitVec.getLsbD x 60) hz
      simp only [BitVec.getLsbD_and, hs, hbit] at this
      rw [ht] at this; simp at this
  dsimp only
  split
  · rename_i hc
    have ht := hcond.1 hc
    apply BitVec.eq_of_getLsbD_eq
    intro i hi
    rw [BitVec.getLsbD_or, hs]
    have hm : (0xE000000000000000#64).getLsbD i = decide (61 ≤ i ∧ i < 64) := by
      revert i
      decide
    rw [hm]
    by_cases h1 : i < 61
    · have : ¬ (61 ≤ i ∧ i < 64) := by omega
      simp [h1, this]
    · have : 61 ≤ i ∧ i < 64 := by omega
      rw [hb i (by omega) hi, ht]; simp [this]
  · rename_i hc
    have ht : v.getLsbD 60 = false := by
      have := mt hcond.2 hc
      simpa using this
    apply BitVec.eq_of_getLsbD_eq
    intro i hi
    rw [hs]
    by_cases h1 : i < 61
    · simp [h1]
    · rw [hb i (by omega) hi, ht]; simp

/-- the value as it is stored: -0.0 becomes +0.0 -/
def norm : Val → Val
  | .dbl d => if isZero d then .dbl 0#64 else .dbl d
  | v => v

section
variable {h : Heap} {I : Heap → Prop}

theorem lookup_spec {c : Nat} {v : Val} (e : Enc h c v) : wpI I (lookup c) (fun o h' => h' = h ∧ o = .ok v) h := by
  obtain ⟨hc, h0, hw, hb⟩ := e
  have hbuf : ∀ t, c % 8 = t → (t = 1 ∨ t = 3 ∨ t = 4) → 8 ≤ c → buf c = valOf c ∧ valOf c ≠ 0 ∧ ∃ B, h.blk (valOf c) = some B ∧ BufOk B v := by
    intro t ht h1 h2
    have h3 : buf c = valOf c := by unfold buf typeOf; rw [ht, if_pos h1]
    have h4 : valOf c ≠ 0 := by unfold valOf; omega
    rw [h3] at hb
    exact ⟨h3, h4, hb h4⟩
  unfold lookup
  simp only [Prog.bind_def]
  cases v with
  | str v =>
    rcases hw with ⟨rfl, rfl⟩ | ⟨h1, h2, rfl⟩ | ⟨h1, h2⟩
    · exact ⟨rfl, rfl⟩
    · have ht : typeOf (shortWord v) = 6 := by unfold typeOf; have := shortWord_low h2; omega
      rw [ht, if_neg (by omega), if_neg (by omega), if_pos rfl, shortWord_unpack h2]
      exact ⟨rfl, rfl⟩
    · obtain ⟨-, h4, B, hB, h5, h6⟩ := hbuf 1 h1 (Or.inl rfl) h2
      have ht : typeOf c = 1 := h1
      rw [ht, if_neg (by omega), if_pos rfl, if_pos h4]
      refine wpI_bsize hB ?_
      refine wpI_rdB hB (by omega) ?_
      rw [h5, h6]; exact ⟨rfl, rfl⟩
  | int v =>
    rcases hw with ⟨h1, rfl⟩ | ⟨h1, h2⟩
    · have ht : typeOf (intWord v) = 2 := by unfold typeOf; rw [intWord_eq]; omega
      rw [ht, if_neg (by omega), if_neg (by omega), if_neg (by omega), if_pos rfl, intOf_intWord h1]
      exact ⟨rfl, rfl⟩
    · obtain ⟨-, h4, B, hB, h5, h6⟩ := hbuf 3 h1 (Or.inr (Or.inl rfl)) h2
      have ht : typeOf c = 3 := h1
      rw [ht, if_neg (by omega), if_neg (by omega), if_neg (by omega), if_neg (by omega), if_pos rfl]
      refine wpI_rd hB (by omega) ?_
      rw [h6]; exact ⟨rfl, by simp⟩
  | dbl d =>
    rcases hw with ⟨rfl, rfl⟩ | ⟨h1, h2⟩
    · exact ⟨rfl, rfl⟩
    · obtain ⟨-, h4, B, hB, h5, h6⟩ := hbuf 4 h1 (Or.inr (Or.inr rfl)) h2
      have ht : typeOf c = 4 := h1
      rw [ht, if_neg (by omega), if_neg (by omega), if_neg (by omega), if_neg (by omega), if_neg (by omega), if_pos rfl, if_neg h4]
      refine wpI_rd hB (by omega) ?_
      rw [h6]; exact ⟨rfl, by simp⟩
  | bool b =>
    cases b <;> (cases hw; exact ⟨rfl, rfl⟩)
  | null => cases hw; exact ⟨rfl, rfl⟩

end
end Verif.PrefixTree
