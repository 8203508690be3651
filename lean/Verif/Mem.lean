/-
Byte memory and little-endian integers.

The library keeps everything in one shared memory segment (`Pool`), addressed by byte
offsets; integers are stored little-endian (x86-64 / arm64 Linux, the platforms the README
names).  A memory is a function from byte offsets to bytes.
-/
namespace Verif

abbrev Bytes := List UInt8

/-- 2^64: sizes and offsets are `uint64_t`/`size_t` in the code. -/
notation "W64" => (18446744073709551616 : Nat)

/-- Little-endian read of `n` bytes at `a` (a load through a `uint8_t/uint64_t*`). -/
def leRd (f : Nat → UInt8) (a : Nat) : Nat → Nat
  | 0 => 0
  | n + 1 => (f a).toNat + 256 * leRd f (a + 1) n

/-- Little-endian store of the low `n` bytes of `v` at `a`. -/
def leWr (f : Nat → UInt8) (a n v : Nat) : Nat → UInt8 :=
  fun i => if a ≤ i ∧ i < a + n then UInt8.ofNat (v / 256 ^ (i - a)) else f i

/-- `n` raw bytes from `a` (memcpy out of the pool). -/
def bsRd (f : Nat → UInt8) (a : Nat) : Nat → Bytes
  | 0 => []
  | n + 1 => f a :: bsRd f (a + 1) n

/-- raw bytes stored at `a` (memcpy into the pool). -/
def bsWr (f : Nat → UInt8) (a : Nat) (bs : Bytes) : Nat → UInt8 :=
  fun i => if a ≤ i ∧ i < a + bs.length then bs.getD (i - a) 0 else f i

theorem leRd_lt (f : Nat → UInt8) (a n : Nat) : leRd f a n < 256 ^ n := by
  induction n generalizing a with
  | zero => simp [leRd]
  | succ n ih =>
    have h1 := ih (a + 1)
    have h2 : (f a).toNat < 256 := UInt8.toNat_lt _
    simp only [leRd, Nat.pow_succ]
    omega

theorem leRd_lt8 (f : Nat → UInt8) (a : Nat) : leRd f a 8 < W64 := leRd_lt f a 8

theorem leRd_congr (f g : Nat → UInt8) (a n : Nat)
    (h : ∀ i, a ≤ i → i < a + n → f i = g i) : leRd f a n = leRd g a n := by
  induction n generalizing a with
  | zero => rfl
  | succ n ih =>
    simp only [leRd]
    rw [h a (by omega) (by omega), ih (a + 1) (fun i h1 h2 => h i (by omega) (by omega))]

theorem bsRd_congr (f g : Nat → UInt8) (a n : Nat)
    (h : ∀ i, a ≤ i → i < a + n → f i = g i) : bsRd f a n = bsRd g a n := by
  induction n generalizing a with
  | zero => rfl
  | succ n ih =>
    simp only [bsRd]
    rw [h a (by omega) (by omega), ih (a + 1) (fun i h1 h2 => h i (by omega) (by omega))]

theorem leRd_shift (f g : Nat → UInt8) (a b n : Nat)
    (h : ∀ i, i < n → f (a + i) = g (b + i)) : leRd f a n = leRd g b n := by
  induction n generalizing a b with
  | zero => rfl
  | succ n ih =>
    simp only [leRd]
    have h0 : f a = g b := h 0 (by omega)
    rw [h0, ih (a + 1) (b + 1) (fun i h1 => by
      have := h (i + 1) (by omega)
      rw [show a + 1 + i = a + (i + 1) by omega, show b + 1 + i = b + (i + 1) by omega]; exact this)]

theorem bsRd_shift (f g : Nat → UInt8) (a b n : Nat)
    (h : ∀ i, i < n → f (a + i) = g (b + i)) : bsRd f a n = bsRd g b n := by
  induction n generalizing a b with
  | zero => rfl
  | succ n ih =>
    simp only [bsRd]
    have h0 : f a = g b := h 0 (by omega)
    rw [h0, ih (a + 1) (b + 1) (fun i h1 => by
      have := h (i + 1) (by omega)
      rw [show a + 1 + i = a + (i + 1) by omega, show b + 1 + i = b + (i + 1) by omega]; exact this)]

theorem leWr_out (f : Nat → UInt8) (a n v i : Nat) (h : i < a ∨ a + n ≤ i) :
    leWr f a n v i = f i := by
  unfold leWr; rw [if_neg (by omega)]

theorem bsWr_out (f : Nat → UInt8) (a i : Nat) (bs : Bytes) (h : i < a ∨ a + bs.length ≤ i) :
    bsWr f a bs i = f i := by
  unfold bsWr; rw [if_neg (by omega)]

theorem bsWr_in (f : Nat → UInt8) (a i : Nat) (bs : Bytes) (h : i < bs.length) :
    bsWr f a bs (a + i) = bs[i] := by
  unfold bsWr; rw [if_pos (by omega)]
  simp [List.getD, h]

theorem leRd_aux (f : Nat → UInt8) (a v m k : Nat)
    (h : ∀ i, i < m → f (a + i) = UInt8.ofNat (v / 256 ^ (k + i))) :
    leRd f a m = v / 256 ^ k % 256 ^ m := by
  induction m generalizing a k with
  | zero => simp [leRd, Nat.mod_one]
  | succ m ih =>
    simp only [leRd]
    have h0 := h 0 (by omega)
    simp only [Nat.add_zero] at h0
    rw [h0, ih (a + 1) (k + 1) (fun i hi => by
      rw [show a + 1 + i = a + (i + 1) by omega, h (i + 1) (by omega),
        show k + (i + 1) = k + 1 + i by omega])]
    rw [show 256 ^ (m + 1) = 256 * 256 ^ m by rw [Nat.pow_succ, Nat.mul_comm], Nat.mod_mul,
      show 256 ^ (k + 1) = 256 ^ k * 256 from rfl, ← Nat.div_div_eq_div_mul]
    simp

theorem leRd_leWr_same (f : Nat → UInt8) (a n v : Nat) :
    leRd (leWr f a n v) a n = v % 256 ^ n := by
  have := leRd_aux (leWr f a n v) a v n 0 (fun i hi => by
    unfold leWr; rw [if_pos (by omega)]; congr 2; congr 1; omega)
  simpa using this

theorem leRd_leWr_disj (f : Nat → UInt8) (a n v b m : Nat) (h : a + n ≤ b ∨ b + m ≤ a) :
    leRd (leWr f a n v) b m = leRd f b m :=
  leRd_congr _ _ _ _ (fun i h1 h2 => leWr_out _ _ _ _ _ (by omega))

theorem leRd_bsWr_disj (f : Nat → UInt8) (a b m : Nat) (bs : Bytes)
    (h : a + bs.length ≤ b ∨ b + m ≤ a) :
    leRd (bsWr f a bs) b m = leRd f b m :=
  leRd_congr _ _ _ _ (fun i h1 h2 => bsWr_out _ _ _ _ (by omega))

theorem bsRd_leWr_disj (f : Nat → UInt8) (a n v b m : Nat) (h : a + n ≤ b ∨ b + m ≤ a) :
    bsRd (leWr f a n v) b m = bsRd f b m :=
  bsRd_congr _ _ _ _ (fun i h1 h2 => leWr_out _ _ _ _ _ (by omega))

theorem bsRd_bsWr_disj (f : Nat → UInt8) (a b m : Nat) (bs : Bytes)
    (h : a + bs.length ≤ b ∨ b + m ≤ a) :
    bsRd (bsWr f a bs) b m = bsRd f b m :=
  bsRd_congr _ _ _ _ (fun i h1 h2 => bsWr_out _ _ _ _ (by omega))

theorem bsRd_length (f : Nat → UInt8) (a n : Nat) : (bsRd f a n).length = n := by
  induction n generalizing a with
  | zero => rfl
  | succ n ih => simp [bsRd, ih]

theorem bsRd_getElem (f : Nat → UInt8) (a n i : Nat) (h : i < (bsRd f a n).length) :
    (bsRd f a n)[i] = f (a + i) := by
  induction n generalizing a i with
  | zero => simp [bsRd] at h
  | succ n ih =>
    cases i with
    | zero => simp [bsRd]
    | succ i =>
      simp only [bsRd, List.getElem_cons_succ]
      rw [ih]; congr 1; omega

theorem bsRd_bsWr_same (f : Nat → UInt8) (a : Nat) (bs : Bytes) :
    bsRd (bsWr f a bs) a bs.length = bs := by
  apply List.ext_getElem
  · exact bsRd_length _ _ _
  · intro i h1 h2
    rw [bsRd_getElem, bsWr_in _ _ _ _ h2]

theorem bsRd_append (f : Nat → UInt8) (a n m : Nat) :
    bsRd f a (n + m) = bsRd f a n ++ bsRd f (a + n) m := by
  induction n generalizing a with
  | zero => simp [bsRd]
  | succ n ih =>
    rw [show n + 1 + m = (n + m) + 1 by omega]
    simp only [bsRd, ih, List.cons_append]
    rw [show a + 1 + n = a + (n + 1) by omega]

/-- Evaluate a number before continuing (definitionally shapes kernel evaluation only). -/
def forceN {α : Sort _} (n : Nat) (k : Nat → α) : α :=
  match n with
  | 0 => k 0
  | m + 1 => k (m + 1)

@[simp] theorem forceN_eq {α : Sort _} (n : Nat) (k : Nat → α) : forceN n k = k n := by
  cases n <;> rfl

/-- Evaluate a byte string before continuing. -/
def forceB {α : Sort _} : Bytes → (Bytes → α) → α
  | [], k => k []
  | b :: bs, k => forceN b.toNat fun n => forceB bs fun bs' => k (UInt8.ofNat n :: bs')

@[simp] theorem forceB_eq {α : Sort _} (bs : Bytes) (k : Bytes → α) : forceB bs k = k bs := by
  induction bs generalizing k with
  | nil => rfl
  | cons b bs ih => simp [forceB, ih]

end Verif
