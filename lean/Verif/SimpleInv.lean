import Verif.Simple
import Mathlib.Tactic.Tauto
/-
Invariants of the SimpleAllocator's block list, and how single stores affect them.
-/
namespace Verif.Simple
open Verif

/-- 8-byte word at `a` -/
def w (m : Nat → UInt8) (a : Nat) : Nat := leRd m a 8

theorem w_wr {m : Nat → UInt8} {a b v : Nat} (ha : a % 8 = 0) (hb : b % 8 = 0) :
    w (leWr m a 8 v) b = if b = a then v % W64 else w m b := by
  unfold w
  split
  · rename_i e; subst e; exact leRd_leWr_same _ _ _ _
  · exact leRd_leWr_disj _ _ _ _ _ _ (by omega)

theorem w_lt (m : Nat → UInt8) (a : Nat) : w m a < W64 := leRd_lt8 _ _

/-- blocks as (header offset, size) -/
abbrev Blocks := List (Nat × Nat)

/-- offset of the first block, or `e` -/
def hdOr : Blocks → Nat → Nat
  | [], e => e
  | b :: _, _ => b.1
/-- offset of the last block, or `e` -/
def lastOr : Blocks → Nat → Nat
  | [], e => e
  | b :: t, _ => lastOr t b.1
/-- end of the last block, or `lo` -/
def endOr : Blocks → Nat → Nat
  | [], lo => lo
  | b :: t, _ => endOr t (b.1 + 24 + eff b.2)

/-- blocks are in address order, 8-aligned and disjoint, between `lo` and `hi` -/
def Chain : Nat → Blocks → Nat → Prop
  | lo, [], hi => lo ≤ hi
  | lo, b :: t, hi => lo ≤ b.1 ∧ b.1 % 8 = 0 ∧ b.2 + 7 < W64 ∧ Chain (b.1 + 24 + eff b.2) t hi

/-- forward links and sizes, ending in `e` -/
def FLk (m : Nat → UInt8) : Blocks → Nat → Prop
  | [], _ => True
  | b :: t, e => w m (b.1 + 8) = hdOr t e ∧ w m (b.1 + 16) = b.2 ∧ FLk m t e
/-- backward links -/
def BLk (m : Nat → UInt8) : Nat → Blocks → Prop
  | _, [] => True
  | pv, b :: t => w m b.1 = pv ∧ BLk m b.1 t

def sumSz (L : Blocks) : Nat := (L.map (·.2)).sum
def sumEff (L : Blocks) : Nat := (L.map fun b => eff b.2 + 24).sum

/-- pool geometry -/
structure Geo (p : Pool) : Prop where
  le : p.size ≤ p.fsize
  page : p.size % 4096 = 0
  min : 4096 ≤ p.size
  max : p.size < 9223372036854775808
  lim : p.lim < 9223372036854775808

/-- consistent up to what `repair` restores: forward list and sizes -/
structure CInv (p : Pool) (L : Blocks) : Prop where
  geo : Geo p
  head : w p.mem 304 = hdOr L 0
  fl : FLk p.mem L 0
  ch : Chain 320 L p.size

/-- fully consistent -/
structure SInv (p : Pool) (L : Blocks) : Prop extends CInv p L where
  tail : w p.mem 312 = lastOr L 0
  bl : BLk p.mem 0 L
  ba : w p.mem 288 = sumSz L
  bc : w p.mem 296 = 320 + sumEff L

/-- bytes that allocate/free must not touch: the header up to the base object offset and the contents of
the blocks -/
structure Keep (L : Blocks) (p p' : Pool) : Prop where
  hdr : ∀ i, 8 ≤ i → i < 288 → p'.mem i = p.mem i
  blk : ∀ b ∈ L, ∀ i, i < b.2 → p'.mem (b.1 + 24 + i) = p.mem (b.1 + 24 + i)
  mx : p'.maxSize = p.maxSize
  lm : p'.lim = p.lim

theorem Keep.refl (L : Blocks) (p : Pool) : Keep L p p := ⟨fun _ _ _ => rfl, fun _ _ _ _ => rfl, rfl, rfl⟩
theorem Keep.trans {L : Blocks} {p q r : Pool} (h1 : Keep L p q) (h2 : Keep L q r) : Keep L p r :=
  ⟨fun i a b => (h2.hdr i a b).trans (h1.hdr i a b), fun b hb i hi => (h2.blk b hb i hi).trans (h1.blk b hb i hi),
    h2.mx.trans h1.mx, h2.lm.trans h1.lm⟩
theorem Keep.mono {L L' : Blocks} {p q : Pool} (h : Keep L p q) (hs : ∀ b ∈ L', b ∈ L) : Keep L' p q :=
  ⟨h.hdr, fun b hb => h.blk b (hs b hb), h.mx, h.lm⟩

theorem eff_eq {s : Nat} (h : s + 7 < W64) : eff s = (s + 7) / 8 * 8 := by
  unfold eff; rw [Nat.mod_eq_of_lt h]
theorem eff_facts {s : Nat} (h : s + 7 < W64) : s ≤ eff s ∧ eff s % 8 = 0 ∧ eff s ≤ s + 7 := by
  rw [eff_eq h]; omega
theorem eff_mod (s : Nat) : eff s % 8 = 0 := by unfold eff; omega
theorem sub64_eq {a b : Nat} (ha : a < W64) (hb : b ≤ a) : sub64 a b = a - b := by
  unfold sub64; omega

/-! ### list lemmas -/

theorem Chain.lo_le {lo hi : Nat} {L : Blocks} (h : Chain lo L hi) : lo ≤ hi := by
  induction L generalizing lo with
  | nil => exact h
  | cons b t ih => have := ih h.2.2.2; have := h.1; omega

theorem Chain.mem {lo hi : Nat} {L : Blocks} (h : Chain lo L hi) {b : Nat × Nat} (hb : b ∈ L) :
    lo ≤ b.1 ∧ b.1 % 8 = 0 ∧ b.2 + 7 < W64 ∧ b.1 + 24 + eff b.2 ≤ hi := by
  induction L generalizing lo with
  | nil => simp at hb
  | cons c t ih =>
    simp only [List.mem_cons] at hb
    rcases hb with rfl | hb
    · exact ⟨h.1, h.2.1, h.2.2.1, h.2.2.2.lo_le⟩
    · have h1 := ih h.2.2.2 hb
      have := h.1
      exact ⟨by omega, h1.2⟩

theorem Chain.append_iff {lo hi : Nat} {A B : Blocks} :
    Chain lo (A ++ B) hi ↔ Chain lo A (endOr A lo) ∧ Chain (endOr A lo) B hi := by
  induction A generalizing lo with
  | nil => simp [Chain, endOr]
  | cons c t ih => simp only [List.cons_append, Chain, endOr, ih, and_assoc]

theorem Chain.sep {lo hi : Nat} {L : Blocks} (h : Chain lo L hi) {b c : Nat × Nat} (hb : b ∈ L) (hc : c ∈ L) :
    b = c ∨ b.1 + 24 + eff b.2 ≤ c.1 ∨ c.1 + 24 + eff c.2 ≤ b.1 := by
  induction L generalizing lo with
  | nil => simp at hb
  | cons d t ih =>
    simp only [List.mem_cons] at hb hc
    rcases hb with rfl | hb <;> rcases hc with rfl | hc
    · exact Or.inl rfl
    · exact Or.inr (Or.inl (h.2.2.2.mem hc).1)
    · exact Or.inr (Or.inr (h.2.2.2.mem hb).1)
    · exact ih h.2.2.2 hb hc

theorem Chain.widen {lo hi hi' : Nat} {L : Blocks} (h : Chain lo L hi) (hh : hi ≤ hi') : Chain lo L hi' := by
  induction L generalizing lo with
  | nil => exact Nat.le_trans h hh
  | cons b t ih => exact ⟨h.1, h.2.1, h.2.2.1, ih h.2.2.2⟩

theorem Chain.lower {lo lo' hi : Nat} {L : Blocks} (h : Chain lo L hi) (hh : lo' ≤ lo) : Chain lo' L hi := by
  cases L with
  | nil => exact Nat.le_trans hh h
  | cons b t => exact ⟨Nat.le_trans hh h.1, h.2⟩

theorem endOr_append (A B : Blocks) (lo : Nat) : endOr (A ++ B) lo = endOr B (endOr A lo) := by
  induction A generalizing lo with
  | nil => rfl
  | cons c t ih => simp only [List.cons_append, endOr, ih]
theorem lastOr_append (A B : Blocks) (e : Nat) : lastOr (A ++ B) e = lastOr B (lastOr A e) := by
  induction A generalizing e with
  | nil => rfl
  | cons c t ih => simp only [List.cons_append, lastOr, ih]
theorem hdOr_append (A B : Blocks) (e : Nat) : hdOr (A ++ B) e = hdOr A (hdOr B e) := by
  cases A <;> rfl

theorem Chain.end_le {lo hi : Nat} {L : Blocks} (h : Chain lo L hi) : endOr L lo ≤ hi := by
  induction L generalizing lo with
  | nil => exact h
  | cons b t ih => exact ih h.2.2.2
theorem Chain.to_end {lo hi : Nat} {L : Blocks} (h : Chain lo L hi) : Chain lo L (endOr L lo) := by
  induction L generalizing lo with
  | nil => exact Nat.le_refl _
  | cons b t ih => exact ⟨h.1, h.2.1, h.2.2.1, ih h.2.2.2⟩
theorem Chain.end_mod {lo hi : Nat} {L : Blocks} (h : Chain lo L hi) (hl : lo % 8 = 0) : endOr L lo % 8 = 0 := by
  induction L generalizing lo with
  | nil => exact hl
  | cons b t ih => refine ih h.2.2.2 ?_; have := h.2.1; have := eff_mod b.2; omega

theorem FLk.append_iff {m : Nat → UInt8} {A B : Blocks} {e : Nat} :
    FLk m (A ++ B) e ↔ FLk m A (hdOr B e) ∧ FLk m B e := by
  induction A with
  | nil => simp [FLk]
  | cons c t ih => simp only [List.cons_append, FLk, ih, hdOr_append, and_assoc]

theorem BLk.append_iff {m : Nat → UInt8} {A B : Blocks} {pv : Nat} :
    BLk m pv (A ++ B) ↔ BLk m pv A ∧ BLk m (lastOr A pv) B := by
  induction A generalizing pv with
  | nil => simp [BLk, lastOr]
  | cons c t ih => simp only [List.cons_append, BLk, lastOr, ih, and_assoc]

theorem FLk.congr {m m' : Nat → UInt8} {L : Blocks} {e : Nat}
    (h : ∀ b ∈ L, w m' (b.1 + 8) = w m (b.1 + 8) ∧ w m' (b.1 + 16) = w m (b.1 + 16))
    (hf : FLk m L e) : FLk m' L e := by
  induction L with
  | nil => trivial
  | cons b t ih =>
    refine ⟨?_, ?_, ih (fun c hc => h c (by simp [hc])) hf.2.2⟩
    · rw [(h b (by simp)).1]; exact hf.1
    · rw [(h b (by simp)).2]; exact hf.2.1

theorem BLk.congr {m m' : Nat → UInt8} {L : Blocks} {pv : Nat}
    (h : ∀ b ∈ L, w m' b.1 = w m b.1) (hf : BLk m pv L) : BLk m' pv L := by
  induction L generalizing pv with
  | nil => trivial
  | cons b t ih =>
    refine ⟨?_, ih (fun c hc => h c (by simp [hc])) hf.2⟩
    rw [h b (by simp)]; exact hf.1

theorem FLk.mem {m : Nat → UInt8} {L : Blocks} {e : Nat} (h : FLk m L e) {b : Nat × Nat} (hb : b ∈ L) :
    w m (b.1 + 16) = b.2 := by
  induction L with
  | nil => simp at hb
  | cons c t ih =>
    simp only [List.mem_cons] at hb
    rcases hb with rfl | hb
    · exact h.2.1
    · exact ih h.2.2 hb

theorem sumSz_append (A B : Blocks) : sumSz (A ++ B) = sumSz A + sumSz B := by simp [sumSz]
theorem sumEff_append (A B : Blocks) : sumEff (A ++ B) = sumEff A + sumEff B := by simp [sumEff]
theorem sumSz_cons (b : Nat × Nat) (B : Blocks) : sumSz (b :: B) = b.2 + sumSz B := by simp [sumSz]
theorem sumEff_cons (b : Nat × Nat) (B : Blocks) : sumEff (b :: B) = (eff b.2 + 24) + sumEff B := by simp [sumEff]

theorem Chain.sum_le {lo hi : Nat} {L : Blocks} (h : Chain lo L hi) : lo + sumEff L ≤ hi ∧ sumSz L ≤ sumEff L := by
  induction L generalizing lo with
  | nil => exact ⟨by have : lo ≤ hi := h; simpa [sumEff] using this, by simp [sumSz, sumEff]⟩
  | cons b t ih =>
    have h1 := ih h.2.2.2
    have := h.1
    have := eff_facts h.2.2.1
    rw [sumSz_cons, sumEff_cons]
    omega

theorem Chain.length_le {lo hi : Nat} {L : Blocks} (h : Chain lo L hi) : lo + 24 * L.length ≤ hi := by
  induction L generalizing lo with
  | nil => have : lo ≤ hi := h; simpa using this
  | cons b t ih =>
    have h1 := ih h.2.2.2
    have := h.1
    simp only [List.length_cons]
    omega

theorem lastOr_mem {L : Blocks} (h : L ≠ []) (e : Nat) :
    ∃ A s, L = A ++ [(lastOr L e, s)] ∧ (∀ lo, endOr L lo = lastOr L e + 24 + eff s) := by
  obtain ⟨A, b, rfl⟩ : ∃ A b, L = A ++ [b] := ⟨_, _, (List.dropLast_concat_getLast h).symm⟩
  refine ⟨A, b.2, ?_, ?_⟩
  · rw [lastOr_append]; rfl
  · intro lo; rw [endOr_append, lastOr_append]; rfl

/-! ### effect of a store -/

/-- pool after a store -/
def put (p : Pool) (a v : Nat) : Pool := { p with mem := leWr p.mem a 8 v }

theorem put_size {p : Pool} {a v : Nat} (h : 8 ≤ a) : (put p a v).size = p.size :=
  leRd_leWr_disj _ _ _ _ _ _ (by omega)
@[simp] theorem put_fsize {p : Pool} {a v : Nat} : (put p a v).fsize = p.fsize := rfl
@[simp] theorem put_lim {p : Pool} {a v : Nat} : (put p a v).lim = p.lim := rfl
@[simp] theorem put_max {p : Pool} {a v : Nat} : (put p a v).maxSize = p.maxSize := rfl

theorem Geo.put {p : Pool} {a v : Nat} (h : Geo p) (ha : 8 ≤ a) : Geo (put p a v) := by
  have e := put_size (p := p) (v := v) ha
  exact ⟨by rw [e]; exact h.le, by rw [e]; exact h.page, by rw [e]; exact h.min, by rw [e]; exact h.max, h.lim⟩

theorem put_w {p : Pool} {a b v : Nat} (ha : a % 8 = 0) (hb : b % 8 = 0) :
    w (put p a v).mem b = if b = a then v % W64 else w p.mem b := w_wr ha hb

/-- a store that avoids the head pointer and the next/size fields of `L` -/
theorem CInv.put {p : Pool} {L : Blocks} (h : CInv p L) {a v : Nat} (ha : a % 8 = 0) (h8 : 8 ≤ a)
    (h1 : a ≠ 304) (h2 : ∀ b ∈ L, a ≠ b.1 + 8 ∧ a ≠ b.1 + 16) : CInv (put p a v) L := by
  refine ⟨h.geo.put h8, ?_, ?_, ?_⟩
  · rw [put_w ha (by decide), if_neg (Ne.symm h1)]; exact h.head
  · refine h.fl.congr ?_
    intro b hb
    have := h.ch.mem hb
    have := h2 b hb
    rw [put_w ha (by omega), put_w ha (by omega), if_neg (by omega), if_neg (by omega)]
    exact ⟨rfl, rfl⟩
  · rw [put_size h8]; exact h.ch

theorem Keep.put {p q : Pool} {L : Blocks} (h : Keep L p q) {a v : Nat} (h8 : 288 ≤ a)
    (h2 : ∀ b ∈ L, a + 8 ≤ b.1 + 24 ∨ b.1 + 24 + b.2 ≤ a) : Keep L p (put q a v) := by
  refine ⟨?_, ?_, h.mx, h.lm⟩
  · intro i h1 h3
    exact (leWr_out _ _ _ _ _ (by omega)).trans (h.hdr i h1 h3)
  · intro b hb i hi
    have := h2 b hb
    exact (leWr_out _ _ _ _ _ (by omega)).trans (h.blk b hb i hi)

theorem Geo.inb {p : Pool} (h : Geo p) {a : Nat} (ha : a + 8 ≤ p.size) : p.inb a 8 :=
  ⟨ha, Nat.le_trans ha h.le⟩

end Verif.Simple
