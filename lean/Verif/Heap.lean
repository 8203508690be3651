import Verif.Prog
/-
The abstract block heap: what a data structure may assume of its Allocator
(/repo/src/Allocator.hh, lines 14-90: allocate, free, block_size, base_object_offset).

A structure method is a program over the operations `HOp`.  `wp` is its demonic weakest
precondition over *every* behaviour a lawful allocator may show: `alloc` may return any
fresh 8-aligned nonzero offset with arbitrary initial contents, or fail.  Touching memory
outside a live block is undefined behaviour, for which `wp` is false.
-/
namespace Verif

/-- A live allocated block: requested size and contents. -/
structure Block where
  size : Nat
  data : Nat → UInt8

namespace Block
/-- `n`-byte little-endian load at offset `o` inside the block. -/
def rd (b : Block) (o n : Nat) : Nat := leRd b.data o n
/-- `n`-byte store. -/
def wr (b : Block) (o n v : Nat) : Block := { b with data := leWr b.data o n v }
/-- raw bytes. -/
def rdB (b : Block) (o n : Nat) : Bytes := bsRd b.data o n
def wrB (b : Block) (o : Nat) (bs : Bytes) : Block := { b with data := bsWr b.data o bs }

@[simp] theorem size_wr (b : Block) (o n v : Nat) : (b.wr o n v).size = b.size := rfl
@[simp] theorem size_wrB (b : Block) (o : Nat) (bs : Bytes) : (b.wrB o bs).size = b.size := rfl

theorem rd_lt (b : Block) (o n : Nat) : b.rd o n < 256 ^ n := leRd_lt _ _ _
theorem rd8_lt (b : Block) (o : Nat) : b.rd o 8 < W64 := leRd_lt8 _ _

theorem rd_wr_same (b : Block) (o n v : Nat) : (b.wr o n v).rd o n = v % 256 ^ n :=
  leRd_leWr_same _ _ _ _
theorem rd_wr_same8 (b : Block) (o v : Nat) (h : v < W64) : (b.wr o 8 v).rd o 8 = v := by
  rw [rd_wr_same]; exact Nat.mod_eq_of_lt h
theorem rd_wr_same1 (b : Block) (o v : Nat) (h : v < 256) : (b.wr o 1 v).rd o 1 = v := by
  rw [rd_wr_same]; exact Nat.mod_eq_of_lt h
theorem rd_wr_disj (b : Block) (o n v o' n' : Nat) (h : o + n ≤ o' ∨ o' + n' ≤ o) :
    (b.wr o n v).rd o' n' = b.rd o' n' := leRd_leWr_disj _ _ _ _ _ _ h
theorem rd_wrB_disj (b : Block) (o o' n' : Nat) (bs : Bytes)
    (h : o + bs.length ≤ o' ∨ o' + n' ≤ o) :
    (b.wrB o bs).rd o' n' = b.rd o' n' := leRd_bsWr_disj _ _ _ _ _ h
theorem rdB_wr_disj (b : Block) (o n v o' n' : Nat) (h : o + n ≤ o' ∨ o' + n' ≤ o) :
    (b.wr o n v).rdB o' n' = b.rdB o' n' := bsRd_leWr_disj _ _ _ _ _ _ h
theorem rdB_wrB_disj (b : Block) (o o' n' : Nat) (bs : Bytes)
    (h : o + bs.length ≤ o' ∨ o' + n' ≤ o) :
    (b.wrB o bs).rdB o' n' = b.rdB o' n' := bsRd_bsWr_disj _ _ _ _ _ h
theorem rdB_wrB_same (b : Block) (o : Nat) (bs : Bytes) :
    (b.wrB o bs).rdB o bs.length = bs := bsRd_bsWr_same _ _ _
theorem rdB_wrB_same' (b : Block) (o n : Nat) (bs : Bytes) (h : n = bs.length) :
    (b.wrB o bs).rdB o n = bs := by subst h; exact bsRd_bsWr_same _ _ _
@[simp] theorem rdB_length (b : Block) (o n : Nat) : (b.rdB o n).length = n := bsRd_length _ _ _
theorem rdB_append (b : Block) (o n m : Nat) :
    b.rdB o (n + m) = b.rdB o n ++ b.rdB (o + n) m := bsRd_append _ _ _ _
end Block

/-- The allocator's view of the pool: live blocks and the base object offset. -/
structure Heap where
  blk : Nat → Option Block
  base : Nat

namespace Heap
def set (h : Heap) (o : Nat) (b : Block) : Heap :=
  { h with blk := fun x => if x = o then some b else h.blk x }
def del (h : Heap) (o : Nat) : Heap :=
  { h with blk := fun x => if x = o then none else h.blk x }
def empty : Heap := { blk := fun _ => none, base := 0 }

@[simp] theorem set_base (h : Heap) (o : Nat) (b : Block) : (h.set o b).base = h.base := rfl
@[simp] theorem del_base (h : Heap) (o : Nat) : (h.del o).base = h.base := rfl
@[simp] theorem set_same (h : Heap) (o : Nat) (b : Block) : (h.set o b).blk o = some b := by
  simp [set]
theorem set_ne (h : Heap) (o x : Nat) (b : Block) (hx : x ≠ o) : (h.set o b).blk x = h.blk x := by
  simp [set, hx]
@[simp] theorem del_same (h : Heap) (o : Nat) : (h.del o).blk o = none := by simp [del]
theorem del_ne (h : Heap) (o x : Nat) (hx : x ≠ o) : (h.del o).blk x = h.blk x := by
  simp [del, hx]
theorem set_blk (h : Heap) (o x : Nat) (b : Block) :
    (h.set o b).blk x = if x = o then some b else h.blk x := rfl
theorem del_blk (h : Heap) (o x : Nat) :
    (h.del o).blk x = if x = o then none else h.blk x := rfl
@[simp] theorem set_set (h : Heap) (o : Nat) (b b' : Block) : (h.set o b).set o b' = h.set o b' := by
  simp only [set]; congr 1; funext x; split <;> rfl
end Heap

/-- Largest request the model lets a structure make (C++ strings are shorter than 2^62). -/
notation "maxAlloc" => (4611686018427387904 : Nat)

/-- What a lawful allocator promises of the offset of a new block. -/
structure Fresh (h : Heap) (o n : Nat) : Prop where
  none : h.blk o = none
  disj : ∀ x B, h.blk x = some B → o + n ≤ x ∨ x + B.size ≤ o
  pos : o ≠ 0
  /-- the allocator's own header fills the first 256 bytes (SimpleAllocator.hh 44-57, LogarithmicAllocator.hh Data) -/
  low : 256 ≤ o
  align : o % 8 = 0
  lt : o + n < 9223372036854775808

/-- One access of a structure method. Addresses are (block offset, offset inside it), as in
`pool->at<Node>(node_offset)->field`. -/
inductive HOp
  | rd (b o n : Nat)               -- integer load
  | wr (b o n v : Nat)             -- integer store
  | rdB (b o n : Nat)              -- memcpy out
  | wrB (b o : Nat) (bs : Bytes)   -- memcpy in
  | alloc (n : Nat)
  | free (b : Nat)
  | bsize (b : Nat)
  | getBase
  | setBase (o : Nat)

abbrev HRe : HOp → Type
  | .rd .. => Nat
  | .wr .. => Unit
  | .rdB .. => Bytes
  | .wrB .. => Unit
  | .alloc _ => Option Nat
  | .free _ => Unit
  | .bsize _ => Nat
  | .getBase => Nat
  | .setBase _ => Unit

abbrev HProg (α : Type) := Prog HOp HRe α

namespace H
def rd (b o n : Nat) : HProg Nat := .step (.rd b o n) .ret
def wr (b o n v : Nat) : HProg Unit := .step (.wr b o n v) .ret
abbrev rd64 (b o : Nat) : HProg Nat := rd b o 8
abbrev wr64 (b o v : Nat) : HProg Unit := wr b o 8 v
abbrev rd8 (b o : Nat) : HProg Nat := rd b o 1
abbrev wr8 (b o v : Nat) : HProg Unit := wr b o 1 v
def rdB (b o n : Nat) : HProg Bytes := .step (.rdB b o n) .ret
def wrB (b o : Nat) (bs : Bytes) : HProg Unit := .step (.wrB b o bs) .ret
/-- Allocator::allocate: returns the offset or throws. -/
def alloc (n : Nat) : HProg Nat := .step (.alloc n) fun
  | some o => .ret o
  | none => .err .noMem
def free (b : Nat) : HProg Unit := .step (.free b) .ret
def bsize (b : Nat) : HProg Nat := .step (.bsize b) .ret
def getBase : HProg Nat := .step .getBase .ret
def setBase (o : Nat) : HProg Unit := .step (.setBase o) .ret
end H

variable {α β : Type}

/-- Demonic weakest precondition over all lawful allocators. -/
def wp : HProg α → (Out α → Heap → Prop) → Heap → Prop
  | .ret a, Q, h => Q (.ok a) h
  | .err e, Q, h => Q (.err e) h
  | .ub, _, _ => False
  | .step (.rd b o n) k, Q, h =>
      ∃ blk, h.blk b = some blk ∧ o + n ≤ blk.size ∧ wp (k (blk.rd o n)) Q h
  | .step (.wr b o n v) k, Q, h =>
      ∃ blk, h.blk b = some blk ∧ o + n ≤ blk.size ∧ wp (k ()) Q (h.set b (blk.wr o n v))
  | .step (.rdB b o n) k, Q, h =>
      ∃ blk, h.blk b = some blk ∧ o + n ≤ blk.size ∧ wp (k (blk.rdB o n)) Q h
  | .step (.wrB b o bs) k, Q, h =>
      ∃ blk, h.blk b = some blk ∧ o + bs.length ≤ blk.size ∧ wp (k ()) Q (h.set b (blk.wrB o bs))
  | .step (.alloc n) k, Q, h =>
      n ≤ maxAlloc ∧ (∀ o d, Fresh h o n → wp (k (some o)) Q (h.set o ⟨n, d⟩)) ∧ wp (k none) Q h
  | .step (.free b) k, Q, h => ∃ blk, h.blk b = some blk ∧ wp (k ()) Q (h.del b)
  | .step (.bsize b) k, Q, h => ∃ blk, h.blk b = some blk ∧ wp (k blk.size) Q h
  | .step .getBase k, Q, h => wp (k h.base) Q h
  | .step (.setBase o) k, Q, h => o < W64 ∧ wp (k ()) Q { h with base := o }

theorem wp_mono {p : HProg α} {Q Q' : Out α → Heap → Prop} (hQ : ∀ o h, Q o h → Q' o h) :
    ∀ {h}, wp p Q h → wp p Q' h := by
  induction p with
  | ret a => exact fun h => hQ _ _ h
  | err e => exact fun h => hQ _ _ h
  | ub => exact fun h => h
  | step op k ih =>
    intro h hw
    cases op <;> simp only [wp] at hw ⊢
    case alloc n => exact ⟨hw.1, fun o d hf => ih _ (hw.2.1 o d hf), ih _ hw.2.2⟩
    case getBase => exact ih _ hw
    case setBase => exact ⟨hw.1, ih _ hw.2⟩
    case free | bsize => obtain ⟨b, h1, h2⟩ := hw; exact ⟨b, h1, ih _ h2⟩
    all_goals (obtain ⟨b, h1, h2, h3⟩ := hw; exact ⟨b, h1, h2, ih _ h3⟩)

/-- continuation of `wp` through sequencing -/
def wpK (f : α → HProg β) (Q : Out β → Heap → Prop) : Out α → Heap → Prop
  | .ok a, h => wp (f a) Q h
  | .err e, h => Q (.err e) h

theorem wp_bind (p : HProg α) (f : α → HProg β) (Q : Out β → Heap → Prop) (h : Heap) :
    wp (p.bind f) Q h ↔ wp p (wpK f Q) h := by
  induction p generalizing h with
  | ret a => exact Iff.rfl
  | err e => exact Iff.rfl
  | ub => exact Iff.rfl
  | step op k ih =>
    cases op <;> simp only [Prog.step_bind, wp, ih]

/-- continuation of `wp` through try/catch -/
def wpC (f : Err → HProg α) (Q : Out α → Heap → Prop) : Out α → Heap → Prop
  | .ok a, h => Q (.ok a) h
  | .err e, h => wp (f e) Q h

theorem wp_tryCatch (p : HProg α) (f : Err → HProg α) (Q : Out α → Heap → Prop) (h : Heap) :
    wp (p.tryCatch f) Q h ↔ wp p (wpC f Q) h := by
  induction p generalizing h with
  | ret a => exact Iff.rfl
  | err e => exact Iff.rfl
  | ub => exact Iff.rfl
  | step op k ih =>
    cases op <;> simp only [Prog.tryCatch, wp, ih]

/-- use a specification of `p` inside a longer program -/
theorem wp_bind_of {p : HProg α} {f : α → HProg β} {Q : Out β → Heap → Prop} {h : Heap}
    {R : Out α → Heap → Prop} (hp : wp p R h)
    (hk : ∀ a h', R (.ok a) h' → wp (f a) Q h') (he : ∀ e h', R (.err e) h' → Q (.err e) h') :
    wp (p.bind f) Q h := by
  rw [wp_bind]
  refine wp_mono ?_ hp
  intro o h' hR
  cases o with
  | ok a => exact hk a h' hR
  | err e => exact he e h' hR

theorem wp_and {p : HProg α} {Q Q' : Out α → Heap → Prop} :
    ∀ {h}, wp p Q h → wp p Q' h → wp p (fun o h => Q o h ∧ Q' o h) h := by
  induction p with
  | ret a => exact fun h1 h2 => ⟨h1, h2⟩
  | err e => exact fun h1 h2 => ⟨h1, h2⟩
  | ub => exact fun h1 _ => h1
  | step op k ih =>
    intro h hw hw'
    cases op <;> simp only [wp] at hw hw' ⊢
    case alloc n =>
      exact ⟨hw.1, fun o d hf => ih _ (hw.2.1 o d hf) (hw'.2.1 o d hf), ih _ hw.2.2 hw'.2.2⟩
    case getBase => exact ih _ hw hw'
    case setBase => exact ⟨hw.1, ih _ hw.2 hw'.2⟩
    case free | bsize =>
      obtain ⟨b, h1, h2⟩ := hw; obtain ⟨b', h1', h2'⟩ := hw'
      rw [h1] at h1'; cases h1'
      exact ⟨b, h1, ih _ h2 h2'⟩
    all_goals
      (obtain ⟨b, h1, h2, h3⟩ := hw
       obtain ⟨b', h1', h2', h3'⟩ := hw'
       rw [h1] at h1'; cases h1'
       exact ⟨b, h1, h2, ih _ h3 h3'⟩)

/-- `I` holds before and after every single access of `p`, whatever the allocator does, i.e. at
every point at which the process running `p` may crash. -/
def always : HProg α → (Heap → Prop) → Heap → Prop
  | .ret _, I, h => I h
  | .err _, I, h => I h
  | .ub, _, _ => False
  | .step (.rd b o n) k, I, h => I h ∧
      ∃ blk, h.blk b = some blk ∧ o + n ≤ blk.size ∧ always (k (blk.rd o n)) I h
  | .step (.wr b o n v) k, I, h => I h ∧
      ∃ blk, h.blk b = some blk ∧ o + n ≤ blk.size ∧ always (k ()) I (h.set b (blk.wr o n v))
  | .step (.rdB b o n) k, I, h => I h ∧
      ∃ blk, h.blk b = some blk ∧ o + n ≤ blk.size ∧ always (k (blk.rdB o n)) I h
  | .step (.wrB b o bs) k, I, h => I h ∧
      ∃ blk, h.blk b = some blk ∧ o + bs.length ≤ blk.size ∧
        always (k ()) I (h.set b (blk.wrB o bs))
  | .step (.alloc n) k, I, h => I h ∧
      n ≤ maxAlloc ∧ (∀ o d, Fresh h o n → always (k (some o)) I (h.set o ⟨n, d⟩)) ∧
        always (k none) I h
  | .step (.free b) k, I, h => I h ∧ ∃ blk, h.blk b = some blk ∧ always (k ()) I (h.del b)
  | .step (.bsize b) k, I, h => I h ∧ ∃ blk, h.blk b = some blk ∧ always (k blk.size) I h
  | .step .getBase k, I, h => I h ∧ always (k h.base) I h
  | .step (.setBase o) k, I, h => I h ∧ o < W64 ∧ always (k ()) I { h with base := o }

/-! ### Single-access rules -/
section rules
variable {Q : Out α → Heap → Prop} {h : Heap} {b o n : Nat} {B : Block}

theorem wp_rd {k : Nat → HProg α} (hb : h.blk b = some B) (ho : o + n ≤ B.size)
    (hk : wp (k (B.rd o n)) Q h) : wp ((H.rd b o n).bind k) Q h := ⟨B, hb, ho, hk⟩
theorem wp_wr {v : Nat} {k : Unit → HProg α} (hb : h.blk b = some B) (ho : o + n ≤ B.size)
    (hk : wp (k ()) Q (h.set b (B.wr o n v))) : wp ((H.wr b o n v).bind k) Q h := ⟨B, hb, ho, hk⟩
theorem wp_rdB {k : Bytes → HProg α} (hb : h.blk b = some B) (ho : o + n ≤ B.size)
    (hk : wp (k (B.rdB o n)) Q h) : wp ((H.rdB b o n).bind k) Q h := ⟨B, hb, ho, hk⟩
theorem wp_wrB {bs : Bytes} {k : Unit → HProg α} (hb : h.blk b = some B)
    (ho : o + bs.length ≤ B.size)
    (hk : wp (k ()) Q (h.set b (B.wrB o bs))) : wp ((H.wrB b o bs).bind k) Q h := ⟨B, hb, ho, hk⟩
theorem wp_alloc {k : Nat → HProg α} (hn : n ≤ maxAlloc)
    (hk : ∀ o d, Fresh h o n → wp (k o) Q (h.set o ⟨n, d⟩)) (he : Q (.err .noMem) h) :
    wp ((H.alloc n).bind k) Q h := ⟨hn, hk, he⟩
theorem wp_free {k : Unit → HProg α} (hb : h.blk b = some B)
    (hk : wp (k ()) Q (h.del b)) : wp ((H.free b).bind k) Q h := ⟨B, hb, hk⟩
theorem wp_bsize {k : Nat → HProg α} (hb : h.blk b = some B)
    (hk : wp (k B.size) Q h) : wp ((H.bsize b).bind k) Q h := ⟨B, hb, hk⟩
theorem wp_getBase {k : Nat → HProg α} (hk : wp (k h.base) Q h) :
    wp (H.getBase.bind k) Q h := hk
theorem wp_setBase {k : Unit → HProg α} (ho : o < W64) (hk : wp (k ()) Q { h with base := o }) :
    wp ((H.setBase o).bind k) Q h := ⟨ho, hk⟩
end rules

end Verif
