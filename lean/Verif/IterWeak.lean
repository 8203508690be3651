import Verif.HashTableIter
/-
Iterations while other processes write.  An iterator holds the lock only inside each of its calls; between two calls the structure may change in any way.
The loops are written as programs over whole calls (`CallProg`): `inline` gives back the loops of HashTable.lean, and `iwp` runs
call number i on an arbitrary heap `W i`.
-/
namespace Verif
open Verif

/-- programs whose steps are calls of methods that take the lock -/
abbrev CallProg (Op : Type) (Re : Op → Type) (α : Type) := Prog Op Re α

variable {Op : Type} {Re : Op → Type} {α β : Type}

/-- one call -/
def call1 (op : Op) : CallProg Op Re (Re op) := .step op fun r => .ret r

/-- the program with the bodies of the calls in place: what runs if nobody else touches the structure -/
def inline (impl : (op : Op) → HProg (Re op)) : CallProg Op Re α → HProg α
  | .ret a => .ret a
  | .err e => .err e
  | .ub => .ub
  | .step op k => (impl op).bind fun r => inline impl (k r)

theorem inline_bind (impl : (op : Op) → HProg (Re op)) (p : CallProg Op Re α) (f : α → CallProg Op Re β) :
    inline impl (p.bind f) = (inline impl p).bind fun a => inline impl (f a) := by
  induction p with
  | ret | err | ub => rfl
  | step op k ih =>
    simp only [Prog.step_bind, inline, Prog.bind_assoc]
    congr 1; funext r; exact ih r

theorem inline_call (impl : (op : Op) → HProg (Re op)) (op : Op) : inline impl (call1 op) = impl op := by
  unfold call1 inline inline
  induction impl op with
  | ret | err | ub => rfl
  | step o k ih => simp only [Prog.step_bind]; congr 1; funext r; exact ih r

/-- Call number `i` finds the heap `W i` (the other processes have made it so), runs without undefined behaviour and changes nothing; `Q` holds of the
outcome and of the number of calls made. -/
def iwp (impl : (op : Op) → HProg (Re op)) (W : Nat → Heap) : CallProg Op Re α → (Out α → Nat → Prop) → Nat → Prop
  | .ret a, Q, i => Q (.ok a) i
  | .err e, Q, i => Q (.err e) i
  | .ub, _, _ => False
  | .step op k, Q, i => wp (impl op) (fun out h' => h' = W i ∧ ((∃ e, out = .err e ∧ Q (.err e) (i + 1)) ∨ ∃ r, out = .ok r ∧ iwp impl W (k r) Q (i + 1))) (W i)

variable {impl : (op : Op) → HProg (Re op)} {W : Nat → Heap}

theorem iwp_mono {Q Q' : Out α → Nat → Prop} (hQ : ∀ o i, Q o i → Q' o i) {p : CallProg Op Re α} : ∀ {i}, iwp impl W p Q i → iwp impl W p Q' i := by
  induction p with
  | ret a => exact fun h => hQ _ _ h
  | err e => exact fun h => hQ _ _ h
  | ub => exact fun h => h
  | step op k ih =>
    intro i h
    refine wp_mono ?_ h
    rintro out h' ⟨rfl, (⟨e, rfl, h1⟩ | ⟨r, rfl, h1⟩)⟩
    · exact ⟨rfl, Or.inl ⟨e, rfl, hQ _ _ h1⟩⟩
    · exact ⟨rfl, Or.inr ⟨r, rfl, ih r h1⟩⟩

theorem iwp_bind {f : α → CallProg Op Re β} {Q : Out β → Nat → Prop} {p : CallProg Op Re α} : ∀ {i},
    iwp impl W p (fun out i => (∃ e, out = .err e ∧ Q (.err e) i) ∨ ∃ a, out = .ok a ∧ iwp impl W (f a) Q i) i → iwp impl W (p.bind f) Q i := by
  induction p with
  | ret a =>
    rintro i (⟨e, h, -⟩ | ⟨a', h, h1⟩)
    · cases h
    · injection h with h; subst h; exact h1
  | err e =>
    rintro i (⟨e, h, h1⟩ | ⟨a', h, h1⟩)
    · injection h with h; subst h; exact h1
    · cases h
  | ub => exact fun h => h.elim
  | step op k ih =>
    intro i h
    refine wp_mono ?_ h
    rintro out h' ⟨rfl, (⟨e, rfl, (⟨e', h2, h1⟩ | ⟨a, h2, -⟩)⟩ | ⟨r, rfl, h1⟩)⟩
    · injection h2 with h2; subst h2; exact ⟨rfl, Or.inl ⟨_, rfl, h1⟩⟩
    · cases h2
    · exact ⟨rfl, Or.inr ⟨r, rfl, ih r h1⟩⟩

/-- a call that always succeeds -/
theorem iwp_call {op : Op} {v : Re op} {k : Re op → CallProg Op Re β} {Q : Out β → Nat → Prop} {i : Nat}
    (h : wp (impl op) (fun out h' => out = .ok v ∧ h' = W i) (W i)) (hk : iwp impl W (k v) Q (i + 1)) : iwp impl W ((call1 op).bind k) Q i := by
  refine wp_mono ?_ h
  rintro out h' ⟨rfl, rfl⟩
  exact ⟨rfl, Or.inr ⟨v, rfl, hk⟩⟩

namespace HashTable

/-! ### HashTable -/

/-- the two methods an iterator calls; each takes the lock (HashTable.cc 568, 618) -/
inductive SOp
  | bits
  | slot (i : Nat)

/-- what they return -/
abbrev SRe : SOp → Type
  | .bits => Nat
  | .slot _ => List (Bytes × Bytes)

/-- HashTable::bits, HashTable.cc 617-620 and HashTable::get_slot_contents, HashTable.cc 564-602 -/
def simpl (base : Nat) : (op : SOp) → HProg (SRe op)
  | .bits => HashTable.bits base
  | .slot i => slotContents base i

abbrev SProg := CallProg SOp SRe

/-- the call of bits() -/
def sBits : SProg Nat := call1 SOp.bits
/-- the call of get_slot_contents(i) -/
def sSlot (i : Nat) : SProg (List (Bytes × Bytes)) := call1 (SOp.slot i)
theorem inline_bits (base : Nat) : inline (simpl base) sBits = HashTable.bits base := inline_call (simpl base) SOp.bits
theorem inline_slot (base i : Nat) : inline (simpl base) (sSlot i) = slotContents base i := inline_call (simpl base) (SOp.slot i)

/-- HashTableIterator::advance_to_nonempty_slot_if_needed, HashTable.cc 807-819 -/
def advanceC : Nat → Iter → SProg Iter
  | 0, _ => .ub
  | fuel + 1, it =>
    if it.cont.length ≤ it.res then
      sBits.bind fun b =>
      if it.slot + 1 < 2 ^ b then
        (sSlot (it.slot + 1)).bind fun c => advanceC fuel ⟨it.slot + 1, 0, c⟩
      else .ret ⟨it.slot + 1, 0, []⟩
    else .ret it

/-- HashTableIterator::HashTableIterator(table, slot_index), HashTable.cc 755-765 -/
def iterAtC (i : Nat) : SProg Iter :=
  sBits.bind fun b =>
  if i < 2 ^ b then
    (sSlot i).bind fun c => advanceC maxNodes ⟨i, 0, c⟩
  else .ret ⟨i, 0, []⟩

/-- HashTable::begin, HashTable.cc 604-606 -/
def beginC : SProg Iter := iterAtC 0

/-- HashTable::end, HashTable.cc 608-610 -/
def endC : SProg Iter := sBits.bind fun b => iterAtC (2 ^ b)

/-- HashTableIterator::operator++, HashTable.cc 788-801 -/
def nextC (it : Iter) : SProg Iter :=
  sBits.bind fun b =>
  if 2 ^ b ≤ it.slot then .err .invalidArg
  else advanceC maxNodes (if it.res < it.cont.length then { it with res := it.res + 1 } else it)

/-- for (it = begin; it != end; ++it) visit(*it) -/
def visitC : Nat → Iter → SProg (List (Bytes × Bytes))
  | 0, _ => .ub
  | fuel + 1, it =>
    endC.bind fun e =>
    if it.eq e then .ret [] else
      (nextC it).bind fun it' =>
      (visitC fuel it').bind fun l =>
      .ret (it.cont.getD it.res ([], []) :: l)

/-- for (const auto& it : table) …, with `fuel` bounding the length of the iteration -/
def itemsC (fuel : Nat) : SProg (List (Bytes × Bytes)) := beginC.bind fun it => visitC fuel it

/-! with nobody else about, these are the loops of HashTable.lean -/

theorem inline_advance (base : Nat) : ∀ fuel it, inline (simpl base) (advanceC fuel it) = advance base fuel it := by
  intro fuel
  induction fuel with
  | zero => intro it; rfl
  | succ fuel ih =>
    intro it
    unfold advanceC advance
    by_cases h : it.cont.length ≤ it.res
    · rw [if_pos h, if_pos h, inline_bind, inline_bits]
      show (HashTable.bits base).bind _ = (HashTable.bits base).bind _
      congr 1; funext b
      by_cases h2 : it.slot + 1 < 2 ^ b
      · rw [if_pos h2, if_pos h2, inline_bind, inline_slot]
        show (slotContents base _).bind _ = (slotContents base _).bind _
        congr 1; funext c; exact ih _
      · rw [if_neg h2, if_neg h2]; rfl
    · rw [if_neg h, if_neg h]; rfl

theorem inline_iterAt (base i : Nat) : inline (simpl base) (iterAtC i) = iterAt base i := by
  unfold iterAtC iterAt
  rw [inline_bind, inline_bits]
  show (HashTable.bits base).bind _ = (HashTable.bits base).bind _
  congr 1; funext b
  by_cases h2 : i < 2 ^ b
  · rw [if_pos h2, if_pos h2, inline_bind, inline_slot]
    show (slotContents base _).bind _ = (slotContents base _).bind _
    congr 1; funext c; exact inline_advance _ _ _
  · rw [if_neg h2, if_neg h2]; rfl

theorem inline_end (base : Nat) : inline (simpl base) endC = «end» base := by
  unfold endC «end»
  rw [inline_bind, inline_bits]
  show (HashTable.bits base).bind _ = (HashTable.bits base).bind _
  congr 1; funext b; exact inline_iterAt _ _

theorem inline_next (base : Nat) (it : Iter) : inline (simpl base) (nextC it) = it.next base := by
  unfold nextC Iter.next
  rw [inline_bind, inline_bits]
  show (HashTable.bits base).bind _ = (HashTable.bits base).bind _
  congr 1; funext b
  by_cases h : 2 ^ b ≤ it.slot
  · rw [if_pos h, if_pos h]; rfl
  · rw [if_neg h, if_neg h]; exact inline_advance _ _ _

theorem inline_visit (base : Nat) : ∀ fuel it, inline (simpl base) (visitC fuel it) = visit base fuel it := by
  intro fuel
  induction fuel with
  | zero => intro it; rfl
  | succ fuel ih =>
    intro it
    unfold visitC visit
    rw [inline_bind, inline_end]
    show («end» base).bind _ = («end» base).bind _
    congr 1; funext e
    by_cases h : it.eq e = true
    · rw [if_pos h, if_pos h]; rfl
    · rw [if_neg h, if_neg h, inline_bind, inline_next]
      show (it.next base).bind _ = (it.next base).bind _
      congr 1; funext it'
      rw [inline_bind, ih]
      rfl

/-- the whole iteration -/
theorem inline_items (base : Nat) : inline (simpl base) (itemsC maxNodes) = items base := by
  unfold itemsC items
  rw [inline_bind]
  show (inline (simpl base) (iterAtC 0)).bind _ = (iterAt base 0).bind _
  rw [inline_iterAt]
  congr 1; funext it; exact inline_visit _ _ _

end HashTable
end Verif
