import Verif.Heap
/-
Model of /repo/src/HashTable.{hh,cc}.

Layout (HashTable.hh 110-135, packed): HashTableBase = bits @0, slots_offset @8, item_count @16 (24 bytes).  Slot i = key_offset @16i, key_size @16i+8 in
the slots block.  IndirectValue = next @0, key_offset @8, key_size @16 (24 bytes).  A key-value block holds the key's bytes followed by the value's bytes; the value's
size is block_size - key_size.  Slot.key_offset: 0 = empty; even = key-value block; odd = 1 + offset of the first IndirectValue of a list.

`hash` stands for phosg's fnv1a64: the theorems hold for every function.  bits < 31 throughout (`1 << bits` is an int in the code).
Simplification: pointers into the pool stay valid while the method runs.  In `incr` the code keeps using `slot`, `table`, `existing` and `created` after
calling allocate (lines 192-196, 234-250, 285-290), which is wrong if allocate remaps the pool at another address; `PtrMethods.lean` models that (C69).
All methods hold the lock for their whole body; the lock itself is modelled in `Lock.lean`.
-/
namespace Verif.HashTable
open Verif

/-- fuel for loops along linked lists: more than there are nodes in a 64-bit address space -/
@[irreducible] def maxNodes : Nat := 18446744073709551616

theorem maxNodes_eq : maxNodes = 18446744073709551616 := by unfold maxNodes; rfl

/-- FNV-1a, 64 bits (phosg Hash.cc, used through HashTable.cc 51, 70, …); the theorems do not depend on it, the concrete runs do -/
def fnv1a64 (k : Bytes) : Nat :=
  k.foldl (fun h c => ((h ^^^ c.toNat) * 0x100000001b3) % 2 ^ 64) 0xcbf29ce484222325

/-- slots[x] = {0, 0} for x < n: HashTable.cc 669-673 -/
def zeroSlots (slots : Nat) : Nat → Nat → HProg Unit
  | 0, _ => pure ()
  | n + 1, x => do
    H.wr64 slots (16 * x) 0
    H.wr64 slots (16 * x + 8) 0
    zeroSlots slots n (x + 1)

/-- HashTable::create_hash_base, HashTable.cc 654-676 -/
def createBase (bits : Nat) : HProg Nat :=
  if bits < 2 then .err .invalidArg else do
    let base ← H.alloc 24
    let slots ← H.alloc (16 * 2 ^ bits)
    H.wr64 base 0 bits
    H.wr64 base 8 slots
    H.wr64 base 16 0
    zeroSlots slots (2 ^ bits) 0
    pure base

/-- HashTable::HashTable(allocator, bits), HashTable.cc 13-17 -/
def create (bits : Nat) : HProg Nat := createBase bits

/-- HashTable::HashTable(allocator, base_offset, bits), HashTable.cc 19-36 -/
def openAt (b0 bits : Nat) : HProg Nat := do
  let b ← if b0 = 0 then H.getBase else pure b0
  if b = 0 then do
    let b ← H.getBase
    if b = 0 then do
      let o ← createBase bits
      H.setBase o
      pure o
    else pure b
  else pure b

/-- offset of the slot of key `k` in the slots block: HashTable.cc 86, 185, 308, 426, 706 (hash & ((1 << bits) - 1)) -/
def slotOff (hash : Bytes → Nat) (k : Bytes) (bits : Nat) : Nat := 16 * (hash k % 2 ^ bits)

/-- (key_size == k_size) && !memcmp(key, k, k_size), for the pair key_offset @o, key_size @o+8 in block b: HashTable.cc 102-103, 203-204, 439-440, 684-685, 717-718 -/
def keyMatches (b o : Nat) (k : Bytes) : HProg Bool := do
  let ks ← H.rd64 b (o + 8)
  if ks = k.length then do
    let ko ← H.rd64 b o
    let d ← H.rdB ko 0 k.length
    pure (decide (d = k))
  else pure false

/-- HashTable::walk_indirect_list, HashTable.cc 678-695: (previous, match), 0 for none -/
def walkList (k : Bytes) : Nat → Nat → Nat → HProg (Nat × Nat)
  | 0, _, _ => .ub
  | fuel + 1, prev, cur =>
    if cur = 0 then pure (prev, 0) else do
      let m ← keyMatches cur 8 k
      if m then pure (prev, cur) else do
        let n ← H.rd64 cur 0
        walkList k fuel cur n

/-- where the value of a key is: (key-value block, offset of the value in it, size) -/
abbrev Loc := Nat × Nat × Nat

/-- key_offset + key_size and block_size(key_offset) - key_size: HashTable.cc 719-720, 731-732 -/
def locate (b o : Nat) : HProg Loc := do
  let ko ← H.rd64 b o
  let ks ← H.rd64 b (o + 8)
  let n ← H.bsize ko
  pure (ko, ks, n - ks)

/-- HashTable::walk_tables, HashTable.cc 697-737 -/
def walkTables (hash : Bytes → Nat) (base : Nat) (k : Bytes) : HProg (Option Loc) := do
  let slots ← H.rd64 base 8
  if slots = 0 then pure none else do
    let bits ← H.rd64 base 0
    let ko ← H.rd64 slots (slotOff hash k bits)
    if ko = 0 then pure none
    else if ko % 2 = 0 then do
      let m ← keyMatches slots (slotOff hash k bits) k
      if m then do
        let l ← locate slots (slotOff hash k bits)
        pure (some l)
      else pure none
    else do
      let w ← walkList k maxNodes 0 (ko - 1)
      if w.2 ≠ 0 then do
        let l ← locate w.2 8
        pure (some l)
      else pure none

/-- CheckRequest: a key and the value it must have, `none` = nullptr = the key must be missing (HashTable.hh 42-60) -/
abbrev Check := Bytes × Option Bytes

/-- HashTable::execute_check, HashTable.cc 739-753 -/
def executeCheck (hash : Bytes → Nat) (base : Nat) (c : Check) : HProg Bool := do
  let r ← walkTables hash base c.1
  match r with
  | some (b, o, n) =>
    match c.2 with
    | none => pure false
    | some v =>
      if v.length ≠ n then pure false else do
        let d ← H.rdB b o v.length
        pure (decide (d = v))
  | none => pure c.2.isNone

/-- `if (check && !this->execute_check(*check)) return false;`, HashTable.cc 74-76, 417-419: true = go on -/
def checkOk (hash : Bytes → Nat) (base : Nat) : Option Check → HProg Bool
  | none => pure true
  | some c => executeCheck hash base c

/-- table->item_count++ -/
def bumpCount (base : Nat) : HProg Unit := do
  let n ← H.rd64 base 16
  H.wr64 base 16 (n + 1)

/-- HashTable::insert once the new key-value block `kv` exists and the slot is found, HashTable.cc 89-158; `so` = offset of the slot in `slots` -/
def link (base slots so kv : Nat) (k : Bytes) : HProg Unit := do
  let ko ← H.rd64 slots so
  if ko = 0 then do
    H.wr64 slots so kv
    H.wr64 slots (so + 8) k.length
    bumpCount base
  else if ko % 2 = 0 then do
    let m ← keyMatches slots so k
    if m then do
      let old ← H.rd64 slots so
      H.free old
      H.wr64 slots so kv
      H.wr64 slots (so + 8) k.length
    else do
      let ex ← H.alloc 24
      let cr ← H.alloc 24
      H.wr64 cr 0 0
      H.wr64 cr 8 kv
      H.wr64 cr 16 k.length
      H.wr64 ex 0 cr
      let a ← H.rd64 slots so
      H.wr64 ex 8 a
      let b ← H.rd64 slots (so + 8)
      H.wr64 ex 16 b
      H.wr64 slots so (ex + 1)
      H.wr64 slots (so + 8) 0
      bumpCount base
  else do
    let w ← walkList k maxNodes 0 (ko - 1)
    if w.2 ≠ 0 then do
      let old ← H.rd64 w.2 8
      H.free old
      H.wr64 w.2 8 kv
      H.wr64 w.2 16 k.length
    else do
      let cr ← H.alloc 24
      H.wr64 w.1 0 cr
      H.wr64 cr 0 0
      H.wr64 cr 8 kv
      H.wr64 cr 16 k.length
      bumpCount base

/-- HashTable::insert, HashTable.cc 68-159 -/
def insert (hash : Bytes → Nat) (base : Nat) (k v : Bytes) (c : Option Check) : HProg Bool := do
  let go ← checkOk hash base c
  if go then do
    let kv ← H.alloc (k.length + v.length)
    H.wrB kv 0 k
    H.wrB kv k.length v
    let slots ← H.rd64 base 8
    let bits ← H.rd64 base 0
    link base slots (slotOff hash k bits) kv k
    pure true
  else pure false

/-- what the two versions of incr differ in: the sizes they accept, how an integer of n bytes is updated, what is returned, and the 8 bytes stored for a new key -/
structure Num (R : Type) where
  sizes : List Nat
  upd : Nat → Nat → Nat
  out : Nat → Nat → R
  init : Nat
  initOut : R

/-- incr(int64_t delta): HashTable.cc 208-223, 260-275; the value is sign-extended when returned -/
def intNum (d : BitVec 64) : Num (BitVec 64) where
  sizes := [1, 2, 4, 8]
  upd n old := (old + d.toNat) % 256 ^ n
  out n new := (BitVec.ofNat (8 * n) new).signExtend 64
  init := d.toNat
  initOut := d

/-- incr(double delta): HashTable.cc 331-339, 377-385; floating-point addition is a parameter (add n old delta = the stored n bytes, widen = conversion to double) -/
def dblNum (add : Nat → Nat → BitVec 64 → Nat) (widen : Nat → Nat → BitVec 64) (d : BitVec 64) : Num (BitVec 64) where
  sizes := [4, 8]
  upd n old := add n old d
  out n new := widen n new
  init := d.toNat
  initOut := d

variable {R : Type}

/-- update the integer of size n at (b, o): HashTable.cc 208-223 etc. -/
def bump (N : Num R) (b o n : Nat) : HProg R :=
  if n ∈ N.sizes then do
    let x ← H.rd b o n
    H.wr b o n (N.upd n x)
    let y ← H.rd b o n
    pure (N.out n y)
  else .err .outOfRange

/-- allocate a key-value block, put its offset at (b, o), write key and 8-byte value: HashTable.cc 191-195, 235-238, 288-291 -/
def newNum (N : Num R) (b o : Nat) (k : Bytes) : HProg Unit := do
  let kv ← H.alloc (k.length + 8)
  H.wr64 b o kv
  H.wrB kv 0 k
  H.wr kv k.length 8 N.init
  H.wr64 b (o + 8) k.length

/-- HashTable::incr, HashTable.cc 176-297 (int64_t) and 303-402 (double).  In the branch for a match in a list, the code computes the address of the value as
key_offset + key_offset (lines 258, 376): here, offset `ko` inside block `ko`. -/
def incr (hash : Bytes → Nat) (base : Nat) (k : Bytes) (N : Num R) : HProg R := do
  let slots ← H.rd64 base 8
  let bits ← H.rd64 base 0
  let ko ← H.rd64 slots (slotOff hash k bits)
  if ko = 0 then do
    newNum N slots (slotOff hash k bits) k
    bumpCount base
    pure N.initOut
  else if ko % 2 = 0 then do
    let m ← keyMatches slots (slotOff hash k bits) k
    if m then do
      let l ← locate slots (slotOff hash k bits)
      bump N l.1 l.2.1 l.2.2
    else do
      let ex ← H.alloc 24
      let cr ← H.alloc 24
      H.wr64 cr 0 0
      newNum N cr 8 k
      H.wr64 ex 0 cr
      let a ← H.rd64 slots (slotOff hash k bits)
      H.wr64 ex 8 a
      let b ← H.rd64 slots (slotOff hash k bits + 8)
      H.wr64 ex 16 b
      H.wr64 slots (slotOff hash k bits) (ex + 1)
      H.wr64 slots (slotOff hash k bits + 8) 0
      bumpCount base
      pure N.initOut
  else do
    let w ← walkList k maxNodes 0 (ko - 1)
    if w.2 ≠ 0 then do
      let l ← locate w.2 8
      bump N l.1 l.1 l.2.2
    else do
      let cr ← H.alloc 24
      H.wr64 w.1 0 cr
      H.wr64 cr 0 0
      newNum N cr 8 k
      bumpCount base
      pure N.initOut

/-- table->item_count-- -/
def dropCount (base : Nat) : HProg Unit := do
  let n ← H.rd64 base 16
  H.wr64 base 16 (n + 18446744073709551615)

/-- the block and the offset in it that p->at<IndirectValue>(v) points at: an odd v is one byte into the block -/
def oddBlk (v : Nat) : Nat := v - v % 2

/-- HashTable.cc 474-481: "if there is now only one indirect value, convert it to a direct value".  slot->key_offset is used without removing its low bit. -/
def unchain (slots so : Nat) : HProg Unit := do
  let io ← H.rd64 slots so
  if io ≠ 0 then do
    let nx ← H.rd64 (oddBlk io) (io % 2)
    if nx = 0 then do
      let a ← H.rd64 (oddBlk io) (io % 2 + 8)
      H.wr64 slots so a
      let b ← H.rd64 (oddBlk io) (io % 2 + 16)
      H.wr64 slots (so + 8) b
      H.free io
    else pure ()
  else pure ()

/-- HashTable.cc 460-466: unlink IndirectValue `cur`.  For the first of the list the slot gets `next` without its low bit set. -/
def unlinkIv (slots so prev cur : Nat) : HProg Unit := do
  let nx ← H.rd64 cur 0
  if prev ≠ 0 then H.wr64 prev 0 nx
  else H.wr64 slots so nx

/-- HashTable::erase, HashTable.cc 412-489 -/
def erase (hash : Bytes → Nat) (base : Nat) (k : Bytes) (c : Option Check) : HProg Bool := do
  let go ← checkOk hash base c
  if go then do
    let slots ← H.rd64 base 8
    let bits ← H.rd64 base 0
    let ko ← H.rd64 slots (slotOff hash k bits)
    if ko = 0 then pure false
    else if ko % 2 = 0 then do
      let m ← keyMatches slots (slotOff hash k bits) k
      if m then do
        let old ← H.rd64 slots (slotOff hash k bits)
        H.free old
        H.wr64 slots (slotOff hash k bits) 0
        H.wr64 slots (slotOff hash k bits + 8) 0
        dropCount base
        pure true
      else pure false
    else do
      let w ← walkList k maxNodes 0 (ko - 1)
      if w.2 ≠ 0 then do
        unlinkIv slots (slotOff hash k bits) w.1 w.2
        let old ← H.rd64 w.2 8
        H.free old
        H.free w.2
        unchain slots (slotOff hash k bits)
        dropCount base
        pure true
      else pure false
  else pure false

/-- free a list of indirect values: HashTable.cc 510-518 -/
def freeChain : Nat → Nat → HProg Unit
  | 0, _ => .ub
  | fuel + 1, cur =>
    if cur = 0 then pure () else do
      let nx ← H.rd64 cur 0
      let ko ← H.rd64 cur 8
      H.free ko
      H.free cur
      freeChain fuel nx

/-- the body of the if/else in HashTable::clear that frees what a slot refers to, HashTable.cc 508-523 -/
def freeSlot (ko : Nat) : HProg Unit :=
  if ko % 2 = 1 then freeChain maxNodes (ko - 1) else H.free ko

/-- one iteration of the loop of HashTable::clear: empty slot number x, HashTable.cc 503-528 -/
def clearSlot (slots x : Nat) : HProg Unit := do
  let ko ← H.rd64 slots (16 * x)
  if ko = 0 then pure () else do
    freeSlot ko
    H.wr64 slots (16 * x) 0
    H.wr64 slots (16 * x + 8) 0

/-- the loop of HashTable::clear over the slots, HashTable.cc 502-529 -/
def clearLoop (base : Nat) : Nat → Nat → HProg Unit
  | 0, _ => .ub
  | fuel + 1, x => do
    let bits ← H.rd64 base 0
    if x < 2 ^ bits then do
      let slots ← H.rd64 base 8
      clearSlot slots x
      clearLoop base fuel (x + 1)
    else pure ()

/-- HashTable::clear, HashTable.cc 495-533 -/
def clear (base : Nat) : HProg Unit := do
  clearLoop base maxNodes 0
  H.wr64 base 16 0

/-- HashTable::exists, HashTable.cc 535-541 -/
def exist (hash : Bytes → Nat) (base : Nat) (k : Bytes) : HProg Bool := do
  let r ← walkTables hash base k
  pure r.isSome

/-- HashTable::at, HashTable.cc 547-558 -/
def «at» (hash : Bytes → Nat) (base : Nat) (k : Bytes) : HProg Bytes := do
  let r ← walkTables hash base k
  match r with
  | some (b, o, n) => do
    let d ← H.rdB b o n
    pure d
  | none => .err .outOfRange

/-- the key and the value of the pair key_offset @o, key_size @o+8 in block b: HashTable.cc 582-585, 594-597 -/
def readPair (b o : Nat) : HProg (Bytes × Bytes) := do
  let ko ← H.rd64 b o
  let ks ← H.rd64 b (o + 8)
  let n ← H.bsize ko
  let k ← H.rdB ko 0 ks
  let v ← H.rdB ko ks (n - ks)
  pure (k, v)

/-- HashTable.cc 589-598 -/
def readChain : Nat → Nat → HProg (List (Bytes × Bytes))
  | 0, _ => .ub
  | fuel + 1, cur =>
    if cur = 0 then pure [] else do
      let e ← readPair cur 8
      let nx ← H.rd64 cur 0
      let l ← readChain fuel nx
      pure (e :: l)

/-- HashTable::get_slot_contents, HashTable.cc 564-602 -/
def slotContents (base i : Nat) : HProg (List (Bytes × Bytes)) := do
  let slots ← H.rd64 base 8
  let ko ← H.rd64 slots (16 * i)
  if ko = 0 then pure []
  else if ko % 2 = 0 then do
    let e ← readPair slots (16 * i)
    pure [e]
  else readChain maxNodes (ko - 1)

/-- HashTable::size, HashTable.cc 612-615 -/
def size (base : Nat) : HProg Nat := do
  let n ← H.rd64 base 16
  pure n

/-- HashTable::bits, HashTable.cc 617-620; the result is a uint8_t -/
def bits (base : Nat) : HProg Nat := do
  let n ← H.rd64 base 0
  pure (n % 256)

/-- HashTableIterator: slot_index, result_index, slot_contents (HashTable.hh 144-168) -/
structure Iter where
  slot : Nat
  res : Nat
  cont : List (Bytes × Bytes)
  deriving DecidableEq

/-- HashTableIterator::advance_to_nonempty_slot_if_needed, HashTable.cc 807-819 -/
def advance (base : Nat) : Nat → Iter → HProg Iter
  | 0, _ => .ub
  | fuel + 1, it =>
    if it.cont.length ≤ it.res then do
      let b ← bits base
      if it.slot + 1 < 2 ^ b then do
        let c ← slotContents base (it.slot + 1)
        advance base fuel ⟨it.slot + 1, 0, c⟩
      else pure ⟨it.slot + 1, 0, []⟩
    else pure it

/-- HashTableIterator::HashTableIterator(table, slot_index), HashTable.cc 755-765 -/
def iterAt (base i : Nat) : HProg Iter := do
  let b ← bits base
  if i < 2 ^ b then do
    let c ← slotContents base i
    advance base maxNodes ⟨i, 0, c⟩
  else pure ⟨i, 0, []⟩

/-- HashTable::begin, HashTable.cc 604-606 -/
def begin (base : Nat) : HProg Iter := iterAt base 0

/-- HashTable::end, HashTable.cc 608-610 -/
def «end» (base : Nat) : HProg Iter := do
  let b ← bits base
  iterAt base (2 ^ b)

/-- HashTableIterator::operator==, HashTable.cc 767-782, for two iterators of the same table -/
def Iter.eq (a b : Iter) : Bool :=
  if a.slot ≠ b.slot then false
  else if decide (a.cont.length ≤ a.res) ≠ decide (b.cont.length ≤ b.res) then false
  else if a.cont.length ≤ a.res then true
  else decide ((a.cont.getD a.res ([], [])).1 = (b.cont.getD b.res ([], [])).1)

/-- HashTableIterator::operator++, HashTable.cc 788-801 -/
def Iter.next (base : Nat) (it : Iter) : HProg Iter := do
  let b ← bits base
  if 2 ^ b ≤ it.slot then .err .invalidArg
  else advance base maxNodes (if it.res < it.cont.length then { it with res := it.res + 1 } else it)

/-- for (it = begin; it != end; ++it) visit(*it): the loop a caller writes; returns what was visited -/
def visit (base : Nat) : Nat → Iter → HProg (List (Bytes × Bytes))
  | 0, _ => .ub
  | fuel + 1, it => do
    let e ← «end» base
    if it.eq e then pure [] else do
      let it' ← it.next base
      let l ← visit base fuel it'
      pure (it.cont.getD it.res ([], []) :: l)

/-- for (const auto& it : table) … -/
def items (base : Nat) : HProg (List (Bytes × Bytes)) := do
  let it ← begin base
  visit base maxNodes it

end Verif.HashTable
