import Verif.Heap
/-
Model of /repo/src/PrefixTree.{hh,cc}.

Layout (PrefixTree.hh 219-297, packed): TreeBase = item_count @0, node_count @8, root Node @16.  Node = start (1 byte) @0, end (1 byte) @1, parent_slot (1 byte) @2,
value @8, children[end - start + 1] @16.  The root node has start 0 and end 0xFF, so the base block has 16 + 16 + 2048 bytes.

A slot (a node's value field or one of its children) holds a 64-bit word; its low 3 bits are a type: 0 SUBNODE (0 = empty slot), 1 STRING, 2 INT, 3 LONG_INT, 4 DOUBLE,
5 TRIVIAL, 6 SHORT_STRING (PrefixTree.hh 241-286).

Addresses: the code's node_offset and value_slot_offset are offsets in the pool; here they are pairs (block, offset inside the block).  Only the root node is not at the
start of its block.
Simplifications: a field that the code reads several times from memory that the method has not written since is read once; pointers stay valid while a method runs (traverse
re-reads `node` after allocate, 987, 1048; `p` itself is a shared_ptr<Pool> whose at() uses the current mapping), see `PtrMethods.lean`.  A recursion deeper than the C++ stack allows is not modelled.
Doubles are bit patterns; the only floating-point operations are comparison with 0.0, ==, and +, of which + is a parameter.
All methods hold the lock for their whole body (except the iterator functions, which are several calls); the lock itself is modelled in `Lock.lean`.
-/
namespace Verif.PrefixTree
open Verif

/-- fuel for loops and recursions in trees: more than there are slots in a 64-bit address space -/
@[irreducible] def maxSteps : Nat := 340282366920938463463374607431768211456

theorem maxSteps_eq : maxSteps = 340282366920938463463374607431768211456 := by unfold maxSteps; rfl

/-- address of a node or a slot: block, offset inside it -/
abbrev Addr := Nat × Nat

/-- a value as the API sees it: LookupResult without monostate and without the (pointer, size) form, PrefixTree.hh 49-68 -/
inductive Val
  | str (v : Bytes)
  | int (v : BitVec 64)
  | dbl (bits : BitVec 64)
  | bool (b : Bool)
  | null
  deriving DecidableEq

/-- v == 0.0 for the double with these bits (IEEE 754: +0.0 and -0.0) -/
def isZero (d : BitVec 64) : Bool := d = 0#64 || d = 9223372036854775808#64

/-- the double with these bits is a NaN -/
def isNaN (d : BitVec 64) : Bool := 9218868437227405312 < d.toNat % 9223372036854775808

/-- C++ == on doubles -/
def dblEq (a b : BitVec 64) : Bool := !isNaN a && !isNaN b && (a = b || (isZero a && isZero b))

/-- PrefixTree::type_for_contents, PrefixTree.cc 1444-1446: s & 7 -/
def typeOf (c : Nat) : Nat := c % 8

/-- PrefixTree::value_for_contents, PrefixTree.cc 1432-1434: s & ~7 -/
def valOf (c : Nat) : Nat := c - c % 8

/-- PrefixTree::int_value_for_contents, PrefixTree.cc 1436-1442 -/
def intOf (c : Nat) : BitVec 64 :=
  let v := (BitVec.ofNat 64 (valOf c)) >>> 3
  if v &&& 0x1000000000000000#64 ≠ 0#64 then v ||| 0xE000000000000000#64 else v

/-- "the high 4 bits of the value match": PrefixTree.cc 211-212, 391-392 -/
def fits (v : BitVec 64) : Bool :=
  let hb := (v.sshiftRight 60) &&& 0x0F#64
  hb = 0x00#64 || hb = 0x0F#64

/-- (v << 3) | INT: PrefixTree.cc 213, 396 -/
def intWord (v : BitVec 64) : Nat := ((v <<< 3) ||| 2#64).toNat

/-- the data bytes of a SHORT_STRING: value |= v[x] << shift, with shift = 56, 48, …: PrefixTree.cc 102-104 -/
def packBytes : Nat → Nat → Bytes → Nat
  | w, _, [] => w
  | w, shift, b :: bs => packBytes (w ||| (b.toNat <<< shift)) (shift - 8) bs

/-- (v_size << 3) | SHORT_STRING and the data: PrefixTree.cc 101-105 -/
def shortWord (v : Bytes) : Nat := packBytes ((v.length <<< 3) ||| 6) 56 v

/-- data[z] = (contents >> shift) & 0xFF: PrefixTree.cc 1240-1242 -/
def unpackBytes (c : Nat) : Nat → Nat → Bytes
  | 0, _ => []
  | n + 1, shift => UInt8.ofNat ((c >>> shift) &&& 0xFF) :: unpackBytes c n (shift - 8)

/-- children[x] = 0 for `n` values of x from `x` on, children at offset `o` of block b: PrefixTree.cc 868-870 -/
def zeroSlots (b o : Nat) : Nat → Nat → HProg Unit
  | 0, _ => pure ()
  | n + 1, x => do
    H.wr64 b (o + 8 * x) 0
    zeroSlots b o n (x + 1)

/-- allocate_object<TreeBase>: PrefixTree.cc 20-21, 37-38; TreeBase::TreeBase 891-894, Node::Node 862-872 -/
def createBase : HProg Nat := do
  let b ← H.alloc 2080
  H.wr64 b 0 0
  H.wr64 b 8 1
  H.wr8 b 16 0
  H.wr8 b 17 255
  H.wr8 b 18 0
  H.wr64 b 24 0
  zeroSlots b 32 256 0
  pure b

/-- PrefixTree::PrefixTree(allocator), PrefixTree.cc 16-22 -/
def create : HProg Nat := createBase

/-- PrefixTree::PrefixTree(allocator, base_offset), PrefixTree.cc 24-42 -/
def openAt (b0 : Nat) : HProg Nat := do
  let b ← if b0 = 0 then H.getBase else pure b0
  if b = 0 then do
    let b ← H.getBase
    if b = 0 then do
      let o ← createBase
      H.setBase o
      pure o
    else pure b
  else pure b

/-- increment_item_count(1), (-1): PrefixTree.cc 896-898 -/
def addItems (base d : Nat) : HProg Unit := do
  let n ← H.rd64 base 0
  H.wr64 base 0 (n + d)

/-- increment_node_count(1), (-1): PrefixTree.cc 900-902 -/
def addNodes (base d : Nat) : HProg Unit := do
  let n ← H.rd64 base 8
  H.wr64 base 8 (n + d)

/-- -1 as a 64-bit integer -/
notation "minusOne" => (18446744073709551615 : Nat)

/-- the root node: base_offset + offsetof(TreeBase, root) -/
def root (base : Nat) : Addr := (base, 16)

/-- address of the child slot of byte `b` in a node whose start is `s` -/
def slotOf (nd : Addr) (s b : Nat) : Addr := (nd.1, nd.2 + 16 + 8 * (b - s))

/-- where the first loop of traverse ends: at a value in a slot, at a node after the last byte, or at a node that has no way on for byte `b` (the rest of the key is `k`).
`ns` = t.node_offsets, last first. -/
inductive Fol
  | val (slot : Addr) (ns : List Addr)
  | node (par nd : Addr) (ns : List Addr)
  | stuck (par nd : Addr) (ns : List Addr) (b : UInt8) (k : Bytes)

/-- "Follow links to the leaf node", PrefixTree.cc 924-957 -/
def follow : Bytes → Addr → Addr → List Addr → HProg Fol
  | [], par, nd, ns => pure (.node par nd ns)
  | b :: k, par, nd, ns => do
    let s ← H.rd8 nd.1 nd.2
    let e ← H.rd8 nd.1 (nd.2 + 1)
    if b.toNat < s ∨ e < b.toNat then pure (.stuck par nd ns b k)
    else do
      let c ← H.rd64 (slotOf nd s b.toNat).1 (slotOf nd s b.toNat).2
      if c = 0 then pure (.stuck par nd ns b k)
      else if typeOf c ≠ 0 then
        (if k = [] then pure (.val (slotOf nd s b.toNat) ns) else pure (.stuck par nd ns b k))
      else follow k nd (c, 0) ((c, 0) :: ns)

/-- PrefixTree::traverse with return_values_only and not create, PrefixTree.cc 904-977: value slot (if any) and nodes on the path, last first -/
def traverse (base : Nat) (k : Bytes) : HProg (Option Addr × List Addr) := do
  let f ← follow k (0, 0) (root base) [root base]
  match f with
  | .val a ns => pure (some a, ns)
  | .node _ nd ns => pure (some (nd.1, nd.2 + 8), ns)
  | .stuck _ _ ns _ _ => pure (none, ns)

/-- PrefixTree::traverse without return_values_only and without create (used by bytes_for_prefix and nodes_for_prefix): the slot that holds the value or the node
of the prefix; PrefixTree.cc 904-977 -/
def traverseSlot (base : Nat) (k : Bytes) : HProg (Option Addr) :=
  match k.getLast? with
  | none => .err .invalidArg
  | some l => do
    let f ← follow k (0, 0) (root base) [root base]
    match f with
    | .val a _ => pure (some a)
    | .node par _ _ => do
      let s ← H.rd8 par.1 par.2
      pure (some (slotOf par s l.toNat))
    | .stuck .. => pure none

/-- copy `n` children from byte value `x` on, from the node `old` (start `os`) to the node `new` (start `ns`): PrefixTree.cc 1011-1014, 1017-1020 -/
def copySlots (old new : Addr) (os ns : Nat) : Nat → Nat → HProg Unit
  | 0, _ => pure ()
  | n + 1, x => do
    let c ← H.rd64 (slotOf old os x).1 (slotOf old os x).2
    H.wr64 (slotOf new ns x).1 (slotOf new ns x).2 c
    copySlots old new os ns n (x + 1)

/-- the children of the new node: PrefixTree.cc 1003-1024; `lo` = extend_start -/
def fillSlots (nd : Addr) (o s e s' e' : Nat) (lo : Bool) : HProg Unit :=
  if lo then do
    zeroSlots o 16 (s - s') 0
    copySlots nd (o, 0) s s' (e + 1 - s) s
  else do
    copySlots nd (o, 0) s s' (e + 1 - s) s
    zeroSlots o 16 (e' - e) (e + 1 - s)

/-- replace node `nd` by a node with the range s'..e' (allocation, copy, link in the parent, free), PrefixTree.cc 991-1032 -/
def regrow (par nd : Addr) (s e s' e' : Nat) (lo : Bool) : HProg Addr := do
  let ps ← H.rd8 nd.1 (nd.2 + 2)
  let v ← H.rd64 nd.1 (nd.2 + 8)
  let o ← H.alloc (16 + 8 * (e' - s' + 1))
  H.wr8 o 0 s'
  H.wr8 o 1 e'
  H.wr8 o 2 ps
  H.wr64 o 8 v
  fillSlots nd o s e s' e' lo
  let t ← H.rd8 par.1 par.2
  H.wr64 (slotOf par t ps).1 (slotOf par t ps).2 o
  H.free nd.1
  pure (o, 0)

/-- "check if the current node has enough available range, and replace it if not", PrefixTree.cc 983-1039 -/
def extend (par nd : Addr) (b : Nat) : HProg Addr := do
  let s ← H.rd8 nd.1 nd.2
  let e ← H.rd8 nd.1 (nd.2 + 1)
  if b < s then regrow par nd s e b e true
  else if e < b then regrow par nd s e s b false
  else pure nd

/-- "we'll create all the nodes we need", PrefixTree.cc 1041-1069: nodes for all bytes but the last; returns the slot of the last byte -/
def chain (base : Nat) : Addr → UInt8 → Bytes → HProg Addr
  | nd, b, [] => do
    let s ← H.rd8 nd.1 nd.2
    pure (slotOf nd s b.toNat)
  | nd, b, b' :: k => do
    let s ← H.rd8 nd.1 nd.2
    let v ← H.rd64 (slotOf nd s b.toNat).1 (slotOf nd s b.toNat).2
    let o ← H.alloc 24
    H.wr8 o 0 b'.toNat
    H.wr8 o 1 b'.toNat
    H.wr8 o 2 b.toNat
    H.wr64 o 8 v
    H.wr64 o 16 0
    H.wr64 (slotOf nd s b.toNat).1 (slotOf nd s b.toNat).2 o
    addNodes base 1
    chain base (o, 0) b' k

/-- PrefixTree::traverse with return_values_only and create, PrefixTree.cc 904-1070: the value slot of the key -/
def traverseCreate (base : Nat) (k : Bytes) : HProg Addr := do
  let f ← follow k (0, 0) (root base) [root base]
  match f with
  | .val a _ => pure a
  | .node _ nd _ => pure (nd.1, nd.2 + 8)
  | .stuck par nd _ b k => do
    let nd' ← extend par nd b.toNat
    chain base nd' b k

/-- free the buffer of a STRING, LONG_INT or DOUBLE if it has one, PrefixTree.cc 1313-1318 -/
def freeBuf (o : Nat) : HProg Unit := if o ≠ 0 then H.free o else pure ()

/-- f(value slot), f(children[0]), …: the loop of PrefixTree::clear_node, PrefixTree.cc 1278-1282 -/
def eachSlot (f : Addr → HProg Unit) (nd : Addr) : Nat → Nat → HProg Unit
  | 0, _ => pure ()
  | n + 1, x => do
    f (nd.1, nd.2 + 16 + 8 * x)
    eachSlot f nd n (x + 1)

/-- PrefixTree::clear_node, PrefixTree.cc 1274-1283, with `f` = clear_value_slot -/
def clearNodeWith (f : Addr → HProg Unit) (nd : Addr) : HProg Unit := do
  f (nd.1, nd.2 + 8)
  let s ← H.rd8 nd.1 nd.2
  let e ← H.rd8 nd.1 (nd.2 + 1)
  eachSlot f nd (e + 1 - s) 0

/-- PrefixTree::clear_value_slot, PrefixTree.cc 1285-1329 -/
def clearSlot (base : Nat) : Nat → Addr → HProg Unit
  | 0, _ => .ub
  | fuel + 1, a => do
    let c ← H.rd64 a.1 a.2
    if c = 0 then pure ()
    else if typeOf c = 0 then do
      clearNodeWith (clearSlot base fuel) (valOf c, 0)
      H.wr64 a.1 a.2 0
      H.free (valOf c)
      addNodes base minusOne
    else if typeOf c = 1 ∨ typeOf c = 3 ∨ typeOf c = 4 then do
      H.wr64 a.1 a.2 0
      freeBuf (valOf c)
      addItems base minusOne
    else if typeOf c = 7 then pure ()
    else do
      H.wr64 a.1 a.2 0
      addItems base minusOne

/-- PrefixTree::clear, PrefixTree.cc 541-544 -/
def clear (base : Nat) : HProg Unit := clearNodeWith (clearSlot base maxSteps) (root base)

/-- PrefixTree::lookup_result_for_contents, PrefixTree.cc 1222-1272 -/
def lookup (c : Nat) : HProg Val :=
  if typeOf c = 0 then .err .outOfRange
  else if typeOf c = 1 then
    (if valOf c ≠ 0 then do
      let n ← H.bsize (valOf c)
      let d ← H.rdB (valOf c) 0 n
      pure (.str d)
    else pure (.str []))
  else if typeOf c = 6 then pure (.str (unpackBytes c ((c >>> 3) &&& 7) 56))
  else if typeOf c = 2 then pure (.int (intOf c))
  else if typeOf c = 3 then do
    let x ← H.rd64 (valOf c) 0
    pure (.int (BitVec.ofNat 64 x))
  else if typeOf c = 4 then
    (if valOf c = 0 then pure (.dbl 0#64) else do
      let x ← H.rd64 (valOf c) 0
      pure (.dbl (BitVec.ofNat 64 x)))
  else if typeOf c = 5 then
    (if valOf c >>> 3 = 2 then pure .null else pure (.bool (decide (valOf c >>> 3 ≠ 0))))
  else .err .invalidArg

/-- the value of a CheckRequest: LookupResult, PrefixTree.hh 49-68 (monostate; a value; a (pointer, size) pair) -/
inductive CVal
  | missing
  | val (v : Val)
  | ref (d : Bytes)
  deriving DecidableEq

/-- CheckRequest, PrefixTree.hh 72-90 -/
abbrev Check := Bytes × CVal

/-- == on two values of the variant LookupResult: same alternative and equal contents -/
def valEq : Val → Val → Bool
  | .dbl a, .dbl b => dblEq a b
  | a, b => a = b

/-- existing_result == check.value, PrefixTree.cc 1092: `none` = monostate -/
def cmp : Option Val → CVal → Bool
  | none, .missing => true
  | some v, .val w => valEq v w
  | _, _ => false

/-- PrefixTree::execute_check, PrefixTree.cc 1081-1093 -/
def executeCheck (base : Nat) (c : Check) : HProg Bool := do
  let t ← traverse base c.1
  match t.1 with
  | none => pure (cmp none c.2)
  | some a => do
    let w ← H.rd64 a.1 a.2
    if w ≠ 0 then do
      let v ← lookup w
      pure (cmp (some v) c.2)
    else pure (cmp none c.2)

/-- `if (check && !this->execute_check(*check)) return false;`: true = go on -/
def checkOk (base : Nat) : Option Check → HProg Bool
  | none => pure true
  | some c => executeCheck base c

/-- the word to store for a value that is not a double, allocating its buffer if it needs one: PrefixTree.cc 93-113 (string), 209-221 (int64_t), 299-302 (bool), 324-326 (null) -/
def makeWord : Val → HProg Nat
  | .str v =>
    if v.length = 0 then pure 1
    else if v.length < 8 then pure (shortWord v)
    else do
      let o ← H.alloc v.length
      H.wrB o 0 v
      pure (o ||| 1)
  | .int v =>
    if fits v then pure (intWord v)
    else do
      let o ← H.alloc 8
      H.wr64 o 0 v.toNat
      pure (o ||| 3)
  | .bool b => pure (((if b then 1 else 0) <<< 3) ||| 5)
  | .null => pure ((2 <<< 3) ||| 5)
  | .dbl _ => .ub

/-- insert of a string, integer, bool or null once its slot is known: PrefixTree.cc 91-116, 207-224, 297-305, 322-329 -/
def storeVal (base : Nat) (a : Addr) (v : Val) : HProg Unit := do
  clearSlot base maxSteps a
  let w ← makeWord v
  H.wr64 a.1 a.2 w
  addItems base 1

/-- insert of a double once its slot is known: PrefixTree.cc 246-279 -/
def storeDbl (base : Nat) (a : Addr) (d : BitVec 64) : HProg Unit := do
  let c ← H.rd64 a.1 a.2
  if isZero d then do
    clearSlot base maxSteps a
    H.wr64 a.1 a.2 4
    addItems base 1
  else if (typeOf c = 4 ∨ typeOf c = 3) ∧ c ≠ 4 then do
    H.wr64 (valOf c) 0 d.toNat
    if typeOf c = 3 then H.wr64 a.1 a.2 (valOf c ||| 4) else pure ()
  else do
    let o ← H.alloc 8
    H.wr64 o 0 d.toNat
    clearSlot base maxSteps a
    H.wr64 a.1 a.2 (o ||| 4)
    addItems base 1

/-- store a value of any type in its slot -/
def store (base : Nat) (a : Addr) : Val → HProg Unit
  | .dbl d => storeDbl base a d
  | v => storeVal base a v

/-- PrefixTree::insert, PrefixTree.cc 78-117 (string), 194-225 (int64_t), 232-280 (double), 286-305 (bool), 311-329 (null) -/
def insert (base : Nat) (k : Bytes) (v : Val) (c : Option Check) : HProg Bool := do
  let go ← checkOk base c
  if go then do
    let a ← traverseCreate base k
    store base a v
    pure true
  else pure false

/-- the slot of an integer after incr, and its buffer: PrefixTree.cc 390-414; `t` = old type, `c` = old contents -/
def storeIncr (a : Addr) (c : Nat) (v : BitVec 64) : HProg Unit :=
  if fits v then do
    H.wr64 a.1 a.2 (intWord v)
    if typeOf c = 3 then H.free (valOf c) else pure ()
  else if typeOf c = 3 then H.wr64 (valOf c) 0 v.toNat
  else do
    let o ← H.alloc 8
    H.wr64 o 0 v.toNat
    H.wr64 a.1 a.2 (o ||| 3)

/-- PrefixTree::incr(int64_t), PrefixTree.cc 361-417 -/
def incrInt (base : Nat) (k : Bytes) (d : BitVec 64) : HProg (BitVec 64) := do
  let a ← traverseCreate base k
  let c ← H.rd64 a.1 a.2
  if typeOf c = 2 then do
    storeIncr a c (intOf c + d)
    pure (intOf c + d)
  else if typeOf c = 3 then do
    let x ← H.rd64 (valOf c) 0
    storeIncr a c (BitVec.ofNat 64 x + d)
    pure (BitVec.ofNat 64 x + d)
  else if c = 0 then do
    addItems base 1
    storeIncr a c (0#64 + d)
    pure (0#64 + d)
  else .err .outOfRange

/-- PrefixTree::incr(double) on a DOUBLE with buffer `o` (0 = none) and value x, PrefixTree.cc 440-461 -/
def storeIncrDbl (a : Addr) (o : Nat) (x : BitVec 64) : HProg Unit :=
  if isZero x then do
    H.wr64 a.1 a.2 4
    freeBuf o
  else if o ≠ 0 then H.wr64 o 0 x.toNat
  else do
    let o ← H.alloc 8
    H.wr64 o 0 x.toNat
    H.wr64 a.1 a.2 (o ||| 4)

/-- the bits of the double 4.0, which PrefixTree.cc 466 stores instead of the word 4: `*p->at<double>(slot) = (uint64_t)StoredValueType::DOUBLE` -/
notation "fourPointZero" => (4616189618054758400 : Nat)

/-- PrefixTree::incr(double), PrefixTree.cc 423-481; `add` = floating-point addition -/
def incrDbl (add : BitVec 64 → BitVec 64 → BitVec 64) (base : Nat) (k : Bytes) (d : BitVec 64) : HProg (BitVec 64) := do
  let a ← traverseCreate base k
  let c ← H.rd64 a.1 a.2
  if typeOf c = 4 then
    (if valOf c = 0 then do
      storeIncrDbl a 0 (add 0#64 d)
      pure (add 0#64 d)
    else do
      let x ← H.rd64 (valOf c) 0
      storeIncrDbl a (valOf c) (add (BitVec.ofNat 64 x) d)
      pure (add (BitVec.ofNat 64 x) d))
  else if c = 0 then
    (if isZero d then do
      H.wr64 a.1 a.2 fourPointZero
      addItems base 1
      pure d
    else do
      let o ← H.alloc 8
      H.wr64 o 0 d.toNat
      H.wr64 a.1 a.2 (o ||| 4)
      addItems base 1
      pure d)
  else .err .outOfRange

/-- Node::has_children, PrefixTree.cc 874-881: a nonzero word among `n` children from `x` on -/
def hasChildren (nd : Addr) : Nat → Nat → HProg Bool
  | 0, _ => pure false
  | n + 1, x => do
    let c ← H.rd64 nd.1 (nd.2 + 16 + 8 * x)
    if c ≠ 0 then pure true else hasChildren nd n (x + 1)

/-- "Delete all empty nodes on the path", PrefixTree.cc 506-532; nodes last first -/
def prune (base : Nat) : List Addr → HProg Unit
  | nd :: par :: st => do
    let s ← H.rd8 nd.1 nd.2
    let e ← H.rd8 nd.1 (nd.2 + 1)
    let has ← hasChildren nd (e + 1 - s) 0
    if has then pure ()
    else do
      let ps ← H.rd8 nd.1 (nd.2 + 2)
      let t ← H.rd8 par.1 par.2
      let v ← H.rd64 nd.1 (nd.2 + 8)
      H.wr64 (slotOf par t ps).1 (slotOf par t ps).2 v
      H.free nd.1
      addNodes base minusOne
      if v ≠ 0 then pure () else prune base (par :: st)
  | _ => pure ()

/-- PrefixTree::erase, PrefixTree.cc 487-535 -/
def erase (base : Nat) (k : Bytes) (c : Option Check) : HProg Bool := do
  let go ← checkOk base c
  if go then do
    let t ← traverse base k
    match t.1 with
    | none => pure false
    | some a => do
      clearSlot base maxSteps a
      prune base t.2
      pure true
  else pure false

/-- PrefixTree::insert(LookupResult), PrefixTree.cc 335-355: monostate erases -/
def insertResult (base : Nat) (k : Bytes) (r : CVal) (c : Option Check) : HProg Bool :=
  match r with
  | .missing => erase base k c
  | .val v => insert base k v c
  | .ref d => insert base k (.str d) c

/-- PrefixTree::exists, PrefixTree.cc 546-549 -/
def existsKey (base : Nat) (k : Bytes) : HProg Bool := do
  let t ← traverse base k
  pure t.1.isSome

/-- PrefixTree::at, PrefixTree.cc 596-612 -/
def «at» (base : Nat) (k : Bytes) : HProg Val := do
  let t ← traverse base k
  match t.1 with
  | none => .err .outOfRange
  | some a => do
    let c ← H.rd64 a.1 a.2
    if c = 0 then .err .outOfRange else lookup c

/-- ResultValueType, PrefixTree.hh 40-47 -/
inductive RType
  | missing | string | int | double | bool | null
  deriving DecidableEq

/-- PrefixTree::type, PrefixTree.cc 555-590 -/
def type (base : Nat) (k : Bytes) : HProg RType := do
  let t ← traverse base k
  match t.1 with
  | none => pure .missing
  | some a => do
    let c ← H.rd64 a.1 a.2
    if typeOf c = 0 then pure .missing
    else if typeOf c = 1 ∨ typeOf c = 6 then pure .string
    else if typeOf c = 2 ∨ typeOf c = 3 then pure .int
    else if typeOf c = 4 then pure .double
    else if typeOf c = 5 then (if valOf c = 2 <<< 3 then pure .null else pure .bool)
    else .err .invalidArg

/-- where next_key_value_internal starts: the node stack (last first) and slot_id; PrefixTree.cc 1116-1152.  There is no test for an empty slot: its contents 0 are taken
for a node at offset 0. -/
def seek : Bytes → Addr → List Addr → HProg (List Addr × Nat)
  | [], nd, st => pure (nd :: st, 0)
  | b :: k, nd, st => do
    let s ← H.rd8 nd.1 nd.2
    if b.toNat < s then pure (nd :: st, s)
    else do
      let e ← H.rd8 nd.1 (nd.2 + 1)
      if e < b.toNat then pure (nd :: st, 256)
      else do
        let c ← H.rd64 (slotOf nd s b.toNat).1 (slotOf nd s b.toNat).2
        if typeOf c ≠ 0 then pure (nd :: st, b.toNat + 1)
        else seek k (c, 0) (nd :: st)

/-- "find the next non-null value in the tree at or after that position", PrefixTree.cc 1154-1201; slot_id -1 = `none`.  Result: contents, node stack, slot_id. -/
def scan : Nat → List Addr → Option Nat → HProg (Option (Nat × List Addr × Option Nat))
  | 0, _, _ => .ub
  | _ + 1, [], _ => pure none
  | fuel + 1, nd :: st, none => do
    let v ← H.rd64 nd.1 (nd.2 + 8)
    if v ≠ 0 then pure (some (v, nd :: st, none))
    else do
      let s ← H.rd8 nd.1 nd.2
      scan fuel (nd :: st) (some s)
  | fuel + 1, nd :: st, some i => do
    let s ← H.rd8 nd.1 nd.2
    let e ← H.rd8 nd.1 (nd.2 + 1)
    if e < max i s then
      match st with
      | [] => pure none
      | _ => do
        let ps ← H.rd8 nd.1 (nd.2 + 2)
        scan fuel st (some (ps + 1))
    else do
      let c ← H.rd64 (slotOf nd s (max i s)).1 (slotOf nd s (max i s)).2
      if c = 0 then scan fuel (nd :: st) (some (max i s + 1))
      else if typeOf c ≠ 0 then pure (some (c, nd :: st, some (max i s)))
      else scan fuel ((valOf c, 0) :: nd :: st) none

/-- the bytes of the path to the last node of the stack: PrefixTree.cc 1209-1214 -/
def pathOf : List Addr → HProg Bytes
  | [] => pure []
  | [_] => pure []
  | nd :: st => do
    let k ← pathOf st
    let c ← H.rd8 nd.1 (nd.2 + 2)
    pure (k ++ [UInt8.ofNat c])

/-- PrefixTree.cc 1208-1219: the key found and its contents -/
def found (st : List Addr) (i : Option Nat) : HProg Bytes := do
  let k ← pathOf st
  match i with
  | none => pure k
  | some i => pure (k ++ [UInt8.ofNat i])

/-- PrefixTree::next_key_value_internal, PrefixTree.cc 1095-1220, up to the value: the key found and its contents -/
def nextFrom (st : List Addr) (i : Nat) : HProg (Bytes × Nat) := do
  let r ← scan maxSteps st (some i)
  match r with
  | none => .err .outOfRange
  | some (v, st', i') => do
    let k ← found st' i'
    pure (k, v)

/-- PrefixTree::next_key_value_internal, PrefixTree.cc 1095-1220; `none` = null pointer (start of an iteration) -/
def nextRaw (base : Nat) : Option Bytes → HProg (Bytes × Nat)
  | none => do
    let v ← H.rd64 base (16 + 8)
    if v ≠ 0 then pure ([], v) else nextFrom [root base] 0
  | some k => do
    let p ← seek k (root base) []
    nextFrom p.1 p.2

/-- PrefixTree::next_key, PrefixTree.cc 618-624 -/
def nextKey (base : Nat) (k : Option Bytes) : HProg Bytes := do
  let r ← nextRaw base k
  pure r.1

/-- PrefixTree::next_key_value, PrefixTree.cc 626-634 -/
def nextKV (base : Nat) (k : Option Bytes) : HProg (Bytes × Val) := do
  let r ← nextRaw base k
  let v ← lookup r.2
  pure (r.1, v)

/-- out_of_range turned into the end iterator: PrefixTree.cc 644-651, 674-682, 1453-1466, 1491-1501 -/
def orEnd {α : Type} (p : HProg α) : HProg (Option α) :=
  (p.bind fun a => .ret (some a)).tryCatch fun e => if e = .outOfRange then .ret none else .err e

/-- PrefixTree::begin, operator++ and upper_bound: PrefixTree.cc 636-638, 1491-1501, 674-682.  `none` = end -/
def iterNext (base : Nat) (k : Option Bytes) : HProg (Option (Bytes × Val)) := orEnd (nextKV base k)

/-- PrefixTree::find, PrefixTree.cc 644-651 -/
def find (base : Nat) (k : Bytes) : HProg (Option (Bytes × Val)) := orEnd ((«at» base k).bind fun v => .ret (k, v))

/-- PrefixTree::upper_bound, PrefixTree.cc 674-682 -/
def upperBound (base : Nat) (k : Bytes) : HProg (Option (Bytes × Val)) := iterNext base (some k)

/-- PrefixTree::lower_bound, PrefixTree.cc 657-668 -/
def lowerBound (base : Nat) (k : Bytes) : HProg (Option (Bytes × Val)) := do
  let r ← find base k
  match r with
  | some x => pure (some x)
  | none => upperBound base k

/-- for (auto it = tree.begin(); it != tree.end(); ++it): begin 636-638, operator++ 1491-1501 -/
def iterate (base : Nat) : Nat → Option Bytes → HProg (List (Bytes × Val))
  | 0, _ => .ub
  | fuel + 1, k => do
    let r ← iterNext base k
    match r with
    | none => pure []
    | some x => do
      let l ← iterate base fuel (some x.1)
      pure (x :: l)

/-- PrefixTree::size, PrefixTree.cc 688-691 -/
def size (base : Nat) : HProg Nat := H.rd64 base 0

/-- PrefixTree::node_size, PrefixTree.cc 693-696 -/
def nodeSize (base : Nat) : HProg Nat := H.rd64 base 8

/-- sum of f over `n` children from `x` on -/
def sumSlots (f : Nat → HProg Nat) (nd : Addr) : Nat → Nat → HProg Nat
  | 0, _ => pure 0
  | n + 1, x => do
    let c ← H.rd64 nd.1 (nd.2 + 16 + 8 * x)
    let a ← f c
    let r ← sumSlots f nd n (x + 1)
    pure (a + r)

/-- sum of f over all children of a node -/
def sumNode (f : Nat → HProg Nat) (nd : Addr) : HProg Nat := do
  let s ← H.rd8 nd.1 nd.2
  let e ← H.rd8 nd.1 (nd.2 + 1)
  sumSlots f nd (e + 1 - s) 0

/-- PrefixTree::nodes_for_contents, PrefixTree.cc 764-779 -/
def nodesFor : Nat → Nat → HProg Nat
  | 0, _ => .ub
  | fuel + 1, c =>
    if c = 0 ∨ typeOf c ≠ 0 then pure 0
    else do
      let r ← sumNode (nodesFor fuel) (c, 0)
      pure (1 + r)

/-- PrefixTree::nodes_for_prefix, PrefixTree.cc 781-799 -/
def nodesForPrefix (base : Nat) (k : Bytes) : HProg Nat :=
  if k ≠ [] then do
    let a ← traverseSlot base k
    match a with
    | none => pure 0
    | some a => do
      let c ← H.rd64 a.1 a.2
      nodesFor maxSteps c
  else do
    let r ← sumNode (nodesFor maxSteps) (root base)
    pure (1 + r)

/-- PrefixTree::bytes_for_contents, PrefixTree.cc 698-740 -/
def bytesFor : Nat → Nat → HProg Nat
  | 0, _ => .ub
  | fuel + 1, c =>
    if typeOf c = 0 then
      (if c = 0 then pure 8
      else do
        let r ← sumNode (bytesFor fuel) (c, 0)
        pure (8 + 16 + r))
    else if typeOf c = 1 then do
      let n ← H.bsize (valOf c)
      pure (8 + n)
    else if typeOf c = 2 ∨ typeOf c = 5 ∨ typeOf c = 6 then pure 8
    else if typeOf c = 3 then pure 16
    else if typeOf c = 4 then pure 16
    else .err .outOfRange

/-- PrefixTree::bytes_for_prefix, PrefixTree.cc 742-762 -/
def bytesForPrefix (base : Nat) (k : Bytes) : HProg Nat :=
  if k ≠ [] then do
    let a ← traverseSlot base k
    match a with
    | none => pure 0
    | some a => do
      let c ← H.rd64 a.1 a.2
      bytesFor maxSteps c
  else do
    let r ← sumNode (bytesFor maxSteps) (root base)
    pure (8 + 16 + r - 8)

end Verif.PrefixTree
