import Verif.Heap
/-
Model of /repo/src/Queue.{hh,cc}.

Layout (Queue.hh 63-77, packed): QueueBase = item_count @0, total_value_bytes @8,
front_node @16 {prev @0, next @8}, back_node @32 {prev, next}; 48 bytes.
Node = prev_offset @0, next_offset @8, data @16.

Node pointers are absolute pool offsets; the two sentinel nodes live inside the base block.
`loc` names the block that contains a node; the absolute address is the same (`loc_addr`).
All methods hold the write lock (or a read lock for size/bytes/verify) for their whole body;
the lock itself is modelled in `Lock.lean`.
-/
namespace Verif.Queue
open Verif

/-- block and offset inside it of the node at absolute offset `x` -/
def loc (base x : Nat) : Nat × Nat :=
  if x = base + 16 ∨ x = base + 32 then (base, x - base) else (x, 0)

theorem loc_addr (base x : Nat) : (loc base x).1 + (loc base x).2 = x := by
  unfold loc; split <;> simp; omega

/-- node->prev_offset / node->next_offset loads and stores (Queue.hh 63-67) -/
def rdPrev (base x : Nat) : HProg Nat := H.rd64 (loc base x).1 ((loc base x).2 + 0)
def rdNext (base x : Nat) : HProg Nat := H.rd64 (loc base x).1 ((loc base x).2 + 8)
def wrPrev (base x v : Nat) : HProg Unit := H.wr64 (loc base x).1 ((loc base x).2 + 0) v
def wrNext (base x v : Nat) : HProg Unit := H.wr64 (loc base x).1 ((loc base x).2 + 8) v

/-- Queue::setup_base_locked, Queue.cc 42-50 -/
def setupBase (base : Nat) : HProg Unit := do
  wrPrev base (base + 16) 0
  wrNext base (base + 16) (base + 32)
  wrPrev base (base + 32) (base + 16)
  wrNext base (base + 32) 0

/-- allocate_object<QueueBase>() : Allocator.hh 33-38 and QueueBase::QueueBase, Queue.cc 190-192 -/
def allocBase : HProg Nat := do
  let o ← H.alloc 48
  H.wr64 o 0 0
  H.wr64 o 8 0
  pure o

/-- Queue::Queue(allocator), Queue.cc 16-21 -/
def create : HProg Nat := do
  let o ← allocBase
  setupBase o
  pure o

/-- Queue::Queue(allocator, base_offset), Queue.cc 23-40 -/
def openAt (b0 : Nat) : HProg Nat := do
  let b ← if b0 = 0 then H.getBase else pure b0
  if b = 0 then do
    let b ← H.getBase
    if b = 0 then do
      let o ← allocBase
      H.setBase o
      setupBase o
      pure o
    else pure b
  else pure b

/-- Queue::link_node_locked, Queue.cc 60-71 -/
def linkNode (base nn prev next : Nat) : HProg Unit := do
  wrPrev base nn prev
  wrNext base nn next
  wrNext base prev nn
  wrPrev base next nn
  let c ← H.rd64 base 0
  H.wr64 base 0 (c + 1)
  let s ← H.bsize nn
  let t ← H.rd64 base 8
  H.wr64 base 8 (t + (s - 16))

/-- Queue::unlink_node_locked, Queue.cc 73-84 (unsigned subtraction modulo 2^64) -/
def unlinkNode (base node : Nat) : HProg Unit := do
  let prev ← rdPrev base node
  let next ← rdNext base node
  let v ← rdNext base node
  wrNext base prev v
  let w ← rdPrev base node
  wrPrev base next w
  let c ← H.rd64 base 0
  H.wr64 base 0 (c + (W64 - 1))
  let s ← H.bsize node
  let t ← H.rd64 base 8
  H.wr64 base 8 (t + (W64 - (s - 16)))

/-- Queue::create_node_locked, Queue.cc 86-92; `new (p) Node()` zero-initialises the header
(Allocator.hh 33-38) -/
def createNode (data : Bytes) : HProg Nat := do
  let o ← H.alloc (16 + data.length)
  H.wr64 o 0 0
  H.wr64 o 8 0
  H.wrB o 16 data
  pure o

/-- Queue::push_back, Queue.cc 94-102 -/
def pushBack (base : Nat) (data : Bytes) : HProg Unit := do
  let nn ← createNode data
  let prev ← rdPrev base (base + 32)
  linkNode base nn prev (base + 32)

/-- Queue::push_front, Queue.cc 108-116 -/
def pushFront (base : Nat) (data : Bytes) : HProg Unit := do
  let nn ← createNode data
  let next ← rdNext base (base + 16)
  linkNode base nn (base + 16) next

/-- Queue::push, Queue.cc 122-136 -/
def push (base : Nat) (front : Bool) (data : Bytes) : HProg Unit :=
  if front then pushFront base data else pushBack base data

/-- Queue.cc 147-152 = 164-169: unlink, copy out, free -/
def takeNode (base node : Nat) : HProg Bytes := do
  unlinkNode base node
  let s ← H.bsize node
  let d ← H.rdB node 16 (s - 16)
  H.free node
  pure d

/-- Queue::pop_back, Queue.cc 138-153 -/
def popBack (base : Nat) : HProg Bytes := do
  let node ← rdPrev base (base + 32)
  let p ← rdPrev base node
  if p = 0 then .err .outOfRange else takeNode base node

/-- Queue::pop_front, Queue.cc 155-170 -/
def popFront (base : Nat) : HProg Bytes := do
  let node ← rdNext base (base + 16)
  let p ← rdNext base node
  if p = 0 then .err .outOfRange else takeNode base node

/-- Queue::pop, Queue.cc 172-178 -/
def pop (base : Nat) (front : Bool) : HProg Bytes :=
  if front then popFront base else popBack base

/-- Queue::size, Queue.cc 180-183 -/
def size (base : Nat) : HProg Nat := H.rd64 base 0

/-- Queue::bytes, Queue.cc 185-188 -/
def bytes (base : Nat) : HProg Nat := H.rd64 base 8

/-- the loop of Queue::verify, Queue.cc 205-225; `count` starts at 2^64-2 -/
def verifyLoop (base : Nat) : Nat → Nat → Nat → Nat → Nat → HProg (Nat × Nat × Nat)
  | 0, _, _, _, _ => .ub
  | fuel + 1, cur, prev, count, bytes =>
    if cur = 0 then pure (prev, count, bytes)
    else do
      let nb ← if cur ≠ base + 16 ∧ cur ≠ base + 32 then (do let s ← H.bsize cur; pure ((s + (W64 - 16)) % W64))
        else pure 0
      let p ← rdPrev base cur
      if p ≠ prev then .err .runtimeError
      else do
        let nx ← rdNext base cur
        verifyLoop base fuel nx cur ((count + 1) % W64) ((bytes + nb) % W64)

/-- Queue::verify, Queue.cc 194-240 (without the printing) -/
def verify (fuel base : Nat) : HProg Unit := do
  let (prev, count, bytes) ← verifyLoop base fuel (base + 16) 0 (W64 - 2) 0
  if prev ≠ base + 32 then .err .runtimeError
  else do
    let c ← H.rd64 base 0
    if count ≠ c then .err .runtimeError
    else do
      let t ← H.rd64 base 8
      if bytes ≠ t then .err .runtimeError else pure ()

end Verif.Queue
