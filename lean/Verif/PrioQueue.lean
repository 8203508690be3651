import Verif.Heap
/-
Model of /repo/src/PriorityQueue.{hh,cc}.

Layout (PriorityQueue.hh 58-64, packed): QueueBase = count @0, allocated_count @8, array_offset @16; 24 bytes.  The heap
array holds one 8-byte item offset per slot; an item is a block that holds exactly the item's bytes.
All methods hold the write lock (a read lock for size) for their whole body; the lock itself is modelled in `Lock.lean`.
-/
namespace Verif.PrioQueue
open Verif

/-- `new (p) QueueBase()`: Allocator.hh 33-38, PriorityQueue.cc 146-149 -/
def allocBase : HProg Nat := do
  let o ← H.alloc 24
  H.wr64 o 0 0
  H.wr64 o 8 0
  H.wr64 o 16 0
  pure o

/-- PriorityQueue::PriorityQueue(allocator), PriorityQueue.cc 16-20 -/
def create : HProg Nat := allocBase

/-- PriorityQueue::PriorityQueue(allocator, base_offset), PriorityQueue.cc 22-39 -/
def openAt (b0 : Nat) : HProg Nat := do
  let b ← if b0 = 0 then H.getBase else pure b0
  if b = 0 then do
    let b ← H.getBase
    if b = 0 then do
      let o ← allocBase
      H.setBase o
      pure o
    else pure b
  else pure b

/-- memcmp on byte strings of equal length: the sign of the first difference, bytes compared as unsigned char -/
def memcmp : Bytes → Bytes → Int
  | x :: xs, y :: ys => if x < y then -1 else if y < x then 1 else memcmp xs ys
  | _, _ => 0

/-- PriorityQueue::less_locked, PriorityQueue.cc 167-181 -/
def less (a b : Nat) : HProg Bool := do
  let sa ← H.bsize a
  let sb ← H.bsize b
  let x ← H.rdB a 0 (if sa < sb then sa else sb)
  let y ← H.rdB b 0 (if sa < sb then sa else sb)
  pure (if memcmp x y < 0 then true else if memcmp x y > 0 then false else decide (sa < sb))

/-- the loop of PriorityQueue::sift_down_locked, PriorityQueue.cc 188-198, and the store after it (200).  The fuel is the number of
iterations that are certainly enough, since target_index decreases. -/
def siftDownLoop (arr start item : Nat) : Nat → Nat → HProg Unit
  | 0, _ => .ub
  | fuel + 1, t =>
    if start < t then do
      let p ← H.rd64 arr (8 * ((t - 1) / 2))
      let c ← less item p
      if c then do
        let p ← H.rd64 arr (8 * ((t - 1) / 2))
        H.wr64 arr (8 * t) p
        siftDownLoop arr start item fuel ((t - 1) / 2)
      else H.wr64 arr (8 * t) item
    else H.wr64 arr (8 * t) item

/-- PriorityQueue::sift_down_locked, PriorityQueue.cc 183-201 -/
def siftDown (base start t : Nat) : HProg Unit := do
  let arr ← H.rd64 base 16
  let item ← H.rd64 arr (8 * t)
  siftDownLoop arr start item (t + 1) t

/-- PriorityQueue.cc 211-216: is the right child the one to move up?  `n` is the number of entries -/
def rightIsLeast (arr n t : Nat) : HProg Bool :=
  if 2 * t + 2 < n then do
    let l ← H.rd64 arr (8 * (2 * t + 1))
    let r ← H.rd64 arr (8 * (2 * t + 2))
    let c ← less l r
    pure (!c)
  else pure false

/-- the loop of PriorityQueue::sift_up_locked, PriorityQueue.cc 210-222; returns the final target_index.  The fuel is the number of
iterations that are certainly enough, since target_index increases. -/
def siftUpLoop (base arr : Nat) : Nat → Nat → HProg Nat
  | 0, _ => .ub
  | fuel + 1, t => do
    let n ← H.rd64 base 0
    if 2 * t + 1 < n then do
      let n ← H.rd64 base 0
      let right ← rightIsLeast arr n t
      let v ← H.rd64 arr (8 * (if right then 2 * t + 2 else 2 * t + 1))
      H.wr64 arr (8 * t) v
      siftUpLoop base arr fuel (if right then 2 * t + 2 else 2 * t + 1)
    else pure t

/-- PriorityQueue::sift_up_locked, PriorityQueue.cc 203-225 -/
def siftUp (base t : Nat) : HProg Unit := do
  let arr ← H.rd64 base 16
  let item ← H.rd64 arr (8 * t)
  let n ← H.rd64 base 0
  let t' ← siftUpLoop base arr (n + 1) t
  H.wr64 arr (8 * t') item
  siftDown base t t'

/-- the copy loop of PriorityQueue::push, PriorityQueue.cc 75-77; the loop reads base->count again in every iteration -/
def copyLoop (base old new : Nat) : Nat → Nat → HProg Unit
  | 0, _ => .ub
  | fuel + 1, x => do
    let n ← H.rd64 base 0
    if x < n then do
      let v ← H.rd64 old (8 * x)
      H.wr64 new (8 * x) v
      copyLoop base old new fuel (x + 1)
    else pure ()

/-- PriorityQueue::push, PriorityQueue.cc 54-68: the array to use (offset, allocated count) -/
def pickArray (base : Nat) : HProg (Nat × Nat) := do
  let cap ← H.rd64 base 8
  if cap = 0 then do
    let o ← H.alloc (32 * 8)
    pure (o, 32)
  else do
    let n ← H.rd64 base 0
    if cap = n then do
      let o ← H.alloc (cap * 2 * 8)
      pure (o, cap * 2)
    else do
      let o ← H.rd64 base 16
      pure (o, cap)

/-- PriorityQueue::push, PriorityQueue.cc 70-80.  The old array is not freed. -/
def growArray (base : Nat) : HProg Unit := do
  let (new, cap) ← pickArray base
  let old ← H.rd64 base 16
  if new ≠ old then do
    let n ← H.rd64 base 0
    copyLoop base old new (n + 1) 0
    H.wr64 base 16 new
    H.wr64 base 8 cap
  else pure ()

/-- PriorityQueue::push, PriorityQueue.cc 49-92 -/
def push (base : Nat) (data : Bytes) : HProg Unit := do
  growArray base
  let item ← H.alloc data.length
  H.wrB item 0 data
  let arr ← H.rd64 base 16
  let n ← H.rd64 base 0
  H.wr64 arr (8 * n) item
  let n ← H.rd64 base 0
  H.wr64 base 0 (n + 1)
  let n ← H.rd64 base 0
  siftDown base 0 (n - 1)

/-- PriorityQueue.cc 122-125: copy the item out and free it -/
def takeItem (o : Nat) : HProg Bytes := do
  let s ← H.bsize o
  let d ← H.rdB o 0 s
  H.free o
  pure d

/-- PriorityQueue::pop, PriorityQueue.cc 98-126 -/
def pop (base : Nat) : HProg Bytes := do
  let n ← H.rd64 base 0
  if n = 0 then .err .outOfRange
  else if n = 1 then do
    let arr ← H.rd64 base 16
    let o ← H.rd64 arr 0
    H.wr64 base 0 0
    takeItem o
  else do
    let arr ← H.rd64 base 16
    let o ← H.rd64 arr 0
    let n ← H.rd64 base 0
    let last ← H.rd64 arr (8 * (n - 1))
    H.wr64 arr 0 last
    let n ← H.rd64 base 0
    H.wr64 base 0 (n - 1)
    siftUp base 0
    takeItem o

/-- the loop of PriorityQueue::clear, PriorityQueue.cc 136-138 -/
def clearLoop (arr : Nat) : Nat → HProg Unit
  | 0 => pure ()
  | n + 1 => do
    let o ← H.rd64 arr (8 * n)
    H.free o
    clearLoop arr n

/-- PriorityQueue::clear, PriorityQueue.cc 128-139 -/
def clear (base : Nat) : HProg Unit := do
  let arr ← H.rd64 base 16
  let n ← H.rd64 base 0
  H.wr64 base 0 0
  clearLoop arr n

/-- PriorityQueue::size, PriorityQueue.cc 141-144 -/
def size (base : Nat) : HProg Nat := H.rd64 base 0

end Verif.PrioQueue
