import Verif.Raw
/-
Model of /repo/src/LogarithmicAllocator.{hh,cc} as programs over raw pool bytes.

Data (LogarithmicAllocator.hh 38-56, packed): size @0, initialized @8, data_lock @16 (264 bytes),
base_object_offset @280, bytes_allocated @288, bytes_committed @296, free_head[54] @304, free_tail[54] @736, arena @1168
(sizeof(Data) = 1168, a multiple of 16).  minimum_order = 4, maximum_order = 57 (cc 658-659).
FreeBlock (hh 61-69): prev_order_allocated @0, next @8.  AllocatedBlock (hh 71-77): size_allocated @0.

Simplifications: `x += y` on a counter is a load and a store (the methods hold the write lock); the is_locked assertions
are left out; offsets and sizes in the arena are natural numbers (they do not wrap: pool offsets are below 2^63), except in
the expansion path, where the additions are taken modulo 2^64.  A failing assertion is `.ub`.
-/
namespace Verif.Logarithmic
open Verif

/-! ### pure helpers -/

/-- FreeBlock::prev, LogarithmicAllocator.cc 15-17 -/
def hdrPrev (h : Nat) : Nat := h &&& 0x01FFFFFFFFFFFFFF
/-- FreeBlock::order, LogarithmicAllocator.cc 19-21 -/
def hdrOrder (h : Nat) : Nat := (h >>> 57) &&& 0x3F
/-- FreeBlock::allocated and AllocatedBlock::allocated, LogarithmicAllocator.cc 23-25, 31-33 -/
def hdrAlloc (h : Nat) : Bool := (h >>> 63) &&& 1 ≠ 0
/-- AllocatedBlock::size, LogarithmicAllocator.cc 27-29 -/
def hdrSize (h : Nat) : Nat := h &&& 0x7FFFFFFFFFFFFFFF
/-- `((uint64_t)order << 57) | prev`, LogarithmicAllocator.cc 142-143, 286, 407-408 -/
def mkFree (order prev : Nat) : Nat := (order <<< 57) ||| prev
/-- `size | (1ULL << 63)`, LogarithmicAllocator.cc 153, 254 -/
def mkAlloc (size : Nat) : Nat := size ||| (1 <<< 63)

/-- `__builtin_clzll(n)` for 0 < n < 2^64.  The builtin is undefined at 0; the callers below guard against 0 or do not use
the value. -/
def clz (n : Nat) : Nat := 63 - Nat.log2 n

/-- order_for_size, LogarithmicAllocator.cc 41-50 (for size ≠ 0) -/
def orderForSize (size : Nat) : Nat :=
  if size &&& (size - 1) = 0 then 63 - clz size else 64 - clz size

/-- largest_order_within_size, LogarithmicAllocator.cc 53-55 -/
def largestOrderWithin (size : Nat) : Nat := 63 - clz size

/-- order_alignment_of_size, LogarithmicAllocator.cc 58-62 (for offset ≠ 0) -/
def orderAlignment (offset : Nat) : Nat :=
  orderForSize (((offset ^^^ (offset - 1)) + 1) >>> 1)

/-- size_for_order, LogarithmicAllocator.cc 36-38: `1 << order` is computed in a 32-bit `int` and converted to uint64_t
(C++20: `1 << 31` is INT_MIN, larger shifts are undefined). -/
def sizeForOrder (order : Nat) : RProg Nat :=
  if order < 31 then pure (2 ^ order)
  else if order = 31 then pure (W64 - 2 ^ 31)
  else .ub

/-- next_order_boundary, LogarithmicAllocator.cc 65-71 (for order < 31) -/
def nextBoundary (offset order : Nat) : Nat :=
  if offset &&& (2 ^ order - 1) ≠ 0 then (offset + (2 ^ order - 1)) % W64 &&& (W64 - 2 ^ order) else offset

/-- next_order_boundary(sizeof(Data), minimum_order), LogarithmicAllocator.cc 87, 362, 480 -/
def start : Nat := 1168

/-- address of free_head[order - minimum_order] -/
def headA (order : Nat) : Nat := 272 + 8 * order
/-- address of free_tail[order - minimum_order] -/
def tailA (order : Nat) : Nat := 704 + 8 * order

/-- unsigned 64-bit subtraction -/
def sub64 (a b : Nat) : Nat := (a + (W64 - b % W64)) % W64

/-! ### free lists -/

/-- create_free_block, LogarithmicAllocator.cc 281-299 -/
def createFree (offset order : Nat) : RProg Unit := do
  let t ← R.rd64 (tailA order)
  R.wr64 offset (mkFree order t)
  R.wr64 (offset + 8) 0
  let t ← R.rd64 (tailA order)
  if t ≠ 0 then do
    let h ← R.rd64 t
    if hdrOrder h ≠ order then .ub      -- assert, line 292
    else do
      R.wr64 (t + 8) offset
      R.wr64 (tailA order) offset
  else do
    R.wr64 (headA order) offset
    R.wr64 (tailA order) offset

/-- first loop of create_free_blocks, LogarithmicAllocator.cc 306-315; returns the offset it stops at -/
def createUp (endOff : Nat) : Nat → Nat → RProg Nat
  | 0, offset => pure offset
  | fuel + 1, offset =>
    if offset < endOff then do
      let sz ← sizeForOrder (orderAlignment offset)
      if offset + sz > endOff then pure offset
      else do
        createFree offset (orderAlignment offset)
        createUp endOff fuel (offset + sz)
    else pure offset

/-- second loop of create_free_blocks, LogarithmicAllocator.cc 318-322 -/
def createDown (endOff : Nat) : Nat → Nat → RProg Unit
  | 0, _ => pure ()
  | fuel + 1, offset =>
    if offset < endOff then do
      createFree offset (largestOrderWithin (endOff - offset))
      let sz ← sizeForOrder (largestOrderWithin (endOff - offset))
      createDown endOff fuel (offset + sz)
    else pure ()

/-- create_free_blocks, LogarithmicAllocator.cc 301-323.  Every iteration of its loops advances by at least one byte, so
`size` iterations are enough. -/
def createFrees (offset size : Nat) : RProg Unit := do
  let o ← createUp (offset + size) size offset
  createDown (offset + size) size o

/-- unlink_block, LogarithmicAllocator.cc 406-411 -/
def unlinkNext (offset order : Nat) : RProg Unit := do
  let nx ← R.rd64 (offset + 8)
  if nx ≠ 0 then do
    let h ← R.rd64 offset
    R.wr64 nx (mkFree order (hdrPrev h))
  else do
    let h ← R.rd64 offset
    R.wr64 (tailA order) (hdrPrev h)
/-- unlink_block, LogarithmicAllocator.cc 412-416 -/
def unlinkPrev (offset order : Nat) : RProg Unit := do
  let h ← R.rd64 offset
  if hdrPrev h ≠ 0 then do
    let nx ← R.rd64 (offset + 8)
    R.wr64 (hdrPrev h + 8) nx
  else do
    let nx ← R.rd64 (offset + 8)
    R.wr64 (headA order) nx
/-- unlink_block, LogarithmicAllocator.cc 402-417 -/
def unlink (offset : Nat) : RProg Unit := do
  let h ← R.rd64 offset
  unlinkNext offset (hdrOrder h)
  unlinkPrev offset (hdrOrder h)

/-- the loop of merge_blocks_at, LogarithmicAllocator.cc 364-393; returns the merged block's offset and order.  The
order grows in every iteration and order 32 is undefined, so the fuel does not run out first. -/
def mergeLoop : Nat → Nat → Nat → RProg (Nat × Nat)
  | 0, _, _ => .ub
  | fuel + 1, offset, order => do
    let sz ← sizeForOrder order
    if (offset ^^^ sz) < start then pure (offset, order)
    else do
      let s ← R.rd64 0
      if (offset ^^^ sz) + sz > s then pure (offset, order)
      else do
        let h ← R.rd64 (offset ^^^ sz)
        if hdrAlloc h then pure (offset, order)
        else if hdrOrder h ≠ order then pure (offset, order)
        else do
          unlink (offset ^^^ sz)
          mergeLoop fuel (if (offset ^^^ sz) < offset then offset ^^^ sz else offset) (order + 1)

/-- merge_blocks_at, LogarithmicAllocator.cc 354-400; the result (line 399 adds the order of the order) is only used by the
second pass of repair, which never runs -/
def mergeAt (offset : Nat) : RProg Nat := do
  let h ← R.rd64 offset
  unlink offset
  let (o, k) ← mergeLoop 64 offset (hdrOrder h)
  createFree o k
  pure (o + orderForSize k)

/-! ### constructor -/

/-- the loop of the constructor, LogarithmicAllocator.cc 94-97: the first `n` entries (it runs to 60 although the arrays have 54
entries) -/
def zeroLists : Nat → RProg Unit
  | 0 => pure ()
  | n + 1 => do
    zeroLists n
    R.wr64 (304 + 8 * n) 0
    R.wr64 (736 + 8 * n) 0

/-- LogarithmicAllocator::LogarithmicAllocator, LogarithmicAllocator.cc 73-101 -/
def init : RProg Unit := do
  let i ← R.rd64 8
  if i ≠ 0 then pure ()
  else do
    R.wr64 8 1
    R.wr64 280 0
    R.wr64 288 0
    R.wr64 296 start
    zeroLists 60
    let s ← R.rd64 0
    createFrees start (sub64 s start)

/-! ### allocate -/

/-- the search for a non-empty list, LogarithmicAllocator.cc 115-119 -/
def search : Nat → Nat → RProg Nat
  | 0, _ => .ub
  | fuel + 1, order => do
    let h ← R.rd64 (headA order)
    if h = 0 ∧ order ≤ 57 then search fuel (order + 1) else pure order

/-- the splitting loop, LogarithmicAllocator.cc 125-135: `d` splits, from order `need + d` down to `need` -/
def splitDown (need : Nat) : Nat → RProg Unit
  | 0 => pure ()
  | d + 1 => do
    let hb ← R.rd64 (headA (need + d + 1))
    let sz ← sizeForOrder (need + d)
    unlink hb
    createFree hb (need + d)
    createFree (hb + sz) (need + d)
    splitDown need d

/-- LogarithmicAllocator.cc 149-150, 276-277 -/
def account (size order : Nat) : RProg Unit := do
  let ba ← R.rd64 288
  R.wr64 288 (ba + size)
  let sz ← sizeForOrder order
  let bc ← R.rd64 296
  R.wr64 296 (bc + sz)

/-- LogarithmicAllocator.cc 141-146 -/
def popFix (order next : Nat) : RProg Unit :=
  if next ≠ 0 then R.wr64 next (mkFree order 0)
  else R.wr64 (tailA order) 0

/-- taking the first block of the list, LogarithmicAllocator.cc 138-154 -/
def popHead (size order : Nat) : RProg Nat := do
  let b ← R.rd64 (headA order)
  let nx ← R.rd64 (b + 8)
  R.wr64 (headA order) nx
  let nx ← R.rd64 (b + 8)
  popFix order nx
  account size order
  R.wr64 b (mkAlloc size)
  pure (b + 8)

/-- the loop looking for free blocks at the end of the pool, LogarithmicAllocator.cc 198-213; returns block_offset and
block_order -/
def walk (origSize : Nat) : Nat → Nat → RProg (Nat × Nat)
  | 0, offset => pure (offset, 0)
  | k + 1, offset =>
    if 4 ≤ k + 1 ∧ offset < origSize then do
      let h ← R.rd64 offset
      if hdrAlloc h then pure (offset, k + 1)
      else if hdrOrder h ≠ k + 1 then pure (offset, k + 1)
      else do
        let sz ← sizeForOrder (k + 1)
        walk origSize k (offset + sz)
    else pure (offset, k + 1)

/-- the loop unlinking the blocks that are reused, LogarithmicAllocator.cc 244-247: it advances by the order that `walk` ended
with -/
def deleteBlocks (origSize order : Nat) : Nat → Nat → RProg Unit
  | 0, _ => .ub
  | fuel + 1, offset =>
    if offset < origSize then do
      unlink offset
      let sz ← sizeForOrder order
      deleteBlocks origSize order fuel (offset + sz)
    else pure ()

/-- LogarithmicAllocator.cc 242-248 -/
def deleteReused (reuse : Bool) (origSize order offset : Nat) : RProg Unit :=
  if reuse then deleteBlocks origSize order (origSize + 1) offset else pure ()

/-- LogarithmicAllocator.cc 266-270 -/
def fillGap (origSize a : Nat) : RProg Unit :=
  if a > origSize then do
    createFrees origSize (a - origSize)
    let _ ← mergeAt origSize
    pure ()
  else pure ()

/-- the last part of the expansion, LogarithmicAllocator.cc 252-278 -/
def finish (size order orderSize origSize a : Nat) : RProg Nat := do
  R.wr64 a (mkAlloc size)
  fillGap origSize a
  let s ← R.rd64 0
  createFrees (a + orderSize) (sub64 s (a + orderSize))
  account size order
  pure (a + 8)

/-- the expansion, LogarithmicAllocator.cc 159-278.  `S & ~(order_size - 1)` is `S &&& (2^64 - order_size)`. -/
def allocExpand (size order : Nat) : RProg Nat := do
  let s ← R.rd64 0
  let sz ← sizeForOrder order
  let b := s &&& (W64 - sz)
  let (b', k) ← walk s (largestOrderWithin (s - b)) b
  let a := if b' ≥ s then b else (b + sz) % W64
  expand ((a + sz) % W64)
  deleteReused (decide (b' ≥ s)) s k a
  finish size order sz s a

/-- LogarithmicAllocator.cc 122-155 or the expansion -/
def allocFrom (size order split : Nat) : RProg Nat :=
  if split < 57 then do
    splitDown order (split - order)
    popHead size order
  else allocExpand size order

/-- LogarithmicAllocator::allocate, LogarithmicAllocator.cc 103-279.  order_for_size(0) is undefined. -/
def alloc (size : Nat) : RProg Nat :=
  if (size + 8) % W64 = 0 then .ub
  else do
    let k ← search 64 (orderForSize ((size + 8) % W64))
    allocFrom size (orderForSize ((size + 8) % W64)) k

/-! ### free and the other methods -/

/-- LogarithmicAllocator::free, LogarithmicAllocator.cc 325-352 -/
def free (offset : Nat) : RProg Unit := do
  let s ← R.rd64 0
  if offset < start + 8 ∨ offset > s then pure ()
  else do
    let h ← R.rd64 (offset - 8)
    if hdrAlloc h = false then pure ()
    else do
      let sz ← sizeForOrder (orderForSize ((hdrSize h + 8) % W64))
      let ba ← R.rd64 288
      R.wr64 288 (sub64 ba (hdrSize h))
      let bc ← R.rd64 296
      R.wr64 296 (sub64 bc sz)
      createFree (offset - 8) (orderForSize ((hdrSize h + 8) % W64))
      let _ ← mergeAt (offset - 8)
      pure ()

/-- LogarithmicAllocator::block_size, LogarithmicAllocator.cc 419-423 -/
def blockSize (offset : Nat) : RProg Nat := do
  let h ← R.rd64 (sub64 offset 8)
  pure (hdrSize h)

/-- set_base_object_offset / base_object_offset, LogarithmicAllocator.cc 425-431 -/
def setBase (o : Nat) : RProg Unit := R.wr64 280 o
def getBase : RProg Nat := R.rd64 280

/-- bytes_allocated / bytes_free, LogarithmicAllocator.cc 433-440 -/
def bytesAllocated : RProg Nat := R.rd64 288
def bytesFree : RProg Nat := do
  let s ← R.rd64 0
  let c ← R.rd64 296
  pure (sub64 s c)

/-! ### repair -/

/-- LogarithmicAllocator.cc 574-577 (its loop stops at 53 entries, one short of the arrays) -/
def clearLists : Nat → RProg Unit
  | 0 => pure ()
  | n + 1 => do
    clearLists n
    R.wr64 (304 + 8 * n) 0
    R.wr64 (736 + 8 * n) 0

/-- the first pass of repair, LogarithmicAllocator.cc 582-600; returns the two counts -/
def repairLoop : Nat → Nat → Nat → Nat → RProg (Nat × Nat)
  | 0, _, _, _ => .ub
  | fuel + 1, offset, ba, bc => do
    let s ← R.rd64 0
    if offset < s then do
      let h ← R.rd64 offset
      if hdrAlloc h then do
        let sz ← sizeForOrder (orderForSize ((hdrSize h + 8) % W64))
        repairLoop fuel (offset + sz) ((ba + hdrSize h) % W64) ((bc + sz) % W64)
      else do
        createFree offset (hdrOrder h)
        let sz ← sizeForOrder (hdrOrder h)
        repairLoop fuel (offset + sz) ba bc
    else pure (ba, bc)

/-- LogarithmicAllocator::repair, LogarithmicAllocator.cc 566-621.  The second pass (607-620) starts with `offset` at the end
of the pool, so its loop body never runs.  (The first load only supplies the loop fuel.) -/
def repair : RProg Unit := do
  let fuel ← R.rd64 0
  clearLists 53
  let (ba, bc) ← repairLoop (fuel + 1) start 0 start
  R.wr64 288 ba
  R.wr64 296 bc

/-! ### verify -/

/-- the first loop of verify, LogarithmicAllocator.cc 482-519; returns the two counts -/
def verifyBlocks : Nat → Nat → Nat → Nat → RProg (Nat × Nat)
  | 0, _, _, _ => .ub
  | fuel + 1, offset, ba, bc => do
    let s ← R.rd64 0
    if offset < s then do
      let h ← R.rd64 offset
      if hdrAlloc h then do
        let sz ← sizeForOrder (orderForSize ((hdrSize h + 8) % W64))
        if (offset + sz) % W64 ≤ offset then .err .runtimeError
        else verifyBlocks fuel ((offset + sz) % W64) ((ba + hdrSize h) % W64) ((bc + sz) % W64)
      else if hdrOrder h < 4 ∨ hdrOrder h > 57 then .err .runtimeError
      else do
        let sz ← sizeForOrder (hdrOrder h)
        let h ← R.rd64 offset
        if nextBoundary (hdrPrev h) (hdrOrder h) ≠ hdrPrev h then .err .runtimeError
        else do
          let nx ← R.rd64 (offset + 8)
          if nextBoundary nx (hdrOrder h) ≠ nx then .err .runtimeError
          else if (offset + sz) % W64 ≤ offset then .err .runtimeError
          else verifyBlocks fuel ((offset + sz) % W64) ba bc
    else pure (ba, bc)

/-- the walk along one free list, LogarithmicAllocator.cc 538-556; returns prev_offset -/
def verifyChain (order : Nat) : Nat → Nat → Nat → RProg Nat
  | 0, _, _ => .ub
  | fuel + 1, offset, prev =>
    if offset = 0 then pure prev
    else do
      let h ← R.rd64 offset
      if hdrOrder h ≠ order then .err .runtimeError
      else if hdrAlloc h then .err .runtimeError
      else if hdrPrev h ≠ prev then .err .runtimeError
      else do
        let nx ← R.rd64 (offset + 8)
        verifyChain order fuel nx offset

/-- LogarithmicAllocator.cc 536-562 for one order -/
def verifyList (fuel order : Nat) : RProg Unit := do
  let h ← R.rd64 (headA order)
  let last ← verifyChain order fuel h 0
  let t ← R.rd64 (tailA order)
  if t ≠ last then .err .runtimeError else pure ()

/-- the loop over the orders minimum_order .. maximum_order - 1, LogarithmicAllocator.cc 534-563: `n` orders, the last one 56 -/
def verifyLists (fuel : Nat) : Nat → RProg Unit
  | 0 => pure ()
  | n + 1 => do
    verifyList fuel (56 - n)
    verifyLists fuel n

/-- LogarithmicAllocator::verify, LogarithmicAllocator.cc 474-564.  (The first load only supplies the loop fuel.) -/
def verify : RProg Unit := do
  let fuel ← R.rd64 0
  let (ba, bc) ← verifyBlocks (fuel + 1) start 0 start
  let a ← R.rd64 288
  if a ≠ ba then .err .runtimeError
  else do
    let c ← R.rd64 296
    if c ≠ bc then .err .runtimeError
    else verifyLists (fuel + 1) 53

end Verif.Logarithmic
