import Verif.Raw
/-
Model of /repo/src/SimpleAllocator.{hh,cc} as programs over raw pool bytes.

Data (SimpleAllocator.hh 42-56, packed): size @0, initialized @8, data_lock @16 (264 bytes),
base_object_offset @280, bytes_allocated @288, bytes_committed @296, head @304, tail @312,
arena @320 (sizeof(Data) = 320).  AllocatedBlock (hh 63-69): prev @0, next @8, size @16; 24 bytes.

`bytes_allocated += x` etc. are a load and a store here (the methods hold the write lock).
-/
namespace Verif.Simple
open Verif

/-- unsigned 64-bit subtraction -/
def sub64 (a b : Nat) : Nat := (a + (W64 - b % W64)) % W64

/-- AllocatedBlock::effective_size, SimpleAllocator.cc 263-265 -/
def eff (s : Nat) : Nat := (s + 7) % W64 / 8 * 8

/-- needed_size, SimpleAllocator.cc 36 -/
def needed (s : Nat) : Nat := (eff s + 24) % W64

/-- SimpleAllocator::SimpleAllocator for a new pool, SimpleAllocator.cc 10-30 -/
def init : RProg Unit := do
  let i ← R.rd64 8
  if i ≠ 0 then pure ()
  else do
    R.wr64 8 1
    R.wr64 280 0
    R.wr64 304 0
    R.wr64 312 0
    R.wr64 288 0
    R.wr64 296 320

/-- the best-fit search loop, SimpleAllocator.cc 73-99: returns (candidate_offset,
candidate_size, candidate_link_location) -/
def search (need : Nat) : Nat → Nat → Nat → Nat → Nat → RProg (Nat × Nat × Nat)
  | 0, _, _, _, _ => .ub
  | fuel + 1, cur, co, cs, cl =>
    if cur = 0 ∨ need = cs then pure (co, cs, cl)
    else do
      let next ← R.rd64 (cur + 8)
      let bs ← R.rd64 (cur + 16)
      let hi ← if next ≠ 0 then pure next else R.rd64 0
      let fb := sub64 (sub64 (sub64 hi cur) (eff bs)) 24
      if need ≤ fb ∧ (cs < need ∨ fb < cs) then
        search need fuel next (cur + 24 + eff bs) fb cur
      else search need fuel next co cs cl

/-- SimpleAllocator.cc 146-147 -/
def account (co size : Nat) : RProg Unit := do
  let ba ← R.rd64 288
  R.wr64 288 (ba + size)
  let bs ← R.rd64 (co + 16)
  let bc ← R.rd64 296
  R.wr64 296 (bc + (eff bs + 24))

/-- writing and linking the new block, SimpleAllocator.cc 118-150 -/
def link (co cl size : Nat) : RProg Nat := do
  R.wr64 (co + 16) size
  if cl = 0 then do
    let hd ← R.rd64 304
    R.wr64 (co + 8) hd
    R.wr64 co 0
    R.wr64 304 co
    let nx ← R.rd64 (co + 8)
    R.wr64 nx co
    account co size
    pure (co + 24)
  else do
    let tl ← R.rd64 312
    if cl = tl then do
      R.wr64 (co + 8) 0
      let tl ← R.rd64 312
      R.wr64 co tl
      let pv ← R.rd64 co
      R.wr64 (pv + 8) co
      R.wr64 312 co
      account co size
      pure (co + 24)
    else do
      let nx ← R.rd64 (cl + 8)
      R.wr64 (co + 8) nx
      R.wr64 co cl
      R.wr64 (cl + 8) co
      R.wr64 nx co
      account co size
      pure (co + 24)

/-- the empty-list case, SimpleAllocator.cc 46-63 -/
def allocFirst (size : Nat) : RProg Nat := do
  let sz ← R.rd64 0
  if sub64 sz 320 < needed size then expand ((needed size + 320) % W64) else pure ()
  R.wr64 320 0
  R.wr64 328 0
  R.wr64 336 size
  R.wr64 304 320
  R.wr64 312 320
  let ba ← R.rd64 288
  R.wr64 288 (ba + size)
  let bs ← R.rd64 336
  let bc ← R.rd64 296
  R.wr64 296 (bc + (eff bs + 24))
  pure 344

/-- the general case, SimpleAllocator.cc 65-151 (the first load only supplies the loop fuel) -/
def allocMore (size : Nat) : RProg Nat := do
  let fuel ← R.rd64 0
  let hd ← R.rd64 304
  let (co, cs, cl) ← search (needed size) fuel hd 320 (sub64 hd 320) 0
  if cs < needed size then do
    let tl ← R.rd64 312
    let ts ← R.rd64 (tl + 16)
    expand ((tl + 24 + eff ts + needed size) % W64)
    let tl ← R.rd64 312
    let ts ← R.rd64 (tl + 16)
    let tl2 ← R.rd64 312
    link (tl + 24 + eff ts) tl2 size
  else link co cl size

/-- SimpleAllocator::allocate, SimpleAllocator.cc 32-151 -/
def alloc (size : Nat) : RProg Nat := do
  let hd ← R.rd64 304
  if hd = 0 then do
    let tl ← R.rd64 312
    if tl = 0 then allocFirst size else allocMore size
  else allocMore size

/-- SimpleAllocator::free, SimpleAllocator.cc 153-176 -/
def free (offset : Nat) : RProg Unit := do
  let sz ← R.rd64 0
  if offset < 320 ∨ offset > sub64 sz 24 then pure ()
  else do
    let b := offset - 24
    let ba ← R.rd64 288
    let s ← R.rd64 (b + 16)
    R.wr64 288 (sub64 ba s)
    let bc ← R.rd64 296
    let s ← R.rd64 (b + 16)
    R.wr64 296 (sub64 bc (eff s + 24))
    let pv ← R.rd64 b
    if pv ≠ 0 then do
      let nx ← R.rd64 (b + 8)
      R.wr64 (pv + 8) nx
    else do
      let nx ← R.rd64 (b + 8)
      R.wr64 304 nx
    let nx ← R.rd64 (b + 8)
    if nx ≠ 0 then do
      let pv ← R.rd64 b
      R.wr64 nx pv
    else do
      let pv ← R.rd64 b
      R.wr64 312 pv

/-- SimpleAllocator::block_size, SimpleAllocator.cc 178-182 -/
def blockSize (offset : Nat) : RProg Nat := R.rd64 (sub64 offset 24 + 16)

/-- set_base_object_offset / base_object_offset, SimpleAllocator.cc 184-190 -/
def setBase (o : Nat) : RProg Unit := R.wr64 280 o
def getBase : RProg Nat := R.rd64 280

/-- bytes_allocated / bytes_free, SimpleAllocator.cc 192-199 -/
def bytesAllocated : RProg Nat := R.rd64 288
def bytesFree : RProg Nat := do
  let s ← R.rd64 0
  let c ← R.rd64 296
  pure (sub64 s c)

/-- the loop of SimpleAllocator::repair, SimpleAllocator.cc 244-256 -/
def repairLoop : Nat → Nat → Nat → Nat → Nat → RProg (Nat × Nat × Nat)
  | 0, _, _, _, _ => .ub
  | fuel + 1, b, prev, ba, bc =>
    if b = 0 then pure (prev, ba, bc)
    else do
      R.wr64 b prev
      let s ← R.rd64 (b + 16)
      let nx ← R.rd64 (b + 8)
      repairLoop fuel nx b ((ba + s) % W64) ((bc + (eff s + 24)) % W64)

/-- SimpleAllocator::repair, SimpleAllocator.cc 238-261 (the first load only supplies the loop fuel) -/
def repair : RProg Unit := do
  let fuel ← R.rd64 0
  let hd ← R.rd64 304
  let (prev, ba, bc) ← repairLoop fuel hd 0 0 320
  R.wr64 312 prev
  R.wr64 288 ba
  R.wr64 296 bc

end Verif.Simple
