import Verif.Raw
/-
Model of /repo/src/AtomicVector.hh and of the parts of Pool it uses without a lock (Pool.cc 93-130).

Elements have `sz` bytes (sizeof(T) = 1, 2, 4 or 8), values are `BitVec (8 * sz)`.  Layout (AtomicVector.hh 115-119): pool_size @0, count @8, data @16.
Each process has its own mapping of the pool, `view` bytes long (Pool::pool_size), and its own max_size.  A process that touches an address
outside its mapping or beyond the end of the file dies (SIGSEGV / SIGBUS): undefined behaviour.
-/
namespace Verif.AtomicVec
open Verif

/-- the shared memory object: its bytes, its size, and the largest size the OS lets ftruncate set -/
structure Sh where
  mem : Nat → UInt8
  fsize : Nat
  lim : Nat

/-- what a process knows: the length of its mapping (Pool::pool_size) and its max_size -/
structure Proc where
  view : Nat
  maxSize : Nat
  deriving DecidableEq

/-- single steps of a method; the element steps are single atomic instructions -/
inductive VOp (w : Nat)
  | loadSize                                -- data->size.load(), offset 0
  | storeSize (v : Nat)                     -- data->size = v
  | loadCount                               -- base()->count.load(), offset 8
  | casCount (e v : Nat)                    -- base()->count.compare_exchange_strong
  | rmw (i : Nat) (f : BitVec w → BitVec w) -- load/store/exchange/compare_exchange/fetch_* of data[i]: old value out, f(old) in
  | trunc (n : Nat)                         -- ftruncate
  | view                                    -- this->pool_size
  | remap (n : Nat)                         -- munmap + mmap of n bytes
  | maxSize                                 -- this->max_size

abbrev VRe {w : Nat} : VOp w → Type
  | .loadSize => Nat
  | .storeSize _ => Unit
  | .loadCount => Nat
  | .casCount .. => Bool × Nat
  | .rmw .. => BitVec w
  | .trunc _ => Bool
  | .view => Nat
  | .remap _ => Unit
  | .maxSize => Nat

abbrev VProg (w : Nat) (α : Type) := Prog (VOp w) VRe α

/-- may the process touch `[a, a+n)`? -/
def mapped (s : Sh) (p : Proc) (a n : Nat) : Bool := decide (a + n ≤ p.view ∧ a + n ≤ s.fsize)

/-- one step; `none`: the process is killed by a memory fault -/
def exec (sz : Nat) : (o : VOp (8 * sz)) → Sh → Proc → Option (VRe o × Sh × Proc)
  | .loadSize, s, p => if mapped s p 0 8 then some (leRd s.mem 0 8, s, p) else none
  | .storeSize v, s, p => if mapped s p 0 8 then some ((), { s with mem := leWr s.mem 0 8 v }, p) else none
  | .loadCount, s, p => if mapped s p 8 8 then some (leRd s.mem 8 8, s, p) else none
  | .casCount e v, s, p =>
      if mapped s p 8 8 then
        (if leRd s.mem 8 8 = e then some ((true, e), { s with mem := leWr s.mem 8 8 v }, p) else some ((false, leRd s.mem 8 8), s, p))
      else none
  | .rmw i f, s, p =>
      if mapped s p (16 + i * sz) sz then
        some (BitVec.ofNat (8 * sz) (leRd s.mem (16 + i * sz) sz),
          { s with mem := leWr s.mem (16 + i * sz) sz (f (BitVec.ofNat (8 * sz) (leRd s.mem (16 + i * sz) sz))).toNat }, p)
      else none
  | .trunc n, s, p =>
      if n ≤ s.lim then some (true, { s with mem := fun i => if i < s.fsize ∧ i < n then s.mem i else 0, fsize := n }, p) else some (false, s, p)
  | .view, s, p => some (p.view, s, p)
  | .remap n, s, p => some ((), s, { p with view := n })
  | .maxSize, s, p => some (p.maxSize, s, p)

variable {w : Nat}

namespace V
def loadSize : VProg w Nat := .step .loadSize .ret
def storeSize (v : Nat) : VProg w Unit := .step (.storeSize v) .ret
def loadCount : VProg w Nat := .step .loadCount .ret
def casCount (e v : Nat) : VProg w (Bool × Nat) := .step (.casCount e v) .ret
def rmw (i : Nat) (f : BitVec w → BitVec w) : VProg w (BitVec w) := .step (.rmw i f) .ret
def trunc (n : Nat) : VProg w Bool := .step (.trunc n) .ret
def view : VProg w Nat := .step .view .ret
def remap (n : Nat) : VProg w Unit := .step (.remap n) .ret
def maxSize : VProg w Nat := .step .maxSize .ret
end V

/-- Pool::check_size_and_remap, Pool.cc 113-129 (pool_size is never 0 once the pool is open; mmap is taken to succeed) -/
def checkRemap : VProg w Unit :=
  V.view.bind fun v => V.loadSize.bind fun z => if z ≠ v then V.remap z else .ret ()

/-- Pool::expand, Pool.cc 93-111, with the process' own view -/
def poolExpand (n : Nat) : VProg w Unit :=
  V.maxSize.bind fun mx =>
    if mx ≠ 0 ∧ roundPage n > mx then .err .noMem
    else V.view.bind fun v =>
      if roundPage n ≤ v then .ret ()
      else (V.trunc (roundPage n)).bind fun ok =>
        if ok then (V.storeSize (roundPage n)).bind fun _ => checkRemap else .err .noMem

/-- the loop of AtomicVector::expand, AtomicVector.hh 49-55 -/
def expandLoop (n req : Nat) : Nat → Nat → VProg w Unit
  | 0, orig => if orig < n then .ub else .ret ()
  | fuel + 1, orig =>
    if orig < n then
      checkRemap.bind fun _ => (poolExpand req).bind fun _ => (V.casCount orig n).bind fun r =>
        if r.1 then .ret () else expandLoop n req fuel r.2
    else .ret ()

/-- AtomicVector::expand, AtomicVector.hh 45-56; the required size is computed in size_t -/
def expand (sz fuel n : Nat) : VProg w Unit :=
  V.loadCount.bind fun c => expandLoop n ((16 + n * sz) % W64) fuel c

/-- AtomicVector::expand_bits, AtomicVector.hh 57-60 -/
def expandBits (sz fuel n : Nat) : VProg w Unit := expand sz fuel ((n + (w - 1)) % W64 / w)

/-- AtomicVector::size, AtomicVector.hh 40-42 -/
def size : VProg w Nat := V.loadCount

/-- AtomicVector::at, AtomicVector.hh 129-136, followed by the atomic operation on the element -/
def elem (i : Nat) (f : BitVec w → BitVec w) : VProg w (BitVec w) :=
  checkRemap.bind fun _ => V.loadCount.bind fun c => if c ≤ i then .err .outOfRange else V.rmw i f

/-- AtomicVector.hh 63-90 -/
def load (i : Nat) : VProg w (BitVec w) := elem i fun x => x
def store (i : Nat) (v : BitVec w) : VProg w (BitVec w) := elem i fun _ => v
def exchange (i : Nat) (v : BitVec w) : VProg w (BitVec w) := elem i fun _ => v
def compareExchange (i : Nat) (e d : BitVec w) : VProg w (BitVec w) := elem i fun x => if x = e then d else x
def fetchAdd (i : Nat) (v : BitVec w) : VProg w (BitVec w) := elem i fun x => x + v
def fetchSub (i : Nat) (v : BitVec w) : VProg w (BitVec w) := elem i fun x => x - v
def fetchAnd (i : Nat) (v : BitVec w) : VProg w (BitVec w) := elem i fun x => x &&& v
def fetchOr (i : Nat) (v : BitVec w) : VProg w (BitVec w) := elem i fun x => x ||| v
def fetchXor (i : Nat) (v : BitVec w) : VProg w (BitVec w) := elem i fun x => x ^^^ v

/-- AtomicVector::mask_for_bit_index, AtomicVector.hh 93-95 -/
def mask (b : Nat) : BitVec w := 1#w <<< (w - b % w - 1)

/-- AtomicVector::load_bit, AtomicVector.hh 96-98 -/
def loadBit (b : Nat) : VProg w Bool := (load (b / w)).bind fun x => .ret (x &&& mask b != 0#w)
/-- AtomicVector::store_bit, AtomicVector.hh 99-106 -/
def storeBit (b : Nat) (v : Bool) : VProg w Bool :=
  if v then (fetchOr (b / w) (mask b)).bind fun x => .ret (x &&& mask b != 0#w)
  else (fetchAnd (b / w) (~~~ mask b)).bind fun x => .ret (x &&& mask b != 0#w)
/-- AtomicVector::xor_bit, AtomicVector.hh 107-110 -/
def xorBit (b : Nat) : VProg w Bool := (fetchXor (b / w) (mask b)).bind fun x => .ret (!(x &&& mask b != 0#w))

/-- the methods -/
inductive Op (w : Nat)
  | load (i : Nat)
  | store (i : Nat) (v : BitVec w)
  | exchange (i : Nat) (v : BitVec w)
  | cas (i : Nat) (e d : BitVec w)
  | add (i : Nat) (v : BitVec w)
  | sub (i : Nat) (v : BitVec w)
  | and (i : Nat) (v : BitVec w)
  | or (i : Nat) (v : BitVec w)
  | xor (i : Nat) (v : BitVec w)
  | loadBit (b : Nat)
  | storeBit (b : Nat) (v : Bool)
  | xorBit (b : Nat)
  | size
  | expand (n : Nat)
  | expandBits (n : Nat)
  deriving DecidableEq

/-- what they return -/
inductive Ret (w : Nat)
  | unit
  | word (v : BitVec w)
  | bit (b : Bool)
  | num (n : Nat)
  deriving DecidableEq

/-- a method call -/
def call (sz fuel : Nat) : Op w → VProg w (Ret w)
  | .load i => (load i).bind fun x => .ret (.word x)
  | .store i v => (store i v).bind fun _ => .ret .unit
  | .exchange i v => (exchange i v).bind fun x => .ret (.word x)
  | .cas i e d => (compareExchange i e d).bind fun x => .ret (.word x)
  | .add i v => (fetchAdd i v).bind fun x => .ret (.word x)
  | .sub i v => (fetchSub i v).bind fun x => .ret (.word x)
  | .and i v => (fetchAnd i v).bind fun x => .ret (.word x)
  | .or i v => (fetchOr i v).bind fun x => .ret (.word x)
  | .xor i v => (fetchXor i v).bind fun x => .ret (.word x)
  | .loadBit b => (loadBit b).bind fun x => .ret (.bit x)
  | .storeBit b v => (storeBit b v).bind fun x => .ret (.bit x)
  | .xorBit b => (xorBit b).bind fun x => .ret (.bit x)
  | .size => size.bind fun n => .ret (.num n)
  | .expand n => (expand sz fuel n).bind fun _ => .ret .unit
  | .expandBits n => (expandBits sz fuel n).bind fun _ => .ret .unit

/-- run a method without interruption -/
def vrun (sz : Nat) {α : Type} : VProg (8 * sz) α → Sh → Proc → Res α × Sh × Proc
  | .ret a, s, p => (.ok a, s, p)
  | .err e, s, p => (.err e, s, p)
  | .ub, s, p => (.ub, s, p)
  | .step o k, s, p =>
      match exec sz o s p with
      | none => (.ub, s, p)
      | some (v, s', p') => vrun sz (k v) s' p'

/-- a sequence of calls by one process; exceptions are caught -/
def vhist (sz fuel : Nat) : List (Op (8 * sz)) → Sh → Proc → List (Res (Ret (8 * sz))) × Sh × Proc
  | [], s, p => ([], s, p)
  | o :: os, s, p =>
      let r := vrun sz (call sz fuel o) s p
      let rs := vhist sz fuel os r.2.1 r.2.2
      (r.1 :: rs.1, rs.2)

/-! ### Several processes -/

/-- observable events -/
inductive Ev (w : Nat)
  | inv (t : Nat) (op : Op w)
  | res (t : Nat) (op : Op w) (r : Out (Ret w))
  deriving DecidableEq

/-- State: shared memory, the processes, which are alive, the method each is executing and what is left of it, and the
observable history. -/
structure Sys (w : Nat) where
  sh : Sh
  proc : Nat → Proc
  alive : Nat → Bool
  th : Nat → Option (Op w × VProg w (Ret w))
  hist : List (Ev w)

def upd {β : Type} (f : Nat → β) (a : Nat) (v : β) : Nat → β := fun x => if x = a then v else f x

/-- One step of the system.  `ok s t op` restricts when method `op` may be called. -/
inductive Step (sz fuel : Nat) (ok : Sys (8 * sz) → Nat → Op (8 * sz) → Prop) : Sys (8 * sz) → Sys (8 * sz) → Prop
  | call {s t} (op : Op (8 * sz)) : s.alive t = true → s.th t = none → ok s t op →
      Step sz fuel ok s { s with th := upd s.th t (some (op, call sz fuel op)), hist := s.hist ++ [.inv t op] }
  | step {s t op o k v sh' p'} : s.alive t = true → s.th t = some (op, .step o k) → exec sz o s.sh (s.proc t) = some (v, sh', p') →
      Step sz fuel ok s { s with sh := sh', proc := upd s.proc t p', th := upd s.th t (some (op, k v)) }
  | fault {s t op o k} : s.alive t = true → s.th t = some (op, .step o k) → exec sz o s.sh (s.proc t) = none →
      Step sz fuel ok s { s with th := upd s.th t (some (op, .ub)) }
  | ret {s t op r} : s.alive t = true → s.th t = some (op, .ret r) →
      Step sz fuel ok s { s with th := upd s.th t none, hist := s.hist ++ [.res t op (.ok r)] }
  | throw {s t op e} : s.alive t = true → s.th t = some (op, .err e) →
      Step sz fuel ok s { s with th := upd s.th t none, hist := s.hist ++ [.res t op (.err e)] }
  | die {s} (t : Nat) : Step sz fuel ok s { s with th := upd s.th t none, alive := upd s.alive t false }

inductive Reach (sz fuel : Nat) (ok : Sys (8 * sz) → Nat → Op (8 * sz) → Prop) (s0 : Sys (8 * sz)) : Sys (8 * sz) → Prop
  | refl : Reach sz fuel ok s0 s0
  | step {s s'} : Reach sz fuel ok s0 s → Step sz fuel ok s s' → Reach sz fuel ok s0 s'

end Verif.AtomicVec
