import Verif.Raw
/-
Model of /repo/src/ProcessLock.{hh,cc} (Linux branch) and of the lock sessions of an allocator
(SimpleAllocator::lock, SimpleAllocator.cc 201-223; LogarithmicAllocator::lock, LogarithmicAllocator.cc 442-464).

Lock words are numbered: word 0 is `write_lock`, words 1..65 are `reader_tokens[0..64]`, words from 66 on are
independent `ProcessLock`s.  All accesses to them are sequentially consistent atomics in the code (std::atomic defaults), one
step each here.  Token = pid (Linux, ProcessLock.cc 51-61).  `process_for_token_is_running` looks at the low 18 bits of the
token only (PID_BITS, ProcessLock.cc 47, 73-75, 77-90).

Unbounded loops carry fuel; a thread whose fuel runs out stays where it is for ever (`.ub`), so "for all fuel" covers every
finite prefix of the unbounded loop.

A protected operation (`Body`) is a program over an arbitrary deterministic machine `Mach` (later: the pool).
-/
namespace Verif.Lock
open Verif

/-- memory protected by the lock -/
structure Mach where
  Op : Type
  Re : Op → Type
  M : Type
  exec : (op : Op) → M → Re op × M
  Res : Type

variable {K : Mach}

/-- a protected operation with its result -/
abbrev Body (K : Mach) := Prog K.Op K.Re K.Res

/-- run a protected operation without interruption -/
def Body.run : Body K → K.M → Verif.Res K.Res × K.M
  | .ret a, m => (.ok a, m)
  | .err e, m => (.err e, m)
  | .ub, m => (.ub, m)
  | .step op k, m => Body.run (k (K.exec op m).1) (K.exec op m).2

/-- what is left of a protected operation after its first `c` accesses, and memory then -/
def Body.after : Nat → Body K → K.M → Body K × K.M
  | c + 1, .step op k, m => Body.after c (k (K.exec op m).1) (K.exec op m).2
  | _, b, m => (b, m)

/-- a protected operation that never changes memory -/
def Ro : Body K → Prop
  | .step op k => (∀ m, (K.exec op m).2 = m) ∧ ∀ v, Ro (k v)
  | _ => True

/-- how a section of code is protected. `write stolen` records the token reported as stolen. -/
inductive Kind
  | write (stolen : Nat)
  | read
  | mutex (w : Nat)
  deriving DecidableEq

/-- steps of a thread -/
inductive LOp (K : Mach)
  | cas (w e v : Nat)          -- compare_exchange_strong
  | casWeak (w e v : Nat)      -- compare_exchange_weak: may fail spuriously
  | load (w : Nat)
  | wait (w v : Nat)           -- futex_wait with timeout: may answer anything
  | running (tok : Nat)        -- process_for_token_is_running
  | enter (kd : Kind) (b : Body K)   -- not code: the guard is held and `b` starts
  | acc (op : K.Op)            -- one memory access of the protected operation
  | leave (b : Body K) (r : Verif.Res K.Res) -- not code: `b` finished with `r`
  | quit                       -- not code: the section under a ProcessLockGuard ends
  | idle                       -- not code: the guard has been destroyed; the thread is between sessions

abbrev LRe : LOp K → Type
  | .cas .. => Bool × Nat
  | .casWeak .. => Bool × Nat
  | .load _ => Nat
  | .wait .. => Bool
  | .running _ => Bool
  | .enter .. => Unit
  | .acc op => K.Re op
  | .leave .. => Unit
  | .quit => Unit
  | .idle => Unit

abbrev LProg (K : Mach) (α : Type) := Prog (LOp K) LRe α

namespace L
def cas (w e v : Nat) : LProg K (Bool × Nat) := .step (.cas w e v) .ret
def casWeak (w e v : Nat) : LProg K (Bool × Nat) := .step (.casWeak w e v) .ret
def load (w : Nat) : LProg K Nat := .step (.load w) .ret
def wait (w v : Nat) : LProg K Bool := .step (.wait w v) .ret
def running (t : Nat) : LProg K Bool := .step (.running t) .ret
def enter (kd : Kind) (b : Body K) : LProg K Unit := .step (.enter kd b) .ret
end L

/-- the spin loop, ProcessLock.cc 126-133 (SPIN_LIMIT = 10, line 49): success flag and the last value seen -/
def spin (w tok : Nat) : Nat → Nat → LProg K (Bool × Nat)
  | 0, last => .ret (false, last)
  | n + 1, _ => (L.casWeak w 0 tok).bind fun r => if r.1 then .ret (true, 0) else spin w tok n r.2

/-- acquire_process_lock, ProcessLock.cc 122-162; the result is the stolen token or 0 -/
def acquire (w tok : Nat) : Nat → LProg K Nat
  | 0 => .ub
  | fuel + 1 =>
    (spin w tok 10 0).bind fun r =>
      if r.1 then .ret 0
      else (L.wait w r.2).bind fun woken =>
        if woken then acquire w tok fuel
        else (L.running r.2).bind fun live =>
          if live then acquire w tok fuel
          else (L.cas w r.2 tok).bind fun c => if c.1 then .ret r.2 else acquire w tok fuel

/-- release_process_lock, ProcessLock.cc 164-174 (the wake-up changes no memory) -/
def release (w tok : Nat) : LProg K Unit := (L.cas w tok 0).bind fun _ => .ret ()

/-- wait_for_reader_release, ProcessLock.cc 176-204 -/
def readerRelease (w : Nat) : Nat → LProg K Bool
  | 0 => .ub
  | fuel + 1 =>
    (L.load w).bind fun t =>
      if t = 0 then .ret false
      else (L.wait w t).bind fun woken =>
        if woken then readerRelease w fuel
        else (L.running t).bind fun live =>
          if live then readerRelease w fuel
          else (L.cas w t 0).bind fun c => if c.1 then .ret true else readerRelease w fuel

/-- wait_for_reader_drain(wait_all = true), ProcessLock.cc 207-219; `n` slots left -/
def drainAll (fuel : Nat) : Nat → Nat → LProg K Unit
  | 0, _ => .ret ()
  | n + 1, x =>
    (L.load (x + 1)).bind fun t =>
      if t = 0 then drainAll fuel n (x + 1)
      else (readerRelease (x + 1) fuel).bind fun _ => drainAll fuel n (x + 1)

/-- the scan for an empty slot, ProcessLock.cc 224-229 -/
def anyFree : Nat → Nat → LProg K Bool
  | 0, _ => .ret false
  | n + 1, x => (L.load (x + 1)).bind fun t => if t = 0 then .ret true else anyFree n (x + 1)

/-- wait_for_reader_drain(wait_all = false), ProcessLock.cc 221-235 -/
def drainAny (pid fuel : Nat) : Nat → LProg K Unit
  | 0 => .ub
  | f + 1 =>
    (anyFree 65 0).bind fun b =>
      if b then .ret () else (readerRelease (pid % 65 + 1) fuel).bind fun _ => drainAny pid fuel f

/-- claiming a reader slot, ProcessLock.cc 317-323 = 356-363 -/
def takeSlot (tok : Nat) : Nat → Nat → LProg K (Option Nat)
  | 0, _ => .ret none
  | n + 1, x => (L.cas (x + 1) 0 tok).bind fun c => if c.1 then .ret (some x) else takeSlot tok n (x + 1)

/-- ProcessReadWriteLockGuard: reader slot (`none` = writing) and stolen token -/
structure Guard where
  slot : Option Nat
  stolen : Nat
  deriving DecidableEq

/-- constructor with Behavior::WRITE, ProcessLock.cc 296-301 -/
def guardWrite (fuel tok : Nat) : LProg K Guard :=
  (acquire 0 tok fuel).bind fun st => (drainAll fuel 65 0).bind fun _ => .ret ⟨none, st⟩

/-- constructor with Behavior::READ or READ_UNLESS_STOLEN, ProcessLock.cc 303-332 -/
def guardRead (unlessStolen : Bool) (fuel tok : Nat) : Nat → LProg K Guard
  | 0 => .ub
  | f + 1 =>
    (acquire 0 tok fuel).bind fun st =>
      if st ≠ 0 ∧ unlessStolen = true then (drainAll fuel 65 0).bind fun _ => .ret ⟨none, st⟩
      else (takeSlot tok 65 0).bind fun sl =>
        (release 0 tok).bind fun _ =>
          match sl with
          | some x => .ret ⟨some x, st⟩
          | none => (drainAny tok fuel fuel).bind fun _ => guardRead unlessStolen fuel tok f

/-- destructor, ProcessLock.cc 335-346 -/
def destroy (tok : Nat) (g : Guard) : LProg K Unit :=
  match g.slot with
  | none => release 0 tok
  | some x => release (x + 1) tok

/-- downgrade, ProcessLock.cc 348-368 -/
def downgrade (tok : Nat) (g : Guard) : LProg K Guard :=
  match g.slot with
  | some _ => .err .logicError
  | none => (takeSlot tok 65 0).bind fun sl =>
      match sl with
      | some x => (release 0 tok).bind fun _ => .ret ⟨some x, g.stolen⟩
      | none => .err .logicError

/-- run the protected operation `b`, of which `rem` is left -/
def embed (b : Body K) : Body K → LProg K Unit
  | .ret a => .step (.leave b (.ok a)) .ret
  | .err e => .step (.leave b (.err e)) .ret
  | .ub => .step (.leave b .ub) .ret
  | .step op k => .step (.acc op) fun v => embed b (k v)

/-- run `b` as a section of the given kind -/
def section_ (kd : Kind) (b : Body K) : LProg K Unit := (L.enter kd b).bind fun _ => embed b b

/-- what a thread does: operations under `allocator->lock(true)`, under `allocator->lock(false)`, or under
the `w`-th ProcessLockGuard (ProcessLock.cc 246-262);
and, for writers that call it, `downgrade()` followed by a read-only operation -/
inductive Session (K : Mach)
  | write (repair body : Body K)
  | writeThenRead (repair body after : Body K)
  | read (repair body : Body K)
  | readAny (body : Body K)      -- Behavior::READ, which ignores a stolen lock
  | mutex (w : Nat)

/-- protected operation after `lock(true)`: repair first if the lock was stolen, SimpleAllocator.cc 213-222 -/
def afterSteal (st : Nat) (repair body : Body K) : Body K := if st ≠ 0 then repair.bind fun _ => body else body

/-- one session of a thread with token `tok` -/
def session (fuel tok : Nat) : Session K → LProg K Unit
  | .write rep b => (guardWrite fuel tok).bind fun g =>
      (section_ (.write g.stolen) (afterSteal g.stolen rep b)).bind fun _ => destroy tok g
  | .writeThenRead rep b a => (guardWrite fuel tok).bind fun g =>
      (section_ (.write g.stolen) (afterSteal g.stolen rep b)).bind fun _ =>
        (L.enter .read a).bind fun _ => (downgrade tok g).bind fun g => (embed a a).bind fun _ => destroy tok g
  | .read rep b => (guardRead true fuel tok fuel).bind fun g =>
      if g.stolen ≠ 0 then
        (section_ (.write g.stolen) rep).bind fun _ =>
          (L.enter .read b).bind fun _ => (downgrade tok g).bind fun g => (embed b b).bind fun _ => destroy tok g
      else (section_ .read b).bind fun _ => destroy tok g
  | .readAny b => (guardRead false fuel tok fuel).bind fun g => (section_ .read b).bind fun _ => destroy tok g
  | .mutex w => (acquire (w + 66) tok fuel).bind fun _ =>
      (L.enter (.mutex (w + 66)) .ub).bind fun _ => (.step .quit .ret : LProg K Unit).bind fun _ => release (w + 66) tok

/-- a thread runs its sessions one after another -/
def thread (fuel tok : Nat) : List (Session K) → LProg K Unit
  | [] => .ret ()
  | s :: ss => (session fuel tok s).bind fun _ => (.step .idle .ret : LProg K Unit).bind fun _ => thread fuel tok ss

/-- State of the system: lock words, which processes are alive, protected memory, the log of finished operations (thread, kind of section,
operation, result) in the order they finished, what is left of each thread's program, and the section each thread is in.  `holder w` and `took w` are
history variables: who last stored a token in `w`, and the value it replaced. -/
structure St (K : Mach) where
  words : Nat → Nat
  alive : Nat → Bool
  mem : K.M
  log : List (Nat × Option Kind × Body K × Verif.Res K.Res)
  th : Nat → LProg K Unit
  st : Nat → Option Kind
  holder : Nat → Option Nat
  took : Nat → Nat

/-- function update -/
def fset {β : Type} (f : Nat → β) (a : Nat) (v : β) : Nat → β := fun x => if x = a then v else f x

/-- thread `t` stores `v` in word `w` and goes on with `p` -/
def St.store (s : St K) (t w v : Nat) (p : LProg K Unit) : St K :=
  { s with words := fset s.words w v, th := fset s.th t p,
           holder := fset s.holder w (if v = 0 then none else some t), took := fset s.took w (s.words w) }
def St.goto (s : St K) (t : Nat) (p : LProg K Unit) : St K := { s with th := fset s.th t p }

/-- One step of the system, by thread `some t` or (`none`) the death of a process.  `pid t` is the process of thread `t`. -/
inductive Step (pid : Nat → Nat) : Option Nat → St K → St K → Prop
  | casOk {s t w e v k} : s.alive (pid t) = true → s.th t = .step (.cas w e v) k → s.words w = e →
      Step pid (some t) s (s.store t w v (k (true, e)))
  | casFail {s t w e v k} : s.alive (pid t) = true → s.th t = .step (.cas w e v) k → s.words w ≠ e →
      Step pid (some t) s (s.goto t (k (false, s.words w)))
  | weakOk {s t w e v k} : s.alive (pid t) = true → s.th t = .step (.casWeak w e v) k → s.words w = e →
      Step pid (some t) s (s.store t w v (k (true, e)))
  | weakFail {s t w e v k} : s.alive (pid t) = true → s.th t = .step (.casWeak w e v) k →
      Step pid (some t) s (s.goto t (k (false, s.words w)))
  | load {s t w k} : s.alive (pid t) = true → s.th t = .step (.load w) k → Step pid (some t) s (s.goto t (k (s.words w)))
  | wait {s t w v k} (b : Bool) : s.alive (pid t) = true → s.th t = .step (.wait w v) k → Step pid (some t) s (s.goto t (k b))
  | running {s t d k} : s.alive (pid t) = true → s.th t = .step (.running d) k →
      Step pid (some t) s (s.goto t (k (s.alive (d % 2 ^ 18))))
  | enter {s t kd b k} : s.alive (pid t) = true → s.th t = .step (.enter kd b) k →
      Step pid (some t) s { s.goto t (k ()) with st := fset s.st t (some kd) }
  | acc {s t op k} : s.alive (pid t) = true → s.th t = .step (.acc op) k →
      Step pid (some t) s { s.goto t (k (K.exec op s.mem).1) with mem := (K.exec op s.mem).2 }
  | leave {s t b r k} : s.alive (pid t) = true → s.th t = .step (.leave b r) k →
      Step pid (some t) s { s.goto t (k ()) with st := fset s.st t none, log := s.log ++ [(t, s.st t, b, r)] }
  | quit {s t k} : s.alive (pid t) = true → s.th t = .step .quit k →
      Step pid (some t) s { s.goto t (k ()) with st := fset s.st t none }
  | idle {s t k} : s.alive (pid t) = true → s.th t = .step .idle k → Step pid (some t) s (s.goto t (k ()))
  | die {s} (p : Nat) : Step pid none s { s with alive := fset s.alive p false }

/-- initial states: lock words zero, nobody in a section, every thread about to run its sessions -/
structure Init (pid : Nat → Nat) (fuel : Nat) (prog : Nat → List (Session K)) (m0 : K.M) (s : St K) : Prop where
  words : ∀ w, s.words w = 0
  mem : s.mem = m0
  log : s.log = []
  th : ∀ t, s.th t = thread fuel (pid t) (prog t)
  st : ∀ t, s.st t = none
  holder : ∀ w, s.holder w = none
  took : ∀ w, s.took w = 0

inductive Reach (pid : Nat → Nat) (s0 : St K) : St K → Prop
  | refl : Reach pid s0 s0
  | step {s s' a} : Reach pid s0 s → Step pid a s s' → Reach pid s0 s'

end Verif.Lock
