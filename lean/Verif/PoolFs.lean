import Verif.PropsPool
/-
Opening, creating and deleting pools by name: Pool::Pool (Pool.cc 30-78), Pool::delete_pool (Pool.cc 152-161), check_size_and_remap (Pool.cc 113-129).

The operating system is a table of names and a table of files (or shared memory objects; a `Name` stands for a path together with the flag `file`, which selects one of two separate
name spaces).  Every system call is one atomic step; any of them may also fail for reasons of the system (too many open files, no space, no address space, …) if `bad` is true.
Several threads interleave; a thread may stop for ever at any point (death), which is an execution in which it takes no further step.

Simplifications: a file keeps its contents as long as the model runs (it is freed by the system when the last process closes it, and then nobody can see it); nobody but the
library touches the files; there are no hard links.
-/
namespace Verif.Fs
open Verif

/-- names of pools -/
scoped notation "Name" => Nat
/-- numbers of files -/
scoped notation "Ino" => Nat

/-- a file or shared memory object -/
structure File where
  fsize : Nat
  mem : Nat → UInt8

/-- the size word, Pool.hh Data::size -/
def File.word (f : File) : Nat := leRd f.mem 0 8

structure OS where
  names : Name → Option Ino
  files : Ino → File
  next : Ino                      -- no file has this number or a larger one

/-- system calls and the accesses to the size word -/
inductive SysOp
  | create (n : Name)             -- open(name, O_RDWR | O_CREAT | O_EXCL)
  | «open» (n : Name)             -- open(name, O_RDWR)
  | fstat (fd : Ino)
  | ftruncate (fd : Option Ino) (len : Nat)
  | mmap (fd : Ino) (len : Nat)
  | load (i : Ino)                -- data->size.load()
  | store (i : Ino) (v : Nat)     -- data->size = v
  | unlink (n : Name)

inductive CreateRe
  | fd (i : Ino)
  | eexist
  | other                         -- any other errno
  deriving DecidableEq

inductive UnlinkRe
  | ok
  | enoent
  | other
  deriving DecidableEq

abbrev SysRe : SysOp → Type
  | .create _ => CreateRe
  | .open _ => Option Ino
  | .fstat _ => Nat
  | .ftruncate _ _ => Bool
  | .mmap _ _ => Bool
  | .load _ => Nat
  | .store _ _ => Unit
  | .unlink _ => UnlinkRe

abbrev SProg (α : Type) := Prog SysOp SysRe α

namespace Y
def create (n : Name) : SProg CreateRe := .step (.create n) .ret
def «open» (n : Name) : SProg (Option Ino) := .step (.open n) .ret
def fstat (i : Ino) : SProg Nat := .step (.fstat i) .ret
def ftruncate (i : Option Ino) (len : Nat) : SProg Bool := .step (.ftruncate i len) .ret
def mmap (i : Ino) (len : Nat) : SProg Bool := .step (.mmap i len) .ret
def load (i : Ino) : SProg Nat := .step (.load i) .ret
def store (i : Ino) (v : Nat) : SProg Unit := .step (.store i v) .ret
def unlink (n : Name) : SProg UnlinkRe := .step (.unlink n) .ret
end Y

def upd {β : Type} (f : Nat → β) (i : Nat) (b : β) : Nat → β := fun j => if j = i then b else f j

/-- ftruncate: bytes beyond the smaller of the old and the new size read as zero -/
def File.resize (f : File) (len : Nat) : File := ⟨len, fun i => if i < f.fsize ∧ i < len then f.mem i else 0⟩

/-- **What the system does.** `bad`: calls may fail for reasons of the system. -/
inductive Sys (bad : Bool) : (op : SysOp) → OS → SysRe op → OS → Prop
  | createNew {n s} : s.names n = none → Sys bad (.create n) s (.fd s.next) ⟨upd s.names n (some s.next), upd s.files s.next ⟨0, fun _ => 0⟩, s.next + 1⟩
  | createExists {n s i} : s.names n = some i → Sys bad (.create n) s .eexist s
  | createFails {n s} : bad = true → Sys bad (.create n) s .other s
  | «open» {n s} : Sys bad (.open n) s (s.names n) s
  | openFails {n s} : bad = true → Sys bad (.open n) s none s
  | fstat {i s} : Sys bad (.fstat i) s (s.files i).fsize s
  | truncate {i len s} : Sys bad (.ftruncate (some i) len) s true ⟨s.names, upd s.files i ((s.files i).resize len), s.next⟩
  | truncateFails {i len s} : bad = true → Sys bad (.ftruncate (some i) len) s false s
  | truncateBadFd {len s} : Sys bad (.ftruncate none len) s false s
  | mmap {i len s} : len ≠ 0 → Sys bad (.mmap i len) s true s
  | mmapZero {i s} : Sys bad (.mmap i 0) s false s
  | mmapFails {i len s} : bad = true → Sys bad (.mmap i len) s false s
  | load {i s} : Sys bad (.load i) s (s.files i).word s
  | store {i v s} : Sys bad (.store i v) s () ⟨s.names, upd s.files i ⟨(s.files i).fsize, leWr (s.files i).mem 0 8 v⟩, s.next⟩
  | unlink {n s i} : s.names n = some i → Sys bad (.unlink n) s .ok ⟨upd s.names n none, s.files, s.next⟩
  | unlinkNone {n s} : s.names n = none → Sys bad (.unlink n) s .enoent s
  | unlinkFails {n s} : bad = true → Sys bad (.unlink n) s .other s

/-- a Pool object: the file its descriptor refers to, and pool_size, the length of its mapping -/
structure PoolObj where
  ino : Ino
  len : Nat
  deriving DecidableEq

/-- Pool.cc 55-60 -/
def ctorMap (i : Ino) (len : Nat) : SProg PoolObj := do
  let ok ← Y.mmap i len
  if ok then pure ⟨i, len⟩ else .err .noMem

/-- Pool.cc 49-60: the pool exists -/
def ctorOpened (i : Ino) : SProg PoolObj := do
  let len ← Y.fstat i
  if len = 0 then .err .runtimeError else ctorMap i len

/-- Pool.cc 44-60 -/
def ctorExists (n : Name) : SProg PoolObj := do
  let fd ← Y.open n
  match fd with
  | none => .err .runtimeError
  | some i => ctorOpened i

/-- Pool.cc 77: the last step of creation -/
def ctorStore (i : Ino) : SProg PoolObj := do
  Y.store i 4096
  pure ⟨i, 4096⟩

/-- Pool.cc 66-69 and 73-75: creation has failed -/
def ctorUndo (n : Name) (e : Err) : SProg PoolObj := do
  let _ ← Y.unlink n
  .err e

/-- Pool.cc 70-77 -/
def ctorCreateMap (n : Name) (i : Ino) : SProg PoolObj := do
  let ok ← Y.mmap i 4096
  if ok then ctorStore i else ctorUndo n .noMem

/-- Pool.cc 62-77: we have created the pool (or: open has failed with another errno than EEXIST, and fd is -1) -/
def ctorCreate (n : Name) (fd : Option Ino) : SProg PoolObj := do
  let ok ← Y.ftruncate fd 4096
  if ok then
    match fd with
    | some i => ctorCreateMap n i
    | none => .ub
  else ctorUndo n .runtimeError

/-- Pool::Pool, Pool.cc 30-79.  cannot_open_file and runtime_error are both `.runtimeError`, bad_alloc is `.noMem`. -/
def ctor (n : Name) : SProg PoolObj := do
  let r ← Y.create n
  match r with
  | .eexist => ctorExists n
  | .fd i => ctorCreate n (some i)
  | .other => ctorCreate n none

/-- Pool::delete_pool, Pool.cc 152-161 -/
def deletePool (n : Name) : SProg Bool := do
  let r ← Y.unlink n
  match r with
  | .ok => pure true
  | .enoent => pure false
  | .other => .err .runtimeError

/-- Pool.cc 116-128: the mapping is replaced by one of the new size -/
def remapTo (p : PoolObj) (v : Nat) : SProg PoolObj := do
  let ok ← Y.mmap p.ino v
  if ok then pure ⟨p.ino, v⟩ else .err .runtimeError

/-- Pool::check_size_and_remap, Pool.cc 113-129, of a Pool object whose mapping is not empty -/
def checkRemap (p : PoolObj) : SProg PoolObj := do
  let v ← Y.load p.ino
  if v = p.len then pure p else remapTo p v

/-! ### Executions -/

inductive Call
  | ctor (n : Name)
  | del (n : Name)
  deriving DecidableEq

inductive Ret
  | pool (p : PoolObj)
  | bool (b : Bool)
  deriving DecidableEq

def code : Call → SProg Ret
  | .ctor n => (ctor n).bind fun p => .ret (.pool p)
  | .del n => (deletePool n).bind fun b => .ret (.bool b)

/-- `run t` = the call that thread t is in, and the rest of it; `log` = the finished calls, in the order they finished; `started` = all calls that have been started -/
structure St where
  os : OS
  run : Nat → Option (Call × SProg Ret)
  started : List Call
  log : List (Nat × Call × Out Ret)

/-- **The steps of the system**: threads start constructors and deletions, make system calls, and finish; and whoever has a Pool object may store into the file and expand it. -/
inductive Step (bad : Bool) : St → St → Prop
  | start {s : St} {t : Nat} (c : Call) : s.run t = none → Step bad s { s with run := upd s.run t (some (c, code c)), started := c :: s.started }
  | sys {s : St} {t : Nat} {c op k r os'} : s.run t = some (c, .step op k) → Sys bad op s.os r os' → Step bad s { s with os := os', run := upd s.run t (some (c, k r)) }
  | finish {s : St} {t : Nat} {c a} : s.run t = some (c, .ret a) → Step bad s { s with run := upd s.run t none, log := s.log ++ [(t, c, .ok a)] }
  | throws {s : St} {t : Nat} {c e} : s.run t = some (c, .err e) → Step bad s { s with run := upd s.run t none, log := s.log ++ [(t, c, .err e)] }
  | use {s : St} {t n p} (f : File) : (t, .ctor n, .ok (.pool p)) ∈ s.log → (s.os.files p.ino).fsize ≤ f.fsize → f.fsize % 4096 = 0 →
      Step bad s { s with os := { s.os with files := upd s.os.files p.ino f } }

inductive Reach (bad : Bool) (s0 : St) : St → Prop
  | refl : Reach bad s0 s0
  | step {s s' : St} : Reach bad s0 s → Step bad s s' → Reach bad s0 s'

/-- nothing runs; the files that exist have the sizes that the library gives them, and none is between creation and its first ftruncate -/
structure Init (s : St) : Prop where
  run : ∀ t, s.run t = none
  log : s.log = []
  started : s.started = []
  range : ∀ n i, s.os.names n = some i → i < s.os.next
  page : ∀ i, (s.os.files i).fsize % 4096 = 0

end Verif.Fs
