import Verif.PropsPrioQueue
import Verif.Python
/-
Model of the Python class PriorityQueue (/repo/src/PythonModule.cc 2100-2235) and of the use that README.md 176 advises: an 8-byte big-endian priority before each item.

Simplifications: as in Python.lean.
-/
namespace Verif.Py
variable {O : Type}

/-- the UTF-8 encoding of a code point (a lone surrogate has none) -/
def utf8Char (c : Nat) : Option Bytes :=
  if c < 0x80 then some [UInt8.ofNat c]
  else if c < 0x800 then some [UInt8.ofNat (0xC0 + c / 64), UInt8.ofNat (0x80 + c % 64)]
  else if 0xD800 ≤ c ∧ c < 0xE000 then Option.none
  else if c < 0x10000 then some [UInt8.ofNat (0xE0 + c / 4096), UInt8.ofNat (0x80 + c / 64 % 64), UInt8.ofNat (0x80 + c % 64)]
  else some [UInt8.ofNat (0xF0 + c / 262144), UInt8.ofNat (0x80 + c / 4096 % 64), UInt8.ofNat (0x80 + c / 64 % 64), UInt8.ofNat (0x80 + c % 64)]

/-- the UTF-8 encoding of a string -/
def utf8 : List (Fin 1114112) → Option Bytes
  | [] => some []
  | c :: cs => match utf8Char c.val, utf8 cs with
    | some x, some y => some (x ++ y)
    | _, _ => Option.none

/-- PyArg_ParseTuple with the format "s#": a bytes object gives its bytes, a str its UTF-8 encoding (UnicodeEncodeError, a subclass of ValueError, if it has none), anything else raises
TypeError -/
def parseS : Obj O → Except Exc Bytes
  | .bytes d => .ok d
  | .str cs => match utf8 cs with
    | some d => .ok d
    | Option.none => .error .valueError
  | _ => .error .typeError

/-- calls of methods of sharedstructures.PriorityQueue -/
inductive PQOp (O : Type)
  | push (v : Obj O)
  | pop
  | len

/-- the methods: PythonModule.cc 2154-2157 (len), 2164-2174 (pop), 2181-2194 (push) -/
def pqcall (b : Nat) : PQOp O → HProg (Res O)
  | .push v => match parseS v with
    | .ok d => (PrioQueue.call b (.push d)).bind fun _ => .ret (.obj .none)
    | .error e => .ret (.raised e)
  | .pop => onRange .indexError (PrioQueue.call b .pop) fun r => match r with
    | .str d => .ret (.obj (.bytes d))
    | _ => .ret (.raised .systemError)
  | .len => (PrioQueue.call b .size).bind fun r => match r with
    | .num n => .ret (.obj (.int n))
    | _ => .ret (.raised .systemError)

/-! ### Items with priorities (README.md 176) -/

/-- the `n` low bytes of a number, most significant first -/
def natBe : Nat → Nat → Bytes
  | 0, _ => []
  | n + 1, p => natBe n (p / 256) ++ [UInt8.ofNat p]

/-- the number with the given bytes, most significant first -/
def beNat (d : Bytes) : Nat := d.foldl (fun n x => n * 256 + x.toNat) 0

/-- struct.pack(">Q", p), for 0 ≤ p < 2^64 -/
def packQ (p : Nat) : Bytes := natBe 8 p

/-- struct.unpack(">Q", d) of the first 8 bytes of an item, and the rest -/
def unpackQ (d : Bytes) : Nat × Bytes := (beNat (d.take 8), d.drop 8)

/-- what the Python program does -/
inductive PrioOp
  /-- q.push(struct.pack(">Q", p) + d) -/
  | push (p : BitVec 64) (d : Bytes)
  /-- x = q.pop(), then struct.unpack(">Q", x[:8]) and x[8:] -/
  | pop
  | len
  deriving DecidableEq

/-- what it gets -/
inductive PrioRes
  | none
  | item (p : Nat) (d : Bytes)
  | int (n : Int)
  | raised (e : Exc)
  deriving DecidableEq

/-- the program's view of a returned object -/
def prioRes : Res O → PrioRes
  | .raised e => .raised e
  | .obj (.bytes x) => .item (unpackQ x).1 (unpackQ x).2
  | .obj (.int n) => .int n
  | _ => .none

/-- the calls the program makes -/
def prioCall (O : Type) (b : Nat) : PrioOp → HProg PrioRes
  | .push p d => (pqcall b (.push (.bytes (packQ p.toNat ++ d) : Obj O))).bind fun r => .ret (prioRes r)
  | .pop => (pqcall b (.pop : PQOp O)).bind fun r => .ret (prioRes r)
  | .len => (pqcall b (.len : PQOp O)).bind fun r => .ret (prioRes r)

end Verif.Py
