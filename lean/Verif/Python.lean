import Verif.PropsPrefixTree
import Verif.PropsHashTable
/-
Model of the Python module (/repo/src/PythonModule.cc): the conversion of Python objects to and from stored values, and the methods of the Python classes PrefixTree, HashTable and Queue
as calls of the C++ methods.

Simplifications:
* A Python object is its type and value; objects of types that the module has no case for are of an arbitrary type `O`.  Subclasses of int, float, bytes and str are not modelled.
* `marshal` is given by two functions `dump` and `load` with `load (dump v) = v`.  `dump` takes a further argument for the state of the interpreter, because the bytes that marshal
  writes for an object also depend on its reference counts (FLAG_REF).
* wchar_t has 4 bytes and is little-endian (x86-64 Linux).
* Arguments are of the right Python types (keys are bytes), so that argument parsing succeeds; failures of Python's own memory allocator are not modelled.
* Every C++ exception that a method does not catch leaves the program as an exception (`Out.err`); in reality it ends the process.
-/
namespace Verif.Py
open PrefixTree (Val CVal Check)

/-- a Python object.  Code points of str objects are below 0x110000. -/
inductive Obj (O : Type)
  | none
  | bool (b : Bool)
  | int (n : Int)
  | float (bits : BitVec 64)
  | bytes (d : Bytes)
  | str (cs : List (Fin 1114112))
  | other (x : O)
  deriving DecidableEq

/-- the marshal module: PyMarshal_WriteObjectToString in some state of the interpreter (none: it raises an exception), PyMarshal_ReadObjectFromString (none: it raises an exception) -/
structure Marshal (O : Type) where
  dump : Nat → Obj O → Option Bytes
  load : Bytes → Option (Obj O)
  load_dump : ∀ t v d, dump t v = some d → load d = some v

variable {O : Type}

/-- PyLong_AsLongLong: none if the int is out of range -/
def asLongLong (n : Int) : Option (BitVec 64) := if -2 ^ 63 ≤ n ∧ n < 2 ^ 63 then some (BitVec.ofInt 64 n) else none

/-- PyUnicode_AsWideChar: 4 bytes for each code point -/
def wide : List (Fin 1114112) → Bytes
  | [] => []
  | c :: cs => natLe 4 c.val ++ wide cs

/-- PyUnicode_FromWideChar on size / 4 characters: it raises ValueError for numbers that are no code points -/
def unwide : Bytes → Option (List (Fin 1114112))
  | a :: b :: c :: d :: s =>
    if h : leNat [a, b, c, d] < 1114112 then (unwide s).map fun cs => ⟨leNat [a, b, c, d], h⟩ :: cs else Option.none
  | _ => some []

/-- what t[k] = v stores (PythonModule.cc 1280-1367 sharedstructures_PrefixTree_SetItem): none if it raises -/
def store (M : Marshal O) (t : Nat) (v : Obj O) : Option Val :=
  match v with
  | .none => some .null
  | .bool b => some (.bool b)
  | .int n => match asLongLong n with
    | some x => some (.int x)
    | Option.none => (M.dump t v).map fun d => .str (2 :: d)
  | .float x => some (.dbl x)
  | .str cs => some (.str ([3, 4, 0, 0] ++ wide cs))
  | .bytes d => if d.length = 0 then some (.str []) else some (.str (0 :: d))
  | .other _ => (M.dump t v).map fun d => .str (2 :: d)

/-- the value of a check request, and what check_and_set stores (PythonModule.cc 141-210 sharedstructures_internal_get_result_for_python_object): none if it throws -/
def encode (M : Marshal O) (t : Nat) (v : Obj O) : Option Val :=
  match v with
  | .none => some .null
  | .bool b => some (.bool b)
  | .float x => some (.dbl x)
  | .int n => (asLongLong n).map .int
  | .bytes d => some (.str (0 :: d))
  | .str cs => some (.str ([3, 4, 0, 0] ++ wide cs))
  | .other _ => (M.dump t v).map fun d => .str (2 :: d)

/-- s[1] as a signed char, converted to size_t -/
def header (b : UInt8) : Nat := if b.toNat < 128 then b.toNat else 2 ^ 64 - 256 + b.toNat

/-- the object for a stored value (PythonModule.cc 67-139 sharedstructures_internal_get_python_object_for_result): none if it raises.
The results "missing" and "reference", which the C++ methods never return here, are left out. -/
def decode (M : Marshal O) : Val → Option (Obj O)
  | .str [] => some (.bytes [])
  | .str (c :: s) =>
    if c = 0 then some (.bytes s)
    else if c = 1 then (unwide s).map .str
    else if c = 2 then M.load s
    else if c = 3 then match s with
      | [] => Option.none
      | b :: _ => if (c :: s).length < header b then Option.none else (unwide ((c :: s).drop (header b))).map .str
    else Option.none
  | .int x => some (.int x.toInt)
  | .dbl x => some (.float x)
  | .bool b => some (.bool b)
  | .null => some .none

/-! ### The methods of the Python class PrefixTree -/

/-- Python exceptions.  `systemError`: the method returned without a result and without setting an exception. -/
inductive Exc
  | keyError | valueError | typeError | indexError | overflowError | marshalError | systemError
  deriving DecidableEq

/-- calls of methods of sharedstructures.PrefixTree; `t` is the state of the interpreter (see `Marshal`) -/
inductive TOp (O : Type)
  | set (k : Bytes) (v : Obj O) (t : Nat)
  | del (k : Bytes)
  | get (k : Bytes)
  | len
  | clear
  | incr (k : Bytes) (n : Int)
  | incrFloat (k : Bytes) (d : BitVec 64)
  | checkAndSet (ck : Bytes) (cv : Obj O) (k : Bytes) (v : Option (Obj O)) (t t' : Nat)
  | checkMissingAndSet (ck : Bytes) (k : Bytes) (v : Option (Obj O)) (t : Nat)
  | items

/-- the result of a method: a Python object, or a list of pairs for iterations over items -/
inductive Res (O : Type)
  | obj (v : Obj O)
  | items (l : List (Bytes × Obj O))
  | raised (e : Exc)

/-- the object for a result of get, or the exception of the decoder (whichever it is) -/
def result (o : Option (Obj O)) : Res O := match o with
  | some v => .obj v
  | Option.none => .raised .typeError

/-- decode all values of an iteration; an undecodable value ends it with an exception -/
def decodeAll (M : Marshal O) : List (Bytes × Val) → Option (List (Bytes × Obj O))
  | [] => some []
  | (k, v) :: l => match decode M v, decodeAll M l with
    | some o, some r => some ((k, o) :: r)
    | _, _ => Option.none

def boolRes : PT.Ret → Res O
  | .bool b => .obj (.bool b)
  | _ => .raised .systemError

/-- catch (const out_of_range& e) { set a Python exception } -/
def onRange {α : Type} (e : Exc) (p : HProg α) (f : α → HProg (Res O)) : HProg (Res O) :=
  (p.bind f).tryCatch fun x => if x = .outOfRange then .ret (.raised e) else .err x

/-- catch (const runtime_error& e) { return nullptr; }: the lack of memory is a runtime_error (Pool.cc 97, 104) -/
def onRuntime {α : Type} (p : HProg α) (f : α → HProg (Res O)) : HProg (Res O) :=
  (p.bind f).tryCatch fun x => if x = .noMem then .ret (.raised .systemError) else .err x

/-- the exception of the converter when it has no value for an object: PyLong_AsLongLong raises OverflowError, marshal ValueError -/
def convExc : Obj O → Exc
  | .int _ => .overflowError
  | _ => .marshalError

/-- the body of check_and_set (PythonModule.cc 1455-1494) and check_missing_and_set (1513-1547) after the arguments are converted:
insert(target_key, LookupResult, &check) or erase(target_key, &check) -/
def setChecked (M : Marshal O) (add : BitVec 64 → BitVec 64 → BitVec 64) (b : Nat) (c : Check) (k : Bytes) (v : Option (Obj O)) (t : Nat) : HProg (Res O) :=
  match v with
  | some v => match encode M t v with
    | some w => onRuntime (PrefixTree.call add b (.insertResult k (.val w) (some c))) fun r => .ret (boolRes r)
    | Option.none => .ret (.raised (convExc v))
  | Option.none => onRuntime (PrefixTree.call add b (.erase k (some c))) fun r => .ret (boolRes r)

/-- the methods: PythonModule.cc 1222-1225 (len), 1238-1255 (get), 1257-1367 (set, del), 1384-1392 (clear), 1404-1451 (incr), 1455-1547 (check_and_set, check_missing_and_set), 1062-1102 and 1625-1630 (items) -/
def tcall (M : Marshal O) (add : BitVec 64 → BitVec 64 → BitVec 64) (b : Nat) : TOp O → HProg (Res O)
  | .set k v t => match store M t v with
    | some w => (PrefixTree.call add b (.insert k w Option.none)).bind fun _ => .ret (.obj .none)
    | Option.none => .ret (.raised .marshalError)
  | .del k => (PrefixTree.call add b (.erase k Option.none)).bind fun r => match r with
    | .bool true => .ret (.obj .none)
    | _ => .ret (.raised .keyError)
  | .get k => onRange .keyError (PrefixTree.call add b (.at k)) fun r => match r with
    | .val v => .ret (result (decode M v))
    | _ => .ret (.raised .systemError)
  | .len => (PrefixTree.call add b .size).bind fun r => match r with
    | .num n => .ret (.obj (.int n))
    | _ => .ret (.raised .systemError)
  | .clear => (PrefixTree.call add b .clear).bind fun _ => .ret (.obj .none)
  | .incr k n => match asLongLong n with
    | some d => onRange .valueError (PrefixTree.call add b (.incr k d)) fun r => match r with
      | .word x => .ret (.obj (.int x.toInt))
      | _ => .ret (.raised .systemError)
    | Option.none => .ret (.raised .overflowError)
  | .incrFloat k d => onRange .valueError (PrefixTree.call add b (.incrDouble k d)) fun r => match r with
    | .word x => .ret (.obj (.float x))
    | _ => .ret (.raised .systemError)
  | .checkAndSet ck cv k v t t' => match encode M t cv with
    | some w => setChecked M add b (ck, .val w) k v t'
    | Option.none => .ret (.raised (convExc cv))
  | .checkMissingAndSet ck k v t => setChecked M add b (ck, .missing) k v t
  | .items => (PrefixTree.call add b .items).bind fun r => match r with
    | .list l => match decodeAll M l with
      | some r => .ret (.items r)
      | Option.none => .ret (.raised .typeError)
    | _ => .ret (.raised .systemError)

/-! ### The methods of the Python class HashTable: every value is marshalled -/

/-- calls of methods of sharedstructures.HashTable -/
inductive HOp (O : Type)
  | set (k : Bytes) (v : Obj O) (t : Nat)
  | del (k : Bytes)
  | get (k : Bytes)
  | contains (k : Bytes)
  | len
  | clear
  | checkAndSet (ck : Bytes) (cv : Obj O) (k : Bytes) (v : Option (Obj O)) (t t' : Nat)
  | checkMissingAndSet (ck : Bytes) (k : Bytes) (v : Option (Obj O)) (t : Nat)
  | items

def hBool : HT.Ret → Res O
  | .bool b => .obj (.bool b)
  | _ => .raised .systemError

/-- unmarshal all values of an iteration -/
def loadAll (M : Marshal O) : List (Bytes × Bytes) → Option (List (Bytes × Obj O))
  | [] => some []
  | (k, v) :: l => match M.load v, loadAll M l with
    | some o, some r => some ((k, o) :: r)
    | _, _ => Option.none

/-- the end of check_and_set and check_missing_and_set (PythonModule.cc 719-747, 778-807) -/
def hSetChecked (M : Marshal O) (hash : Bytes → Nat) (F : HT.Fp) (b : Nat) (c : HashTable.Check) (k : Bytes) (v : Option (Obj O)) (t : Nat) : HProg (Res O) :=
  match v with
  | some v => match M.dump t v with
    | some w => (HashTable.call hash F b (.insert k w (some c))).bind fun r => .ret (hBool r)
    | Option.none => .ret (.raised .marshalError)
  | Option.none => (HashTable.call hash F b (.erase k (some c))).bind fun r => .ret (hBool r)

/-- the methods: PythonModule.cc 568-571 (len), 573-582 (in), 584-602 (get), 604-640 (set, del), 657-664 (clear), 683-812 (check_and_set, check_missing_and_set), 403-442 and items -/
def hcall (M : Marshal O) (hash : Bytes → Nat) (F : HT.Fp) (b : Nat) : HOp O → HProg (Res O)
  | .set k v t => match M.dump t v with
    | some d => (HashTable.call hash F b (.insert k d Option.none)).bind fun _ => .ret (.obj .none)
    | Option.none => .ret (.raised .marshalError)
  | .del k => (HashTable.call hash F b (.erase k Option.none)).bind fun r => match r with
    | .bool true => .ret (.obj .none)
    | _ => .ret (.raised .keyError)
  | .get k => onRange .keyError (HashTable.call hash F b (.at k)) fun r => match r with
    | .str d => .ret (result (M.load d))
    | _ => .ret (.raised .systemError)
  | .contains k => (HashTable.call hash F b (.exists k)).bind fun r => .ret (hBool r)
  | .len => (HashTable.call hash F b .size).bind fun r => match r with
    | .num n => .ret (.obj (.int n))
    | _ => .ret (.raised .systemError)
  | .clear => (HashTable.call hash F b .clear).bind fun _ => .ret (.obj .none)
  | .checkAndSet ck cv k v t t' => match M.dump t cv with
    | some w => hSetChecked M hash F b (ck, some w) k v t'
    | Option.none => .ret (.raised .marshalError)
  | .checkMissingAndSet ck k v t => hSetChecked M hash F b (ck, Option.none) k v t
  | .items => (HashTable.call hash F b .items).bind fun r => match r with
    | .list l => match loadAll M l with
      | some r => .ret (.items r)
      | Option.none => .ret (.raised .typeError)
    | _ => .ret (.raised .systemError)

/-! ### The methods of the Python class Queue -/

/-- calls of methods of sharedstructures.Queue -/
inductive QOp (O : Type)
  | push (front : Bool) (v : Obj O) (raw : Bool) (t : Nat)
  | pop (front : Bool) (raw : Bool)
  | len

/-- the bytes that push writes for an object (PythonModule.cc 1917-1941): none if it raises -/
def item (M : Marshal O) (t : Nat) (v : Obj O) (raw : Bool) : Option Bytes :=
  if raw then match v with
    | .bytes d => some d
    | _ => Option.none
  else M.dump t v

/-- the methods: PythonModule.cc 1844-1847 (len), 1849-1878 (pop), 1905-1956 (push) -/
def qcall (M : Marshal O) (b : Nat) : QOp O → HProg (Res O)
  | .push front v raw t => match item M t v raw with
    | some d => (Queue.call b (if front then .pushFront d else .pushBack d)).bind fun _ => .ret (.obj .none)
    | Option.none => .ret (.raised (if raw then .typeError else .marshalError))
  | .pop front raw => onRange .indexError (Queue.call b (if front then .popFront else .popBack)) fun r => match r with
    | .str d => if raw then .ret (.obj (.bytes d)) else .ret (result (M.load d))
    | _ => .ret (.raised .systemError)
  | .len => (Queue.call b .size).bind fun r => match r with
    | .num n => .ret (.obj (.int n))
    | _ => .ret (.raised .systemError)

end Verif.Py
