import Verif.PropsAtomicVec
import Verif.Python
/-
Model of the Python class IntVector (/repo/src/PythonModule.cc 2299-2720): argument parsing, the call of AtomicVector<int64_t>, and the conversion of its result or exception.

Simplifications: arguments are ints (a bool for store_bit), so that only the range checks of argument parsing can fail.  A C++ exception that the method does not catch (lack of
memory in expand) is an exception of the model (`Out.err`); in reality it ends the process.
-/
namespace Verif.Py
open AtomicVec (VProg)

/-- calls of methods of sharedstructures.IntVector -/
inductive IOp
  | len
  | expand (n : Int)
  | load (i : Int)
  | store (i v : Int)
  | exchange (i v : Int)
  | compareExchange (i e v : Int)
  | add (i d : Int)
  | subtract (i d : Int)
  | bitwiseAnd (i m : Int)
  | bitwiseOr (i m : Int)
  | bitwiseXor (i m : Int)
  | loadBit (b : Int)
  | storeBit (b : Int) (v : Bool)
  | xorBit (b : Int)
  deriving DecidableEq

/-- what the methods return -/
inductive IRes
  | none
  | int (n : Int)
  | bool (b : Bool)
  | raised (e : Exc)
  deriving DecidableEq

/-- PyArg_ParseTuple with the formats "n" and "L": OverflowError if the int does not fit 64 bits; then the call of the C++ method, whose index is the int converted to size_t -/
def parse1 (i : Int) (f : Nat → AtomicVec.Op (8 * 8)) : Except Exc (AtomicVec.Op (8 * 8)) :=
  match asLongLong i with
  | some i => .ok (f i.toNat)
  | Option.none => .error .overflowError

/-- the same for an index and a value -/
def parse2 (i v : Int) (f : Nat → BitVec (8 * 8) → AtomicVec.Op (8 * 8)) : Except Exc (AtomicVec.Op (8 * 8)) :=
  match asLongLong i, asLongLong v with
  | some i, some v => .ok (f i.toNat v)
  | _, _ => .error .overflowError

/-- the C++ call that a method makes, or the exception that it raises before: PythonModule.cc 2343 (len), 2357-2374 (expand), 2381-2396 (load), 2406-2424 (store),
2431-2448 (exchange), 2459-2476 (compare_exchange), 2483-2500 (add), 2507-2524 (subtract), 2531-2548 (and), 2555-2572 (or), 2579-2596 (xor), 2605-2625 (load_bit),
2633-2652 (store_bit), 2660-2680 (xor_bit) -/
def IOp.parse : IOp → Except Exc (AtomicVec.Op (8 * 8))
  | .len => .ok .size
  | .expand n => match asLongLong n with
    | some n => if n.toInt < 0 then .error .valueError else .ok (.expand n.toNat)
    | Option.none => .error .overflowError
  | .load i => parse1 i .load
  | .store i v => parse2 i v .store
  | .exchange i v => parse2 i v .exchange
  | .compareExchange i e v => match asLongLong e with
    | some e => parse2 i v fun i v => .cas i e v
    | Option.none => .error .overflowError
  | .add i d => parse2 i d .add
  | .subtract i d => parse2 i d .sub
  | .bitwiseAnd i m => parse2 i m .and
  | .bitwiseOr i m => parse2 i m .or
  | .bitwiseXor i m => parse2 i m .xor
  | .loadBit b => parse1 b .loadBit
  | .storeBit b v => parse1 b fun b => .storeBit b v
  | .xorBit b => parse1 b .xorBit

/-- the Python exception for out_of_range: TypeError in load and store (PythonModule.cc 2393, 2421), IndexError in the others -/
def IOp.exc : IOp → Exc
  | .load _ | .store _ _ => .typeError
  | _ => .indexError

/-- the Python object for the result of the C++ method; store_bit returns None (PythonModule.cc 2650) -/
def IOp.result : IOp → AtomicVec.Ret (8 * 8) → IRes
  | .storeBit _ _, _ => .none
  | _, .unit => .none
  | _, .word x => .int x.toInt
  | _, .bit b => .bool b
  | _, .num n => .int n

/-- a method of IntVector -/
def icall (fuel : Nat) (o : IOp) : VProg (8 * 8) IRes :=
  match o.parse with
  | .error e => .ret (.raised e)
  | .ok op => ((AtomicVec.call 8 fuel op).bind fun r => .ret (o.result r)).tryCatch fun x => if x = .outOfRange then .ret (.raised o.exc) else .err x

/-- a sequence of calls by one process -/
def ihist (fuel : Nat) : List IOp → AtomicVec.Sh → AtomicVec.Proc → List (Verif.Res IRes) × AtomicVec.Sh × AtomicVec.Proc
  | [], s, p => ([], s, p)
  | o :: os, s, p =>
      let r := AtomicVec.vrun 8 (icall fuel o) s p
      let rs := ihist fuel os r.2.1 r.2.2
      (r.1 :: rs.1, rs.2)

end Verif.Py
