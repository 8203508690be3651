import Verif.PyIter
/-
Model of the iterators of the Python class HashTable: keys, values, items, iter(t) (/repo/src/PythonModule.cc 341-447, 814-861).

Simplifications: as in Verif/PyIter.lean.
-/
namespace Verif.Py
variable {O : Type}

/-- the object that __next__ makes of the current pair (PythonModule.cc 415-446): none if the conversion raises; keys are not converted -/
def yieldHash (M : Marshal O) : What → Bytes × Bytes → Option (Yield O)
  | .keys, e => some (.key e.1)
  | .values, e => (M.load e.2).map .value
  | .items, e => (M.load e.2).map (.item e.1)

/-- list(iterator): sharedstructures_HashTableIterator_Next (PythonModule.cc 403-447) until StopIteration.  __next__ compares with end(), copies the current pair, advances the C++ iterator (it++) and only then
converts the pair.  none: a conversion raised an exception. -/
def drainHash (M : Marshal O) (b : Nat) (w : What) : Nat → HashTable.Iter → HProg (Option (List (Yield O)))
  | 0, _ => .ub
  | n + 1, it => (HashTable.«end» b).bind fun e =>
    if it.eq e then .ret (some []) else (it.next b).bind fun it' => match yieldHash M w (it.cont.getD it.res ([], [])) with
      | Option.none => .ret Option.none
      | some y => (drainHash M b w n it').bind fun l => .ret (l.map (y :: ·))

/-- calls on a sharedstructures.HashTable: the methods of `HOp`, and list(t.keys()), list(t.values()), list(t.items()) -/
inductive HVOp (O : Type)
  | method (o : HOp O)
  | list (w : What)

/-- the calls.  keys 837-839, values 846-848, items 855-857, iter(t) 859-861 by iter_generic 814-831; the constructor of the iterator 341-387 takes begin() -/
def hvcall (M : Marshal O) (hash : Bytes → Nat) (F : HT.Fp) (b : Nat) : HVOp O → HProg (VRes O)
  | .method o => (hcall M hash F b o).bind fun r => .ret (.res r)
  | .list w => (HashTable.begin b).bind fun it => (drainHash M b w HashTable.maxNodes it).bind fun l => match l with
    | some l => .ret (.list l)
    | Option.none => .ret (.res (.raised .typeError))

end Verif.Py
