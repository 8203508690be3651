import Verif.PropsPython
/-
Model of the iterators of the Python class PrefixTree: keys, values, items, keys_from, values_from, items_from, iter(t), and `in` (/repo/src/PythonModule.cc 985-1102, 1227-1236, 1549-1635).

Simplifications: as in Verif/Python.lean.  `list(t.keys())` etc. are modelled as the loop that calls __next__ until it raises StopIteration; between these calls nothing else happens to the tree
(interleavings with other calls are the subject of C58 and C59).
-/
namespace Verif.Py
open PrefixTree (Val)
variable {O : Type}

/-- which of the three iterators it is: the flags return_keys and return_values -/
inductive What
  | keys | values | items
  deriving DecidableEq

/-- what one step of an iterator yields -/
inductive Yield (O : Type)
  | key (k : Bytes)
  | value (v : Obj O)
  | item (k : Bytes) (v : Obj O)
  deriving DecidableEq

/-- sharedstructures_PrefixTreeIterator_New (PythonModule.cc 990-1046): the C++ iterator from lower_bound(prefix) if a prefix is given, and else from begin().  The result is the current pair, none at the end. -/
def iterNew (b : Nat) : Option Bytes → HProg (Option (Bytes × Val))
  | Option.none => PrefixTree.iterNext b Option.none
  | some p => PrefixTree.lowerBound b p

/-- the object that __next__ makes of the current pair (PythonModule.cc 1075-1102): none if the conversion raises -/
def yieldOf (M : Marshal O) : What → Bytes × Val → Option (Yield O)
  | .keys, e => some (.key e.1)
  | .values, e => (decode M e.2).map .value
  | .items, e => (decode M e.2).map (.item e.1)

/-- list(iterator): sharedstructures_PrefixTreeIterator_Next (PythonModule.cc 1062-1102) until StopIteration.  __next__ copies the current pair, advances the C++ iterator (it++) and only then converts the pair.
none: a conversion raised an exception. -/
def drain (M : Marshal O) (b : Nat) (w : What) : Nat → Option (Bytes × Val) → HProg (Option (List (Yield O)))
  | 0, _ => .ub
  | _ + 1, Option.none => .ret (some [])
  | n + 1, some e => (PrefixTree.iterNext b (some e.1)).bind fun c => match yieldOf M w e with
    | Option.none => .ret Option.none
    | some y => (drain M b w n c).bind fun l => .ret (l.map (y :: ·))

/-- calls on a sharedstructures.PrefixTree: the methods of `TOp`, list(t.keys()), list(t.values_from(p)) etc., and k in t -/
inductive VOp (O : Type)
  | method (o : TOp O)
  | list (w : What) (start : Option Bytes)
  | contains (k : Bytes)

/-- results: of a method, or a list -/
inductive VRes (O : Type)
  | res (r : Res O)
  | list (l : List (Yield O))

/-- the calls.  keys 1578-1580, keys_from 1588-1591, values 1598-1600, values_from 1608-1611, items 1618-1620, items_from 1628-1631, iter(t) 1633-1635 by iter_generic 1549-1571; `in` 1227-1236 is exists -/
def vcall (M : Marshal O) (add : BitVec 64 → BitVec 64 → BitVec 64) (b : Nat) : VOp O → HProg (VRes O)
  | .method o => (tcall M add b o).bind fun r => .ret (.res r)
  | .list w p => (iterNew b p).bind fun c => (drain M b w PrefixTree.maxSteps c).bind fun l => match l with
    | some l => .ret (.list l)
    | Option.none => .ret (.res (.raised .typeError))
  | .contains k => (PrefixTree.call add b (.exists k)).bind fun r => .ret (.res (boolRes r))

end Verif.Py
