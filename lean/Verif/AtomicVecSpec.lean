import Verif.AtomicVec
/-
What an AtomicVector should do, without reference to memory: a list of words.  And linearizability of a history of calls.
-/
namespace Verif.AtomicVec
open Verif
variable {w : Nat}

/-- the method reads element `i`, replaces it by `f` of its value and returns `res` of the old value; an index beyond the
end throws out_of_range -/
def OnElem (a : List (BitVec w)) (i : Nat) (f : BitVec w → BitVec w) (res : BitVec w → Ret w) (r : Out (Ret w)) (a' : List (BitVec w)) : Prop :=
  (a.length ≤ i ∧ r = .err .outOfRange ∧ a' = a) ∨ ∃ h : i < a.length, r = .ok (res a[i]) ∧ a' = a.set i (f a[i])

/-- the method replaces bit `b` (counted from the most significant bit of element `b / w`) by `new` of its value, changes no other bit,
and returns `res` of the old value -/
def OnBit (a : List (BitVec w)) (b : Nat) (new res : Bool → Bool) (r : Out (Ret w)) (a' : List (BitVec w)) : Prop :=
  (a.length ≤ b / w ∧ r = .err .outOfRange ∧ a' = a) ∨ ∃ h : b / w < a.length, r = .ok (.bit (res (a[b / w].getMsbD (b % w)))) ∧
    ∃ x, a' = a.set (b / w) x ∧ ∀ j, j < w → x.getMsbD j = if j = b % w then new (a[b / w].getMsbD j) else a[b / w].getMsbD j

/-- extend to `n` elements with zeros; or fail for lack of memory when that needs growth -/
def OnExpand (a : List (BitVec w)) (n : Nat) (r : Out (Ret w)) (a' : List (BitVec w)) : Prop :=
  (r = .ok .unit ∧ a' = a ++ List.replicate (n - a.length) 0#w) ∨ (a.length < n ∧ r = .err .noMem ∧ a' = a)

/-- `Spec a op r a'`: on a vector holding `a` the call `op` may have outcome `r` and leave `a'` -/
def Spec (a : List (BitVec w)) (op : Op w) (r : Out (Ret w)) (a' : List (BitVec w)) : Prop :=
  match op with
  | .load i => OnElem a i (fun x => x) .word r a'
  | .store i v => OnElem a i (fun _ => v) (fun _ => .unit) r a'
  | .exchange i v => OnElem a i (fun _ => v) .word r a'
  | .cas i e d => OnElem a i (fun x => if x = e then d else x) .word r a'
  | .add i v => OnElem a i (fun x => x + v) .word r a'
  | .sub i v => OnElem a i (fun x => x - v) .word r a'
  | .and i v => OnElem a i (fun x => x &&& v) .word r a'
  | .or i v => OnElem a i (fun x => x ||| v) .word r a'
  | .xor i v => OnElem a i (fun x => x ^^^ v) .word r a'
  | .loadBit b => OnBit a b (fun x => x) (fun x => x) r a'
  | .storeBit b v => OnBit a b (fun _ => v) (fun x => x) r a'
  | .xorBit b => OnBit a b (fun x => !x) (fun x => !x) r a'
  | .size => r = .ok (.num a.length) ∧ a' = a
  | .expand n => OnExpand a n r a'
  | .expandBits n => OnExpand a ((n + w - 1) / w) r a'

/-- Linearizability (Herlihy and Wing): `LinRun a0 H lin a st` — the history `H` can be explained by letting every call take effect at one instant
between its invocation and its response.  `lin` lists the effects in order (thread, call, outcome), `a` is the vector they leave, `st t`
says what thread `t` is doing: `none` nothing, `some (op, none)` a call that has not taken effect, `some (op, some r)`
a call that has, with outcome `r`. -/
inductive LinRun (a0 : List (BitVec w)) : List (Ev w) → List (Nat × Op w × Out (Ret w)) → List (BitVec w) →
    (Nat → Option (Op w × Option (Out (Ret w)))) → Prop
  | nil : LinRun a0 [] [] a0 (fun _ => none)
  | inv {H lin a st t op} : LinRun a0 H lin a st → st t = none → LinRun a0 (H ++ [.inv t op]) lin a (upd st t (some (op, none)))
  | effect {H lin a st t op r a'} : LinRun a0 H lin a st → st t = some (op, none) → Spec a op r a' →
      LinRun a0 H (lin ++ [(t, op, r)]) a' (upd st t (some (op, some r)))
  | res {H lin a st t op r} : LinRun a0 H lin a st → st t = some (op, some r) →
      LinRun a0 (H ++ [.res t op r]) lin a (upd st t none)

end Verif.AtomicVec
