import Verif.PtrSim
import Verif.PtrClean
import Verif.PtrConc
/-
HashTable::incr with its pointers: as long as the pool does not grow, it does what the program over offsets does.
-/
namespace Verif
variable {α β : Type}

theorem loose_alloc {n g : Nat} {k : Nat → PProg α} {f : α → Nat → HProg β} :
    loose ((P.alloc n).bind k) g f = (H.alloc n).bind fun o => loose (k o) (g + 1) f := by
  simp only [P.alloc, H.alloc, Prog.step_bind, loose]
  congr 1
  funext r
  cases r <;> rfl
theorem loose_at {b g : Nat} {k : Ptr → PProg α} {f : α → Nat → HProg β} : loose ((P.at b).bind k) g f = loose (k ⟨b, g⟩) g f := rfl
theorem loose_rd {p : Ptr} {g o n : Nat} {k : Nat → PProg α} {f : α → Nat → HProg β} : loose ((P.rd p o n).bind k) g f = (H.rd p.blk o n).bind fun x => loose (k x) g f := rfl
theorem loose_wr {p : Ptr} {g o n v : Nat} {k : Unit → PProg α} {f : α → Nat → HProg β} : loose ((P.wr p o n v).bind k) g f = (H.wr p.blk o n v).bind fun x => loose (k x) g f := rfl
theorem loose_rdB {p : Ptr} {g o n : Nat} {k : Bytes → PProg α} {f : α → Nat → HProg β} : loose ((P.rdB p o n).bind k) g f = (H.rdB p.blk o n).bind fun x => loose (k x) g f := rfl
theorem loose_wrB {p : Ptr} {g o : Nat} {bs : Bytes} {k : Unit → PProg α} {f : α → Nat → HProg β} : loose ((P.wrB p o bs).bind k) g f = (H.wrB p.blk o bs).bind fun x => loose (k x) g f := rfl
theorem loose_ret {a : α} {g : Nat} {f : α → Nat → HProg β} : loose (.ret a) g f = f a g := rfl
theorem loose_wr' {p : Ptr} {g o n v : Nat} {f : Unit → Nat → HProg β} : loose (P.wr p o n v) g f = (H.wr p.blk o n v).bind fun x => f x g := rfl

macro "loose_eval" "[" ts:Lean.Parser.Tactic.simpLemma,* "]" : tactic =>
  `(tactic| simp only [$ts,*, Prog.bind_def, Prog.pure_def, Prog.bind_assoc, Prog.ret_bind, P.rd64, P.wr64, P.rd8, P.wr8, H.rd64, H.wr64, H.rd8, H.wr8, loose_alloc, loose_at, loose_rd, loose_wr, loose_rdB, loose_wrB,
      loose_ret, loose_wr'])

theorem loose_lift {p : HProg α} {q : α → PProg β} {γ : Type} {f : β → HProg γ} {k : α → HProg β} (h : ∀ a, Same (q a) (k a)) {g : Nat} :
    loose ((lift p).bind q) g (fun a _ => f a) = (p.bind k).bind f := ((lift_same p).bind h) _ _ _

namespace HashTable
variable {R : Type}

theorem keyMatches_loose (s : Ptr) (o g : Nat) (k : Bytes) {q : Bool → PProg α} {f : α → Nat → HProg β} :
    loose ((keyMatchesP s o k).bind q) g f = (keyMatches s.blk o k).bind fun a => loose (q a) g f := by
  loose_eval [keyMatchesP, keyMatches]
  congr 1; funext ks
  split
  · loose_eval [P.rd64]
  · rfl

theorem incr_same (hash : Bytes → Nat) (base : Nat) (k : Bytes) (N : Num R) : Same (incrP hash base k N) (incr hash base k N) := by
  intro β g f
  loose_eval [incrP, incr, newNumP, newNum, bumpCountP, bumpCount]
  congr 1; funext slots
  congr 1; funext bits
  congr 1; funext ko
  split
  · loose_eval [P.rd64]
  · split
    · rw [Prog.bind_assoc, keyMatches_loose]
      congr 1; funext m
      split
      · exact loose_lift (fun l => lift_same _)
      · loose_eval [P.rd64]
    · refine loose_lift fun w => Same.ite ((lift_same _).bind fun l => lift_same _) ?_
      intro β g f
      loose_eval [P.rd64]

end HashTable
end Verif
