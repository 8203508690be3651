import Verif.Mem
/-
Programs as trees of single memory accesses.

A method of the library is modelled as a `Prog`: at each node it performs one access
(`Op`) and continues with the response.  This makes every intermediate memory state of a
method observable, which the crash and concurrency properties need.
-/
namespace Verif

/-- C++ exceptions thrown by the code (the model only distinguishes the classes that the API documents). -/
inductive Err
  | outOfRange      -- std::out_of_range
  | runtimeError    -- std::runtime_error (type mismatch, wrong sizes, …)
  | invalidArg      -- std::invalid_argument
  | logicError      -- std::logic_error
  | noMem           -- allocation failed: "can't expand pool beyond maximum size" / ftruncate failure / bad_alloc
  deriving DecidableEq, Repr

/-- Result of running a program to its end. -/
inductive Out (α : Type)
  | ok (a : α)
  | err (e : Err)
  deriving DecidableEq, Repr

/-- A program: return, throw, undefined behaviour (also: loop fuel exhausted), or one access. -/
inductive Prog (Op : Type) (Re : Op → Type) (α : Type) : Type
  | ret (a : α)
  | err (e : Err)
  | ub
  | step (op : Op) (k : Re op → Prog Op Re α)

namespace Prog
variable {Op : Type} {Re : Op → Type} {α β γ : Type}

def bind : Prog Op Re α → (α → Prog Op Re β) → Prog Op Re β
  | ret a, f => f a
  | err e, _ => err e
  | ub, _ => ub
  | step op k, f => step op fun r => (k r).bind f

instance : Monad (Prog Op Re) where
  pure := ret
  bind := bind

/-- try { p } catch (e) { f e } -/
def tryCatch : Prog Op Re α → (Err → Prog Op Re α) → Prog Op Re α
  | ret a, _ => ret a
  | err e, f => f e
  | ub, _ => ub
  | step op k, f => step op fun r => (k r).tryCatch f

@[simp] theorem pure_def (a : α) : (pure a : Prog Op Re α) = ret a := rfl
@[simp] theorem bind_def (p : Prog Op Re α) (f : α → Prog Op Re β) : (p >>= f) = p.bind f := rfl
@[simp] theorem ret_bind (a : α) (f : α → Prog Op Re β) : (ret a).bind f = f a := rfl
@[simp] theorem err_bind (e : Err) (f : α → Prog Op Re β) : (err e : Prog Op Re α).bind f = err e := rfl
@[simp] theorem ub_bind (f : α → Prog Op Re β) : (ub : Prog Op Re α).bind f = ub := rfl
@[simp] theorem step_bind (op : Op) (k : Re op → Prog Op Re α) (f : α → Prog Op Re β) :
    (step op k).bind f = step op fun r => (k r).bind f := rfl

theorem bind_assoc (p : Prog Op Re α) (f : α → Prog Op Re β) (g : β → Prog Op Re γ) :
    (p.bind f).bind g = p.bind fun a => (f a).bind g := by
  induction p with
  | ret | err | ub => rfl
  | step op k ih => simp only [step_bind]; congr 1; funext r; exact ih r

end Prog
end Verif
