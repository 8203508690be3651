import Verif.Conc
/-
Methods that only read.
-/
namespace Verif
open Lock

variable {α β R O : Type}

/-- a program that only loads -/
def HRo : HProg α → Prop
  | .step (.rd _ _ _) k => ∀ v, HRo (k v)
  | .step (.rdB _ _ _) k => ∀ v, HRo (k v)
  | .step (.bsize _) k => ∀ v, HRo (k v)
  | .step .getBase k => ∀ v, HRo (k v)
  | .step _ _ => False
  | _ => True

theorem HRo.bind {p : HProg α} {f : α → HProg β} (hp : HRo p) (hf : ∀ a, HRo (f a)) : HRo (p.bind f) := by
  induction p with
  | ret a => exact hf a
  | err e => trivial
  | ub => trivial
  | step op k ih =>
    cases op with
    | rd | rdB | bsize | getBase => exact fun v => ih v (hp v)
    | _ => exact hp.elim

theorem HRo.attempt {p : HProg α} (hp : HRo p) : HRo (attempt p) := by
  unfold Verif.attempt
  induction p with
  | ret a => trivial
  | err e => trivial
  | ub => trivial
  | step op k ih =>
    cases op with
    | rd | rdB | bsize | getBase => exact fun v => ih v (hp v)
    | _ => exact hp.elim

theorem HRo.rd {b o n : Nat} : HRo (H.rd b o n) := fun _ => trivial
theorem HRo.rdB {b o n : Nat} : HRo (H.rdB b o n) := fun _ => trivial
theorem HRo.bsize {b : Nat} : HRo (H.bsize b) := fun _ => trivial
theorem HRo.ret {a : α} : HRo (.ret a : HProg α) := trivial
theorem HRo.err {e : Err} : HRo (.err e : HProg α) := trivial
theorem HRo.ub : HRo (.ub : HProg α) := trivial
theorem HRo.ite {c : Prop} [Decidable c] {p q : HProg α} (hp : HRo p) (hq : HRo q) : HRo (if c then p else q) := by
  split <;> assumption

theorem HRo.compile {p : HProg R} (hp : HRo p) : Ro (K := poolMach R) (compile p) := by
  induction p with
  | ret | err | ub => trivial
  | step op k ih =>
    cases op with
    | rd b o n => exact ⟨fun _ => rfl, fun v => ih v (hp v)⟩
    | rdB b o n => exact ⟨fun _ => rfl, fun v => ih v (hp v)⟩
    | bsize b => exact ⟨fun _ => rfl, fun v => ih v (hp v)⟩
    | getBase => exact ⟨fun _ => rfl, fun v => ih v (hp v)⟩
    | _ => exact hp.elim

theorem HRo.body {f : O → HProg R} {o : O} (h : HRo (f o)) : Ro (methodBody f o) := h.attempt.compile

end Verif
