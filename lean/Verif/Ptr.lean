import Verif.ViewConc
import Verif.ReadOnly
/-
Pointers into the mapping.

The structures work with C++ pointers that Pool::at<T>(offset) returns; Pool.hh 66-71: such a pointer is "invalidated by any action that causes the pool to change size or be
remapped".  Within a method that holds the lock, the only such action is allocate (its call of Pool::expand ends in check_size_and_remap, which unmaps the old mapping if the size
has changed: SimpleAllocator.cc 45, 109, Pool.cc 110-118).  free does not expand the pool.

The models of the structures in Queue.lean, PrioQueue.lean, HashTable.lean and PrefixTree.lean access memory by offset, that is, as if every access called at<T>() anew.  Here a
method is a program over explicit pointers (`PProg`): `P.at` models Pool::at<T>, and an access through a pointer obtained before the pool was remapped is a fault (`.ub`).  On Linux
the new mapping may happen to be put at the address of the old one; then the access would succeed.  The model takes every use of an invalidated pointer to be a fault.
-/
namespace Verif
variable {α β : Type}

/-- what Pool::at<T>(blk) returns; `gen` is the number of calls of allocate that the method had made before -/
structure Ptr where
  blk : Nat
  gen : Nat

/-- One step of a method: fetching a pointer, an access through a pointer, or a call of the allocator. -/
inductive POp
  | «at» (b : Nat)                   -- Pool::at<T>(b), Pool.hh 73-87
  | rd (p : Ptr) (o n : Nat)         -- p->field (load)
  | wr (p : Ptr) (o n v : Nat)       -- p->field = v
  | rdB (p : Ptr) (o n : Nat)        -- memcpy out
  | wrB (p : Ptr) (o : Nat) (bs : Bytes)
  | alloc (n : Nat)
  | free (b : Nat)
  | bsize (b : Nat)
  | getBase
  | setBase (o : Nat)

abbrev PRe : POp → Type
  | .at _ => Ptr
  | .rd .. => Nat
  | .wr .. => Unit
  | .rdB .. => Bytes
  | .wrB .. => Unit
  | .alloc _ => Option Nat
  | .free _ => Unit
  | .bsize _ => Nat
  | .getBase => Nat
  | .setBase _ => Unit

abbrev PProg (α : Type) := Prog POp PRe α

namespace P
def «at» (b : Nat) : PProg Ptr := .step (.at b) .ret
def rd (p : Ptr) (o n : Nat) : PProg Nat := .step (.rd p o n) .ret
def wr (p : Ptr) (o n v : Nat) : PProg Unit := .step (.wr p o n v) .ret
abbrev rd64 (p : Ptr) (o : Nat) : PProg Nat := rd p o 8
abbrev wr64 (p : Ptr) (o v : Nat) : PProg Unit := wr p o 8 v
abbrev rd8 (p : Ptr) (o : Nat) : PProg Nat := rd p o 1
abbrev wr8 (p : Ptr) (o v : Nat) : PProg Unit := wr p o 1 v
def rdB (p : Ptr) (o n : Nat) : PProg Bytes := .step (.rdB p o n) .ret
def wrB (p : Ptr) (o : Nat) (bs : Bytes) : PProg Unit := .step (.wrB p o bs) .ret
/-- Allocator::allocate: returns the offset or throws. -/
def alloc (n : Nat) : PProg Nat := .step (.alloc n) fun
  | some o => .ret o
  | none => .err .noMem
def free (b : Nat) : PProg Unit := .step (.free b) .ret
def bsize (b : Nat) : PProg Nat := .step (.bsize b) .ret
def getBase : PProg Nat := .step .getBase .ret
def setBase (o : Nat) : PProg Unit := .step (.setBase o) .ret
end P

/-- code in which every access calls at<T>() itself, or which does not allocate while it holds pointers -/
def lift : HProg α → PProg α
  | .ret a => .ret a
  | .err e => .err e
  | .ub => .ub
  | .step (.rd b o n) k => .step (.at b) fun p => .step (.rd p o n) fun v => lift (k v)
  | .step (.wr b o n v) k => .step (.at b) fun p => .step (.wr p o n v) fun u => lift (k u)
  | .step (.rdB b o n) k => .step (.at b) fun p => .step (.rdB p o n) fun v => lift (k v)
  | .step (.wrB b o bs) k => .step (.at b) fun p => .step (.wrB p o bs) fun u => lift (k u)
  | .step (.alloc n) k => .step (.alloc n) fun r => lift (k r)
  | .step (.free b) k => .step (.free b) fun u => lift (k u)
  | .step (.bsize b) k => .step (.bsize b) fun v => lift (k v)
  | .step .getBase k => .step .getBase fun v => lift (k v)
  | .step (.setBase o) k => .step (.setBase o) fun u => lift (k u)

/-- **The method on the bytes of the pool.** `v` = length of the mapping, `g` = number of calls of allocate so far, `last` = that number at the last time the mapping was replaced.
An access through a pointer obtained before that is a fault.  After allocate, the mapping has been replaced if the size word differs from the length of the mapping (Pool.cc 113-129). -/
def pointed : PProg α → Nat → Nat → Nat → RProg α
  | .ret a, _, _, _ => .ret a
  | .err e, _, _, _ => .err e
  | .ub, _, _, _ => .ub
  | .step (.at b) k, v, g, last => pointed (k ⟨b, g⟩) v g last
  | .step (.rd p o n) k, v, g, last => if last ≤ p.gen then .step (.rd (p.blk + o) n) fun x => pointed (k x) v g last else .ub
  | .step (.wr p o n x) k, v, g, last => if last ≤ p.gen then .step (.wr (p.blk + o) n x) fun u => pointed (k u) v g last else .ub
  | .step (.rdB p o n) k, v, g, last => if last ≤ p.gen then .step (.rdB (p.blk + o) n) fun x => pointed (k x) v g last else .ub
  | .step (.wrB p o bs) k, v, g, last => if last ≤ p.gen then .step (.wrB (p.blk + o) bs) fun u => pointed (k u) v g last else .ub
  | .step (.alloc n) k, v, g, last =>
      (tryAlloc n).bind fun r => .step (.rd 0 8) fun v' => pointed (k r) v' (g + 1) (if v' = v then last else g + 1)
  | .step (.free b) k, v, g, last => (Simple.free b).bind fun u => pointed (k u) v g last
  | .step (.bsize b) k, v, g, last => (Simple.blockSize b).bind fun x => pointed (k x) v g last
  | .step .getBase k, v, g, last => Simple.getBase.bind fun x => pointed (k x) v g last
  | .step (.setBase o) k, v, g, last => (Simple.setBase o).bind fun u => pointed (k u) v g last

/-- a call of a method: the mapping is up to date when the lock has been taken (SimpleAllocator.cc 210) -/
def withPtrs (p : PProg α) : RProg α := .step (.rd 0 8) fun v => pointed p v 0 0

/-! ### A sufficient condition: no pointer is used after an allocation -/

/-- the method as a program over offsets, with a fault where a pointer is used after *any* later allocation -/
def strict : PProg α → Nat → (α → Nat → HProg β) → HProg β
  | .ret a, g, f => f a g
  | .err e, _, _ => .err e
  | .ub, _, _ => .ub
  | .step (.at b) k, g, f => strict (k ⟨b, g⟩) g f
  | .step (.rd p o n) k, g, f => if p.gen = g then .step (.rd p.blk o n) fun x => strict (k x) g f else .ub
  | .step (.wr p o n x) k, g, f => if p.gen = g then .step (.wr p.blk o n x) fun u => strict (k u) g f else .ub
  | .step (.rdB p o n) k, g, f => if p.gen = g then .step (.rdB p.blk o n) fun x => strict (k x) g f else .ub
  | .step (.wrB p o bs) k, g, f => if p.gen = g then .step (.wrB p.blk o bs) fun u => strict (k u) g f else .ub
  | .step (.alloc n) k, g, f => .step (.alloc n) fun r => strict (k r) (g + 1) f
  | .step (.free b) k, g, f => .step (.free b) fun u => strict (k u) g f
  | .step (.bsize b) k, g, f => .step (.bsize b) fun x => strict (k x) g f
  | .step .getBase k, g, f => .step .getBase fun x => strict (k x) g f
  | .step (.setBase o) k, g, f => .step (.setBase o) fun u => strict (k u) g f

theorem strict_bind {γ : Type} {p : PProg α} {q : α → PProg γ} {f : γ → Nat → HProg β} : ∀ {g : Nat}, strict (p.bind q) g f = strict p g fun a g' => strict (q a) g' f := by
  induction p with
  | ret a => intro g; rfl
  | err e => intro g; rfl
  | ub => intro g; rfl
  | step op k ih =>
    intro g
    cases op with
    | «at» b => exact ih _
    | rd p o n => simp only [Prog.step_bind, strict]; split; congr 1; funext x; exact ih x; rfl
    | wr p o n x => simp only [Prog.step_bind, strict]; split; congr 1; funext x; exact ih x; rfl
    | rdB p o n => simp only [Prog.step_bind, strict]; split; congr 1; funext x; exact ih x; rfl
    | wrB p o bs => simp only [Prog.step_bind, strict]; split; congr 1; funext x; exact ih x; rfl
    | _ => simp only [Prog.step_bind, strict]; congr 1; funext x; exact ih x

/-- `p` never uses a pointer after an allocation that follows its fetch, and does what `q` does -/
def Clean (p : PProg α) (q : HProg α) : Prop := ∀ (β : Type) (g : Nat) (f : α → HProg β), strict p g (fun a _ => f a) = q.bind f

/-- a piece of code after which pointers obtained before it are still good -/
def Still (p : PProg α) (q : HProg α) : Prop := ∀ (β : Type) (g : Nat) (f : α → Nat → HProg β), strict p g f = q.bind fun a => f a g

theorem Still.clean {p : PProg α} {q : HProg α} (h : Still p q) : Clean p q := fun β g f => h β g fun a _ => f a

theorem strict_still {γ : Type} {p : PProg α} {q : HProg α} (h : Still p q) {k : α → PProg γ} {g : Nat} {f : γ → Nat → HProg β} :
    strict (p.bind k) g f = q.bind fun a => strict (k a) g f := by
  rw [strict_bind]; exact h _ _ _

/-- no call of allocate -/
def NoAlloc : HProg α → Prop
  | .step (.alloc _) _ => False
  | .step (.rd _ _ _) k => ∀ v, NoAlloc (k v)
  | .step (.wr _ _ _ _) k => ∀ v, NoAlloc (k v)
  | .step (.rdB _ _ _) k => ∀ v, NoAlloc (k v)
  | .step (.wrB _ _ _) k => ∀ v, NoAlloc (k v)
  | .step (.free _) k => ∀ v, NoAlloc (k v)
  | .step (.bsize _) k => ∀ v, NoAlloc (k v)
  | .step .getBase k => ∀ v, NoAlloc (k v)
  | .step (.setBase _) k => ∀ v, NoAlloc (k v)
  | _ => True

theorem HRo.noAlloc {p : HProg α} (h : HRo p) : NoAlloc p := by
  induction p with
  | ret a => trivial
  | err e => trivial
  | ub => trivial
  | step op k ih => cases op <;> first | exact h.elim | exact fun v => ih v (h v)

theorem NoAlloc.bind {p : HProg α} {f : α → HProg β} (hp : NoAlloc p) (hf : ∀ a, NoAlloc (f a)) : NoAlloc (p.bind f) := by
  induction p with
  | ret a => exact hf a
  | err e => trivial
  | ub => trivial
  | step op k ih => cases op <;> first | exact hp.elim | exact fun v => ih v (hp v)

theorem lift_still {p : HProg α} (h : NoAlloc p) : Still (lift p) p := by
  intro β g f
  induction p with
  | ret a => rfl
  | err e => rfl
  | ub => rfl
  | step op k ih =>
    cases op <;> first | exact h.elim | (simp only [lift, strict, Prog.step_bind, if_true]; congr 1; funext x; exact ih x (h x))

theorem lift_clean (p : HProg α) : Clean (lift p) p := by
  intro β g f
  induction p generalizing g with
  | ret a => rfl
  | err e => rfl
  | ub => rfl
  | step op k ih => cases op <;> (simp only [lift, strict, Prog.step_bind, if_true]; congr 1; funext x; exact ih x _)

theorem Clean.bind {γ : Type} {p : PProg α} {q : HProg α} {k : α → PProg γ} {k' : α → HProg γ} (hp : Clean p q) (hk : ∀ a, Clean (k a) (k' a)) : Clean (p.bind k) (q.bind k') := by
  intro β g f
  have : (fun a g' => strict (k a) g' fun c _ => f c) = fun a (_ : Nat) => (k' a).bind f := by funext a g'; exact hk a β g' f
  rw [strict_bind, this, hp, Prog.bind_assoc]

theorem Clean.ret (a : α) : Clean (.ret a) (.ret a) := fun _ _ _ => rfl
theorem Clean.err (e : Err) : Clean (α := α) (.err e) (.err e) := fun _ _ _ => rfl
theorem Clean.ub : Clean (α := α) .ub .ub := fun _ _ _ => rfl
theorem Clean.ite {c : Prop} [Decidable c] {p p' : PProg α} {q q' : HProg α} (h : Clean p q) (h' : Clean p' q') : Clean (if c then p else p') (if c then q else q') := by
  split <;> assumption

/-- attempt, for a method with pointers -/
def attemptP (p : PProg α) : PProg (Out α) := (p.bind fun a => .ret (Out.ok a)).tryCatch fun e => .ret (Out.err e)

theorem strict_attempt {p : PProg α} : ∀ {g : Nat}, strict (attemptP p) g (fun a _ => .ret a) = attempt (strict p g fun a _ => .ret a) := by
  induction p with
  | ret a => intro g; rfl
  | err e => intro g; rfl
  | ub => intro g; rfl
  | step op k ih =>
    intro g
    cases op with
    | «at» b => exact ih _
    | rd p o n => simp only [attemptP, attempt, Prog.step_bind, Prog.tryCatch, strict]; split; simp only [Prog.step_bind, Prog.tryCatch]; congr 1; funext x; exact ih x; rfl
    | wr p o n x => simp only [attemptP, attempt, Prog.step_bind, Prog.tryCatch, strict]; split; simp only [Prog.step_bind, Prog.tryCatch]; congr 1; funext x; exact ih x; rfl
    | rdB p o n => simp only [attemptP, attempt, Prog.step_bind, Prog.tryCatch, strict]; split; simp only [Prog.step_bind, Prog.tryCatch]; congr 1; funext x; exact ih x; rfl
    | wrB p o bs => simp only [attemptP, attempt, Prog.step_bind, Prog.tryCatch, strict]; split; simp only [Prog.step_bind, Prog.tryCatch]; congr 1; funext x; exact ih x; rfl
    | _ => simp only [attemptP, attempt, Prog.step_bind, Prog.tryCatch, strict]; congr 1; funext x; exact ih x

theorem Clean.attempt {p : PProg α} {q : HProg α} (h : Clean p q) {g : Nat} : strict (attemptP p) g (fun a _ => .ret a) = Verif.attempt q := by
  rw [strict_attempt, h]
  have : ∀ q : HProg α, (q.bind fun a => .ret a) = q := by
    intro q
    induction q with
    | ret | err | ub => rfl
    | step op k ih => simp only [Prog.step_bind]; congr 1; funext r; exact ih r
  rw [this]

attribute [local irreducible] tryAlloc Simple.free Simple.blockSize Simple.getBase Simple.setBase in
/-- **The condition is sufficient**: wherever the mapping is replaced, the method does not fault and does what the program over offsets does. -/
theorem pointed_rwp {Q : Out α → Pool → Prop} {I : Pool → Prop} (hI : ∀ s, I s → Simple.Geo s) {p : PProg α} :
    ∀ {g last v : Nat} {s : Pool}, last ≤ g → rwp (compile (strict p g fun a _ => .ret a)) Q I s → rwp (pointed p v g last) Q I s := by
  induction p with
  | ret a => intro g last v s _ h; exact h
  | err e => intro g last v s _ h; exact h
  | ub => intro g last v s _ h; exact h
  | step op k ih =>
    intro g last v s hl h
    have bnd : ∀ {β : Type} {p : RProg β} {f f' : β → RProg α} {s : Pool}, (∀ a s', rwp (f a) Q I s' → rwp (f' a) Q I s') → rwp (p.bind f) Q I s → rwp (p.bind f') Q I s := by
      intro β p f f' s hf h
      induction p generalizing s with
      | ret a => exact hf a s h
      | err e => exact h
      | ub => exact h
      | step op k ih =>
        cases op with
        | trunc n => exact ⟨h.1, fun hn => ih _ (h.2.1 hn), fun hn => ih _ (h.2.2 hn)⟩
        | maxSize => exact ⟨h.1, ih _ h.2⟩
        | _ => exact ⟨h.1, h.2.1, ih _ h.2.2⟩
    cases op with
    | «at» b => exact ih _ hl h
    | rd p o n =>
      simp only [strict, pointed] at h ⊢
      split at h
      · rename_i e
        rw [if_pos (by omega)]
        exact ⟨h.1, h.2.1, ih _ hl h.2.2⟩
      · exact h.elim
    | wr p o n x =>
      simp only [strict, pointed] at h ⊢
      split at h
      · rename_i e
        rw [if_pos (by omega)]
        exact ⟨h.1, h.2.1, ih _ hl h.2.2⟩
      · exact h.elim
    | rdB p o n =>
      simp only [strict, pointed] at h ⊢
      split at h
      · rename_i e
        rw [if_pos (by omega)]
        exact ⟨h.1, h.2.1, ih _ hl h.2.2⟩
      · exact h.elim
    | wrB p o bs =>
      simp only [strict, pointed] at h ⊢
      split at h
      · rename_i e
        rw [if_pos (by omega)]
        exact ⟨h.1, h.2.1, ih _ hl h.2.2⟩
      · exact h.elim
    | alloc n =>
      refine bnd (f := fun r => compile (strict (k r) (g + 1) fun a _ => .ret a)) ?_ h
      intro a s' h'
      refine ⟨rwp_inv h', Lock.geo_low (hI _ (rwp_inv h')), ih _ ?_ h'⟩
      split <;> omega
    | free b => exact bnd (f := fun r => compile (strict (k r) g fun a _ => .ret a)) (fun a s' h' => ih _ hl h') h
    | bsize b => exact bnd (f := fun r => compile (strict (k r) g fun a _ => .ret a)) (fun a s' h' => ih _ hl h') h
    | getBase => exact bnd (f := fun r => compile (strict (k r) g fun a _ => .ret a)) (fun a s' h' => ih _ hl h') h
    | setBase o => exact bnd (f := fun r => compile (strict (k r) g fun a _ => .ret a)) (fun a s' h' => ih _ hl h') h

theorem withPtrs_rwp {Q : Out (Out α) → Pool → Prop} {I : Pool → Prop} (hI : ∀ s, I s → Simple.Geo s) {p : PProg α} {q : HProg α} (hc : Clean p q) {s : Pool}
    (h : rwp (compile (attempt q)) Q I s) : rwp (withPtrs (attemptP p)) Q I s := by
  refine ⟨rwp_inv h, Lock.geo_low (hI _ (rwp_inv h)), pointed_rwp hI (Nat.le_refl 0) ?_⟩
  rw [hc.attempt]
  exact h

end Verif
