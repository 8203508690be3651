import Verif.ConcCrash
import Verif.ReadOnly
import Verif.HeapOk
/-
Constructors that open "the base object of the pool" (base_offset 0): Queue.cc 23-40, PriorityQueue.cc 22-39, HashTable.cc 19-36, PrefixTree.cc 24-42.
They look at the allocator's base object offset under the read lock, and if there is none, look again under the write lock, create a structure and record it.
-/
namespace Verif.Opening
open Verif Lock

variable {α β O R S : Type}

/-! ### programs that do not change the base object offset -/

def Stays : HProg α → Prop
  | .step (.setBase _) _ => False
  | .step (.rd _ _ _) k => ∀ v, Stays (k v)
  | .step (.wr _ _ _ _) k => ∀ v, Stays (k v)
  | .step (.rdB _ _ _) k => ∀ v, Stays (k v)
  | .step (.wrB _ _ _) k => ∀ v, Stays (k v)
  | .step (.alloc _) k => ∀ v, Stays (k v)
  | .step (.free _) k => ∀ v, Stays (k v)
  | .step (.bsize _) k => ∀ v, Stays (k v)
  | .step .getBase k => ∀ v, Stays (k v)
  | _ => True

theorem Stays.bind {p : HProg α} {f : α → HProg β} (hp : Stays p) (hf : ∀ a, Stays (f a)) : Stays (p.bind f) := by
  induction p with
  | ret a => exact hf a
  | err e => trivial
  | ub => trivial
  | step op k ih =>
    cases op with
    | setBase => exact hp.elim
    | _ => exact fun v => ih v (hp v)

theorem Stays.tryCatch {p : HProg α} {f : Err → HProg α} (hp : Stays p) (hf : ∀ a, Stays (f a)) : Stays (p.tryCatch f) := by
  induction p with
  | ret a => trivial
  | err e => exact hf e
  | ub => trivial
  | step op k ih =>
    cases op with
    | setBase => exact hp.elim
    | _ => exact fun v => ih v (hp v)

theorem Stays.rd {b o n : Nat} : Stays (H.rd b o n) := fun _ => trivial
theorem Stays.wr {b o n v : Nat} : Stays (H.wr b o n v) := fun _ => trivial
theorem Stays.rdB {b o n : Nat} : Stays (H.rdB b o n) := fun _ => trivial
theorem Stays.wrB {b o : Nat} {l : Bytes} : Stays (H.wrB b o l) := fun _ => trivial
theorem Stays.alloc {n : Nat} : Stays (H.alloc n) := fun v => by cases v <;> trivial
theorem Stays.free {b : Nat} : Stays (H.free b) := fun _ => trivial
theorem Stays.bsize {b : Nat} : Stays (H.bsize b) := fun _ => trivial
theorem Stays.getBase : Stays H.getBase := fun _ => trivial
theorem Stays.ret {a : α} : Stays (.ret a : HProg α) := trivial
theorem Stays.pure {a : α} : Stays (pure a : HProg α) := trivial
theorem Stays.err {e : Err} : Stays (.err e : HProg α) := trivial
theorem Stays.ub : Stays (.ub : HProg α) := trivial
theorem Stays.ite {c : Prop} [Decidable c] {p q : HProg α} (hp : Stays p) (hq : Stays q) : Stays (if c then p else q) := by
  split <;> assumption
theorem Stays.dbind {p : HProg α} {f : α → HProg β} (hp : Stays p) (hf : ∀ a, Stays (f a)) : Stays (p >>= f) := hp.bind hf

theorem Stays.wp {p : HProg α} {Q : Out α → Heap → Prop} (hp : Stays p) : ∀ {h : Heap}, Verif.wp p Q h → Verif.wp p (fun o h' => Q o h' ∧ h'.base = h.base) h := by
  induction p with
  | ret a => exact fun h => ⟨h, rfl⟩
  | err e => exact fun h => ⟨h, rfl⟩
  | ub => exact fun h => h
  | step op k ih =>
    intro h hw
    cases op with
    | setBase => exact hp.elim
    | alloc n => exact ⟨hw.1, fun o d hf => ih _ (hp _) (hw.2.1 o d hf), ih _ (hp _) hw.2.2⟩
    | getBase => exact ih _ (hp _) hw
    | free | bsize => obtain ⟨b, h1, h2⟩ := hw; exact ⟨b, h1, ih _ (hp _) h2⟩
    | rd | wr | rdB | wrB => obtain ⟨b, h1, h2, h3⟩ := hw; exact ⟨b, h1, h2, ih _ (hp _) h3⟩

theorem Stays.always {p : HProg α} {I : Heap → Prop} (hp : Stays p) : ∀ {h : Heap}, Verif.always p I h → Verif.always p (fun h' => I h' ∧ h'.base = h.base) h := by
  induction p with
  | ret a => exact fun h => ⟨h, rfl⟩
  | err e => exact fun h => ⟨h, rfl⟩
  | ub => exact fun h => h
  | step op k ih =>
    intro h hw
    cases op with
    | setBase => exact hp.elim
    | alloc n => exact ⟨⟨hw.1, rfl⟩, hw.2.1, fun o d hf => ih _ (hp _) (hw.2.2.1 o d hf), ih _ (hp _) hw.2.2.2⟩
    | getBase => exact ⟨⟨hw.1, rfl⟩, ih _ (hp _) hw.2⟩
    | free | bsize => obtain ⟨h0, b, h1, h2⟩ := hw; exact ⟨⟨h0, rfl⟩, b, h1, ih _ (hp _) h2⟩
    | rd | wr | rdB | wrB => obtain ⟨h0, b, h1, h2, h3⟩ := hw; exact ⟨⟨h0, rfl⟩, b, h1, h2, ih _ (hp _) h3⟩

syntax "stays" ("[" term,* "]")? : tactic
macro_rules
  | `(tactic| stays) => `(tactic| stays [])
  | `(tactic| stays [$ts,*]) => `(tactic| repeat' first
      | intro _
      $[| with_reducible apply $ts]*
      | with_reducible first | exact Stays.rd | exact Stays.wr | exact Stays.rdB | exact Stays.wrB | exact Stays.alloc | exact Stays.free | exact Stays.bsize | exact Stays.getBase
      | with_reducible first | exact Stays.ret | exact Stays.pure | exact Stays.err | exact Stays.ub
      | with_reducible apply Stays.dbind
      | with_reducible apply Stays.bind
      | with_reducible apply Stays.tryCatch
      | split)

attribute [irreducible] Stays

/-! ### opening -/

/-- what a client does: look for the base object (the first critical section of the constructor), create it if there still is none (the second), call a method on the base object -/
inductive Op (O : Type)
  | look
  | enter
  | on (o : O)

inductive Ret (R : Type)
  | base (b : Nat)
  | val (r : R)
  | closed

/-- the second critical section of the constructor: Queue.cc 31-39, PriorityQueue.cc 30-38, HashTable.cc 27-34, PrefixTree.cc 32-41.  `mk` allocates and initialises the base object,
`fin` is what is done after it has been recorded (only Queue: setup_base_locked). -/
def openLocked (mk : HProg Nat) (fin : Nat → HProg Unit) : HProg Nat :=
  H.getBase.bind fun b => if b = 0 then mk.bind fun o => (H.setBase o).bind fun _ => (fin o).bind fun _ => .ret o else .ret b

/-- the whole constructor is: look; if nothing was found, enter -/
def ctor (mk : HProg Nat) (fin : Nat → HProg Unit) : HProg Nat :=
  H.getBase.bind fun b => if b = 0 then openLocked mk fin else .ret b

def prog (mk : HProg Nat) (fin : Nat → HProg Unit) (call : Nat → O → HProg R) : Op O → HProg (Ret R)
  | .look => H.getBase.bind fun b => .ret (.base b)
  | .enter => (openLocked mk fin).bind fun b => .ret (.base b)
  | .on o => H.getBase.bind fun b => if b = 0 then .ret .closed else (call b o).bind fun r => .ret (.val r)

def writes (w : O → Bool) : Op O → Bool
  | .look => false
  | .enter => true
  | .on o => w o

/-- specification: either nothing has been created, or a structure in some state lives at `b` and nothing ever replaces it -/
inductive Spec (new : S) (Sp : S → O → Out R → S → Prop) : Option (Nat × S) → Op O → Out (Ret R) → Option (Nat × S) → Prop
  | lookNone : Spec new Sp none .look (.ok (.base 0)) none
  | lookSome {b s} : Spec new Sp (some (b, s)) .look (.ok (.base b)) (some (b, s))
  | create {b} : b ≠ 0 → Spec new Sp none .enter (.ok (.base b)) (some (b, new))
  | noMem : Spec new Sp none .enter (.err .noMem) none
  | found {b s} : Spec new Sp (some (b, s)) .enter (.ok (.base b)) (some (b, s))
  | closed {o} : Spec new Sp none (.on o) (.ok .closed) none
  | ok {b s o r s'} : Sp s o (.ok r) s' → Spec new Sp (some (b, s)) (.on o) (.ok (.val r)) (some (b, s'))
  | err {b s o e s'} : Sp s o (.err e) s' → Spec new Sp (some (b, s)) (.on o) (.err e) (some (b, s'))

/-- a call that is cut short -/
inductive Cut (new : S) (C : S → O → S → Prop) : Option (Nat × S) → Op O → Option (Nat × S) → Prop
  | create {b} : b ≠ 0 → Cut new C none .enter (some (b, new))
  | on {b s o s'} : C s o s' → Cut new C (some (b, s)) (.on o) (some (b, s'))

def Inv (I : Nat → S → Heap → Prop) : Option (Nat × S) → Heap → Prop
  | none, h => h.base = 0 ∧ HeapOk h
  | some (b, s), h => b ≠ 0 ∧ h.base = b ∧ I b s h

def CI (C : Nat → S → Heap → Prop) : Option (Nat × S) → Heap → Prop
  | none, h => h.base = 0
  | some (b, s), h => b ≠ 0 ∧ h.base = b ∧ C b s h

/-- allocating, recording and setting up: what `openLocked` does when there is no base object -/
def make (mk : HProg Nat) (fin : Nat → HProg Unit) : HProg Nat := mk.bind fun o => (H.setBase o).bind fun _ => (fin o).bind fun _ => .ret o

variable {mk : HProg Nat} {fin : Nat → HProg Unit} {call : Nat → O → HProg R} {new : S} {Sp : S → O → Out R → S → Prop} {C : S → O → S → Prop}
  {I J : Nat → S → Heap → Prop} {ok : O → Prop}

/-- ok of the lifted calls -/
def Ok (ok : O → Prop) : Op O → Prop
  | .on o => ok o
  | _ => True

theorem step (hst : ∀ b o, Stays (call b o))
    (hmk : ∀ h, h.base = 0 → HeapOk h → wp (make mk fin) (fun out h' => (out = .err .noMem ∧ h'.base = 0 ∧ HeapOk h') ∨ ∃ b, out = .ok b ∧ b ≠ 0 ∧ h'.base = b ∧ I b new h') h)
    (hs : ∀ b s o h, ok o → I b s h → wp (call b o) (fun out h' => ∃ s', Sp s o out s' ∧ I b s' h') h) :
    ∀ s o h, Ok ok o → Inv I s h → wp (prog mk fin call o) (fun out h' => ∃ s', Spec new Sp s o out s' ∧ Inv I s' h') h := by
  intro s o h ho hi
  cases o with
  | look =>
    refine wp_getBase ?_
    cases s with
    | none => exact ⟨none, hi.1 ▸ .lookNone, hi⟩
    | some bs => obtain ⟨b, s⟩ := bs; exact ⟨some (b, s), hi.2.1 ▸ .lookSome, hi⟩
  | enter =>
    unfold prog openLocked
    rw [Prog.bind_assoc]
    cases s with
    | none =>
      refine wp_getBase ?_
      simp only [if_pos hi.1]
      refine wp_bind_of (hmk h hi.1 hi.2) ?_ ?_
      · rintro a h' (⟨e, -⟩ | ⟨b, e, h1, h2, h3⟩)
        · cases e
        · injection e with e; subst e
          exact ⟨some (a, new), .create h1, h1, h2, h3⟩
      · rintro e h' (⟨e1, h1⟩ | ⟨b, e, -⟩)
        · injection e1 with e1; subst e1
          exact ⟨none, .noMem, h1⟩
        · cases e
    | some bs =>
      obtain ⟨b, s⟩ := bs
      refine wp_getBase ?_
      simp only [if_neg (show ¬ h.base = 0 by rw [hi.2.1]; exact hi.1)]
      exact ⟨some (b, s), hi.2.1 ▸ .found, hi⟩
  | on o =>
    unfold prog
    refine wp_getBase ?_
    cases s with
    | none => rw [if_pos hi.1]; exact ⟨none, .closed, hi⟩
    | some bs =>
      obtain ⟨b, s⟩ := bs
      rw [if_neg (by rw [hi.2.1]; exact hi.1), hi.2.1]
      refine wp_bind_of ((hst b o).wp (hs b s o h ho hi.2.2)) ?_ ?_
      · rintro a h' ⟨⟨s', h1, h2⟩, h3⟩
        exact ⟨some (b, s'), .ok h1, hi.1, h3.trans hi.2.1, h2⟩
      · rintro e h' ⟨⟨s', h1, h2⟩, h3⟩
        exact ⟨some (b, s'), .err h1, hi.1, h3.trans hi.2.1, h2⟩

theorem always_bind_of {p : HProg α} {f : α → HProg β} {I' : Heap → Prop} : ∀ {h}, always p I' h → wp p (fun out h' => match out with | .ok a => always (f a) I' h' | .err _ => True) h →
    always (p.bind f) I' h := by
  induction p with
  | ret a => exact fun _ h => h
  | err e => exact fun h _ => h
  | ub => exact fun h _ => h
  | step op k ih =>
    intro h ha hw
    cases op with
    | alloc n => exact ⟨ha.1, ha.2.1, fun o d hf => ih _ (ha.2.2.1 o d hf) (hw.2.1 o d hf), ih _ ha.2.2.2 hw.2.2⟩
    | getBase => exact ⟨ha.1, ih _ ha.2 hw⟩
    | setBase => exact ⟨ha.1, ha.2.1, ih _ ha.2.2 hw.2⟩
    | free | bsize =>
      obtain ⟨h0, b, h1, h2⟩ := ha; obtain ⟨b', h1', h2'⟩ := hw
      have := Option.some.inj (h1.symm.trans h1'); subst this
      exact ⟨h0, b, h1, ih _ h2 h2'⟩
    | rd | wr | rdB | wrB =>
      obtain ⟨h0, b, h1, h2, h3⟩ := ha; obtain ⟨b', h1', h2', h3'⟩ := hw
      have := Option.some.inj (h1.symm.trans h1'); subst this
      exact ⟨h0, b, h1, h2, ih _ h3 h3'⟩

/-- a program that neither looks at nor changes the base object offset -/
def Blind : HProg α → Prop
  | .step (.setBase _) _ => False
  | .step .getBase _ => False
  | .step (.rd _ _ _) k => ∀ v, Blind (k v)
  | .step (.wr _ _ _ _) k => ∀ v, Blind (k v)
  | .step (.rdB _ _ _) k => ∀ v, Blind (k v)
  | .step (.wrB _ _ _) k => ∀ v, Blind (k v)
  | .step (.alloc _) k => ∀ v, Blind (k v)
  | .step (.free _) k => ∀ v, Blind (k v)
  | .step (.bsize _) k => ∀ v, Blind (k v)
  | _ => True

theorem Blind.bind {p : HProg α} {f : α → HProg β} (hp : Blind p) (hf : ∀ a, Blind (f a)) : Blind (p.bind f) := by
  induction p with
  | ret a => exact hf a
  | err e => trivial
  | ub => trivial
  | step op k ih =>
    cases op with
    | setBase | getBase => exact hp.elim
    | _ => exact fun v => ih v (hp v)
theorem Blind.dbind {p : HProg α} {f : α → HProg β} (hp : Blind p) (hf : ∀ a, Blind (f a)) : Blind (p >>= f) := hp.bind hf
theorem Blind.wr {b o n v : Nat} : Blind (H.wr b o n v) := fun _ => trivial
theorem Blind.alloc {n : Nat} : Blind (H.alloc n) := fun v => by cases v <;> trivial
theorem Blind.pure {a : α} : Blind (pure a : HProg α) := trivial
theorem Blind.err {e : Err} : Blind (.err e : HProg α) := trivial

unseal Stays in
theorem Blind.stays {p : HProg α} (h : Blind p) : Stays p := by
  induction p with
  | ret | err | ub => trivial
  | step op k ih =>
    cases op with
    | setBase | getBase => exact h.elim
    | _ => exact fun v => ih v (h v)

/-- such a program does the same whatever the base object offset is -/
theorem wp_rebase {p : HProg α} {Q : Nat → Out α → Heap → Prop} (hp : Blind p) : ∀ {h : Heap}, (∀ b, wp p (Q b) { h with base := b }) →
    wp p (fun o h' => ∀ b, Q b o { h' with base := b }) h := by
  induction p with
  | ret a => exact fun h => h
  | err e => exact fun h => h
  | ub => exact fun h => h 0
  | step op k ih =>
    intro h hw
    cases op with
    | setBase | getBase => exact hp.elim
    | alloc n =>
      refine ⟨(hw 0).1, fun o d hf => ih _ (hp _) fun b => (hw b).2.1 o d ⟨hf.none, hf.disj, hf.pos, hf.low, hf.align, hf.lt⟩, ih _ (hp _) fun b => (hw b).2.2⟩
    | free x =>
      obtain ⟨B, h1, -⟩ := hw 0
      refine ⟨B, h1, ih _ (hp _) fun b => ?_⟩
      obtain ⟨B', h1', h2'⟩ := hw b
      exact h2'
    | bsize x =>
      obtain ⟨B, h1, -⟩ := hw 0
      refine ⟨B, h1, ih _ (hp _) fun b => ?_⟩
      obtain ⟨B', h1', h2'⟩ := hw b
      have := Option.some.inj (h1.symm.trans h1'); subst this
      exact h2'
    | rd | wr | rdB | wrB =>
      obtain ⟨B, h1, h2, -⟩ := hw 0
      refine ⟨B, h1, h2, ih _ (hp _) fun b => ?_⟩
      obtain ⟨B', h1', -, h2'⟩ := hw b
      have := Option.some.inj (h1.symm.trans h1'); subst this
      exact h2'

theorem HeapOk.rebase {h : Heap} (hk : HeapOk h) (b : Nat) : HeapOk { h with base := b } := by
  obtain ⟨h1, h2⟩ := hk
  exact ⟨h1, h2⟩

theorem mk_wp (hbl : Blind mk) (hmk : ∀ h, HeapOk h → wp mk (fun out h' => (out = .err .noMem ∧ HeapOk h') ∨ ∃ b, out = .ok b ∧ b ≠ 0 ∧ b < W64 ∧ I b new h') h) {h : Heap} (hk : HeapOk h) :
    wp mk (fun out h' => ((out = .err .noMem ∧ HeapOk h') ∨ ∃ b, out = .ok b ∧ b ≠ 0 ∧ b < W64 ∧ I b new { h' with base := b }) ∧ h'.base = h.base) h := by
  refine wp_mono ?_ (hbl.stays.wp (wp_rebase hbl (h := h) fun b => hmk _ (HeapOk.rebase hk b)))
  rintro out h' ⟨h1, h2⟩
  refine ⟨?_, h2⟩
  cases out with
  | err e =>
    rcases h1 0 with ⟨h3, h4⟩ | ⟨b, h3, -⟩
    · exact Or.inl ⟨h3, HeapOk.rebase h4 h'.base⟩
    · cases h3
  | ok b =>
    rcases h1 b with ⟨h3, h4⟩ | ⟨b', h3, h4, h5, h6⟩
    · cases h3
    · injection h3 with h3; subst h3
      exact Or.inr ⟨b, rfl, h4, h5, h6⟩

/-- a constructor whose last access records the base object -/
theorem make_wp (hbl : Blind mk) (hmk : ∀ h, HeapOk h → wp mk (fun out h' => (out = .err .noMem ∧ HeapOk h') ∨ ∃ b, out = .ok b ∧ b ≠ 0 ∧ b < W64 ∧ I b new h') h) (h : Heap)
    (hb : h.base = 0) (hk : HeapOk h) :
    wp (make mk fun _ => .ret ()) (fun out h' => (out = .err .noMem ∧ h'.base = 0 ∧ HeapOk h') ∨ ∃ b, out = .ok b ∧ b ≠ 0 ∧ h'.base = b ∧ I b new h') h := by
  unfold make
  refine wp_bind_of (mk_wp hbl hmk hk) ?_ ?_
  · rintro a h' ⟨⟨e, -⟩ | ⟨b, e, h1, h2, h3⟩, h4⟩
    · cases e
    · injection e with e; subst e
      exact wp_setBase h2 (Or.inr ⟨a, rfl, h1, rfl, h3⟩)
  · rintro e h' ⟨⟨e1, h1⟩ | ⟨b, e, -⟩, h4⟩
    · exact Or.inl ⟨e1, h4.trans hb, h1⟩
    · cases e

/-- whatever the crash point, there is no base object or it is complete -/
theorem make_cut (hbl : Blind mk) (hmk : ∀ h, HeapOk h → wp mk (fun out h' => (out = .err .noMem ∧ HeapOk h') ∨ ∃ b, out = .ok b ∧ b ≠ 0 ∧ b < W64 ∧ I b new h') h)
    (hIJ : ∀ b h, I b new h → J b new h) (h : Heap) (hb : h.base = 0) (hk : HeapOk h) :
    always (make mk fun _ => .ret ()) (fun h' => ∃ s', (s' = none ∨ Cut new C none .enter s') ∧ CI J s' h') h := by
  have hw := mk_wp hbl hmk hk
  refine always_bind_of (always_mono ?_ (hbl.stays.always (wp_always hw))) ?_
  · rintro h' ⟨-, h1⟩
    exact ⟨none, Or.inl rfl, h1.trans hb⟩
  · refine wp_mono ?_ hw
    rintro out h' ⟨h1, h2⟩
    cases out with
    | err e => trivial
    | ok b =>
      rcases h1 with ⟨e, -⟩ | ⟨b', e, h3, h4, h5⟩
      · cases e
      injection e with e; subst e
      exact ⟨⟨none, Or.inl rfl, h2.trans hb⟩, h4, some (b, new), Or.inr (.create h3), h3, rfl, hIJ _ _ h5⟩

/-- the constructor and the methods together, with crashes -/
theorem crashable (hst : ∀ b o, Stays (call b o))
    (hmk : ∀ h, h.base = 0 → HeapOk h → wp (make mk fin) (fun out h' => (out = .err .noMem ∧ h'.base = 0 ∧ HeapOk h') ∨ ∃ b, out = .ok b ∧ b ≠ 0 ∧ h'.base = b ∧ I b new h') h)
    (hcut : ∀ h, h.base = 0 → HeapOk h → always (make mk fin) (fun h' => ∃ s', (s' = none ∨ Cut new C none .enter s') ∧ CI J s' h') h)
    (H : ∀ b, Crashable (call b) Sp C (I b) (J b) ok) :
    Crashable (prog mk fin call) (Spec new Sp) (Cut new C) (Inv I) (CI J) (Ok ok) := by
  have hweak : ∀ s h, Inv I s h → CI J s h := by
    intro s h hi
    cases s with
    | none => exact hi.1
    | some bs => exact ⟨hi.1, hi.2.1, (H _).weak _ _ hi.2.2⟩
  refine ⟨step hst hmk fun b => (H b).step, ?_, hweak, ?_⟩
  · intro s o h ho hi
    have h0 : ∃ s', (s' = s ∨ Cut new C s o s') ∧ CI J s' h := ⟨s, Or.inl rfl, hweak _ _ hi⟩
    cases o with
    | look => exact ⟨h0, h0⟩
    | enter =>
      unfold prog openLocked
      rw [Prog.bind_assoc]
      refine ⟨h0, ?_⟩
      cases s with
      | none =>
        have := always_bind_ret (g := Ret.base (R := R)) (hcut h hi.1 hi.2)
        simp only [Prog.ret_bind, if_pos hi.1]
        exact this
      | some bs =>
        simp only [Prog.ret_bind, if_neg (show ¬ h.base = 0 by rw [hi.2.1]; exact hi.1)]
        exact h0
    | on o =>
      unfold prog
      refine ⟨h0, ?_⟩
      cases s with
      | none => simp only [Prog.ret_bind, if_pos hi.1]; exact h0
      | some bs =>
        obtain ⟨b, s⟩ := bs
        simp only [Prog.ret_bind, hi.2.1, if_neg hi.1]
        refine always_bind_ret (always_mono ?_ ((hst b o).always ((H b).cut s o h ho hi.2.2)))
        rintro h' ⟨⟨s', h1, h2⟩, h3⟩
        refine ⟨some (b, s'), ?_, hi.1, h3.trans hi.2.1, h2⟩
        rcases h1 with rfl | h1
        · exact Or.inl rfl
        · exact Or.inr (.on h1)
  · intro s h p hc hs
    cases s with
    | none => exact ⟨hc, hs.heapOk⟩
    | some bs => exact ⟨hc.1, hc.2.1, (H _).heal _ _ _ hc.2.2 hs⟩

theorem ro {w : O → Bool} (hro : ∀ b o, w o = false → HRo (call b o)) : ∀ o, writes w o = false → Ro (methodBody (prog mk fin call) o) := by
  intro o ho
  refine HRo.body ?_
  cases o with
  | look => exact fun _ => trivial
  | enter => cases ho
  | on o =>
    refine fun b => ?_
    show HRo (if b = 0 then _ else _)
    split
    · trivial
    · exact (hro b o ho).bind fun _ => trivial

/-! ### what the specification says about bases -/

theorem Spec.keeps {s s' : Option (Nat × S)} {o : Op O} {r : Out (Ret R)} (h : Spec new Sp s o r s') : ∀ b st, s = some (b, st) → ∃ st', s' = some (b, st') := by
  rintro b st rfl
  cases h <;> exact ⟨_, rfl⟩

theorem Cut.keeps {s s' : Option (Nat × S)} {o : Op O} (h : Cut new C s o s') : ∀ b st, s = some (b, st) → ∃ st', s' = some (b, st') := by
  rintro b st rfl
  cases h; exact ⟨_, rfl⟩

/-- a base that any opener was given is the base at the end -/
theorem CTrace.base {s0 s : Option (Nat × S)} {evs : List (Ev (Op O) (Ret R))} (h : CTrace (Spec new Sp) (Cut new C) s0 evs s) :
    ∀ o b, b ≠ 0 → Ev.done o (.ok (.base b)) ∈ evs → ∃ st, s = some (b, st) := by
  induction h with
  | nil => intro o b _ h; cases h
  | @done l s1 o r s2 _ hs ih =>
    intro o' b hb hm
    rcases List.mem_append.1 hm with hm | hm
    · obtain ⟨st, rfl⟩ := ih o' b hb hm
      exact hs.keeps _ _ rfl
    · have := List.mem_singleton.1 hm
      injection this with e1 e2
      subst e1; subst e2
      cases hs with
      | lookNone => exact absurd rfl hb
      | lookSome | create | found => exact ⟨_, rfl⟩
  | @died l s1 o s2 _ hs ih =>
    intro o' b hb hm
    rcases List.mem_append.1 hm with hm | hm
    · obtain ⟨st, rfl⟩ := ih o' b hb hm
      rcases hs with rfl | hs
      · exact ⟨_, rfl⟩
      · exact hs.keeps _ _ rfl
    · have := List.mem_singleton.1 hm
      cases this

theorem Trace.base {s0 s : Option (Nat × S)} {os : List (Op O)} {rs : List (Out (Ret R))} (h : Trace (Spec new Sp) s0 os rs s) :
    (∀ b st, s0 = some (b, st) → ∃ st', s = some (b, st')) ∧ ∀ b, b ≠ 0 → Out.ok (Ret.base b) ∈ rs → ∃ st, s = some (b, st) := by
  induction h with
  | nil s => exact ⟨fun b st h => ⟨st, h⟩, fun b _ h => by cases h⟩
  | cons hs ht ih =>
    refine ⟨?_, ?_⟩
    · intro b st h
      obtain ⟨st', h1⟩ := hs.keeps b st h
      exact ih.1 b st' h1
    · intro b hb hm
      rcases List.mem_cons.1 hm with e | hm
      · subst e
        cases hs with
        | lookNone => exact absurd rfl hb
        | lookSome | create | found => exact ih.1 _ _ rfl
      · exact ih.2 b hb hm

/-- what must be shown of a structure whose constructor can create the base object -/
structure Openable (mk : HProg Nat) (fin : Nat → HProg Unit) (call : Nat → O → HProg R) (w : O → Bool) (new : S) (Sp : S → O → Out R → S → Prop) (I : Nat → S → Heap → Prop) (ok : O → Prop) : Prop where
  stays : ∀ b o, Stays (call b o)
  make : ∀ h, h.base = 0 → HeapOk h → wp (make mk fin) (fun out h' => (out = .err .noMem ∧ h'.base = 0 ∧ HeapOk h') ∨ ∃ b, out = .ok b ∧ b ≠ 0 ∧ h'.base = b ∧ I b new h') h
  step : ∀ b s o h, ok o → I b s h → wp (call b o) (fun out h' => ∃ s', Sp s o out s' ∧ I b s' h') h
  ro : ∀ b o, w o = false → HRo (call b o)

end Verif.Opening
