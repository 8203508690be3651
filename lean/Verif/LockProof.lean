import Verif.Lock
import Mathlib.Tactic.Tauto
/-
Thread-local reasoning about the lock code, and its soundness for the whole system.

`lwp tok p Q g`: a thread with token `tok` and ghost state `g` may run `p`; each step obeys the lock protocol whatever the other threads do.
-/
namespace Verif.Lock
open Verif
variable {K : Mach} {α β : Type}

/-- what a thread knows -/
structure Ghost (K : Mach) where
  own : Nat → Prop       -- lock words it holds
  clean : Nat → Prop     -- reader slots it has seen empty while holding the write lock
  dead : Nat → Prop      -- tokens of processes it has found dead
  took : Nat             -- the value its acquisition of word 0 replaced
  fixed : Prop           -- it has finished a write section since it acquired word 0
  sec : Option (Kind × Body K × Body K)  -- section: kind, operation, what is left of it

/-- context: must a stolen lock be followed by a write section (`strict`)?  Which sections may the thread start (`P`)? -/
structure Ctx (K : Mach) where
  strict : Prop
  P : Kind → Body K → Prop

/-- a thread that may let others in -/
def Ghost.calm (g : Ghost K) (c : Ctx K) : Prop := c.strict → g.took = 0 ∨ g.fixed

def slot (w : Nat) : Prop := 1 ≤ w ∧ w ≤ 65
instance (w : Nat) : Decidable (slot w) := by unfold slot; infer_instance

/-- the section's protection -/
def Ghost.ok (c : Ctx K) (g : Ghost K) : Prop :=
  match g.sec with
  | none => True
  | some (.write stolen, _, _) => g.own 0 ∧ (∀ w, slot w → g.clean w) ∧ g.took = stolen ∧ (stolen = 0 ∨ g.dead stolen)
  | some (.read, b, rem) => Ro b ∧ Ro rem ∧ ((g.own 0 ∧ (∀ w, slot w → g.clean w) ∧ g.calm c) ∨ ∃ w, slot w ∧ g.own w)
  | some (.mutex m, _, _) => g.own m ∧ 66 ≤ m

/-- knowledge after a successful compare-exchange of `w` from `e` to `v` -/
def Ghost.casOk (g : Ghost K) (w e v : Nat) : Ghost K :=
  { g with
    own := fun x => if x = w then v ≠ 0 else g.own x
    clean := fun x => g.clean x ∧ ¬ (w = 0) ∧ (x = w → v = 0)
    took := if w = 0 then e else g.took
    fixed := g.fixed ∧ w ≠ 0 }

/-- knowledge after leaving a section -/
def Ghost.left (g : Ghost K) : Ghost K :=
  { g with sec := none, fixed := g.fixed ∨ ∃ n b rem, g.sec = some (.write n, b, rem) }

/-- knowledge after seeing slot `w` empty -/
def Ghost.seen (g : Ghost K) (w : Nat) : Ghost K :=
  { g with clean := fun x => g.clean x ∨ (x = w ∧ slot w ∧ g.own 0) }

/-- may the thread do this compare-exchange? -/
def Ghost.may (c : Ctx K) (g : Ghost K) (tok w e v : Nat) : Prop :=
  (v = tok ∧ (e = 0 ∨ g.dead e) ∧ (slot w → g.own 0 ∧ e = 0 ∧ g.calm c)) ∨
  (v = 0 ∧ e ≠ 0 ∧ (g.dead e ∧ slot w ∨ e = tok ∧ g.own w ∧ (w = 0 → g.calm c)))

/-- what may be in `w` -/
def Ghost.can (g : Ghost K) (tok w a : Nat) : Prop := (g.own w → a = tok) ∧ (g.clean w → a = 0)

def lwp (c : Ctx K) (tok : Nat) : LProg K α → (α → Ghost K → Prop) → Ghost K → Prop
  | .ret a, Q, g => g.ok c ∧ Q a g
  | .err _, _, _ => False
  | .ub, _, g => g.ok c
  | .step (.cas w e v) k, Q, g => g.ok c ∧ (g.can tok w e → g.may c tok w e v) ∧
      (g.can tok w e → lwp c tok (k (true, e)) Q (if v = 0 ∧ slot w then (g.casOk w e v).seen w else g.casOk w e v)) ∧
      (∀ a, g.can tok w a → a ≠ e → lwp c tok (k (false, a)) Q g)
  | .step (.casWeak w e v) k, Q, g => g.ok c ∧ v = tok ∧ e = 0 ∧ ¬ slot w ∧
      lwp c tok (k (true, e)) Q (g.casOk w e v) ∧
      (∀ a, g.can tok w a → lwp c tok (k (false, a)) Q g)
  | .step (.load w) k, Q, g => g.ok c ∧ ∀ a, g.can tok w a → lwp c tok (k a) Q (if a = 0 then g.seen w else g)
  | .step (.wait _ _) k, Q, g => g.ok c ∧ ∀ b, lwp c tok (k b) Q g
  | .step (.running d) k, Q, g => g.ok c ∧ lwp c tok (k true) Q g ∧
      lwp c tok (k false) Q { g with dead := fun x => g.dead x ∨ x = d }
  | .step (.enter kd b) k, Q, g => g.ok c ∧ g.sec = none ∧ c.P kd b ∧ lwp c tok (k ()) Q { g with sec := some (kd, b, b) }
  | .step (.acc op) k, Q, g => g.ok c ∧ ∃ kd b k', g.sec = some (kd, b, .step op k') ∧ (kd = .read ∨ ∃ n, kd = .write n) ∧
      ∀ v, lwp c tok (k v) Q { g with sec := some (kd, b, k' v) }
  | .step (.leave b r) k, Q, g => g.ok c ∧ (∃ kd rem, g.sec = some (kd, b, rem) ∧ (kd = .read ∨ ∃ n, kd = .write n) ∧
      ∀ m, Body.run rem m = (r, m)) ∧ lwp c tok (k ()) Q g.left
  | .step .quit k, Q, g => g.ok c ∧ (∃ w b rem, g.sec = some (.mutex w, b, rem)) ∧ lwp c tok (k ()) Q g.left
  | .step .idle k, Q, g => g.ok c ∧ (g.sec = none ∧ ∀ w, ¬ g.own w) ∧ lwp c tok (k ()) Q g

theorem lwp_ok {c : Ctx K} {tok : Nat} {p : LProg K α} {Q : α → Ghost K → Prop} {g : Ghost K} (h : lwp c tok p Q g) : g.ok c := by
  cases p with
  | ret a => exact h.1
  | err e => exact h.elim
  | ub => exact h
  | step op k => cases op <;> exact h.1

theorem lwp_bind {c : Ctx K} {tok : Nat} {p : LProg K α} {f : α → LProg K β} {Q : β → Ghost K → Prop} :
    ∀ {g : Ghost K}, lwp c tok p (fun a g => lwp c tok (f a) Q g) g → lwp c tok (p.bind f) Q g := by
  induction p with
  | ret a => exact fun h => h.2
  | err e => exact fun h => h
  | ub => exact fun h => h
  | step op k ih =>
    intro g h
    cases op with
    | cas w e v => exact ⟨h.1, h.2.1, fun c => ih _ (h.2.2.1 c), fun a h1 h2 => ih _ (h.2.2.2 a h1 h2)⟩
    | casWeak w e v => exact ⟨h.1, h.2.1, h.2.2.1, h.2.2.2.1, ih _ h.2.2.2.2.1, fun a h1 => ih _ (h.2.2.2.2.2 a h1)⟩
    | load w => exact ⟨h.1, fun a h1 => ih _ (h.2 a h1)⟩
    | wait => exact ⟨h.1, fun a => ih _ (h.2 a)⟩
    | running => exact ⟨h.1, ih _ h.2.1, ih _ h.2.2⟩
    | enter => exact ⟨h.1, h.2.1, h.2.2.1, ih _ h.2.2.2⟩
    | acc op =>
      obtain ⟨h0, kd, b, k', h1, h2, h3⟩ := h
      exact ⟨h0, kd, b, k', h1, h2, fun v => ih _ (h3 v)⟩
    | leave => exact ⟨h.1, h.2.1, ih _ h.2.2⟩
    | quit => exact ⟨h.1, h.2.1, ih _ h.2.2⟩
    | idle => exact ⟨h.1, h.2.1, ih _ h.2.2⟩

theorem lwp_mono {c : Ctx K} {tok : Nat} {p : LProg K α} {Q Q' : α → Ghost K → Prop} (hQ : ∀ a g, g.ok c → Q a g → Q' a g) :
    ∀ {g : Ghost K}, lwp c tok p Q g → lwp c tok p Q' g := by
  induction p with
  | ret a => exact fun h => ⟨h.1, hQ _ _ h.1 h.2⟩
  | err e => exact fun h => h
  | ub => exact fun h => h
  | step op k ih =>
    intro g h
    cases op with
    | cas w e v => exact ⟨h.1, h.2.1, fun c => ih _ (h.2.2.1 c), fun a h1 h2 => ih _ (h.2.2.2 a h1 h2)⟩
    | casWeak w e v => exact ⟨h.1, h.2.1, h.2.2.1, h.2.2.2.1, ih _ h.2.2.2.2.1, fun a h1 => ih _ (h.2.2.2.2.2 a h1)⟩
    | load w => exact ⟨h.1, fun a h1 => ih _ (h.2 a h1)⟩
    | wait => exact ⟨h.1, fun a => ih _ (h.2 a)⟩
    | running => exact ⟨h.1, ih _ h.2.1, ih _ h.2.2⟩
    | enter => exact ⟨h.1, h.2.1, h.2.2.1, ih _ h.2.2.2⟩
    | acc op =>
      obtain ⟨h0, kd, b, k', h1, h2, h3⟩ := h
      exact ⟨h0, kd, b, k', h1, h2, fun v => ih _ (h3 v)⟩
    | leave => exact ⟨h.1, h.2.1, ih _ h.2.2⟩
    | quit => exact ⟨h.1, h.2.1, ih _ h.2.2⟩
    | idle => exact ⟨h.1, h.2.1, ih _ h.2.2⟩

theorem lwp_seq {c : Ctx K} {tok : Nat} {p : LProg K α} {f : α → LProg K β} {Q : β → Ghost K → Prop} {R : α → Ghost K → Prop}
    {g : Ghost K} (hp : lwp c tok p R g) (hk : ∀ a g', g'.ok c → R a g' → lwp c tok (f a) Q g') : lwp c tok (p.bind f) Q g :=
  lwp_bind (lwp_mono hk hp)

/-! ### the lock code obeys the protocol -/

/-- outside sections -/
def Idle (g : Ghost K) : Prop := g.sec = none
theorem Idle.ok {c : Ctx K} {g : Ghost K} (h : Idle g) : g.ok c := by unfold Ghost.ok; rw [h]; trivial

variable {c : Ctx K} {tok : Nat} {Q : α → Ghost K → Prop}

/-- `g'` knows at least what `g` knows, apart from word `w` -/
structure Only (g g' : Ghost K) (w : Nat) : Prop where
  own : ∀ x, x ≠ w → (g'.own x ↔ g.own x)
  sec : g'.sec = g.sec

theorem spin_lwp {w : Nat} (hw : ¬ slot w) (n : Nat) : ∀ (last : Nat) {g : Ghost K}, Idle g → ¬ g.own w →
    lwp c tok (spin w tok n last) (fun r g' => (r.1 = true ∧ g' = g.casOk w 0 tok) ∨ (r.1 = false ∧ g' = g)) g := by
  induction n with
  | zero => intro last g hi _; exact ⟨hi.ok, Or.inr ⟨rfl, rfl⟩⟩
  | succ n ih =>
    intro last g hi ho
    refine ⟨hi.ok, rfl, rfl, hw, ?_, ?_⟩
    · refine ⟨?_, Or.inl ⟨rfl, rfl⟩⟩
      exact Idle.ok (g := g.casOk w 0 tok) hi
    · intro a _
      exact ih a hi ho

/-- after `acquire w`: the word is held; the result is the stolen token -/
structure Acq (g g' : Ghost K) (w r : Nat) : Prop where
  own : ∀ x, g'.own x ↔ (x = w ∨ g.own x)
  clean : w = 0 → ∀ x, ¬ g'.clean x
  took : w = 0 → g'.took = r
  dead : r = 0 ∨ g'.dead r
  sec : g'.sec = g.sec

theorem acq_of_cas {g : Ghost K} {w e : Nat} (ht : tok ≠ 0) (hd : e = 0 ∨ g.dead e) : Acq g (g.casOk w e tok) w e := by
  refine ⟨?_, ?_, ?_, hd, rfl⟩
  · intro x
    simp only [Ghost.casOk]
    by_cases hx : x = w <;> simp [hx, ht]
  · intro hw x hc; exact hc.2.1 hw
  · intro hw; simp [Ghost.casOk, hw]

theorem acquire_lwp {w : Nat} (ht : tok ≠ 0) (hw : ¬ slot w) (fuel : Nat) : ∀ {g : Ghost K}, Idle g → ¬ g.own w →
    lwp c tok (acquire w tok fuel) (fun r g' => ∃ g1, (∀ x, g1.own x ↔ g.own x) ∧ g1.sec = g.sec ∧ Acq g1 g' w r) g := by
  induction fuel with
  | zero => intro g hi _; exact hi.ok
  | succ fuel ih =>
    intro g hi ho
    unfold acquire
    refine lwp_seq (spin_lwp hw 10 0 hi ho) ?_
    rintro r g' - (⟨hr, rfl⟩ | ⟨hr, rfl⟩)
    · rw [if_pos hr]
      exact ⟨Idle.ok (g := g.casOk w 0 tok) hi, g, fun _ => Iff.rfl, rfl, acq_of_cas ht (Or.inl rfl)⟩
    · rw [if_neg (by simp [hr])]
      refine ⟨hi.ok, fun b => ?_⟩
      cases b with
      | true => exact ih hi ho
      | false =>
        refine ⟨hi.ok, ?_, ?_⟩
        · exact ih hi ho
        · have hi2 : Idle ({ g' with dead := fun x => g'.dead x ∨ x = r.2 } : Ghost K) := hi
          refine ⟨hi2.ok, ?_, ?_, ?_⟩
          · intro _; exact Or.inl ⟨rfl, Or.inr (Or.inr rfl), fun h => absurd h hw⟩
          · intro _
            rw [if_neg (by simp [ht])]
            exact ⟨Idle.ok (g := Ghost.casOk _ w r.2 tok) hi2, { g' with dead := fun x => g'.dead x ∨ x = r.2 }, fun _ => Iff.rfl, rfl,
              acq_of_cas ht (Or.inr (Or.inr rfl))⟩
          · intro a _ _
            refine lwp_mono ?_ (ih hi2 ho)
            rintro a g2 - h2
            exact h2

/-- `g'` is `g` with possibly more clean slots and more known-dead processes -/
structure More (g g' : Ghost K) : Prop where
  own : ∀ x, g'.own x ↔ g.own x
  clean : ∀ x, g.clean x → g'.clean x
  dead : ∀ x, g.dead x → g'.dead x
  took : g'.took = g.took
  sec : g'.sec = g.sec

theorem More.refl (g : Ghost K) : More g g := ⟨fun _ => Iff.rfl, fun _ h => h, fun _ h => h, rfl, rfl⟩
theorem More.trans {a b c : Ghost K} (h1 : More a b) (h2 : More b c) : More a c :=
  ⟨fun x => (h2.own x).trans (h1.own x), fun x h => h2.clean x (h1.clean x h), fun x h => h2.dead x (h1.dead x h),
    h2.took.trans h1.took, h2.sec.trans h1.sec⟩
theorem More.idle {g g' : Ghost K} (h : More g g') (hi : Idle g) : Idle g' := h.sec.trans hi
theorem More.seen (g : Ghost K) (w : Nat) : More g (g.seen w) :=
  ⟨fun _ => Iff.rfl, fun _ h => Or.inl h, fun _ h => h, rfl, rfl⟩
theorem More.knowDead (g : Ghost K) (d : Nat) : More g { g with dead := fun x => g.dead x ∨ x = d } :=
  ⟨fun _ => Iff.rfl, fun _ h => h, fun _ h => Or.inl h, rfl, rfl⟩

theorem seen_clean {g : Ghost K} {w : Nat} (hw : slot w) (h0 : g.own 0) : (g.seen w).clean w := Or.inr ⟨rfl, hw, h0⟩

/-- clearing a dead reader's slot -/
theorem More.clear {g : Ghost K} {w e : Nat} (hw : slot w) (ho : ¬ g.own w) : More g ((g.casOk w e 0).seen w) := by
  have hw0 : w ≠ 0 := by unfold slot at hw; omega
  refine ⟨?_, ?_, fun _ h => h, ?_, rfl⟩
  · intro x
    simp only [Ghost.seen, Ghost.casOk]
    by_cases hx : x = w
    · subst hx; simp [ho]
    · simp [hx]
  · intro x hx; exact Or.inl ⟨hx, hw0, fun _ => rfl⟩
  · simp [Ghost.seen, Ghost.casOk, hw0]

theorem readerRelease_lwp {w : Nat} (hw : slot w) (fuel : Nat) : ∀ {g : Ghost K}, Idle g → ¬ g.own w →
    lwp c tok (readerRelease w fuel) (fun _ g' => More g g' ∧ (g.own 0 → g'.clean w)) g := by
  induction fuel with
  | zero => intro g hi _; exact hi.ok
  | succ fuel ih =>
    intro g hi ho
    have again : ∀ g1 : Ghost K, More g g1 → lwp c tok (readerRelease w fuel) (fun _ g' => More g g' ∧ (g.own 0 → g'.clean w)) g1 := by
      intro g1 h1
      refine lwp_mono ?_ (ih (h1.idle hi) (fun h => ho ((h1.own w).1 h)))
      rintro _ g2 - ⟨h2, h3⟩
      exact ⟨h1.trans h2, fun h => h3 ((h1.own 0).2 h)⟩
    refine ⟨hi.ok, ?_⟩
    intro a _
    show lwp c tok (if a = 0 then _ else _) _ _
    by_cases ha : a = 0
    · rw [if_pos ha, if_pos ha]
      exact ⟨Idle.ok (g := g.seen w) hi, More.seen g w, fun h => seen_clean hw h⟩
    · rw [if_neg ha, if_neg ha]
      refine ⟨hi.ok, fun b => ?_⟩
      cases b with
      | true => exact again g (More.refl g)
      | false =>
        refine ⟨hi.ok, again g (More.refl g), ?_⟩
        refine ⟨Idle.ok (g := { g with dead := _ }) hi, ?_, ?_, ?_⟩
        · intro _; exact Or.inr ⟨rfl, ha, Or.inl ⟨Or.inr rfl, hw⟩⟩
        · intro _
          rw [if_pos ⟨rfl, hw⟩]
          refine ⟨Idle.ok (g := Ghost.seen _ w) hi, (More.knowDead g a).trans (More.clear hw ho), ?_⟩
          intro h0
          refine seen_clean hw ?_
          show (if 0 = w then _ else g.own 0)
          rw [if_neg (by unfold slot at hw; omega)]
          exact h0
        · intro c _ _
          exact again _ (More.knowDead g a)

theorem drainAll_lwp (fuel : Nat) (n : Nat) : ∀ (x : Nat) {g : Ghost K}, x + n ≤ 65 → Idle g → g.own 0 →
    (∀ w, slot w → ¬ g.own w) →
    lwp c tok (drainAll fuel n x) (fun _ g' => More g g' ∧ ∀ w, x + 1 ≤ w → w ≤ x + n → g'.clean w) g := by
  induction n with
  | zero => intro x g _ hi _ _; exact ⟨hi.ok, More.refl g, fun w h1 h2 => by omega⟩
  | succ n ih =>
    intro x g hx hi h0 hs
    have hw : slot (x + 1) := by unfold slot; omega
    have go : ∀ g1 : Ghost K, More g g1 → g1.clean (x + 1) →
        lwp c tok (drainAll fuel n (x + 1)) (fun _ g' => More g g' ∧ ∀ w, x + 1 ≤ w → w ≤ x + (n + 1) → g'.clean w) g1 := by
      intro g1 h1 hc
      refine lwp_mono ?_ (ih (x + 1) (by omega) (h1.idle hi) ((h1.own 0).2 h0) (fun w hw h => hs w hw ((h1.own w).1 h)))
      rintro _ g2 - ⟨h2, h3⟩
      refine ⟨h1.trans h2, ?_⟩
      intro w e1 e2
      by_cases e : w = x + 1
      · subst e; exact h2.clean _ hc
      · exact h3 w (by omega) (by omega)
    refine ⟨hi.ok, ?_⟩
    intro a _
    show lwp c tok (if a = 0 then _ else _) _ _
    by_cases ha : a = 0
    · rw [if_pos ha, if_pos ha]
      exact go _ (More.seen g _) (seen_clean hw h0)
    · rw [if_neg ha, if_neg ha]
      refine lwp_seq (readerRelease_lwp hw fuel hi (hs _ hw)) ?_
      rintro _ g1 - ⟨h1, h2⟩
      exact go g1 h1 (h2 h0)

theorem anyFree_lwp (n : Nat) : ∀ (x : Nat) {g : Ghost K}, Idle g → lwp c tok (anyFree n x) (fun _ g' => More g g') g := by
  induction n with
  | zero => intro x g hi; exact ⟨hi.ok, More.refl g⟩
  | succ n ih =>
    intro x g hi
    refine ⟨hi.ok, ?_⟩
    intro a _
    show lwp c tok (if a = 0 then _ else _) _ _
    by_cases ha : a = 0
    · rw [if_pos ha, if_pos ha]; exact ⟨Idle.ok (g := g.seen _) hi, More.seen g _⟩
    · rw [if_neg ha, if_neg ha]; exact ih _ hi

theorem drainAny_lwp (pid fuel f : Nat) : ∀ {g : Ghost K}, Idle g → (∀ w, slot w → ¬ g.own w) →
    lwp c tok (drainAny pid fuel f) (fun _ g' => More g g') g := by
  induction f with
  | zero => intro g hi _; exact hi.ok
  | succ f ih =>
    intro g hi hs
    unfold drainAny
    refine lwp_seq (anyFree_lwp 65 0 hi) ?_
    rintro b g1 - h1
    cases b with
    | true => exact ⟨(h1.idle hi).ok, h1⟩
    | false =>
      have hw : slot (pid % 65 + 1) := by unfold slot; omega
      refine lwp_seq (readerRelease_lwp hw fuel (h1.idle hi) (fun h => hs _ hw ((h1.own _).1 h))) ?_
      rintro _ g2 - ⟨h2, -⟩
      have h3 := h1.trans h2
      refine lwp_mono ?_ (ih (h3.idle hi) (fun w hw h => hs w hw ((h3.own w).1 h)))
      rintro _ g4 - h4
      exact h3.trans h4

/-- after claiming slot `x` -/
structure Took (g g' : Ghost K) (x : Nat) : Prop where
  lt : x < 65
  own : ∀ w, g'.own w ↔ (w = x + 1 ∨ g.own w)
  sec : g'.sec = g.sec
  took : g'.took = g.took
  fixed : g'.fixed ↔ g.fixed

theorem Took.calm {g g' : Ghost K} {x : Nat} (h : Took g g' x) (hc : g.calm c) : g'.calm c := by
  intro hs; rw [h.took, h.fixed]; exact hc hs

/-- while in a section protected by the write lock (or in none), claiming a slot; if every slot is clean the first one is free -/
theorem takeSlot_lwp (ht : tok ≠ 0) (n : Nat) : ∀ (x : Nat) {g : Ghost K}, x + n = 65 →
    (g.sec = none ∨ (∃ b, g.sec = some (.read, b, b) ∧ Ro b)) → g.ok c → g.own 0 → g.calm c → (∀ w, slot w → ¬ g.own w) →
    lwp c tok (takeSlot tok n x) (fun r g' => match r with
      | some y => Took g g' y
      | none => g' = g ∧ (∃ w, slot w ∧ ¬ g.clean w) ∨ g' = g ∧ x = 65) g := by
  induction n with
  | zero => intro x g hx _ hok h0 _ hs; exact ⟨hok, Or.inr ⟨rfl, by omega⟩⟩
  | succ n ih =>
    intro x g hx hsec hok h0 hcalm hs
    have hw : slot (x + 1) := by unfold slot; omega
    refine ⟨hok, ?_, ?_, ?_⟩
    · intro _; exact Or.inl ⟨rfl, Or.inl rfl, fun _ => ⟨h0, rfl, hcalm⟩⟩
    · intro _
      rw [if_neg (by simp [ht])]
      have hown : ∀ w, (g.casOk (x + 1) 0 tok).own w ↔ (w = x + 1 ∨ g.own w) := by
        intro w
        simp only [Ghost.casOk]
        by_cases hx : w = x + 1 <;> simp [hx, ht]
      refine ⟨?_, ?_⟩
      · rcases hsec with hsec | ⟨b, hsec, hro⟩
        · exact Idle.ok (g := g.casOk (x + 1) 0 tok) hsec
        · unfold Ghost.ok
          rw [show (g.casOk (x + 1) 0 tok).sec = some (.read, b, b) from hsec]
          exact ⟨hro, hro, Or.inr ⟨x + 1, hw, (hown _).2 (Or.inl rfl)⟩⟩
      · exact ⟨by omega, hown, rfl, by simp [Ghost.casOk], by simp [Ghost.casOk]⟩
    · intro a hcan hne
      refine lwp_mono ?_ (ih (x + 1) (by omega) hsec hok h0 hcalm hs)
      intro r g' _ hr
      have hnc : ¬ g.clean (x + 1) := fun hc => hne (hcan.2 hc)
      cases r with
      | some y => exact hr
      | none =>
        rcases hr with ⟨h1, h2⟩ | ⟨h1, h2⟩
        · exact Or.inl ⟨h1, h2⟩
        · exact Or.inl ⟨h1, x + 1, hw, hnc⟩

/-- giving a held word back -/
theorem release_lwp {w : Nat} (ht : tok ≠ 0) {g : Ghost K} (hok : g.ok c) (ho : g.own w) (hcalm : w = 0 → g.calm c)
    (hok' : ∀ g' : Ghost K, (∀ x, g'.own x ↔ (x ≠ w ∧ g.own x)) → g'.sec = g.sec → g'.ok c) :
    lwp c tok (release w tok) (fun _ g' => (∀ x, g'.own x ↔ (x ≠ w ∧ g.own x)) ∧ g'.sec = g.sec) g := by
  have hown : ∀ x, (g.casOk w tok 0).own x ↔ (x ≠ w ∧ g.own x) := by
    intro x
    simp only [Ghost.casOk]
    by_cases hx : x = w <;> simp [hx]
  refine ⟨hok, ?_, ?_, ?_⟩
  · intro _; exact Or.inr ⟨rfl, ht, Or.inr ⟨rfl, ho, hcalm⟩⟩
  · intro _
    split
    · exact ⟨hok' _ hown rfl, hown, rfl⟩
    · exact ⟨hok' _ hown rfl, hown, rfl⟩
  · intro a hcan hne
    exact absurd (hcan.1 ho) hne

/-- holds nothing and is in no section -/
def Rest (g : Ghost K) : Prop := g.sec = none ∧ ∀ w, ¬ g.own w

/-- holds the write lock with all readers gone -/
structure Writing (g : Ghost K) (stolen : Nat) : Prop where
  own : ∀ w, g.own w ↔ w = 0
  clean : ∀ w, slot w → g.clean w
  took : g.took = stolen
  dead : stolen = 0 ∨ g.dead stolen

theorem Writing.calm {g : Ghost K} {st : Nat} (h : Writing g st) (hf : st = 0 ∨ g.fixed) : g.calm c := by
  intro _; rw [h.took]; exact hf

/-- holds reader slot `x` only -/
def Reading (g : Ghost K) (x : Nat) : Prop := x < 65 ∧ ∀ w, g.own w ↔ w = x + 1

theorem drain_writing {fuel : Nat} {g g1 g2 : Ghost K} {r : Nat} (hr : Rest g) (h1 : (∀ x, g1.own x ↔ g.own x) ∧ g1.sec = g.sec)
    (h2 : Acq g1 g2 0 r) : lwp c tok (drainAll fuel 65 0) (fun _ g' => Writing g' r ∧ g'.sec = none) g2 := by
  have ho : ∀ x, g2.own x ↔ x = 0 := by
    intro x; rw [h2.own x, h1.1 x]; have := hr.2 x; tauto
  have hs : g2.sec = none := by rw [h2.sec, h1.2]; exact hr.1
  refine lwp_mono ?_ (drainAll_lwp fuel 65 0 (by omega) hs ((ho 0).2 rfl) ?_)
  · rintro _ g' - ⟨h3, h4⟩
    refine ⟨⟨fun w => (h3.own w).trans (ho w), ?_, ?_, ?_⟩, h3.sec.trans hs⟩
    · intro w hw; exact h4 w hw.1 (by have := hw.2; omega)
    · rw [h3.took]; exact h2.took rfl
    · rcases h2.dead with h | h
      · exact Or.inl h
      · exact Or.inr (h3.dead _ h)
  · intro w hw h
    have := (ho w).1 h
    subst this
    exact absurd hw.1 (by omega)

theorem guardWrite_lwp (ht : tok ≠ 0) (fuel : Nat) {g : Ghost K} (hr : Rest g) :
    lwp c tok (guardWrite fuel tok) (fun gd g' => gd.slot = none ∧ Writing g' gd.stolen ∧ g'.sec = none) g := by
  unfold guardWrite
  refine lwp_seq (acquire_lwp ht (by unfold slot; omega) fuel hr.1 (hr.2 0)) ?_
  rintro st g2 - ⟨g1, h1, h1', h2⟩
  refine lwp_seq (drain_writing hr ⟨h1, h1'⟩ h2) ?_
  rintro _ g3 - ⟨h3, h4⟩
  exact ⟨Idle.ok h4, rfl, h3, h4⟩

theorem guardRead_lwp (ht : tok ≠ 0) (us : Bool) (hus : us = true ∨ ¬ c.strict) (fuel f : Nat) : ∀ {g : Ghost K}, Rest g →
    lwp c tok (guardRead us fuel tok f) (fun gd g' => g'.sec = none ∧
      ((gd.slot = none ∧ Writing g' gd.stolen ∧ gd.stolen ≠ 0 ∧ us = true) ∨
       (∃ x, gd.slot = some x ∧ Reading g' x ∧ (us = true → gd.stolen = 0)))) g := by
  induction f with
  | zero => intro g hr; exact Idle.ok hr.1
  | succ f ih =>
    intro g hr
    unfold guardRead
    refine lwp_seq (acquire_lwp ht (by unfold slot; omega) fuel hr.1 (hr.2 0)) ?_
    rintro st g2 - ⟨g1, h1, h1', h2⟩
    have ho : ∀ x, g2.own x ↔ x = 0 := by
      intro x; rw [h2.own x, h1 x]; have := hr.2 x; tauto
    have hs : g2.sec = none := by rw [h2.sec, h1']; exact hr.1
    by_cases hc : st ≠ 0 ∧ us = true
    · rw [if_pos hc]
      refine lwp_seq (drain_writing hr ⟨h1, h1'⟩ h2) ?_
      rintro _ g3 - ⟨h3, h4⟩
      exact ⟨Idle.ok h4, h4, Or.inl ⟨rfl, h3, hc.1, hc.2⟩⟩
    · rw [if_neg hc]
      have hcalm : g2.calm c := by
        intro hst
        rcases hus with hus | hus
        · left; rw [h2.took rfl]
          by_cases e : st = 0
          · exact e
          · exact absurd ⟨e, hus⟩ hc
        · exact absurd hst hus
      have hns : ∀ w, slot w → ¬ g2.own w := by
        intro w hw h
        have := (ho w).1 h
        subst this
        exact absurd hw.1 (by omega)
      refine lwp_seq (takeSlot_lwp ht 65 0 rfl (Or.inl hs) (Idle.ok hs) ((ho 0).2 rfl) hcalm hns) ?_
      rintro r g3 - h3
      cases r with
      | some x =>
        have hs3 : g3.sec = none := h3.sec.trans hs
        refine lwp_seq (release_lwp ht (Idle.ok hs3) ((h3.own 0).2 (Or.inr ((ho 0).2 rfl))) (fun _ => h3.calm hcalm)
          (fun g' _ h => Idle.ok (Eq.trans h hs3))) ?_
        rintro _ g4 - ⟨h4, h5⟩
        refine ⟨Idle.ok (h5.trans hs3), h5.trans hs3, Or.inr ⟨x, rfl, ⟨h3.lt, ?_⟩, ?_⟩⟩
        · intro w; rw [h4 w, h3.own w, ho w]; omega
        · intro hu
          by_cases hst : st = 0
          · exact hst
          · exact absurd ⟨hst, hu⟩ hc
      | none =>
        have e3 : g3 = g2 := by rcases h3 with h | h <;> exact h.1
        subst e3
        refine lwp_seq (release_lwp ht (Idle.ok hs) ((ho 0).2 rfl) (fun _ => hcalm) (fun g' _ h => Idle.ok (Eq.trans h hs))) ?_
        rintro _ g4 - ⟨h4, h5⟩
        have hr4 : Rest g4 := ⟨h5.trans hs, fun w h => by
          have := (h4 w).1 h; exact this.1 ((ho w).1 this.2)⟩
        refine lwp_seq (drainAny_lwp tok fuel fuel hr4.1 (fun w _ => hr4.2 w)) ?_
        rintro _ g5 - h5'
        exact ih ⟨h5'.idle hr4.1, fun w h => hr4.2 w ((h5'.own w).1 h)⟩

/-- running a protected operation inside a section that stays protected -/
theorem embed_lwp {kd : Kind} (b : Body K) : ∀ (rem : Body K) {g : Ghost K}, g.sec = some (kd, b, rem) → g.ok c →
    (kd = .read ∨ ∃ n, kd = .write n) →
    lwp c tok (embed b rem) (fun _ g' => g'.own = g.own ∧ g'.clean = g.clean ∧ g'.dead = g.dead ∧ g'.took = g.took ∧ g'.sec = none ∧
      ((∃ n, kd = .write n) → g'.fixed)) g := by
  intro rem
  induction rem with
  | ret a => intro g hs hok hk; exact ⟨hok, ⟨kd, _, hs, hk, fun _ => rfl⟩, trivial, rfl, rfl, rfl, rfl, rfl,
      fun ⟨n, hn⟩ => Or.inr ⟨n, b, _, hn ▸ hs⟩⟩
  | err e => intro g hs hok hk; exact ⟨hok, ⟨kd, _, hs, hk, fun _ => rfl⟩, trivial, rfl, rfl, rfl, rfl, rfl,
      fun ⟨n, hn⟩ => Or.inr ⟨n, b, _, hn ▸ hs⟩⟩
  | ub => intro g hs hok hk; exact ⟨hok, ⟨kd, _, hs, hk, fun _ => rfl⟩, trivial, rfl, rfl, rfl, rfl, rfl,
      fun ⟨n, hn⟩ => Or.inr ⟨n, b, _, hn ▸ hs⟩⟩
  | step op k ih =>
    intro g hs hok hk
    refine ⟨hok, kd, b, k, hs, hk, fun v => ?_⟩
    refine lwp_mono ?_ (ih v (g := { g with sec := some (kd, b, k v) }) rfl ?_ hk)
    · rintro _ g' - h; exact h
    · unfold Ghost.ok at hok ⊢
      rw [hs] at hok
      rcases hk with rfl | ⟨n, rfl⟩
      · exact ⟨hok.1, hok.2.1.2 v, hok.2.2⟩
      · exact hok

theorem section_write_lwp (b : Body K) {g : Ghost K} {st : Nat} (hP : c.P (.write st) b) (hw : Writing g st) (hs : g.sec = none) :
    lwp c tok (section_ (.write st) b) (fun _ g' => Writing g' st ∧ g'.sec = none ∧ g'.fixed) g := by
  refine ⟨Idle.ok hs, hs, hP, ?_⟩
  refine lwp_mono ?_ (embed_lwp (kd := .write st) b b (g := { g with sec := some (.write st, b, b) }) rfl
    ⟨(hw.own 0).2 rfl, hw.clean, hw.took, hw.dead⟩ (Or.inr ⟨st, rfl⟩))
  rintro _ g' - ⟨h1, h2, h3, h4, h5, h6⟩
  exact ⟨⟨by rw [h1]; exact hw.own, by rw [h2]; exact hw.clean, h4.trans hw.took, by rw [h3]; exact hw.dead⟩, h5, h6 ⟨st, rfl⟩⟩

theorem section_read_lwp (b : Body K) (hb : Ro b) (hP : c.P .read b) {g : Ghost K} {x : Nat} (hw : Reading g x) (hs : g.sec = none) :
    lwp c tok (section_ .read b) (fun _ g' => Reading g' x ∧ g'.sec = none) g := by
  refine ⟨Idle.ok hs, hs, hP, ?_⟩
  refine lwp_mono ?_ (embed_lwp (kd := .read) b b (g := { g with sec := some (.read, b, b) }) rfl
    ⟨hb, hb, Or.inr ⟨x + 1, ⟨by omega, by have := hw.1; omega⟩, (hw.2 _).2 rfl⟩⟩ (Or.inl rfl))
  rintro _ g' - ⟨h1, h2, h3, h4, h5, h6⟩
  exact ⟨⟨hw.1, by rw [h1]; exact hw.2⟩, h5⟩

theorem destroy_read_lwp (ht : tok ≠ 0) {g : Ghost K} {x st : Nat} (hw : Reading g x) (hs : g.sec = none) :
    lwp c tok (destroy tok ⟨some x, st⟩) (fun _ g' => Rest g') g := by
  refine lwp_mono ?_ (release_lwp ht (Idle.ok hs) ((hw.2 (x + 1)).2 rfl) (fun h => by omega) (fun g' _ h => Idle.ok (Eq.trans h hs)))
  rintro _ g' - ⟨h1, h2⟩
  exact ⟨h2.trans hs, fun w h => ((h1 w).1 h).1 ((hw.2 w).1 ((h1 w).1 h).2)⟩

theorem destroy_write_lwp (ht : tok ≠ 0) {g : Ghost K} {st : Nat} (hw : Writing g st) (hs : g.sec = none) (hf : g.calm c) :
    lwp c tok (destroy tok ⟨none, st⟩) (fun _ g' => Rest g') g := by
  refine lwp_mono ?_ (release_lwp ht (Idle.ok hs) ((hw.own 0).2 rfl) (fun _ => hf) (fun g' _ h => Idle.ok (Eq.trans h hs)))
  rintro _ g' - ⟨h1, h2⟩
  exact ⟨h2.trans hs, fun w h => ((h1 w).1 h).1 ((hw.own w).1 ((h1 w).1 h).2)⟩

/-- downgrade, then the read-only operation, then the destructor -/
theorem downgraded_lwp (ht : tok ≠ 0) (b : Body K) (hb : Ro b) (hP : c.P .read b) {g : Ghost K} {gd : Guard} (hgd : gd.slot = none)
    (hw : Writing g gd.stolen) (hs : g.sec = none) (hf : g.calm c) :
    lwp c tok ((L.enter .read b).bind fun _ => (downgrade tok gd).bind fun gd => (embed b b).bind fun _ => destroy tok gd)
      (fun _ g' => Rest g') g := by
  refine ⟨Idle.ok hs, hs, hP, ?_⟩
  have hok1 : ({ g with sec := some (.read, b, b) } : Ghost K).ok c := ⟨hb, hb, Or.inl ⟨(hw.own 0).2 rfl, hw.clean, hf⟩⟩
  unfold downgrade
  rw [hgd]
  simp only [Prog.ret_bind]
  refine lwp_seq (R := fun gd' g' => ∃ x, gd'.slot = some x ∧ Reading g' x ∧ g'.sec = some (.read, b, b)) ?_ ?_
  · refine lwp_seq (takeSlot_lwp ht 65 0 rfl (Or.inr ⟨b, rfl, hb⟩) hok1 ((hw.own 0).2 rfl) hf ?_) ?_
    · intro w hw' h
      have := (hw.own w).1 h
      subst this
      exact absurd hw'.1 (by omega)
    · rintro r g3 hok3 h3
      cases r with
      | some x =>
        have h3l := h3.lt
        refine lwp_seq (release_lwp ht hok3 ((h3.own 0).2 (Or.inr ((hw.own 0).2 rfl))) (fun _ => h3.calm hf) ?_) ?_
        · intro g' h4 h5
          unfold Ghost.ok
          rw [h5, h3.sec]
          refine ⟨hb, hb, Or.inr ⟨x + 1, ⟨by omega, by omega⟩, (h4 _).2 ⟨by omega, (h3.own _).2 (Or.inl rfl)⟩⟩⟩
        · rintro _ g4 hok4 ⟨h4, h5⟩
          refine ⟨hok4, x, rfl, ⟨h3l, ?_⟩, h5.trans h3.sec⟩
          intro w
          rw [h4 w, h3.own w]
          show (w ≠ 0 ∧ (w = x + 1 ∨ g.own w)) ↔ _
          rw [hw.own w]; omega
      | none =>
        rcases h3 with ⟨-, w, h1, h2⟩ | ⟨-, h⟩
        · exact absurd (hw.clean w h1) h2
        · omega
  · rintro gd' g4 hok4 ⟨x, hsl, hrd, hsec⟩
    refine lwp_seq (embed_lwp b b hsec hok4 (Or.inl rfl)) ?_
    rintro _ g5 - ⟨h1, h2, h3, h4, h5, h6⟩
    obtain ⟨sl, st⟩ := gd'
    simp only at hsl
    subst hsl
    exact destroy_read_lwp ht ⟨hrd.1, by rw [h1]; exact hrd.2⟩ h5

/-- sessions whose read-only operations really are read-only -/
def Session.ok : Session K → Prop
  | .write _ _ => True
  | .writeThenRead _ _ a => Ro a
  | .read _ b => Ro b
  | .readAny b => Ro b
  | .mutex _ => True

/-- `b` may run as a section of kind `kd` in this session; a section that took the lock from a dead process runs the repair -/
def Session.allows : Session K → Kind → Body K → Prop
  | .write rep b, kd, b' => ∃ n, kd = .write n ∧ b' = afterSteal n rep b
  | .writeThenRead rep b a, kd, b' => (∃ n, kd = .write n ∧ b' = afterSteal n rep b) ∨ kd = .read ∧ b' = a
  | .read rep b, kd, b' => kd = .read ∧ b' = b ∨ ∃ n, n ≠ 0 ∧ kd = .write n ∧ b' = rep
  | .readAny b, kd, b' => kd = .read ∧ b' = b
  | .mutex w, kd, _ => kd = .mutex (w + 66)

def Session.isAny : Session K → Prop
  | .readAny _ => True
  | _ => False

theorem session_lwp (ht : tok ≠ 0) (fuel : Nat) (s : Session K) (hs : s.ok) (hP : ∀ kd b, s.allows kd b → c.P kd b)
    (ha : s.isAny → ¬ c.strict) {g : Ghost K} (hr : Rest g) :
    lwp c tok (session fuel tok s) (fun _ g' => Rest g') g := by
  cases s with
  | write rep b =>
    refine lwp_seq (guardWrite_lwp ht fuel hr) ?_
    rintro ⟨sl, st⟩ g1 - ⟨h0, h1, h2⟩
    refine lwp_seq (section_write_lwp _ (hP _ _ ⟨_, rfl, rfl⟩) h1 h2) ?_
    rintro _ g2 - ⟨h1, h2, h3⟩
    simp only at h0
    subst h0
    exact destroy_write_lwp ht h1 h2 (fun _ => Or.inr h3)
  | writeThenRead rep b a =>
    refine lwp_seq (guardWrite_lwp ht fuel hr) ?_
    rintro gd g1 - ⟨h0, h1, h2⟩
    refine lwp_seq (section_write_lwp _ (hP _ _ (Or.inl ⟨_, rfl, rfl⟩)) h1 h2) ?_
    rintro _ g2 - ⟨h1, h2, h3⟩
    exact downgraded_lwp ht a hs (hP _ _ (Or.inr ⟨rfl, rfl⟩)) h0 h1 h2 (fun _ => Or.inr h3)
  | read rep b =>
    refine lwp_seq (guardRead_lwp ht true (Or.inl rfl) fuel fuel hr) ?_
    rintro gd g1 - ⟨h2, ⟨h0, h1, h3, -⟩ | ⟨x, h0, h1, h3⟩⟩
    · rw [if_pos h3]
      refine lwp_seq (section_write_lwp _ (hP _ _ (Or.inr ⟨_, h3, rfl, rfl⟩)) h1 h2) ?_
      rintro _ g2 - ⟨h1, h2, h3⟩
      exact downgraded_lwp ht b hs (hP _ _ (Or.inl ⟨rfl, rfl⟩)) h0 h1 h2 (fun _ => Or.inr h3)
    · rw [if_neg (by simp [h3 rfl])]
      refine lwp_seq (section_read_lwp b hs (hP _ _ (Or.inl ⟨rfl, rfl⟩)) h1 h2) ?_
      rintro _ g2 - ⟨h1, h2⟩
      obtain ⟨sl, st⟩ := gd
      simp only at h0
      subst h0
      exact destroy_read_lwp ht h1 h2
  | readAny b =>
    refine lwp_seq (guardRead_lwp ht false (Or.inr (ha trivial)) fuel fuel hr) ?_
    rintro gd g1 - ⟨h2, ⟨h0, h1, h3, h⟩ | ⟨x, h0, h1, h3⟩⟩
    · cases h
    · refine lwp_seq (section_read_lwp b hs (hP _ _ ⟨rfl, rfl⟩) h1 h2) ?_
      rintro _ g2 - ⟨h1, h2⟩
      obtain ⟨sl, st⟩ := gd
      simp only at h0
      subst h0
      exact destroy_read_lwp ht h1 h2
  | mutex w =>
    refine lwp_seq (acquire_lwp ht (by unfold slot; omega) fuel hr.1 (hr.2 _)) ?_
    rintro st g2 - ⟨g1, h1, h1', h2⟩
    have hs : g2.sec = none := by rw [h2.sec, h1']; exact hr.1
    have ho : ∀ x, g2.own x ↔ x = w + 66 := by
      intro x; rw [h2.own x, h1 x]; have := hr.2 x; tauto
    refine ⟨Idle.ok hs, hs, hP _ _ rfl, ?_⟩
    refine ⟨⟨(ho _).2 rfl, by omega⟩, ⟨_, _, _, rfl⟩, ?_⟩
    refine lwp_mono ?_ (release_lwp (g := Ghost.left { g2 with sec := some (.mutex (w + 66), .ub, .ub) }) ht trivial ((ho _).2 rfl)
      (fun h => by omega) (fun g' _ h => Idle.ok h))
    rintro _ g' - ⟨h4, h5⟩
    exact ⟨h5, fun x h => ((h4 x).1 h).1 ((ho x).1 ((h4 x).1 h).2)⟩

theorem thread_lwp (ht : tok ≠ 0) (fuel : Nat) (ss : List (Session K)) (hs : ∀ s ∈ ss, s.ok)
    (hP : ∀ s ∈ ss, ∀ kd b, s.allows kd b → c.P kd b) (ha : ∀ s ∈ ss, s.isAny → ¬ c.strict) : ∀ {g : Ghost K}, Rest g →
    lwp c tok (thread fuel tok ss) (fun _ g' => Rest g') g := by
  induction ss with
  | nil => intro g hr; exact ⟨Idle.ok hr.1, hr⟩
  | cons s ss ih =>
    intro g hr
    refine lwp_seq (session_lwp ht fuel s (hs s (by simp)) (hP s (by simp)) (ha s (by simp)) hr) ?_
    rintro _ g1 - h1
    refine ⟨Idle.ok h1.1, h1, ?_⟩
    exact ih (fun s hs' => hs s (by simp [hs'])) (fun s h' => hP s (by simp [h'])) (fun s h' => ha s (by simp [h'])) h1

end Verif.Lock
