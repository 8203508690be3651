import Verif.PropsOpen
/-
C89: a queue of jobs shared by several processes: what is pushed is delivered once and in order, whoever dies.
-/
namespace Verif
open Lock

namespace Deque

/-- the value that the call adds if it is carried out -/
def Op.gives : Op → Option Bytes
  | .pushBack d => some d
  | .pushFront d => some d
  | .push _ d => some d
  | _ => none

/-- the call removes a value if it is carried out -/
def Op.takes : Op → Prop
  | .popBack => True
  | .popFront => True
  | .pop _ => True
  | _ => False

/-- the calls of a queue that is filled at the back and emptied at the front -/
def Op.fifo : Op → Prop
  | .pushFront _ => False
  | .push true _ => False
  | .popBack => False
  | .pop false => False
  | _ => True

/-- the value that a finished call with result `r` has added -/
def added (o : Op) : Out Ret → Option Bytes
  | .ok _ => o.gives
  | .err _ => none

/-- the value that a finished call has returned -/
def taken : Out Ret → Option Bytes
  | .ok (.str d) => some d
  | _ => none

/-- what finished calls have added: by which thread, and what -/
def pushed (cs : List (Nat × Op × Out Ret)) : List (Nat × Bytes) := cs.filterMap fun a => (added a.2.1 a.2.2).map fun d => (a.1, d)

/-- what they have returned: to which thread, and what -/
def popped (cs : List (Nat × Op × Out Ret)) : List (Nat × Bytes) := cs.filterMap fun a => (taken a.2.2).map fun d => (a.1, d)

/-- the values of thread `t` in such a list -/
def ofThread (l : List (Nat × Bytes)) (t : Nat) : List Bytes := (l.filter fun a => a.1 = t).map (·.2)

/-- `l` is `fin` with at most one more value of each thread, after the others of that thread, for which `more` holds -/
def Plus (fin : List (Nat × Bytes)) (more : Nat → Bytes → Prop) (l : List (Nat × Bytes)) : Prop :=
  fin.Sublist l ∧ ∀ t, ofThread l t = ofThread fin t ∨ ∃ d, more t d ∧ ofThread l t = ofThread fin t ++ [d]

/-- the items in the queue; of a split one, those that its prev links give -/
def State.items : State → List Bytes
  | .fine s _ _ => s
  | .split _ so => so

/-- the same values; in the same order if the queue is used first in, first out -/
def Same (fifo : Prop) (a b : List Bytes) : Prop := a.Perm b ∧ (fifo → a = b)

theorem Same.refl {f : Prop} (a : List Bytes) : Same f a a := ⟨List.Perm.refl _, fun _ => rfl⟩

/-- one more call -/
theorem Same.more {f : Prop} {q ins outs s s' p t : List Bytes} (h : Same f (q ++ ins) (outs ++ s)) (hs : Same f (s ++ p) (t ++ s')) : Same f (q ++ (ins ++ p)) (outs ++ t ++ s') := by
  refine ⟨?_, fun hf => ?_⟩
  · rw [← List.append_assoc]
    refine (h.1.append_right p).trans ?_
    rw [List.append_assoc, List.append_assoc]
    exact hs.1.append_left outs
  · rw [← List.append_assoc, h.2 hf, List.append_assoc, hs.2 hf, List.append_assoc]

theorem spec_same {f : Prop} {s s' : List Bytes} {o : Op} {r : Out Ret} (hf : f → o.fifo) (h : Spec s o r s') : Same f (s ++ (added o r).toList) ((taken r).toList ++ s') := by
  have hpush : ∀ d, (r = .ok .unit ∧ s' = s ++ [d]) ∨ (r = .err .noMem ∧ s' = s) → (∀ u, added o (.ok u) = some d) → Same f (s ++ (added o r).toList) ((taken r).toList ++ s') := by
    rintro d (⟨rfl, rfl⟩ | ⟨rfl, rfl⟩) e
    · rw [e]; exact .refl _
    · rw [show added o (.err .noMem) = none from rfl]; simpa [taken] using Same.refl (f := f) s'
  have hpush' : ∀ d, (r = .ok .unit ∧ s' = d :: s) ∨ (r = .err .noMem ∧ s' = s) → (∀ u, added o (.ok u) = some d) → ¬ f → Same f (s ++ (added o r).toList) ((taken r).toList ++ s') := by
    rintro d (⟨rfl, rfl⟩ | ⟨rfl, rfl⟩) e hn
    · rw [e]; exact ⟨List.perm_append_comm (l₁ := s) (l₂ := [d]), fun h => absurd h hn⟩
    · rw [show added o (.err .noMem) = none from rfl]; simpa [taken] using Same.refl (f := f) s'
  have hpop : (s = [] ∧ r = .err .outOfRange ∧ s' = []) ∨ (∃ d, s = d :: s' ∧ r = .ok (.str d)) → (∀ u, added o (.ok u) = none) → Same f (s ++ (added o r).toList) ((taken r).toList ++ s') := by
    rintro (⟨rfl, rfl, rfl⟩ | ⟨d, rfl, rfl⟩) e
    · exact .refl _
    · rw [e]; simpa [taken] using Same.refl (f := f) (d :: s')
  have hpop' : (s = [] ∧ r = .err .outOfRange ∧ s' = []) ∨ (∃ d, s = s' ++ [d] ∧ r = .ok (.str d)) → (∀ u, added o (.ok u) = none) → ¬ f → Same f (s ++ (added o r).toList) ((taken r).toList ++ s') := by
    rintro (⟨rfl, rfl, rfl⟩ | ⟨d, rfl, rfl⟩) e hn
    · exact .refl _
    · rw [e]
      refine ⟨?_, fun h => absurd h hn⟩
      simpa [taken] using List.perm_append_comm (l₁ := s') (l₂ := [d])
  cases o with
  | pushBack d => exact hpush d h fun _ => rfl
  | pushFront d => exact hpush' d h (fun _ => rfl) hf
  | popBack => exact hpop' h (fun _ => rfl) hf
  | popFront => exact hpop h fun _ => rfl
  | push front d =>
    cases front with
    | true => exact hpush' d h (fun _ => rfl) hf
    | false => exact hpush d h fun _ => rfl
  | pop front =>
    cases front with
    | true => exact hpop h fun _ => rfl
    | false => exact hpop' h (fun _ => rfl) hf
  | size =>
    obtain ⟨rfl, rfl⟩ := h
    simpa [taken, added, Op.gives] using Same.refl (f := f) s'
  | bytes =>
    obtain ⟨rfl, rfl⟩ := h
    simpa [taken, added, Op.gives] using Same.refl (f := f) s'

theorem specOff_same {f : Prop} {dc dt : Nat} {s s' : List Bytes} {o : Op} {r : Out Ret} (hf : f → o.fifo) (h : SpecOff dc dt s o r s') : Same f (s ++ (added o r).toList) ((taken r).toList ++ s') := by
  cases o with
  | size =>
    obtain ⟨rfl, rfl⟩ := h
    simpa [taken, added, Op.gives] using Same.refl (f := f) s'
  | bytes =>
    obtain ⟨rfl, rfl⟩ := h
    simpa [taken, added, Op.gives] using Same.refl (f := f) s'
  | _ => exact spec_same hf h

/-- a call cut short after it has done its work -/
theorem after_same {f : Prop} {s : List Bytes} {o : Op} (hf : f → o.fifo) : ∃ p t : Option Bytes, (∀ d, p = some d → o.gives = some d) ∧ (∀ d, t = some d → o.takes) ∧ Same f (s ++ p.toList) (t.toList ++ after s o) := by
  have hnone : after s o = s → ∃ p t : Option Bytes, (∀ d, p = some d → o.gives = some d) ∧ (∀ d, t = some d → o.takes) ∧ Same f (s ++ p.toList) (t.toList ++ after s o) := by
    intro e
    refine ⟨none, none, (fun d e => by cases e), (fun d e => by cases e), ?_⟩
    rw [e]; simpa using Same.refl (f := f) s
  have hback : ∀ d, o.gives = some d → after s o = s ++ [d] → ∃ p t : Option Bytes, (∀ d, p = some d → o.gives = some d) ∧ (∀ d, t = some d → o.takes) ∧ Same f (s ++ p.toList) (t.toList ++ after s o) := by
    intro d e1 e2
    refine ⟨some d, none, (fun _ e => by rw [e1, e]), (fun d e => by cases e), ?_⟩
    rw [e2]; exact .refl _
  have hfront : ∀ d, o.gives = some d → after s o = d :: s → ¬ f → ∃ p t : Option Bytes, (∀ d, p = some d → o.gives = some d) ∧ (∀ d, t = some d → o.takes) ∧ Same f (s ++ p.toList) (t.toList ++ after s o) := by
    intro d e1 e2 hn
    refine ⟨some d, none, (fun _ e => by rw [e1, e]), (fun d e => by cases e), ?_⟩
    rw [e2]; exact ⟨List.perm_append_comm (l₁ := s) (l₂ := [d]), fun h => absurd h hn⟩
  have htail : o.takes → after s o = s.tail → ∃ p t : Option Bytes, (∀ d, p = some d → o.gives = some d) ∧ (∀ d, t = some d → o.takes) ∧ Same f (s ++ p.toList) (t.toList ++ after s o) := by
    intro e1 e2
    cases s with
    | nil => exact hnone e2
    | cons d s =>
      refine ⟨none, some d, (fun d e => by cases e), (fun _ _ => e1), ?_⟩
      rw [e2]; simpa using Same.refl (f := f) (d :: s)
  have hlast : o.takes → after s o = s.dropLast → ¬ f → ∃ p t : Option Bytes, (∀ d, p = some d → o.gives = some d) ∧ (∀ d, t = some d → o.takes) ∧ Same f (s ++ p.toList) (t.toList ++ after s o) := by
    intro e1 e2 hn
    rcases List.eq_nil_or_concat s with rfl | ⟨s', d, rfl⟩
    · exact hnone e2
    · refine ⟨none, some d, (fun d e => by cases e), (fun _ _ => e1), ?_⟩
      rw [e2]
      refine ⟨?_, fun h => absurd h hn⟩
      simpa using List.perm_append_comm (l₁ := s') (l₂ := [d])
  cases o with
  | pushBack d => exact hback d rfl rfl
  | pushFront d => exact hfront d rfl rfl hf
  | popBack => exact hlast trivial rfl hf
  | popFront => exact htail trivial rfl
  | push front d =>
    cases front with
    | true => exact hfront d rfl rfl hf
    | false => exact hback d rfl rfl
  | pop front =>
    cases front with
    | true => exact htail trivial rfl
    | false => exact hlast trivial rfl hf
  | size => exact hnone rfl
  | bytes => exact hnone rfl

theorem ofThread_append (l l' : List (Nat × Bytes)) (t : Nat) : ofThread (l ++ l') t = ofThread l t ++ ofThread l' t := by simp [ofThread]

theorem ofThread_one (t u : Nat) (x : Option Bytes) : ofThread (x.map fun d => (u, d)).toList t = if u = t then x.toList else [] := by
  cases x with
  | none => simp [ofThread]
  | some d => by_cases h : u = t <;> simp [ofThread, h]

/-- a finished call adds the same to both -/
theorem Plus.done {fin l : List (Nat × Bytes)} {more more' : Nat → Bytes → Prop} {u : Nat} {x : Option Bytes} (h : Plus fin more l) (hm : ∀ t d, more t d → more' t d) (hu : ∀ d, ¬ more u d) :
    Plus (fin ++ (x.map fun d => (u, d)).toList) more' (l ++ (x.map fun d => (u, d)).toList) := by
  refine ⟨h.1.append (List.Sublist.refl _), fun t => ?_⟩
  rw [ofThread_append, ofThread_append, ofThread_one]
  by_cases e : u = t
  · subst e
    rcases h.2 u with h1 | ⟨d, h1, -⟩
    · left; rw [h1]
    · exact absurd h1 (hu d)
  · rw [if_neg e, List.append_nil, List.append_nil]
    rcases h.2 t with h1 | ⟨d, h1, h2⟩
    · exact Or.inl h1
    · exact Or.inr ⟨d, hm t d h1, h2⟩

/-- a call cut short adds at most one -/
theorem Plus.died {fin l : List (Nat × Bytes)} {more more' : Nat → Bytes → Prop} {u : Nat} {x : Option Bytes} (h : Plus fin more l) (hm : ∀ t d, more t d → more' t d) (hu : ∀ d, ¬ more u d)
    (hx : ∀ d, x = some d → more' u d) : Plus fin more' (l ++ (x.map fun d => (u, d)).toList) := by
  refine ⟨h.1.trans (List.sublist_append_left _ _), fun t => ?_⟩
  rw [ofThread_append, ofThread_one]
  by_cases e : u = t
  · subst e
    rcases h.2 u with h1 | ⟨d, h1, -⟩
    · rw [if_pos rfl, h1]
      cases x with
      | none => left; simp
      | some d => exact Or.inr ⟨d, hx d rfl, rfl⟩
    · exact absurd h1 (hu d)
  · rw [if_neg e, List.append_nil]
    rcases h.2 t with h1 | ⟨d, h1, h2⟩
    · exact Or.inl h1
    · exact Or.inr ⟨d, hm t d h1, h2⟩

/-- no events of a thread after one in which it died -/
def Tidy (evs : List (Nat × Ev Op Ret)) : Prop := ∀ a t o b, evs = a ++ (t, Ev.died o) :: b → ∀ e ∈ b, e.1 ≠ t

theorem Tidy.left {a b : List (Nat × Ev Op Ret)} (h : Tidy (a ++ b)) : Tidy a := by
  rintro x t o y rfl e he
  exact h x t o (y ++ b) (by simp) e (List.mem_append_left _ he)

theorem Tidy.last {a : List (Nat × Ev Op Ret)} {u : Nat} {ev : Ev Op Ret} (h : Tidy (a ++ [(u, ev)])) (o : Op) : (u, Ev.died o) ∉ a := by
  intro hm
  obtain ⟨x, y, rfl⟩ := List.append_of_mem hm
  exact h x u o (y ++ [(u, ev)]) (by simp) (u, ev) (by simp) rfl

theorem inOrder_tidy {calls : Nat → List Op} {pid : Nat → Nat} {D : Nat → Prop} {evs : List (Nat × Ev Op Ret)} (h : Lock.InOrder calls pid D evs) : Tidy evs := by
  rintro a t o b rfl e he rfl
  obtain ⟨u, ev⟩ := e
  have h1 : evsOf (a ++ (u, Ev.died o) :: b) u = evsOf a u ++ Ev.died o :: evsOf b u := by simp [evsOf]
  obtain ⟨h2, -⟩ := (h u).2 _ _ _ h1
  have h3 : ev ∈ evsOf b u := evsOf_mem.2 he
  rw [h2] at h3
  cases h3

theorem CTrace.of_split {st0 st : State} {evs : List (Ev Op Ret)} (h : CTrace SpecC CutC st0 evs st) {sn so : List Bytes} (h0 : st0 = .split sn so) : st = .split sn so := by
  induction h with
  | nil => exact h0
  | @done l s1 o r s2 _ hs ih => rw [ih] at hs; exact hs.elim
  | @died l s1 o s2 _ hs ih =>
    rcases hs with rfl | hs
    · exact ih
    · rw [ih] at hs; exact hs.elim

/-- what a sequential history with deaths adds and removes -/
theorem delivered {f : Prop} {q0 : List Bytes} {dc dt : Nat} {l : List (Ev Op Ret)} {st : State} (h : CTrace SpecC CutC (.fine q0 dc dt) l st) :
    ∀ evs : List (Nat × Ev Op Ret), evs.map (·.2) = l → Tidy evs → (f → ∀ e ∈ evs, e.2.op.fifo) →
    ∃ ins outs, Plus (pushed (answers evs)) (fun t d => ∃ o, (t, Ev.died o) ∈ evs ∧ o.gives = some d) ins ∧ Plus (popped (answers evs)) (fun t _ => ∃ o, (t, Ev.died o) ∈ evs ∧ o.takes) outs ∧
      Same f (q0 ++ ins.map (·.2)) (outs.map (·.2) ++ st.items) := by
  induction h with
  | nil =>
    intro evs he _ _
    obtain rfl := List.map_eq_nil_iff.1 he
    exact ⟨[], [], ⟨List.Sublist.refl _, fun t => Or.inl rfl⟩, ⟨List.Sublist.refl _, fun t => Or.inl rfl⟩, by simpa [State.items] using Same.refl (f := f) q0⟩
  | @done l s1 o r s2 _ hs ih =>
    intro evs he ht hf
    obtain ⟨evs', e', rfl, rfl, e2⟩ := List.map_eq_append_iff.1 he
    obtain ⟨⟨t, ev⟩, rfl, e3⟩ := List.map_eq_singleton_iff.1 e2
    obtain rfl : ev = .done o r := e3
    obtain ⟨ins, outs, h1, h2, h3⟩ := ih evs' rfl ht.left (fun hf' e h => hf hf' e (List.mem_append_left _ h))
    have hfo : f → o.fifo := fun hf' => hf hf' (t, .done o r) (by simp)
    have ha : answers (evs' ++ [(t, Ev.done o r)]) = answers evs' ++ [(t, o, r)] := by rw [answers_append]; simp [answers]
    have hn := ht.last
    refine ⟨ins ++ ((added o r).map fun d => (t, d)).toList, outs ++ ((taken r).map fun d => (t, d)).toList, ?_, ?_, ?_⟩
    · have : pushed (answers evs' ++ [(t, o, r)]) = pushed (answers evs') ++ ((added o r).map fun d => (t, d)).toList := by
        unfold pushed; rw [List.filterMap_append]; cases h : added o r <;> simp [h]
      rw [ha, this]
      exact h1.done (fun t d ⟨o, h4, h5⟩ => ⟨o, List.mem_append_left _ h4, h5⟩) fun d ⟨o, h4, h5⟩ => hn o h4
    · have : popped (answers evs' ++ [(t, o, r)]) = popped (answers evs') ++ ((taken r).map fun d => (t, d)).toList := by
        unfold popped; rw [List.filterMap_append]; cases h : taken r <;> simp [h]
      rw [ha, this]
      exact h2.done (fun t d ⟨o, h4, h5⟩ => ⟨o, List.mem_append_left _ h4, h5⟩) fun d ⟨o, h4, h5⟩ => hn o h4
    · cases s1 with
      | split => exact hs.elim
      | fine s _ _ =>
      cases s2 with
      | split => exact hs.elim
      | fine s' _ _ =>
      have hm : ∀ x : Option Bytes, ((x.map fun d => (t, d)).toList).map (·.2) = x.toList := by intro x; cases x <;> rfl
      rw [List.map_append, List.map_append, hm, hm]
      exact h3.more (specOff_same hfo hs.1)
  | @died l s1 o s2 _ hs ih =>
    intro evs he ht hf
    obtain ⟨evs', e', rfl, rfl, e2⟩ := List.map_eq_append_iff.1 he
    obtain ⟨⟨t, ev⟩, rfl, e3⟩ := List.map_eq_singleton_iff.1 e2
    obtain rfl : ev = .died o := e3
    obtain ⟨ins, outs, h1, h2, h3⟩ := ih evs' rfl ht.left (fun hf' e h => hf hf' e (List.mem_append_left _ h))
    have hfo : f → o.fifo := fun hf' => hf hf' (t, .died o) (by simp)
    have ha : answers (evs' ++ [(t, Ev.died o)]) = answers evs' := by rw [answers_append]; simp [answers]
    have hn := ht.last
    have hsame : s2.items = s1.items ∨ s2.items = after s1.items o := by
      rcases hs with rfl | hs
      · exact Or.inl rfl
      cases s1 with
      | split => exact hs.elim
      | fine s _ _ =>
      cases s2 with
      | split => exact Or.inl hs.1
      | fine s' _ _ => exact hs.1
    have key : ∀ p t' : Option Bytes, (∀ d, p = some d → o.gives = some d) → (∀ d, t' = some d → o.takes) → Same f (s1.items ++ p.toList) (t'.toList ++ s2.items) →
        ∃ ins outs, Plus (pushed (answers (evs' ++ [(t, Ev.died o)]))) (fun u d => ∃ o', (u, Ev.died o') ∈ evs' ++ [(t, Ev.died o)] ∧ o'.gives = some d) ins ∧
          Plus (popped (answers (evs' ++ [(t, Ev.died o)]))) (fun u _ => ∃ o', (u, Ev.died o') ∈ evs' ++ [(t, Ev.died o)] ∧ o'.takes) outs ∧
          Same f (q0 ++ ins.map (·.2)) (outs.map (·.2) ++ s2.items) := by
      intro p t' hp ht' hs'
      rw [ha]
      refine ⟨ins ++ (p.map fun d => (t, d)).toList, outs ++ (t'.map fun d => (t, d)).toList, ?_, ?_, ?_⟩
      · exact h1.died (fun t d ⟨o, h4, h5⟩ => ⟨o, List.mem_append_left _ h4, h5⟩) (fun d ⟨o, h4, h5⟩ => hn o h4) fun d e => ⟨o, by simp, hp d e⟩
      · exact h2.died (fun t d ⟨o, h4, h5⟩ => ⟨o, List.mem_append_left _ h4, h5⟩) (fun d ⟨o, h4, h5⟩ => hn o h4) fun d e => ⟨o, by simp, ht' d e⟩
      · have hm : ∀ x : Option Bytes, ((x.map fun d => (t, d)).toList).map (·.2) = x.toList := by intro x; cases x <;> rfl
        rw [List.map_append, List.map_append, hm, hm]
        exact h3.more hs'
    rcases hsame with e | e
    · exact key none none (fun d e => by cases e) (fun d e => by cases e) (by rw [e]; simpa using Same.refl (f := f) s1.items)
    · obtain ⟨p, t', h4, h5, h6⟩ := after_same (f := f) (s := s1.items) hfo
      exact key p t' h4 h5 (by rw [e]; exact h6)

theorem Plus.imp {fin l : List (Nat × Bytes)} {more more' : Nat → Bytes → Prop} (h : Plus fin more l) (hm : ∀ t d, more t d → more' t d) : Plus fin more' l :=
  ⟨h.1, fun t => (h.2 t).imp_right fun ⟨d, h1, h2⟩ => ⟨d, hm t d h1, h2⟩⟩

theorem ofThread_cons (a : Nat × Bytes) (l : List (Nat × Bytes)) (t : Nat) : ofThread (a :: l) t = if a.1 = t then a.2 :: ofThread l t else ofThread l t := by
  by_cases h : a.1 = t <;> simp [ofThread, h]

theorem ofThread_len {l l' : List (Nat × Bytes)} (h : l.Sublist l') (t : Nat) : (ofThread l t).length ≤ (ofThread l' t).length := ((h.filter _).map _).length_le

theorem eq_of_ofThread {l l' : List (Nat × Bytes)} (h : l.Sublist l') (he : ∀ t, (ofThread l' t).length = (ofThread l t).length) : l' = l := by
  induction h with
  | slnil => rfl
  | @cons l1 l2 a h ih =>
    have h1 := he a.1
    rw [ofThread_cons, if_pos rfl, List.length_cons] at h1
    have := ofThread_len h a.1
    omega
  | @cons_cons l1 l2 a h ih =>
    rw [ih]
    intro t
    have h1 := he t
    rw [ofThread_cons, ofThread_cons] at h1
    split at h1
    · simpa using h1
    · exact h1

theorem Plus.none {fin l : List (Nat × Bytes)} {more : Nat → Bytes → Prop} (h : Plus fin more l) (hm : ∀ t d, ¬ more t d) : l = fin := by
  refine eq_of_ofThread h.1 fun t => ?_
  rcases h.2 t with h1 | ⟨d, h1, -⟩
  · rw [h1]
  · exact absurd h1 (hm t d)

theorem stays_fine {s0 : List Bytes} {dc dt : Nat} {l : List (Ev Op Ret)} {st : State} (h : CTrace SpecC CutC (.fine s0 dc dt) l st) (hd : ∀ o, Ev.died o ∉ l) : ∃ s, st = .fine s dc dt := by
  induction h with
  | nil => exact ⟨s0, rfl⟩
  | @done l s1 o r s2 _ hs ih =>
    obtain ⟨s, rfl⟩ := ih fun o h => hd o (List.mem_append_left _ h)
    cases s2 with
    | split => exact hs.elim
    | fine s' dc' dt' => obtain ⟨-, rfl, rfl⟩ := hs; exact ⟨s', rfl⟩
  | @died l s1 o s2 _ _ _ => exact absurd (List.mem_append_right _ (List.mem_singleton.2 rfl)) (hd o)

end Deque

/-- **C89: a queue of jobs.** Threads of any number of processes push to a queue and pop from it, each deciding freely what to call next; accesses interleave in any way and any process may die at any time, inside a
push or pop too.  Then at each moment `i`: with the finished calls `cs`, as the log shows them, there are lists `ins` of values that went in and `outs` of values that came out: `ins` are the values of all pushes
that have succeeded, and of each dead thread possibly that of the push it died in; `outs` are the values that pops have returned, and of each dead thread possibly the one that it died removing; and what was
in the queue at the beginning and `ins` together are `outs` and what is in the queue now: no value is lost or delivered twice, except for at most one per dead thread.  If values are pushed at the
back and popped at the front only, this holds with order: the values come out in the order in which they went in.  All this until a thread uses a queue that a death has split, as in C86. -/
theorem C89_queue {b : Nat} {G : Nat → Option Block} {q0 : List Bytes} {h0 : Heap} {p0 : Pool}
    (hi0 : Queue.Inv b G q0 h0) (hs0 : Sim h0 p0) {lab : Nat → Option (Nat × Deque.Op)} {N : Nat} (hok : ∀ i t o, i < N → lab i = some (t, o) → o.ok) {pid : Nat → Nat} {fuel : Nat}
    (hp : PidsOk pid) {σ : Nat → St (poolMach (Out Deque.Ret))}
    (hi : OpenInit p0 (σ 0)) (hr : OpenRun pid fuel (callSession (Queue.call b) Deque.Op.writes .unit) N lab σ) :
    (∀ i, i ≤ N → ∃ cs ins outs st, Shows (Queue.call b) .unit (σ i).log cs ∧
      Deque.Plus (Deque.pushed cs) (fun t d => (σ i).alive (pid t) = false ∧ ∃ o, (begun lab t i)[(cs.filter fun a => a.1 = t).length]? = some o ∧ o.gives = some d) ins ∧
      Deque.Plus (Deque.popped cs) (fun t _ => (σ i).alive (pid t) = false ∧ ∃ o, (begun lab t i)[(cs.filter fun a => a.1 = t).length]? = some o ∧ o.takes) outs ∧
      (q0 ++ ins.map (·.2)).Perm (outs.map (·.2) ++ st.items) ∧ ((∀ j t o, j < N → lab j = some (t, o) → o.fifo) → q0 ++ ins.map (·.2) = outs.map (·.2) ++ st.items) ∧
      ((∀ t n, ¬ (σ i).inside pid t (.write n)) → ∃ p' h, run Simple.repair (σ i).mem = (.ok (), p') ∧ Queue.Left b G st h ∧ Sim h p')) ∨
    ∃ l1 evs sn so t o, l1 <+: (σ N).log ∧ Durable (Queue.call b) .unit (fun t => begun lab t N) pid (fun p => (σ N).alive p = false) Deque.SpecC Deque.CutC (.fine q0 0 0) l1 evs (.split sn so) ∧
      (∀ o', .died o' ∉ evsOf evs t) ∧ (begun lab t N)[(evsOf evs t).length]? = some o := by
  rcases C86_queue hi0 hs0 hok hp hi hr with ⟨evs, n, -, -, h3⟩ | h
  · refine Or.inl fun i hiN => ?_
    obtain ⟨st, ⟨a1, a2, a3⟩, -, a5⟩ := h3 i hiN
    generalize evs.take (n i) = ev at a1 a2 a3 a5
    obtain ⟨ins, outs, h4, h5, h6⟩ := Deque.delivered (f := ∀ j t o, j < N → lab j = some (t, o) → o.fifo) a1 ev rfl (Deque.inOrder_tidy a3) (by
      rintro hf ⟨t, e⟩ he
      have h1 : e.op ∈ (evsOf ev t).map Ev.op := List.mem_map.2 ⟨e, evsOf_mem.2 he, rfl⟩
      rw [(a3 t).1] at h1
      obtain ⟨j, hj, hl⟩ := mem_begun (List.mem_of_mem_take h1)
      exact hf j t _ (by omega) hl)
    refine ⟨answers ev, ins, outs, st, a2, h4.imp ?_, h5.imp ?_, h6.1, h6.2, fun hw => ?_⟩
    · rintro t d ⟨o, h7, h8⟩
      obtain ⟨h9, h10, -⟩ := inOrder_cut a3 h7
      exact ⟨h9, o, h10, h8⟩
    · rintro t d ⟨o, h7, h8⟩
      obtain ⟨h9, h10, -⟩ := inOrder_cut a3 h7
      exact ⟨h9, o, h10, h8⟩
    · obtain ⟨p', h, e1, ⟨-, e2⟩, e3⟩ := a5 hw
      exact ⟨p', h, e1, e2, e3⟩
  · exact Or.inr h

/-- **C89, when nobody dies.** If values are pushed at the back and popped at the front, then at each moment the initial contents and the values pushed, in the order in which the pushes finished, are the values that
pops have returned, in the order in which they finished, followed by what is in the queue. -/
theorem C89_fifo {b : Nat} {G : Nat → Option Block} {q0 : List Bytes} {h0 : Heap} {p0 : Pool}
    (hi0 : Queue.Inv b G q0 h0) (hs0 : Sim h0 p0) {lab : Nat → Option (Nat × Deque.Op)} {N : Nat} (hok : ∀ i t o, i < N → lab i = some (t, o) → o.ok ∧ o.fifo) {pid : Nat → Nat} {fuel : Nat}
    (hp : PidsOk pid) {σ : Nat → St (poolMach (Out Deque.Ret))} (hal : ∀ p, (σ N).alive p = true)
    (hi : OpenInit p0 (σ 0)) (hr : OpenRun pid fuel (callSession (Queue.call b) Deque.Op.writes .unit) N lab σ) {i : Nat} (hiN : i ≤ N) :
    ∃ cs s, Shows (Queue.call b) .unit (σ i).log cs ∧ q0 ++ (Deque.pushed cs).map (·.2) = (Deque.popped cs).map (·.2) ++ s ∧
      ((∀ t n, ¬ (σ i).inside pid t (.write n)) → ∃ p' h, run Simple.repair (σ i).mem = (.ok (), p') ∧ (∃ G', (∀ x B, G x = some B → G' x = some B) ∧ Queue.Inv b G' s h) ∧ Sim h p') := by
  rcases C86_queue hi0 hs0 (fun i t o h1 h2 => (hok i t o h1 h2).1) hp hi hr with ⟨evs, n, -, -, h3⟩ | ⟨l1, evs, sn, so, t, o, -, ⟨a1, -, a3⟩, -, -⟩
  · obtain ⟨st, ⟨a1, a2, a3⟩, -, a5⟩ := h3 i hiN
    generalize evs.take (n i) = ev at a1 a2 a3 a5
    have hnd : ∀ t o, (t, Ev.died o) ∉ ev := by
      intro t o hm
      have h1 := (inOrder_cut a3 hm).1
      have h2 := (dead_begins hr hiN (Nat.le_refl N) h1).1
      rw [hal] at h2
      cases h2
    obtain ⟨ins, outs, h4, h5, h6⟩ := Deque.delivered (f := True) a1 ev rfl (Deque.inOrder_tidy a3) (by
      rintro - ⟨t, e⟩ he
      have h1 : e.op ∈ (evsOf ev t).map Ev.op := List.mem_map.2 ⟨e, evsOf_mem.2 he, rfl⟩
      rw [(a3 t).1] at h1
      obtain ⟨j, hj, hl⟩ := mem_begun (List.mem_of_mem_take h1)
      exact (hok j t _ (by omega) hl).2)
    obtain ⟨s, rfl⟩ := Deque.stays_fine a1 fun o ho => by
      obtain ⟨⟨t, e⟩, he, rfl⟩ := List.mem_map.1 ho
      exact hnd t o he
    have e1 := h4.none fun t d ⟨o, h, _⟩ => hnd t o h
    have e2 := h5.none fun t d ⟨o, h, _⟩ => hnd t o h
    subst e1
    subst e2
    refine ⟨answers ev, s, a2, h6.2 trivial, fun hw => ?_⟩
    obtain ⟨p', h, e1, ⟨e2, G', L, e3, e4, e5⟩, e6⟩ := a5 hw
    exact ⟨p', h, e1, ⟨G', e3, e2, L, e4, e5⟩, e6⟩
  · exfalso
    obtain ⟨s, hs⟩ := Deque.stays_fine a1 fun o ho => by
      obtain ⟨⟨t, e⟩, he, rfl⟩ := List.mem_map.1 ho
      have h1 := (inOrder_cut a3 he).1
      rw [hal] at h1
      cases h1
    cases hs

deriving instance DecidableEq for Deque.Ret

/-- the results in the log of a state, and whether thread 0 is in a call -/
def shownQ (s : St (poolMach (Out Deque.Ret))) : List (Nat × Option (Out Deque.Ret)) × Bool :=
  (s.log.map fun e => (e.1, match e.2.2.2 with | .ok r => some r | _ => none), isRet (s.th 0))

/-- schedules on a new queue; thread `t` is in process `t + 1` -/
def qPlay (l : List (Cmd Deque.Op)) : Option (St (poolMach (Out Deque.Ret))) :=
  play (fun t => t + 1) 10 (callSession (Queue.call 344) Deque.Op.writes .unit) l (quiet qPool)

/-- thread 0 pushes two values; thread 1 pops one, and its process dies in the second pop, after the node has been unlinked -/
def lostJobSchedule : List (Cmd Deque.Op) :=
  [.call 0 (.pushBack [1]), .go 0 102, .call 0 (.pushBack [2]), .go 0 104, .call 1 .popFront, .go 1 98, .call 1 .popFront, .go 1 95, .die 2, .call 0 .popFront, .go 0 92]

/-- A run that meets the hypotheses of `C89_queue` (with the pool `qPool_ready`), in which the value that a dead thread was removing is delivered to nobody. -/
example : ∃ N lab σ, σ 0 = quiet qPool ∧ OpenRun (fun t => t + 1) 10 (callSession (Queue.call 344) Deque.Op.writes .unit) N lab σ ∧
    (∀ i t o, i < N → lab i = some (t, o) → o.ok ∧ o.fifo) ∧
    shownQ (σ N) = ([(0, some (.ok .unit)), (0, some (.ok .unit)), (1, some (.ok (.str [1]))), (0, some (.err .outOfRange))], true) := by
  have h : (qPlay lostJobSchedule).map shownQ = some ([(0, some (.ok .unit)), (0, some (.ok .unit)), (1, some (.ok (.str [1]))), (0, some (.err .outOfRange))], true) := by decide +kernel
  obtain ⟨s, h1, h4⟩ := Option.map_eq_some_iff.1 h
  obtain ⟨N, lab, σ, e1, rfl, e3, e4⟩ := play_open (cs := []) (OpenTo.refl _) h1
  refine ⟨N, lab, σ, e1, e3, fun i t o hi hl => ?_, h4⟩
  have hm := mem_filterMap_range hi hl
  rw [e4] at hm
  simp only [List.nil_append, Cmd.made, lostJobSchedule, List.mem_cons, Prod.mk.injEq, List.not_mem_nil, or_false] at hm
  rcases hm with ⟨-, rfl⟩ | ⟨-, rfl⟩ | ⟨-, rfl⟩ | ⟨-, rfl⟩ | ⟨-, rfl⟩ <;> exact ⟨by simp [Deque.Op.ok], trivial⟩

/-- two producers and two consumers -/
def jobSchedule : List (Cmd Deque.Op) :=
  [.call 0 (.pushBack [1]), .go 0 102, .call 1 (.pushBack [2]), .go 1 104, .call 1 .popFront, .go 1 98, .call 0 .popFront, .go 0 98]

/-- A run that meets the hypotheses of `C89_fifo`. -/
example : ∃ N lab σ, σ 0 = quiet qPool ∧ OpenRun (fun t => t + 1) 10 (callSession (Queue.call 344) Deque.Op.writes .unit) N lab σ ∧
    (∀ i t o, i < N → lab i = some (t, o) → o.ok ∧ o.fifo) ∧ (∀ p, (σ N).alive p = true) ∧
    shownQ (σ N) = ([(0, some (.ok .unit)), (1, some (.ok .unit)), (1, some (.ok (.str [1]))), (0, some (.ok (.str [2])))], true) := by
  have h : (qPlay jobSchedule).map shownQ = some ([(0, some (.ok .unit)), (1, some (.ok .unit)), (1, some (.ok (.str [1]))), (0, some (.ok (.str [2])))], true) := by decide +kernel
  obtain ⟨s, h1, h4⟩ := Option.map_eq_some_iff.1 h
  have h3 := play_alive h1 (fun p => by simp [jobSchedule])
  obtain ⟨N, lab, σ, e1, rfl, e3, e4⟩ := play_open (cs := []) (OpenTo.refl _) h1
  refine ⟨N, lab, σ, e1, e3, fun i t o hi hl => ?_, fun p => by rw [h3]; rfl, h4⟩
  have hm := mem_filterMap_range hi hl
  rw [e4] at hm
  simp only [List.nil_append, Cmd.made, jobSchedule, List.mem_cons, Prod.mk.injEq, List.not_mem_nil, or_false] at hm
  rcases hm with ⟨-, rfl⟩ | ⟨-, rfl⟩ | ⟨-, rfl⟩ | ⟨-, rfl⟩ <;> exact ⟨by simp [Deque.Op.ok], trivial⟩

end Verif
