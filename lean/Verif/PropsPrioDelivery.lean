import Verif.PropsDelivery
/-
C90: a priority queue of jobs shared by several processes: each pop delivers the least value there is, and nothing is lost or delivered twice.
-/
namespace Verif
open Lock

namespace PQ
open Deque (Plus ofThread)

/-- the value that the call adds if it is carried out -/
def Op.gives : Op → Option Bytes
  | .push d => some d
  | _ => none

/-- the value that a finished call with result `r` has added -/
def added (o : Op) : Out Ret → Option Bytes
  | .ok _ => o.gives
  | .err _ => none

/-- the value that a finished call has returned -/
def taken : Out Ret → Option Bytes
  | .ok (.str d) => some d
  | _ => none

/-- what finished calls have added: by which thread, and what -/
def pushed (cs : List (Nat × Op × Out Ret)) : List (Nat × Bytes) := cs.filterMap fun a => (added a.2.1 a.2.2).map fun d => (a.1, d)

/-- what they have returned: to which thread, and what -/
def popped (cs : List (Nat × Op × Out Ret)) : List (Nat × Bytes) := cs.filterMap fun a => (taken a.2.2).map fun d => (a.1, d)

/-- the queue in this state holds the items `s`: in order, or, when a death has damaged it, with one of them twice instead of another at most -/
def Has : State → List Bytes → Prop
  | .fine s', s => s'.Perm s
  | .hurt e, s => OneOver e s

/-- no events of a thread after one in which it died -/
def Tidy (evs : List (Nat × Ev Op Ret)) : Prop := ∀ a t o b, evs = a ++ (t, Ev.died o) :: b → ∀ e ∈ b, e.1 ≠ t

theorem Tidy.left {a b : List (Nat × Ev Op Ret)} (h : Tidy (a ++ b)) : Tidy a := by
  rintro x t o y rfl e he
  exact h x t o (y ++ b) (by simp) e (List.mem_append_left _ he)

theorem Tidy.last {a : List (Nat × Ev Op Ret)} {u : Nat} {ev : Ev Op Ret} (h : Tidy (a ++ [(u, ev)])) (o : Op) : (u, Ev.died o) ∉ a := by
  intro hm
  obtain ⟨x, y, rfl⟩ := List.append_of_mem hm
  exact h x u o (y ++ [(u, ev)]) (by simp) (u, ev) (by simp) rfl

theorem inOrder_tidy {calls : Nat → List Op} {pid : Nat → Nat} {D : Nat → Prop} {evs : List (Nat × Ev Op Ret)} (h : Lock.InOrder calls pid D evs) : Tidy evs := by
  rintro a t o b rfl e he rfl
  obtain ⟨u, ev⟩ := e
  have h1 : evsOf (a ++ (u, Ev.died o) :: b) u = evsOf a u ++ Ev.died o :: evsOf b u := by simp [evsOf]
  obtain ⟨h2, -⟩ := (h u).2 _ _ _ h1
  have h3 : ev ∈ evsOf b u := evsOf_mem.2 he
  rw [h2] at h3
  cases h3

/-- one more call -/
theorem more {q ins outs s s' p t : List Bytes} (h : (q ++ ins).Perm (outs ++ s)) (hs : (s ++ p).Perm (t ++ s')) : (q ++ (ins ++ p)).Perm (outs ++ t ++ s') := by
  rw [← List.append_assoc]
  refine (h.append_right p).trans ?_
  rw [List.append_assoc, List.append_assoc]
  exact hs.append_left outs

theorem Spec.congr {s1 s2 : List Bytes} {o : Op} {r : Out Ret} {s' : List Bytes} (hp : s1.Perm s2) (h : Spec s1 o r s') : Spec s2 o r s' := by
  cases o with
  | push d =>
    rcases h with ⟨h1, h2⟩ | ⟨h1, h2⟩
    · exact Or.inl ⟨h1, h2.trans (hp.cons d)⟩
    · exact Or.inr ⟨h1, h2.trans hp⟩
  | pop =>
    rcases h with ⟨rfl, h2, h3⟩ | ⟨m, h1, h2, h3⟩
    · exact Or.inl ⟨hp.symm.eq_nil, h2, h3⟩
    · exact Or.inr ⟨m, hp.symm.trans h1, fun x hx => h2 x (hp.mem_iff.2 hx), h3⟩
  | clear => exact h
  | size => exact ⟨by rw [← hp.length_eq]; exact h.1, h.2.trans hp⟩

theorem spec_same {s s' : List Bytes} {o : Op} {r : Out Ret} (hc : o ≠ .clear) (h : Spec s o r s') : (s ++ (added o r).toList).Perm ((taken r).toList ++ s') := by
  cases o with
  | push d =>
    rcases h with ⟨rfl, h⟩ | ⟨rfl, h⟩
    · exact (List.perm_append_singleton _ _).trans h.symm
    · simpa [added, taken] using h.symm
  | pop =>
    rcases h with ⟨rfl, rfl, rfl⟩ | ⟨m, h1, -, rfl⟩
    · simp [added, taken]
    · simpa [added, taken, Op.gives] using h1
  | clear => exact absurd rfl hc
  | size =>
    obtain ⟨rfl, h⟩ := h
    simpa [added, taken, Op.gives] using h.symm

/-- a call cut short -/
theorem cut_same {s : List Bytes} {st : State} {o : Op} (hc : o ≠ .clear) (h : CutC (.fine s) o st) : ∃ p t : Option Bytes, ∃ s', (∀ d, p = some d → o.gives = some d) ∧ (∀ d, t = some d → o = .pop) ∧
    Has st s' ∧ (s ++ p.toList).Perm (t.toList ++ s') := by
  have hnone : ∀ s', Has st s' → s.Perm s' → ∃ p t : Option Bytes, ∃ s', (∀ d, p = some d → o.gives = some d) ∧ (∀ d, t = some d → o = .pop) ∧ Has st s' ∧ (s ++ p.toList).Perm (t.toList ++ s') :=
    fun s' h1 h2 => ⟨none, none, s', (fun d e => by cases e), (fun d e => by cases e), h1, by simpa using h2⟩
  cases st with
  | fine s1 =>
    rcases h with h | ⟨r, s2, h1, h2⟩
    · exact hnone s h (.refl _)
    · refine ⟨added o r, taken r, s2, ?_, ?_, h2, spec_same hc h1⟩
      · intro d e
        cases r with
        | ok u => exact e
        | err e' => cases e
      · intro d e
        cases o with
        | push d' => rcases h1 with ⟨rfl, -⟩ | ⟨rfl, -⟩ <;> cases e
        | pop => rfl
        | clear => exact absurd rfl hc
        | size => obtain ⟨rfl, -⟩ := h1; cases e
  | hurt e =>
    obtain ⟨-, h⟩ := h
    cases o with
    | push d => exact ⟨some d, none, d :: s, (fun _ h => h), (fun d e => by cases e), h, List.perm_append_singleton _ _⟩
    | pop =>
      rcases h with h | ⟨m, s', h1, -, h2⟩
      · exact hnone s h (.refl _)
      · exact ⟨none, some m, s', (fun d e => by cases e), (fun _ _ => rfl), h2, by simpa using h1⟩
    | clear => exact h.elim
    | size => exact h.elim

theorem Has.step {st st' : State} {s : List Bytes} {o : Op} {r : Out Ret} (hc : o ≠ .clear) (h : Has st s) (hs : SpecC st o r st') :
    ∃ s', Has st' s' ∧ (s ++ (added o r).toList).Perm ((taken r).toList ++ s') := by
  cases st with
  | fine s1 =>
    cases st' with
    | fine s2 => exact ⟨s2, .refl _, spec_same hc (Spec.congr h hs)⟩
    | hurt e => exact hs.elim
  | hurt e =>
    cases o with
    | size =>
      cases st' with
      | fine s2 => exact hs.elim
      | hurt e' => obtain ⟨rfl, rfl⟩ := hs; exact ⟨s, h, by simp [added, taken, Op.gives]⟩
    | push d => exact (by cases st' <;> exact hs.elim)
    | pop => exact (by cases st' <;> exact hs.elim)
    | clear => exact (by cases st' <;> exact hs.elim)

/-- what a sequential history with deaths adds and removes -/
theorem delivered {q0 : List Bytes} {l : List (Ev Op Ret)} {st : State} (h : CTrace SpecC CutC (.fine q0) l st) :
    ∀ evs : List (Nat × Ev Op Ret), evs.map (·.2) = l → Tidy evs → (∀ e ∈ evs, e.2.op ≠ .clear) →
    ∃ ins outs s, Plus (pushed (answers evs)) (fun t d => ∃ o, (t, Ev.died o) ∈ evs ∧ o.gives = some d) ins ∧ Plus (popped (answers evs)) (fun t _ => (t, Ev.died .pop) ∈ evs) outs ∧
      (q0 ++ ins.map (·.2)).Perm (outs.map (·.2) ++ s) ∧ Has st s := by
  have hm : ∀ (t : Nat) (x : Option Bytes), ((x.map fun d => (t, d)).toList).map (·.2) = x.toList := by intro t x; cases x <;> rfl
  induction h with
  | nil =>
    intro evs he _ _
    obtain rfl := List.map_eq_nil_iff.1 he
    exact ⟨[], [], q0, ⟨List.Sublist.refl _, fun t => Or.inl rfl⟩, ⟨List.Sublist.refl _, fun t => Or.inl rfl⟩, by simp, .refl _⟩
  | @done l s1 o r s2 _ hs ih =>
    intro evs he ht hf
    obtain ⟨evs', e', rfl, rfl, e2⟩ := List.map_eq_append_iff.1 he
    obtain ⟨⟨t, ev⟩, rfl, e3⟩ := List.map_eq_singleton_iff.1 e2
    obtain rfl : ev = .done o r := e3
    obtain ⟨ins, outs, s, h1, h2, h3, h4⟩ := ih evs' rfl ht.left (fun e h => hf e (List.mem_append_left _ h))
    have hc : o ≠ .clear := hf (t, .done o r) (by simp)
    have ha : answers (evs' ++ [(t, Ev.done o r)]) = answers evs' ++ [(t, o, r)] := by rw [answers_append]; simp [answers]
    have hn := ht.last
    obtain ⟨s', h5, h6⟩ := h4.step hc hs
    refine ⟨ins ++ ((added o r).map fun d => (t, d)).toList, outs ++ ((taken r).map fun d => (t, d)).toList, s', ?_, ?_, ?_, h5⟩
    · have : pushed (answers evs' ++ [(t, o, r)]) = pushed (answers evs') ++ ((added o r).map fun d => (t, d)).toList := by
        unfold pushed; rw [List.filterMap_append]; cases h : added o r <;> simp [h]
      rw [ha, this]
      exact h1.done (fun t d ⟨o, h4, h5⟩ => ⟨o, List.mem_append_left _ h4, h5⟩) fun d ⟨o, h4, h5⟩ => hn o h4
    · have : popped (answers evs' ++ [(t, o, r)]) = popped (answers evs') ++ ((taken r).map fun d => (t, d)).toList := by
        unfold popped; rw [List.filterMap_append]; cases h : taken r <;> simp [h]
      rw [ha, this]
      exact h2.done (fun t d h4 => List.mem_append_left _ h4) fun d h4 => hn _ h4
    · rw [List.map_append, List.map_append, hm, hm]
      exact more h3 h6
  | @died l s1 o s2 _ hs ih =>
    intro evs he ht hf
    obtain ⟨evs', e', rfl, rfl, e2⟩ := List.map_eq_append_iff.1 he
    obtain ⟨⟨t, ev⟩, rfl, e3⟩ := List.map_eq_singleton_iff.1 e2
    obtain rfl : ev = .died o := e3
    obtain ⟨ins, outs, s, h1, h2, h3, h4⟩ := ih evs' rfl ht.left (fun e h => hf e (List.mem_append_left _ h))
    have hc : o ≠ .clear := hf (t, .died o) (by simp)
    have ha : answers (evs' ++ [(t, Ev.died o)]) = answers evs' := by rw [answers_append]; simp [answers]
    have hn := ht.last
    have key : ∃ p t' : Option Bytes, ∃ s', (∀ d, p = some d → o.gives = some d) ∧ (∀ d, t' = some d → o = .pop) ∧ Has s2 s' ∧ (s ++ p.toList).Perm (t'.toList ++ s') := by
      rcases hs with rfl | hs
      · exact ⟨none, none, s, (fun d e => by cases e), (fun d e => by cases e), h4, by simp⟩
      · cases s1 with
        | fine sx =>
          obtain ⟨p, t', s', a, b, c, d⟩ := cut_same hc hs
          exact ⟨p, t', s', a, b, c, ((show sx.Perm s from h4).symm.append_right _).trans d⟩
        | hurt e => exact hs.elim
    obtain ⟨p, t', s', hp, ht', h5, h6⟩ := key
    rw [ha]
    refine ⟨ins ++ (p.map fun d => (t, d)).toList, outs ++ (t'.map fun d => (t, d)).toList, s', ?_, ?_, ?_, h5⟩
    · exact h1.died (fun t d ⟨o, h4, h5⟩ => ⟨o, List.mem_append_left _ h4, h5⟩) (fun d ⟨o, h4, h5⟩ => hn o h4) fun d e => ⟨o, by simp, hp d e⟩
    · exact h2.died (fun t d h4 => List.mem_append_left _ h4) (fun d h4 => hn _ h4) fun d e => by simp [ht' d e]
    · rw [List.map_append, List.map_append, hm, hm]
      exact more h3 h6

theorem stays_fine {s0 : List Bytes} {l : List (Ev Op Ret)} {st : State} (h : CTrace SpecC CutC (.fine s0) l st) (hd : ∀ o, Ev.died o ∉ l) : ∃ s, st = .fine s := by
  induction h with
  | nil => exact ⟨s0, rfl⟩
  | @done l s1 o r s2 _ hs ih =>
    obtain ⟨s, rfl⟩ := ih fun o h => hd o (List.mem_append_left _ h)
    cases s2 with
    | hurt => exact hs.elim
    | fine s' => exact ⟨s', rfl⟩
  | @died l s1 o s2 _ _ _ => exact absurd (List.mem_append_right _ (List.mem_singleton.2 rfl)) (hd o)

/-- the results of a history without deaths -/
theorem least {q0 : List Bytes} {l : List (Ev Op Ret)} {st : State} (h : CTrace SpecC CutC (.fine q0) l st) :
    ∀ evs : List (Nat × Ev Op Ret), evs.map (·.2) = l → (∀ t o, (t, Ev.died o) ∉ evs) → (∀ e ∈ evs, e.2.op ≠ .clear) →
    ∃ s, st = .fine s ∧ (q0 ++ (pushed (answers evs)).map (·.2)).Perm ((popped (answers evs)).map (·.2) ++ s) ∧
      ∀ a t r b, answers evs = a ++ (t, Op.pop, r) :: b → (∃ d s, r = .ok (.str d) ∧ (q0 ++ (pushed a).map (·.2)).Perm ((popped a).map (·.2) ++ d :: s) ∧ ∀ x ∈ s, d ≤ x) ∨
        (r = .err .outOfRange ∧ (q0 ++ (pushed a).map (·.2)).Perm ((popped a).map (·.2))) := by
  have hm : ∀ (t : Nat) (x : Option Bytes), ((x.map fun d => (t, d)).toList).map (·.2) = x.toList := by intro t x; cases x <;> rfl
  induction h with
  | nil =>
    intro evs he _ _
    obtain rfl := List.map_eq_nil_iff.1 he
    exact ⟨q0, rfl, by simp [pushed, popped, answers], fun a t r b e => by simp [answers] at e⟩
  | @died l s1 o s2 _ hs ih =>
    intro evs he hd _
    obtain ⟨evs', e', rfl, rfl, e2⟩ := List.map_eq_append_iff.1 he
    obtain ⟨⟨t, ev⟩, rfl, e3⟩ := List.map_eq_singleton_iff.1 e2
    obtain rfl : ev = .died o := e3
    exact absurd (List.mem_append_right _ (List.mem_singleton.2 rfl)) (hd t o)
  | @done l s1 o r s2 _ hs ih =>
    intro evs he hd hf
    obtain ⟨evs', e', rfl, rfl, e2⟩ := List.map_eq_append_iff.1 he
    obtain ⟨⟨t, ev⟩, rfl, e3⟩ := List.map_eq_singleton_iff.1 e2
    obtain rfl : ev = .done o r := e3
    obtain ⟨s, rfl, h1, h2⟩ := ih evs' rfl (fun t o h => hd t o (List.mem_append_left _ h)) (fun e h => hf e (List.mem_append_left _ h))
    have hc : o ≠ .clear := hf (t, .done o r) (by simp)
    cases s2 with
    | hurt => exact hs.elim
    | fine s' =>
    have ha : answers (evs' ++ [(t, Ev.done o r)]) = answers evs' ++ [(t, o, r)] := by rw [answers_append]; simp [answers]
    rw [ha]
    refine ⟨s', rfl, ?_, fun a u r' b e => ?_⟩
    · have e1 : pushed (answers evs' ++ [(t, o, r)]) = pushed (answers evs') ++ ((added o r).map fun d => (t, d)).toList := by
        unfold pushed; rw [List.filterMap_append]; cases h : added o r <;> simp [h]
      have e2 : popped (answers evs' ++ [(t, o, r)]) = popped (answers evs') ++ ((taken r).map fun d => (t, d)).toList := by
        unfold popped; rw [List.filterMap_append]; cases h : taken r <;> simp [h]
      rw [e1, e2, List.map_append, List.map_append, hm, hm]
      exact more h1 (spec_same hc hs)
    · rcases List.eq_nil_or_concat b with rfl | ⟨b', x, rfl⟩
      · obtain ⟨rfl, e3⟩ := List.append_inj' e rfl
        simp only [List.cons.injEq, Prod.mk.injEq, and_true] at e3
        obtain ⟨rfl, rfl, rfl⟩ := e3
        rcases hs with ⟨rfl, h3, -⟩ | ⟨m, h3, h4, h5⟩
        · exact Or.inr ⟨h3, by simpa using h1⟩
        · exact Or.inl ⟨m, s', h5, h1.trans (h3.append_left _), fun x hx => h4 x (h3.mem_iff.2 (List.mem_cons_of_mem _ hx))⟩
      · rw [List.concat_eq_append, ← List.cons_append, ← List.append_assoc] at e
        exact h2 a u r' b' (List.append_inj' e rfl).1

end PQ

/-- **C90: a priority queue of jobs.** Threads of any number of processes push to a priority queue, pop from it and ask for its size, each deciding freely what to call next; accesses interleave in any way and
any process may die at any time.  Then at each moment `i`: with the finished calls `cs`, as the log shows them, there are lists `ins` of values that went in and `outs` of values that came out: `ins` are the
values of all pushes that have succeeded, and of each dead thread possibly that of the push it died in; `outs` are the values that pops have returned, and of each dead thread possibly the one that it died
removing; and what was in the queue at the beginning and `ins` together are `outs` and the items `s`, which are what repair leaves in the queue, unless a death has damaged it: then one of the items may be
there twice and another one not.  All this until a thread uses a queue that a death has damaged, as in C86. -/
theorem C90_priority {b : Nat} {G : Nat → Option Block} {q0 : List Bytes} {h0 : Heap} {p0 : Pool}
    (hi0 : PrioQueue.Inv b G q0 h0) (hs0 : Sim h0 p0) {lab : Nat → Option (Nat × PQ.Op)} {N : Nat} (hok : ∀ i t o, i < N → lab i = some (t, o) → o.ok ∧ o ≠ .clear) {pid : Nat → Nat} {fuel : Nat}
    (hp : PidsOk pid) {σ : Nat → St (poolMach (Out PQ.Ret))}
    (hi : OpenInit p0 (σ 0)) (hr : OpenRun pid fuel (callSession (PrioQueue.call b) PQ.Op.writes .unit) N lab σ) :
    (∀ i, i ≤ N → ∃ cs ins outs s st, Shows (PrioQueue.call b) .unit (σ i).log cs ∧
      Deque.Plus (PQ.pushed cs) (fun t d => (σ i).alive (pid t) = false ∧ (begun lab t i)[(cs.filter fun a => a.1 = t).length]? = some (.push d)) ins ∧
      Deque.Plus (PQ.popped cs) (fun t _ => (σ i).alive (pid t) = false ∧ (begun lab t i)[(cs.filter fun a => a.1 = t).length]? = some .pop) outs ∧
      (q0 ++ ins.map (·.2)).Perm (outs.map (·.2) ++ s) ∧ PQ.Has st s ∧
      ((∀ t n, ¬ (σ i).inside pid t (.write n)) → ∃ p' h, run Simple.repair (σ i).mem = (.ok (), p') ∧ PrioQueue.Left' b G st h ∧ Sim h p')) ∨
    ∃ l1 evs e t o, l1 <+: (σ N).log ∧ Durable (PrioQueue.call b) .unit (fun t => begun lab t N) pid (fun p => (σ N).alive p = false) PQ.SpecC PQ.CutC (.fine q0) l1 evs (.hurt e) ∧
      (∀ o', .died o' ∉ evsOf evs t) ∧ (begun lab t N)[(evsOf evs t).length]? = some o ∧ o ≠ .size := by
  rcases C86_prioqueue hi0 hs0 (fun i t o h1 h2 => (hok i t o h1 h2).1) hp hi hr with ⟨evs, n, -, -, h3⟩ | h
  · refine Or.inl fun i hiN => ?_
    obtain ⟨st, ⟨a1, a2, a3⟩, -, a5⟩ := h3 i hiN
    generalize evs.take (n i) = ev at a1 a2 a3 a5
    obtain ⟨ins, outs, s, h4, h5, h6, h7⟩ := PQ.delivered a1 ev rfl (PQ.inOrder_tidy a3) (by
      rintro ⟨t, e⟩ he
      have h1 : e.op ∈ (evsOf ev t).map Ev.op := List.mem_map.2 ⟨e, evsOf_mem.2 he, rfl⟩
      rw [(a3 t).1] at h1
      obtain ⟨j, hj, hl⟩ := mem_begun (List.mem_of_mem_take h1)
      exact (hok j t _ (by omega) hl).2)
    refine ⟨answers ev, ins, outs, s, st, a2, h4.imp ?_, h5.imp ?_, h6, h7, fun hw => ?_⟩
    · rintro t d ⟨o, h7, h8⟩
      obtain ⟨h9, h10, -⟩ := inOrder_cut a3 h7
      cases o with
      | push d' => injection h8 with h8; subst h8; exact ⟨h9, h10⟩
      | _ => cases h8
    · rintro t d h7
      obtain ⟨h9, h10, -⟩ := inOrder_cut a3 h7
      exact ⟨h9, h10⟩
    · obtain ⟨p', h, e1, ⟨-, e2⟩, e3⟩ := a5 hw
      exact ⟨p', h, e1, e2, e3⟩
  · exact Or.inr h

/-- **C90, when nobody dies.** At each moment, with the finished calls `cs`, in the order in which they finished: the initial contents and the values pushed are the values popped and the contents; each pop that
succeeded has returned the least of the values that were in the queue, counting the calls that finished before it; and a pop has failed only because there was none. -/
theorem C90_least {b : Nat} {G : Nat → Option Block} {q0 : List Bytes} {h0 : Heap} {p0 : Pool}
    (hi0 : PrioQueue.Inv b G q0 h0) (hs0 : Sim h0 p0) {lab : Nat → Option (Nat × PQ.Op)} {N : Nat} (hok : ∀ i t o, i < N → lab i = some (t, o) → o.ok ∧ o ≠ .clear) {pid : Nat → Nat} {fuel : Nat}
    (hp : PidsOk pid) {σ : Nat → St (poolMach (Out PQ.Ret))} (hal : ∀ p, (σ N).alive p = true)
    (hi : OpenInit p0 (σ 0)) (hr : OpenRun pid fuel (callSession (PrioQueue.call b) PQ.Op.writes .unit) N lab σ) {i : Nat} (hiN : i ≤ N) :
    ∃ cs s, Shows (PrioQueue.call b) .unit (σ i).log cs ∧ (q0 ++ (PQ.pushed cs).map (·.2)).Perm ((PQ.popped cs).map (·.2) ++ s) ∧
      (∀ a t r b, cs = a ++ (t, PQ.Op.pop, r) :: b → (∃ d s, r = .ok (.str d) ∧ (q0 ++ (PQ.pushed a).map (·.2)).Perm ((PQ.popped a).map (·.2) ++ d :: s) ∧ ∀ x ∈ s, d ≤ x) ∨
        (r = .err .outOfRange ∧ (q0 ++ (PQ.pushed a).map (·.2)).Perm ((PQ.popped a).map (·.2)))) ∧
      ((∀ t n, ¬ (σ i).inside pid t (.write n)) → ∃ p' h, run Simple.repair (σ i).mem = (.ok (), p') ∧ PrioQueue.Left' b G (.fine s) h ∧ Sim h p') := by
  rcases C86_prioqueue hi0 hs0 (fun i t o h1 h2 => (hok i t o h1 h2).1) hp hi hr with ⟨evs, n, -, -, h3⟩ | ⟨l1, evs, e, t, o, -, ⟨a1, -, a3⟩, -, -⟩
  · obtain ⟨st, ⟨a1, a2, a3⟩, -, a5⟩ := h3 i hiN
    generalize evs.take (n i) = ev at a1 a2 a3 a5
    obtain ⟨s, rfl, h4, h5⟩ := PQ.least a1 ev rfl (by
      intro t o hm
      have h1 := (inOrder_cut a3 hm).1
      have h2 := (dead_begins hr hiN (Nat.le_refl N) h1).1
      rw [hal] at h2
      cases h2) (by
      rintro ⟨t, e⟩ he
      have h1 : e.op ∈ (evsOf ev t).map Ev.op := List.mem_map.2 ⟨e, evsOf_mem.2 he, rfl⟩
      rw [(a3 t).1] at h1
      obtain ⟨j, hj, hl⟩ := mem_begun (List.mem_of_mem_take h1)
      exact (hok j t _ (by omega) hl).2)
    refine ⟨answers ev, s, a2, h4, h5, fun hw => ?_⟩
    obtain ⟨p', h, e1, ⟨-, e2⟩, e3⟩ := a5 hw
    exact ⟨p', h, e1, e2, e3⟩
  · exfalso
    obtain ⟨s, hs⟩ := PQ.stays_fine a1 fun o ho => by
      obtain ⟨⟨t, e⟩, he, rfl⟩ := List.mem_map.1 ho
      have h1 := (inOrder_cut a3 he).1
      rw [hal] at h1
      cases h1
    cases hs

/-- the results in the log of a state, and whether thread 0 is in a call -/
def shownPrio (s : St (poolMach (Out PQ.Ret))) : List (Nat × Option (Out PQ.Ret)) × Bool :=
  (s.log.map fun e => (e.1, match e.2.2.2 with | .ok r => some r | _ => none), isRet (s.th 0))

/-- schedules on a new priority queue; thread `t` is in process `t + 1` -/
def prioPlay (l : List (Cmd PQ.Op)) : Option (St (poolMach (Out PQ.Ret))) :=
  play (fun t => t + 1) 10 (callSession (PrioQueue.call 344) PQ.Op.writes .unit) l (quiet pqPool)

/-- thread 0 pushes 5; the process of thread 1 dies three steps before the end of its push of 2; thread 0 pops -/
def cutPushSchedule : List (Cmd PQ.Op) := [.call 0 (.push [5]), .go 0 126, .call 1 (.push [2]), .go 1 111, .die 2, .call 0 .pop, .go 0 130]

/-- A run that meets the hypotheses of `C90_priority` (with the pool `pqPool_ready`), in which the value of a push that was cut short is delivered. -/
example : ∃ N lab σ, σ 0 = quiet pqPool ∧ OpenRun (fun t => t + 1) 10 (callSession (PrioQueue.call 344) PQ.Op.writes .unit) N lab σ ∧
    (∀ i t o, i < N → lab i = some (t, o) → o.ok ∧ o ≠ .clear) ∧ shownPrio (σ N) = ([(0, some (.ok .unit)), (0, some (.ok (.str [2])))], true) := by
  have h : (prioPlay cutPushSchedule).map shownPrio = some ([(0, some (.ok .unit)), (0, some (.ok (.str [2])))], true) := by decide +kernel
  obtain ⟨s, h1, h4⟩ := Option.map_eq_some_iff.1 h
  obtain ⟨N, lab, σ, e1, rfl, e3, e4⟩ := play_open (cs := []) (OpenTo.refl _) h1
  refine ⟨N, lab, σ, e1, e3, fun i t o hi hl => ?_, h4⟩
  have hm := mem_filterMap_range hi hl
  rw [e4] at hm
  simp only [List.nil_append, Cmd.made, cutPushSchedule, List.mem_cons, Prod.mk.injEq, List.not_mem_nil, or_false] at hm
  rcases hm with ⟨-, rfl⟩ | ⟨-, rfl⟩ | ⟨-, rfl⟩ <;> exact ⟨by simp [PQ.Op.ok], fun h => by cases h⟩

/-- two processes push and pop -/
def prioSchedule : List (Cmd PQ.Op) := [.call 0 (.push [5]), .go 0 126, .call 1 (.push [2]), .go 1 114, .call 0 .pop, .go 0 101, .call 1 .pop, .go 1 89]

/-- A run that meets the hypotheses of `C90_least`. -/
example : ∃ N lab σ, σ 0 = quiet pqPool ∧ OpenRun (fun t => t + 1) 10 (callSession (PrioQueue.call 344) PQ.Op.writes .unit) N lab σ ∧
    (∀ i t o, i < N → lab i = some (t, o) → o.ok ∧ o ≠ .clear) ∧ (∀ p, (σ N).alive p = true) ∧
    shownPrio (σ N) = ([(0, some (.ok .unit)), (1, some (.ok .unit)), (0, some (.ok (.str [2]))), (1, some (.ok (.str [5])))], true) := by
  have h : (prioPlay prioSchedule).map shownPrio = some ([(0, some (.ok .unit)), (1, some (.ok .unit)), (0, some (.ok (.str [2]))), (1, some (.ok (.str [5])))], true) := by decide +kernel
  obtain ⟨s, h1, h4⟩ := Option.map_eq_some_iff.1 h
  have h3 := play_alive h1 (fun p => by simp [prioSchedule])
  obtain ⟨N, lab, σ, e1, rfl, e3, e4⟩ := play_open (cs := []) (OpenTo.refl _) h1
  refine ⟨N, lab, σ, e1, e3, fun i t o hi hl => ?_, fun p => by rw [h3]; rfl, h4⟩
  have hm := mem_filterMap_range hi hl
  rw [e4] at hm
  simp only [List.nil_append, Cmd.made, prioSchedule, List.mem_cons, Prod.mk.injEq, List.not_mem_nil, or_false] at hm
  rcases hm with ⟨-, rfl⟩ | ⟨-, rfl⟩ | ⟨-, rfl⟩ | ⟨-, rfl⟩ <;> exact ⟨by simp [PQ.Op.ok], fun h => by cases h⟩

end Verif
