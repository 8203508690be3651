import Verif.ConcGuard
import Verif.LockTrace
/-
Data structures used by several processes at once, any of which may die: the sequential history that explains what happened has each thread's calls in the order in which the thread made
them, with at most one call cut short per thread, its last.
-/
namespace Verif.Lock
open Verif
variable {R O S : Type}

/-- the call an event is about -/
def Ev.op : Ev O R → O
  | .done o _ => o
  | .died o => o

/-- the events of thread `t` in a history -/
def evsOf (evs : List (Nat × Ev O R)) (t : Nat) : List (Ev O R) := (evs.filter fun e => e.1 = t).map (·.2)

/-- the finished calls of a history: thread, call and result -/
def answers : List (Nat × Ev O R) → List (Nat × O × Out R)
  | [] => []
  | (t, .done o r) :: l => (t, o, r) :: answers l
  | (_, .died _) :: l => answers l

/-- A history in program order: the events of each thread are its first calls, in the order it makes them; a call that is cut short is the last of its thread, and the process of that
thread is in `D`. -/
def InOrder (calls : Nat → List O) (pid : Nat → Nat) (D : Nat → Prop) (evs : List (Nat × Ev O R)) : Prop :=
  ∀ t, (evsOf evs t).map Ev.op = (calls t).take (evsOf evs t).length ∧ ∀ l o l', evsOf evs t = l ++ .died o :: l' → l' = [] ∧ D (pid t)

/-- the log of finished sections shows these calls and results, of these threads -/
inductive Shows (f : O → HProg R) (dummy : R) : List (Nat × Option Kind × Body (poolMach (Out R)) × Verif.Res (Out R)) → List (Nat × O × Out R) → Prop
  | nil : Shows f dummy [] []
  | call {l cs t kd o r} : Shows f dummy l cs → Shows f dummy (l ++ [(t, some kd, methodBody f o, .ok r)]) (cs ++ [(t, o, r)])
  | repaired {l cs t n o r} : Shows f dummy l cs → n ≠ 0 →
      Shows f dummy (l ++ [(t, some (.write n), (repairBody dummy).bind fun _ => methodBody f o, .ok r)]) (cs ++ [(t, o, r)])
  | repair {l cs t n} : Shows f dummy l cs → n ≠ 0 → Shows f dummy (l ++ [(t, some (.write n), repairBody dummy, .ok (.ok dummy))]) cs

/-- a sequential history with deaths, in program order, that explains the log `log` -/
def Durable (f : O → HProg R) (dummy : R) (calls : Nat → List O) (pid : Nat → Nat) (D : Nat → Prop) (Spec : S → O → Out R → S → Prop) (Cut : S → O → S → Prop) (st0 : S)
    (log : List (Nat × Option Kind × Body (poolMach (Out R)) × Verif.Res (Out R))) (evs : List (Nat × Ev O R)) (st : S) : Prop :=
  CTrace Spec Cut st0 (evs.map (·.2)) st ∧ Shows f dummy log (answers evs) ∧ InOrder calls pid D evs

/-- a thread has made a call in a state in which it may not be made: what finished before it is explained by `evs`, and the call is the thread's next one -/
def Misused (f : O → HProg R) (dummy : R) (calls : Nat → List O) (pid : Nat → Nat) (D : Nat → Prop) (Spec : S → O → Out R → S → Prop) (Cut : S → O → S → Prop) (ok : S → O → Prop) (st0 : S)
    (log : List (Nat × Option Kind × Body (poolMach (Out R)) × Verif.Res (Out R))) : Prop :=
  ∃ l1 evs st t o, l1 <+: log ∧ Durable f dummy calls pid D Spec Cut st0 l1 evs st ∧ (∀ o', .died o' ∉ evsOf evs t) ∧ (calls t)[(evsOf evs t).length]? = some o ∧ ¬ ok st o

/-! ### which call an operation belongs to -/

/-- the number of calls of `os` that a thread with the finished operations `l` has finished -/
def nDone {K : Mach} (writes : O → Bool) : List O → Ops K → Nat
  | [], _ => 0
  | o :: os, l => if writes o then (match l with | [] => 0 | _ :: l' => nDone writes os l' + 1) else
      (match l with
      | (some .read, _) :: l' => nDone writes os l' + 1
      | _ :: _ :: l' => nDone writes os l' + 1
      | _ => 0)

variable {K : Mach} {body : O → Body K} {rep : Body K} {writes : O → Bool}

theorem nDone_nil (os : List O) : nDone (K := K) writes os [] = 0 := by
  cases os with
  | nil => rfl
  | cons o os => simp [nDone]

theorem nDone_one {o : O} {os : List O} {l l2 : Ops K} (h : Ran (sessionOf body rep writes o) l) : nDone writes (o :: os) (l ++ l2) = nDone writes os l2 + 1 := by
  unfold sessionOf at h
  split at h
  · rename_i hw
    cases h
    simp [nDone, hw]
  · rename_i hw
    cases h <;> simp [nDone, hw]

theorem nDone_append {ss : List (Session K)} {l1 : Ops K} (h : RanAll ss l1) : ∀ {os1 : List O} (os2 : List O) (l2 : Ops K), ss = os1.map (sessionOf body rep writes) →
    nDone writes (os1 ++ os2) (l1 ++ l2) = os1.length + nDone writes os2 l2 := by
  induction h with
  | nil => intro os1 os2 l2 e; rw [List.map_eq_nil_iff.1 e.symm]; simp
  | @snoc ss s l l' _ h2 ih =>
    intro os1 os2 l2 e
    obtain ⟨o1, o2, rfl, e1, e2⟩ := List.map_eq_append_iff.1 e.symm
    obtain ⟨o, rfl, e3⟩ := List.map_eq_singleton_iff.1 e2
    subst e3
    rw [List.append_assoc, List.append_assoc, ih _ _ e1.symm, List.singleton_append, nDone_one h2]
    simp
    omega

/-- **Which call an operation belongs to**: the call after those finished; it is the call itself or, in a call that only reads, the repair before it. -/
theorem next_call {os : List O} {l : Ops K} {kd : Kind} {b : Body K} (h : Next (os.map (sessionOf body rep writes)) l kd b) :
    ∃ o, os[nDone writes os l]? = some o ∧
      ((writes o = true ∧ (∃ n, kd = .write n ∧ b = if n = 0 then body o else rep.bind fun _ => body o) ∧ nDone writes os (l ++ [(some kd, b)]) = nDone writes os l + 1) ∨
       (writes o = false ∧ kd = .read ∧ b = body o ∧ nDone writes os (l ++ [(some kd, b)]) = nDone writes os l + 1) ∨
       (writes o = false ∧ (∃ n, n ≠ 0 ∧ kd = .write n) ∧ b = rep ∧ nDone writes os (l ++ [(some kd, b)]) = nDone writes os l)) := by
  obtain ⟨i, se, l1, l2, l3, g1, g2, g3, rfl⟩ := h
  rw [List.getElem?_map] at g1
  obtain ⟨o, ho, rfl⟩ := Option.map_eq_some_iff.1 g1
  rw [← List.map_take] at g2
  have hlt : i < os.length := (List.getElem?_eq_some_iff.1 ho).1
  have hos : os = os.take i ++ o :: os.drop (i + 1) := by
    have := (List.getElem?_eq_some_iff.1 ho).2
    rw [← this, ← List.drop_eq_getElem_cons hlt, List.take_append_drop]
  have key : ∀ x, nDone writes os (l1 ++ x) = i + nDone writes (o :: os.drop (i + 1)) x := by
    intro x
    rw [hos, nDone_append g2 _ _ rfl, ← hos, List.length_take, Nat.min_eq_left (Nat.le_of_lt hlt)]
  rw [List.append_assoc, key, key]
  unfold sessionOf at g3
  split at g3
  · rename_i hw
    generalize hL : l2 ++ (some kd, b) :: l3 = L at g3
    cases g3 with
    | write _ _ st =>
      cases l2 with
      | nil =>
        simp only [List.nil_append, List.cons.injEq, Prod.mk.injEq, Option.some.injEq] at hL
        obtain ⟨⟨rfl, rfl⟩, rfl⟩ := hL
        refine ⟨o, by rw [nDone_nil]; exact ho, Or.inl ⟨hw, ⟨st, rfl, rfl⟩, ?_⟩⟩
        simp [nDone, hw, nDone_nil]
      | cons x l2 => simp at hL
  · rename_i hw
    generalize hL : l2 ++ (some kd, b) :: l3 = L at g3
    have hw' : writes o = false := by simpa using hw
    cases g3 with
    | read =>
      cases l2 with
      | nil =>
        simp only [List.nil_append, List.cons.injEq, Prod.mk.injEq, Option.some.injEq] at hL
        obtain ⟨⟨rfl, rfl⟩, rfl⟩ := hL
        refine ⟨o, by rw [nDone_nil]; exact ho, Or.inr (Or.inl ⟨hw', rfl, rfl, ?_⟩)⟩
        simp [nDone, hw', nDone_nil]
      | cons x l2 => simp at hL
    | @readRepair _ _ st hst =>
      cases l2 with
      | nil =>
        simp only [List.nil_append, List.cons.injEq, Prod.mk.injEq, Option.some.injEq] at hL
        obtain ⟨⟨rfl, rfl⟩, rfl⟩ := hL
        refine ⟨o, by rw [nDone_nil]; exact ho, Or.inr (Or.inr ⟨hw', ⟨st, hst, rfl⟩, rfl, ?_⟩)⟩
        simp [nDone, hw']
      | cons x l2 =>
        cases l2 with
        | nil =>
          simp only [List.cons_append, List.nil_append, List.cons.injEq, Prod.mk.injEq, Option.some.injEq] at hL
          obtain ⟨rfl, ⟨rfl, rfl⟩, rfl⟩ := hL
          refine ⟨o, ?_, Or.inr (Or.inl ⟨hw', rfl, rfl, ?_⟩)⟩
          · simpa [nDone, hw', nDone_nil] using ho
          · simp [nDone, hw', nDone_nil]
        | cons y l2 => simp at hL

/-! ### histories -/

theorem evsOf_snoc_self (evs : List (Nat × Ev O R)) (t : Nat) (e : Ev O R) : evsOf (evs ++ [(t, e)]) t = evsOf evs t ++ [e] := by
  simp [evsOf, List.filter_append]

theorem evsOf_snoc_ne (evs : List (Nat × Ev O R)) {t u : Nat} (h : u ≠ t) (e : Ev O R) : evsOf (evs ++ [(t, e)]) u = evsOf evs u := by
  simp [evsOf, List.filter_append, Ne.symm h]

theorem answers_append (l l' : List (Nat × Ev O R)) : answers (l ++ l') = answers l ++ answers l' := by
  induction l with
  | nil => rfl
  | cons e l ih => obtain ⟨t, e⟩ := e; cases e <;> simp [answers, ih]

/-- one more call of a thread -/
theorem InOrder.snoc {calls : Nat → List O} {pid : Nat → Nat} {D : Nat → Prop} {evs : List (Nat × Ev O R)} (h : InOrder calls pid D evs) {t : Nat} (hn : ∀ o, .died o ∉ evsOf evs t)
    {e : Ev O R} (ho : (calls t)[(evsOf evs t).length]? = some e.op) (hD : ∀ o, e = .died o → D (pid t)) : InOrder calls pid D (evs ++ [(t, e)]) := by
  intro u
  by_cases e1 : u = t
  · subst e1
    rw [evsOf_snoc_self]
    refine ⟨?_, ?_⟩
    · rw [List.map_append, (h u).1, List.length_append, List.length_singleton, List.take_add_one, ho]
      rfl
    · intro l o l' e2
      rcases List.append_eq_append_iff.1 e2 with ⟨a, rfl, e3⟩ | ⟨a, e3, e4⟩
      · cases a with
        | nil => simp only [List.nil_append, List.cons.injEq] at e3; exact ⟨e3.2.symm, hD o e3.1⟩
        | cons x a => simp at e3
      · cases a with
        | nil => simp only [List.nil_append, List.cons.injEq] at e4; exact ⟨e4.2, hD o e4.1.symm⟩
        | cons x a =>
          simp only [List.cons_append, List.cons.injEq] at e4
          exact absurd (by rw [e3, e4.1]; simp) (hn o)
  · rw [evsOf_snoc_ne _ e1]
    exact h u

/-- the number of calls that thread `t` finished -/
def finished (evs : List (Nat × Ev O R)) (t : Nat) : Nat := ((evsOf evs t).filter fun e => match e with | .done _ _ => true | .died _ => false).length

theorem finished_all {evs : List (Nat × Ev O R)} {t : Nat} (h : ∀ o, .died o ∉ evsOf evs t) : finished evs t = (evsOf evs t).length := by
  unfold finished
  rw [List.filter_eq_self.2]
  intro e he
  cases e with
  | done => rfl
  | died o => exact absurd he (h o)

theorem finished_done (evs : List (Nat × Ev O R)) (t u : Nat) (o : O) (r : Out R) : finished (evs ++ [(t, .done o r)]) u = if u = t then finished evs u + 1 else finished evs u := by
  unfold finished
  split
  · rename_i h; subst h; rw [evsOf_snoc_self, List.filter_append]; simp
  · rename_i h; rw [evsOf_snoc_ne _ h]

theorem finished_died (evs : List (Nat × Ev O R)) (t u : Nat) (o : O) : finished (evs ++ [(t, .died o)]) u = finished evs u := by
  unfold finished
  by_cases h : u = t
  · subst h; rw [evsOf_snoc_self, List.filter_append]; simp
  · rw [evsOf_snoc_ne _ h]

variable {f : O → HProg R} {Spec : S → O → Out R → S → Prop} {Cut : S → O → S → Prop} {Inv CI : S → Heap → Prop} {ok : S → O → Prop}

theorem callSession_eq {dummy : R} : callSession f writes dummy = sessionOf (methodBody f) (repairBody dummy) writes := by
  funext o; rfl

/-- how a history goes with a sequential execution -/
structure Goes (calls : Nat → List O) (writes : O → Bool) (es : List (Entry (poolMach (Out R)))) (evs : List (Nat × Ev O R)) : Prop where
  count : ∀ t, finished evs t = nDone writes (calls t) (mineIn (fin es) t)
  died : ∀ t o, .died o ∈ evsOf evs t → ∃ e ∈ es, e.1 = t ∧ e.2.2.2 = none

theorem serial_durable (H : Fragile f Spec Cut Inv CI ok) {dummy : R} {calls : Nat → List O}
    {pid : Nat → Nat} {D : Nat → Prop} {st0 : S} {es0 es : List (Entry (poolMach (Out R)))} {m0 m : Pool} {d0 d : Bool} {T : Prop} (hT : T)
    {evs0 : List (Nat × Ev O R)} {st1 : S} {h1 : Heap} (hD0 : Durable f dummy calls pid D Spec Cut st0 (fin es0) evs0 st1) (hg0 : Goes calls writes es0 evs0)
    (hc0 : CI st1 h1) (hm0 : CSim h1 m0) (hs0 : d0 = false → Sim h1 m0)
    (hser : Ordered (K := poolMach (Out R)) pid T (fun t => (calls t).map (callSession f writes dummy)) D es0 m0 d0 es m d) :
    (∃ evs st h, (evs0 <+: evs ∧ Durable f dummy calls pid D Spec Cut st0 (fin es) evs st) ∧ Goes calls writes es evs ∧ CI st h ∧ CSim h m ∧ (d = false → Sim h m)) ∨
    Misused f dummy calls pid D Spec Cut ok st0 (fin es) := by
  induction hser with
  | nil => exact Or.inl ⟨evs0, st1, h1, ⟨List.prefix_rfl, hD0⟩, hg0, hc0, hm0, hs0⟩
  | @done es m d t kd b r m' hser hN hlive hrun hd hD ih =>
    rcases ih with ⟨evs, st, h, ⟨hpre, h1, h2, h3⟩, hg, h4, h5, h6⟩ | ⟨l1, evs, st, t', o, hp, he, hnd, ho, hno⟩
    case inr => exact Or.inr ⟨l1, evs, st, t', o, hp.trans (by rw [fin_done]; exact List.prefix_append _ _), he, hnd, ho, hno⟩
    have hnd : ∀ o, .died o ∉ evsOf evs t := fun o ho => by obtain ⟨e, e1, e2, e3⟩ := hg.died t o ho; exact hlive e e1 e2 e3
    rw [callSession_eq] at hN
    obtain ⟨o, ho, hal⟩ := next_call hN
    rw [← hg.count t, finished_all hnd] at ho hal
    by_cases hok : ok st o
    case neg => exact Or.inr ⟨fin es, evs, st, t, o, by rw [fin_done]; exact List.prefix_append _ _, ⟨h1, h2, h3⟩, hnd, ho, hok⟩
    refine Or.inl ?_
    have hfin : ∀ (r : Out R) (rb : Verif.Res (poolMach (Out R)).Res), nDone writes (calls t) (mineIn (fin es) t ++ [(some kd, b)]) = (evsOf evs t).length + 1 →
        Goes calls writes (es ++ [(t, kd, b, some rb)]) (evs ++ [(t, .done o r)]) := by
      intro r rb hc
      constructor
      · intro u
        rw [finished_done, fin_done]
        by_cases e : u = t
        · subst e; rw [if_pos rfl, mineIn_snoc_self, hc, finished_all hnd]
        · rw [if_neg e, mineIn_snoc_ne _ e, hg.count]
      · intro u o' ho'
        by_cases e : u = t
        · subst e
          rw [evsOf_snoc_self] at ho'
          rcases List.mem_append.1 ho' with h7 | h7
          · exact absurd h7 (hnd o')
          · simp at h7
        · rw [evsOf_snoc_ne _ e] at ho'
          obtain ⟨e1, e2, e3⟩ := hg.died u o' ho'
          exact ⟨e1, List.mem_append_left _ e2, e3⟩
    have hin : ∀ r : Out R, InOrder calls pid D (evs ++ [(t, Ev.done o r)]) := fun r => h3.snoc hnd ho (fun o' h => by cases h)
    have fin1 : b = methodBody f o → d = false → nDone writes (calls t) (mineIn (fin es) t ++ [(some kd, b)]) = (evsOf evs t).length + 1 →
        ∃ (evs : List (Nat × Ev O R)) (st : S) (h : Heap),
        (evs0 <+: evs ∧ Durable f dummy calls pid D Spec Cut st0 (fin (es ++ [(t, kd, b, some r)])) evs st) ∧ Goes calls writes (es ++ [(t, kd, b, some r)]) evs ∧ CI st h ∧ CSim h m' ∧ (false = false → Sim h m') := by
      intro hb hd0 hc
      subst hb
      have hs := h6 hd0
      obtain ⟨out, p', e1, r', st', h', rfl, e2, e3, e4⟩ := pool_run (H.method hok (H.heal _ _ _ h4 hs) hs)
      obtain ⟨e6, e7⟩ := Prod.mk.inj (hrun.symm.trans e1)
      subst e7
      refine ⟨evs ++ [(t, .done o r')], st', h', ⟨hpre.trans (List.prefix_append _ _), ?_, ?_, hin r'⟩, hfin r' _ hc, H.weak _ _ e3, e4.csim, fun _ => e4⟩
      · rw [List.map_append]; exact .done h1 e2
      · rw [answers_append, fin_done, e6]
        exact .call h2
    have fin2 : ∀ n, n ≠ 0 → kd = .write n → b = (repairBody dummy).bind (fun _ => methodBody f o) → nDone writes (calls t) (mineIn (fin es) t ++ [(some kd, b)]) = (evsOf evs t).length + 1 →
        ∃ (evs : List (Nat × Ev O R)) (st : S) (h : Heap),
        (evs0 <+: evs ∧ Durable f dummy calls pid D Spec Cut st0 (fin (es ++ [(t, kd, b, some r)])) evs st) ∧ Goes calls writes (es ++ [(t, kd, b, some r)]) evs ∧ CI st h ∧ CSim h m' ∧ (false = false → Sim h m') := by
      intro n hn hk hb hc
      subst hb
      subst hk
      obtain ⟨out, p', e1, r', st', h', rfl, e2, e3, e4⟩ := pool_run (H.repaired (dummy := dummy) hok h4 h5)
      obtain ⟨e6, e7⟩ := Prod.mk.inj (hrun.symm.trans e1)
      subst e7
      refine ⟨evs ++ [(t, .done o r')], st', h', ⟨hpre.trans (List.prefix_append _ _), ?_, ?_, hin r'⟩, hfin r' _ hc, H.weak _ _ e3, e4.csim, fun _ => e4⟩
      · rw [List.map_append]; exact .done h1 e2
      · rw [answers_append, fin_done, e6]
        exact .repaired h2 hn
    have hd0 : (∀ n, n ≠ 0 → kd ≠ .write n) → d = false := by
      intro hk
      cases hdd : d with
      | false => rfl
      | true => obtain ⟨n, hn, e⟩ := hd hT hdd; exact absurd e (hk n hn)
    rcases hal with ⟨-, ⟨n, hk, hb⟩, hc⟩ | ⟨-, hk, hb, hc⟩ | ⟨-, ⟨n, hn, hk⟩, hb, hc⟩
    · by_cases hn : n = 0
      · refine fin1 (by rw [hb, if_pos hn]) (hd0 ?_) hc
        intro n' hn' e
        rw [hk] at e
        injection e with e
        exact hn' (e ▸ hn)
      · exact fin2 n hn hk (by rw [hb, if_neg hn]) hc
    · refine fin1 hb (hd0 ?_) hc
      intro n' hn' e
      rw [hk] at e
      cases e
    · subst hb
      subst hk
      obtain ⟨out, p', e1, rfl, e2⟩ := pool_run (repairBody_rwp (R := R) (dummy := dummy) h5)
      obtain ⟨e6, e7⟩ := Prod.mk.inj (hrun.symm.trans e1)
      subst e7
      refine ⟨evs, st, h, ⟨hpre, h1, ?_, h3⟩, ⟨fun u => ?_, fun u o' ho' => ?_⟩, h4, e2.csim, fun _ => e2⟩
      · rw [fin_done, e6]; exact .repair h2 hn
      · rw [fin_done]
        by_cases e : u = t
        · subst e; rw [mineIn_snoc_self, hc, finished_all hnd]
        · rw [mineIn_snoc_ne _ e, hg.count]
      · obtain ⟨e1, e2, e3⟩ := hg.died u o' ho'
        exact ⟨e1, List.mem_append_left _ e2, e3⟩
  | @crash es m d t n b c hser hN hlive hDt hd hD ih =>
    rcases ih with ⟨evs, st, h, ⟨hpre, h1, h2, h3⟩, hg, h4, h5, h6⟩ | ⟨l1, evs, st, t', o, hp, he, hnd, ho, hno⟩
    case inr => exact Or.inr ⟨l1, evs, st, t', o, by rw [fin_died]; exact hp, he, hnd, ho, hno⟩
    have hnd : ∀ o, .died o ∉ evsOf evs t := fun o ho => by obtain ⟨e, e1, e2, e3⟩ := hg.died t o ho; exact hlive e e1 e2 e3
    rw [callSession_eq] at hN
    obtain ⟨o, ho, hal⟩ := next_call hN
    rw [← hg.count t, finished_all hnd] at ho hal
    by_cases hok : ok st o
    case neg => exact Or.inr ⟨fin es, evs, st, t, o, by rw [fin_died]; exact List.prefix_rfl, ⟨h1, h2, h3⟩, hnd, ho, hok⟩
    refine Or.inl ?_
    have hgo : Goes calls writes (es ++ [(t, .write n, b, none)]) (evs ++ [(t, Ev.died o)]) := by
      constructor
      · intro u
        rw [finished_died, fin_died, hg.count]
      · intro u o' ho'
        by_cases e : u = t
        · exact ⟨_, List.mem_append_right _ (List.mem_singleton.2 rfl), e.symm, rfl⟩
        · rw [evsOf_snoc_ne _ e] at ho'
          obtain ⟨e1, e2, e3⟩ := hg.died u o' ho'
          exact ⟨e1, List.mem_append_left _ e2, e3⟩
    have fin1 : (∃ s' h', (s' = st ∨ Cut st o s') ∧ CI s' h' ∧ CSim h' (Body.after (K := poolMach (Out R)) c b m).2) →
        ∃ (evs : List (Nat × Ev O R)) (st : S) (h : Heap), (evs0 <+: evs ∧ Durable f dummy calls pid D Spec Cut st0 (fin (es ++ [(t, .write n, b, none)])) evs st) ∧
          Goes calls writes (es ++ [(t, .write n, b, none)]) evs ∧ CI st h ∧ CSim h (Body.after (K := poolMach (Out R)) c b m).2 ∧
          (true = false → Sim h (Body.after (K := poolMach (Out R)) c b m).2) := by
      rintro ⟨s', h', e1, e2, e3⟩
      refine ⟨evs ++ [(t, .died o)], s', h', ⟨hpre.trans (List.prefix_append _ _), ?_, ?_, h3.snoc (e := Ev.died o) hnd ho (fun _ _ => hDt)⟩, hgo, e2, e3, fun h => by cases h⟩
      · rw [List.map_append]; exact .died h1 e1
      · rw [answers_append, fin_died]
        simpa [answers] using h2
    rcases hal with ⟨-, ⟨n', hk, hb⟩, -⟩ | ⟨-, hk, -, -⟩ | ⟨-, ⟨n', hn, hk⟩, hb, -⟩
    · injection hk with hk
      subst hk
      by_cases hn : n = 0
      · have hd0 : d = false := by
          cases hdd : d with
          | false => rfl
          | true => exact absurd hn (hd hT hdd)
        have hs := h6 hd0
        have := pool_after c (H.method hok (H.heal _ _ _ h4 hs) hs)
        refine fin1 ?_
        rw [hb, if_pos hn]
        exact this
      · refine fin1 ?_
        rw [hb, if_neg hn]
        exact pool_after c (H.repaired (dummy := dummy) hok h4 h5)
    · cases hk
    · subst hb
      refine fin1 ⟨st, h, Or.inl rfl, h4, ?_⟩
      exact pool_after c (repairBody_rwp (R := R) (dummy := dummy) h5)

/-- The history `evs`, which ends in `st`, accounts for what has happened up to the state `s` of the system: it explains the finished calls; a thread that has come to its end has all its calls
in it, finished; and as long as no live process is writing, a repair succeeds and leaves the structure in the state `st`. -/
def Accounts (f : O → HProg R) (dummy : R) (calls : Nat → List O) (pid : Nat → Nat) (Spec : S → O → Out R → S → Prop) (Cut : S → O → S → Prop) (Inv : S → Heap → Prop) (st0 : S)
    (s : St (poolMach (Out R))) (evs : List (Nat × Ev O R)) (st : S) : Prop :=
  Durable f dummy calls pid (fun p => s.alive p = false) Spec Cut st0 s.log evs st ∧
  (∀ t, s.th t = .ret () → (evsOf evs t).map Ev.op = calls t ∧ ∀ o, .died o ∉ evsOf evs t) ∧
  ((∀ t n, ¬ s.inside pid t (.write n)) → ∃ p' h, run Simple.repair s.mem = (.ok (), p') ∧ Inv st h ∧ Sim h p')

theorem InOrder.mono {calls : Nat → List O} {pid : Nat → Nat} {D D' : Nat → Prop} (hD : ∀ p, D p → D' p) {evs : List (Nat × Ev O R)} (h : InOrder calls pid D evs) :
    InOrder calls pid D' evs := fun t => ⟨(h t).1, fun l o l' e => ⟨((h t).2 l o l' e).1, hD _ ((h t).2 l o l' e).2⟩⟩

theorem Misused.mono {dummy : R} {calls : Nat → List O} {pid : Nat → Nat} {D D' : Nat → Prop} {st0 : S} {log log' : List (Nat × Option Kind × Body (poolMach (Out R)) × Verif.Res (Out R))}
    (hD : ∀ p, D p → D' p) (hl : log <+: log') (h : Misused f dummy calls pid D Spec Cut ok st0 log) : Misused f dummy calls pid D' Spec Cut ok st0 log' := by
  obtain ⟨l1, evs, st, t, o, hp, ⟨e1, e2, e3⟩, hnd, ho, hno⟩ := h
  exact ⟨l1, evs, st, t, o, hp.trans hl, ⟨e1, e2, e3.mono hD⟩, hnd, ho, hno⟩

/-- everything known of a state of the system and the history that goes with it -/
structure DInv (f : O → HProg R) (writes : O → Bool) (dummy : R) (calls : Nat → List O) (pid : Nat → Nat) (Spec : S → O → Out R → S → Prop) (Cut : S → O → S → Prop) (CI : S → Heap → Prop)
    (p0 : Pool) (st0 : S) (s : St (poolMach (Out R))) (evs : List (Nat × Ev O R)) (st : S) (G : Nat → Ghost (poolMach (Out R))) (mc : Pool) (d : Bool)
    (es : List (Entry (poolMach (Out R)))) (h : Heap) : Prop where
  inv : OInv (K := poolMach (Out R)) pid (fun t => (calls t).map (callSession f writes dummy)) p0 s G mc d es
  dur : Durable f dummy calls pid (fun p => s.alive p = false) Spec Cut st0 (fin es) evs st
  goes : Goes calls writes es evs
  ci : CI st h
  csim : CSim h mc
  sim : d = false → Sim h mc

section
variable {dummy : R} {calls : Nat → List O} {pid : Nat → Nat} {fuel : Nat} {p0 : Pool} {h0 h : Heap} {st0 st : S} {s0 s s' : St (poolMach (Out R))}
  {evs : List (Nat × Ev O R)} {G : Nat → Ghost (poolMach (Out R))} {mc : Pool} {d : Bool} {es : List (Entry (poolMach (Out R)))}

theorem no_any : NoAny (K := poolMach (Out R)) (fun t => (calls t).map (callSession f writes dummy)) := by
  intro t se hse
  obtain ⟨o, -, rfl⟩ := List.mem_map.1 hse
  unfold callSession
  split <;> exact fun h => h

theorem read_only (hro : ∀ o, writes o = false → Ro (methodBody f o)) : ReadOnly (K := poolMach (Out R)) (fun t => (calls t).map (callSession f writes dummy)) := by
  intro t se hse
  obtain ⟨o, -, rfl⟩ := List.mem_map.1 hse
  unfold callSession
  split
  · trivial
  · rename_i h; exact hro o (by simpa using h)

theorem DInv.init (H : Fragile f Spec Cut Inv CI ok) (hro : ∀ o, writes o = false → Ro (methodBody f o)) (hi0 : Inv st0 h0) (hs0 : Sim h0 p0) (hp : PidsOk pid)
    (hi : Init pid fuel (fun t => (calls t).map (callSession f writes dummy)) p0 s0) : ∃ G, DInv f writes dummy calls pid Spec Cut CI p0 st0 s0 [] st0 G p0 false [] h0 := by
  obtain ⟨G, hG⟩ := init_ordered hp (read_only hro) hi
  refine ⟨G, hG, ⟨.nil, .nil, fun t => ⟨rfl, fun l o l' h => ?_⟩⟩, ⟨fun t => ?_, fun t o h => by cases h⟩, H.weak _ _ hi0, hs0.csim, fun _ => hs0⟩
  · cases l <;> cases h
  · exact (nDone_nil _).symm

theorem DInv.step (H : Fragile f Spec Cut Inv CI ok) (hp : PidsOk pid) (hi : Init pid fuel (fun t => (calls t).map (callSession f writes dummy)) p0 s0) (hr : Reach pid s0 s) {a : Option Nat}
    (hst : Step pid a s s') (hI : DInv f writes dummy calls pid Spec Cut CI p0 st0 s evs st G mc d es h) :
    (∃ evs' st' G' mc' d' es' h', evs <+: evs' ∧ DInv f writes dummy calls pid Spec Cut CI p0 st0 s' evs' st' G' mc' d' es' h') ∨
    Misused f dummy calls pid (fun p => s'.alive p = false) Spec Cut ok st0 s'.log := by
  obtain ⟨G', mc', d', es', hO, hord⟩ := step_ordered hp hi hr hst hI.inv
  have hord := hord.mono (D' := fun p => s'.alive p = false) (fun p h => h.2)
  rcases serial_durable H no_any (D := fun p => s'.alive p = false) ⟨hI.dur.1, hI.dur.2.1, hI.dur.2.2.mono (dead_stays hst)⟩ hI.goes hI.ci hI.csim hI.sim hord with
    ⟨evs', st', h', ⟨e1, e2⟩, e3, e4, e5, e6⟩ | hm
  · exact Or.inl ⟨evs', st', G', mc', d', es', h', e1, hO, e2, e3, e4, e5, e6⟩
  · rw [hO.log] at hm
    exact Or.inr hm

theorem Misused.step {a : Option Nat} (hst : Step pid a s s') (h : Misused f dummy calls pid (fun p => s.alive p = false) Spec Cut ok st0 s.log) :
    Misused f dummy calls pid (fun p => s'.alive p = false) Spec Cut ok st0 s'.log :=
  h.mono (dead_stays hst) (C19_real_time_order (.step .refl hst))

theorem DInv.accounts (H : Fragile f Spec Cut Inv CI ok) (hi : Init pid fuel (fun t => (calls t).map (callSession f writes dummy)) p0 s0) (hr : Reach pid s0 s)
    (hI : DInv f writes dummy calls pid Spec Cut CI p0 st0 s evs st G mc d es h) : Accounts f dummy calls pid Spec Cut Inv st0 s evs st := by
  obtain ⟨⟨h1, h2, h3, -, -⟩, ⟨e1, e2, e3⟩, hg, e4, e5, -⟩ := hI
  rw [h3] at e2
  refine ⟨⟨e1, e2, e3⟩, ?_, ?_⟩
  · intro t ht
    have hall := (C19_program_order hi hr t).2 ht
    rw [callSession_eq] at hall
    have hc := nDone_append hall [] [] rfl
    rw [List.append_nil, List.append_nil, nDone_nil, Nat.add_zero] at hc
    have hcount := hg.count t
    rw [h3, mineIn_log, hc] at hcount
    have hlen : (evsOf evs t).length ≤ (calls t).length := by
      have := congrArg List.length (e3 t).1
      rw [List.length_map, List.length_take] at this
      omega
    have hle : finished evs t ≤ (evsOf evs t).length := List.length_filter_le _ _
    have hfull : finished evs t = (evsOf evs t).length := by omega
    refine ⟨?_, fun o ho => ?_⟩
    · rw [(e3 t).1, List.take_of_length_le (by omega)]
    · have := List.length_filter_eq_length_iff.1 hfull _ ho
      cases this
  · intro hw
    have hm : s.mem = mc := by
      refine h2.idle fun t ht n b rem hs => hw t n ⟨ht, ?_⟩
      rw [h1.sec t ht, hs]; rfl
    rw [hm]
    obtain ⟨o, h3, h4, h5⟩ := rwp_run (repair_rwp e5)
    refine ⟨_, h, run_eta (h3.trans (by rw [h4]; rfl)), H.heal _ _ _ e4 h5, h5⟩

end

/-- a run of the system: `N` steps from `σ 0` to `σ N` -/
def Running {K : Mach} (pid : Nat → Nat) (N : Nat) (σ : Nat → St K) : Prop := ∀ i, i < N → ∃ a, Step pid a (σ i) (σ (i + 1))

theorem Running.reach {K : Mach} {pid : Nat → Nat} {N : Nat} {σ : Nat → St K} (h : Running pid N σ) : ∀ i, i ≤ N → Reach pid (σ 0) (σ i)
  | 0, _ => .refl
  | i + 1, hi => by
    obtain ⟨a, ha⟩ := h i hi
    exact (h.reach i (by omega)).step ha

/-- one history for a whole run, in which some steps may change nothing -/
theorem run_dinv (H : Fragile f Spec Cut Inv CI ok) {dummy : R}
    (hro : ∀ o, writes o = false → Ro (methodBody f o))
    {calls : Nat → List O} {pid : Nat → Nat} {fuel : Nat} {p0 : Pool} {h0 : Heap} {st0 : S}
    (hi0 : Inv st0 h0) (hs0 : Sim h0 p0) (hp : PidsOk pid) {σ : Nat → St (poolMach (Out R))} {N : Nat}
    (hi : Init pid fuel (fun t => (calls t).map (callSession f writes dummy)) p0 (σ 0)) (hrun : ∀ i, i < N → σ (i + 1) = σ i ∨ ∃ a, Step pid a (σ i) (σ (i + 1))) :
    (∃ (evs : List (Nat × Ev O R)) (n : Nat → Nat), (∀ i j, i ≤ j → j ≤ N → n i ≤ n j) ∧ n N = evs.length ∧
      ∀ i, i ≤ N → Reach pid (σ 0) (σ i) ∧ ∃ st G mc d es h, DInv f writes dummy calls pid Spec Cut CI p0 st0 (σ i) (evs.take (n i)) st G mc d es h) ∨
    Misused f dummy calls pid (fun p => (σ N).alive p = false) Spec Cut ok st0 (σ N).log := by
  have key : ∀ M, M ≤ N → (∃ (evs : List (Nat × Ev O R)) (n : Nat → Nat), (∀ i j, i ≤ j → j ≤ M → n i ≤ n j) ∧ n M = evs.length ∧
      (∀ i, i ≤ M → Reach pid (σ 0) (σ i) ∧ ∃ st G mc d es h, DInv f writes dummy calls pid Spec Cut CI p0 st0 (σ i) (evs.take (n i)) st G mc d es h)) ∨
      Misused f dummy calls pid (fun p => (σ M).alive p = false) Spec Cut ok st0 (σ M).log := by
    intro M
    induction M with
    | zero =>
      intro _
      obtain ⟨G, hI⟩ := DInv.init H hro hi0 hs0 hp hi
      refine Or.inl ⟨[], fun _ => 0, fun _ _ _ _ => Nat.le_refl 0, rfl, ?_⟩
      intro i hi'
      have : i = 0 := by omega
      subst this
      exact ⟨.refl, _, _, _, _, _, _, hI⟩
    | succ M ih =>
      intro hM
      rcases ih (by omega) with ⟨evs, n, h1, h2, h3⟩ | hm
      · obtain ⟨hr, st, G, mc, d, es, h, hI⟩ := h3 M (Nat.le_refl M)
        rw [h2, List.take_length] at hI
        have ext : ∀ evs' st' G' mc' d' es' h', Reach pid (σ 0) (σ (M + 1)) → evs <+: evs' → DInv f writes dummy calls pid Spec Cut CI p0 st0 (σ (M + 1)) evs' st' G' mc' d' es' h' →
            (∃ (evs : List (Nat × Ev O R)) (n : Nat → Nat), (∀ i j, i ≤ j → j ≤ M + 1 → n i ≤ n j) ∧ n (M + 1) = evs.length ∧
              (∀ i, i ≤ M + 1 → Reach pid (σ 0) (σ i) ∧ ∃ st G mc d es h, DInv f writes dummy calls pid Spec Cut CI p0 st0 (σ i) (evs.take (n i)) st G mc d es h)) := by
          intro evs' st' G' mc' d' es' h' hr' hpre hI'
          refine ⟨evs', fun i => if i ≤ M then n i else evs'.length, ?_, if_neg (by omega), ?_⟩
          · intro i j hij hj
            show (if i ≤ M then n i else evs'.length) ≤ if j ≤ M then n j else evs'.length
            have hle := hpre.length_le
            by_cases hjM : j ≤ M
            · rw [if_pos hjM, if_pos (by omega)]; exact h1 i j hij hjM
            · rw [if_neg hjM]
              split
              · have := h1 i M (by assumption) (Nat.le_refl M); omega
              · omega
          · intro i hi'
            show Reach pid (σ 0) (σ i) ∧ ∃ st G mc d es h, DInv f writes dummy calls pid Spec Cut CI p0 st0 (σ i) (evs'.take (if i ≤ M then n i else evs'.length)) st G mc d es h
            by_cases hiM : i ≤ M
            · rw [if_pos hiM]
              have hn := h1 i M hiM (Nat.le_refl M)
              obtain ⟨x, rfl⟩ := hpre
              rw [List.take_append_of_le_length (by omega)]
              exact h3 i hiM
            · have : i = M + 1 := by omega
              subst this
              rw [if_neg hiM, List.take_length]
              exact ⟨hr', _, _, _, _, _, _, hI'⟩
        rcases hrun M hM with e | ⟨a, ha⟩
        · exact Or.inl (ext evs st G mc d es h (e ▸ hr) List.prefix_rfl (e ▸ hI))
        · rcases hI.step H hp hi hr ha with ⟨evs', st', G', mc', d', es', h', hpre, hI'⟩ | hm
          · exact Or.inl (ext evs' st' G' mc' d' es' h' (hr.step ha) hpre hI')
          · exact Or.inr hm
      · rcases hrun M hM with e | ⟨a, ha⟩
        · exact Or.inr (e ▸ hm)
        · exact Or.inr (hm.step ha)
  exact key N (Nat.le_refl N)

/-- **C85: durable linearizability.** Threads of several processes call the methods of a structure; their memory accesses interleave in any way and any process may die at any time, also
inside a call or a repair.  Then there is one sequential history of the calls, finished or cut short, in which each thread's calls come in the order in which it makes them, each once: the
finished calls in the order in which they finished and with the results they returned, which are those of the specification; at most one call cut short per thread, the last one it made,
and only of threads whose process is dead.  At every moment of the run a first part of that history, which only grows, accounts for what has happened so far: so the order of calls that do not
overlap, also of those cut short, is the order in the history.  (Or a thread's next call was, at some time, one that may not be made in the state it found: `Misused`.) -/
theorem concurrent_run_durable (H : Fragile f Spec Cut Inv CI ok) {dummy : R}
    (hro : ∀ o, writes o = false → Ro (methodBody f o))
    {calls : Nat → List O} {pid : Nat → Nat} {fuel : Nat} {p0 : Pool} {h0 : Heap} {st0 : S}
    (hi0 : Inv st0 h0) (hs0 : Sim h0 p0) (hp : PidsOk pid) {σ : Nat → St (poolMach (Out R))} {N : Nat}
    (hi : Init pid fuel (fun t => (calls t).map (callSession f writes dummy)) p0 (σ 0)) (hrun : Running pid N σ) :
    (∃ (evs : List (Nat × Ev O R)) (n : Nat → Nat), (∀ i j, i ≤ j → j ≤ N → n i ≤ n j) ∧ n N = evs.length ∧ ∀ i, i ≤ N → ∃ st, Accounts f dummy calls pid Spec Cut Inv st0 (σ i) (evs.take (n i)) st) ∨
    Misused f dummy calls pid (fun p => (σ N).alive p = false) Spec Cut ok st0 (σ N).log := by
  rcases run_dinv H hro hi0 hs0 hp hi (fun i hi' => Or.inr (hrun i hi')) with ⟨evs, n, h1, h2, h3⟩ | hm
  · refine Or.inl ⟨evs, n, h1, h2, fun i hi' => ?_⟩
    obtain ⟨hr, st, G, mc, d, es, h, hI⟩ := h3 i hi'
    exact ⟨st, hI.accounts H hi hr⟩
  · exact Or.inr hm

/-- The same of a reachable state only. -/
theorem concurrent_calls_durable (H : Fragile f Spec Cut Inv CI ok) {dummy : R}
    (hro : ∀ o, writes o = false → Ro (methodBody f o))
    {calls : Nat → List O} {pid : Nat → Nat} {fuel : Nat} {p0 : Pool} {h0 : Heap} {st0 : S}
    (hi0 : Inv st0 h0) (hs0 : Sim h0 p0) (hp : PidsOk pid) {s0 s : St (poolMach (Out R))}
    (hi : Init pid fuel (fun t => (calls t).map (callSession f writes dummy)) p0 s0) (hr : Reach pid s0 s) :
    (∃ evs st, Accounts f dummy calls pid Spec Cut Inv st0 s evs st) ∨
    Misused f dummy calls pid (fun p => s.alive p = false) Spec Cut ok st0 s.log := by
  have key : (∃ evs st G mc d es h, DInv f writes dummy calls pid Spec Cut CI p0 st0 s evs st G mc d es h) ∨
      Misused f dummy calls pid (fun p => s.alive p = false) Spec Cut ok st0 s.log := by
    induction hr with
    | refl =>
      obtain ⟨G, hI⟩ := DInv.init H hro hi0 hs0 hp hi
      exact Or.inl ⟨_, _, _, _, _, _, _, hI⟩
    | step hr hst ih =>
      rcases ih with ⟨evs, st, G, mc, d, es, h, hI⟩ | hm
      · rcases hI.step H hp hi hr hst with ⟨evs', st', G', mc', d', es', h', -, hI'⟩ | hm
        · exact Or.inl ⟨_, _, _, _, _, _, _, hI'⟩
        · exact Or.inr hm
      · exact Or.inr (hm.step hst)
  rcases key with ⟨evs, st, G, mc, d, es, h, hI⟩ | hm
  · exact Or.inl ⟨evs, st, hI.accounts H hi hr⟩
  · exact Or.inr hm

end Verif.Lock
