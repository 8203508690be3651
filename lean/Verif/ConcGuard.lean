import Verif.ConcCrash
/-
Data structures used by several processes at once, any of which may die, when the structure can be damaged by a death: the calls that may be made depend on the
state of the structure.
-/
namespace Verif.Lock
open Verif
variable {R O S : Type}

/-- As `Crashable`, but only of the calls that may be made in the state in which they start (`ok s o`): each refines `Spec`, and whatever prefix of it has been executed, `CI` holds of a state
as `Cut` says. -/
structure Fragile (f : O → HProg R) (Spec : S → O → Out R → S → Prop) (Cut : S → O → S → Prop) (Inv CI : S → Heap → Prop) (ok : S → O → Prop) : Prop where
  step : ∀ s o h, ok s o → Inv s h → wp (f o) (fun out h' => ∃ s', Spec s o out s' ∧ Inv s' h') h
  cut : ∀ s o h, ok s o → Inv s h → always (f o) (fun h' => ∃ s', (s' = s ∨ Cut s o s') ∧ CI s' h') h
  weak : ∀ s h, Inv s h → CI s h
  heal : ∀ s h p, CI s h → Sim h p → Inv s h

variable {f : O → HProg R} {Spec : S → O → Out R → S → Prop} {Cut : S → O → S → Prop} {Inv CI : S → Heap → Prop} {ok : S → O → Prop}

/-- a call, also when it is cut short -/
theorem Fragile.method (H : Fragile f Spec Cut Inv CI ok) {o : O} {s : S} (ho : ok s o) {h : Heap} {p : Pool} (hi : Inv s h) (hs : Sim h p) :
    rwp (methodBody f o) (fun out p' => ∃ r s' h', out = .ok r ∧ Spec s o r s' ∧ Inv s' h' ∧ Sim h' p')
      (fun p' => ∃ s' h', (s' = s ∨ Cut s o s') ∧ CI s' h' ∧ CSim h' p') p := by
  have hw : wp (attempt (f o)) (fun out h' => ∃ r s', out = .ok r ∧ Spec s o r s' ∧ Inv s' h') h := by
    rw [wp_attempt]
    refine wp_mono ?_ (H.step s o h ho hi)
    rintro out h' ⟨s', h1, h2⟩
    exact ⟨out, s', rfl, h1, h2⟩
  refine rwp_mono ?_ ?_ (sim hw (always_attempt (H.cut s o h ho hi)) hs)
  · rintro out p' ⟨h', ⟨r, s', e, h1, h2⟩, h3⟩; exact ⟨r, s', h', e, h1, h2, h3⟩
  · rintro p' ⟨h', ⟨s', h1, h2⟩, h3⟩; exact ⟨s', h', h1, h2, h3⟩

theorem Fragile.repaired (H : Fragile f Spec Cut Inv CI ok) {dummy : R} {o : O} {s : S} (ho : ok s o) {h : Heap} {p : Pool} (hi : CI s h) (hs : CSim h p) :
    rwp (Prog.bind (repairBody dummy) fun _ => methodBody f o) (fun out p' => ∃ r s' h', out = .ok r ∧ Spec s o r s' ∧ Inv s' h' ∧ Sim h' p')
      (fun p' => ∃ s' h', (s' = s ∨ Cut s o s') ∧ CI s' h' ∧ CSim h' p') p := by
  refine Eq.mpr (congrArg (fun q => rwp q _ _ p) (repair_bind (dummy := dummy) (methodBody f o))) ?_
  refine rwp_bind_of (repair_rwp hs) ?_ ?_ (by rintro e s' ⟨h, -⟩; cases h)
  · intro p' h1; exact ⟨s, h, Or.inl rfl, hi, h1⟩
  · rintro a p' ⟨-, h1⟩
    exact H.method ho (H.heal _ _ _ hi h1) h1

/-- a sequential history with deaths that explains the log `log`: the finished calls, in the order they finished, have the results of `Spec`; the calls cut short are of processes in `D` -/
def Explains (f : O → HProg R) (dummy : R) (calls : Nat → List O) (pid : Nat → Nat) (D : Nat → Prop) (Spec : S → O → Out R → S → Prop) (Cut : S → O → S → Prop) (st0 : S)
    (log : List (Nat × Option Kind × Body (poolMach (Out R)) × Verif.Res (Out R))) (evs : List (Ev O R)) (st : S) : Prop :=
  CTrace Spec Cut st0 evs st ∧ Logged f dummy calls log (results evs) ∧ ∀ o, .died o ∈ evs → ∃ t, o ∈ calls t ∧ D (pid t)

/-- a call has been made in a state in which it may not be made; what finished before it is explained by `evs` -/
def Spoilt (f : O → HProg R) (dummy : R) (calls : Nat → List O) (pid : Nat → Nat) (D : Nat → Prop) (Spec : S → O → Out R → S → Prop) (Cut : S → O → S → Prop) (ok : S → O → Prop) (st0 : S)
    (log : List (Nat × Option Kind × Body (poolMach (Out R)) × Verif.Res (Out R))) : Prop :=
  ∃ l1 evs st t o, l1 <+: log ∧ Explains f dummy calls pid D Spec Cut st0 l1 evs st ∧ o ∈ calls t ∧ ¬ ok st o

/-- the invariant of the serial execution -/
theorem serial_guarded (H : Fragile f Spec Cut Inv CI ok) {writes : O → Bool} {dummy : R} {calls : Nat → List O}
    {pid : Nat → Nat} {D : Nat → Prop} {p0 : Pool} {h0 : Heap} {st0 : S} (hi0 : Inv st0 h0) (hs0 : Sim h0 p0)
    {log : List (Nat × Option Kind × Body (poolMach (Out R)) × Verif.Res (Out R))} {m : Pool} {d : Bool} {T : Prop} (hT : T)
    (hser : Serial (K := poolMach (Out R)) pid T (Allowed (fun t => (calls t).map (callSession f writes dummy))) D p0 log m d) :
    (∃ evs st h, Explains f dummy calls pid D Spec Cut st0 log evs st ∧ CI st h ∧ CSim h m ∧ (d = false → Sim h m)) ∨
    Spoilt f dummy calls pid D Spec Cut ok st0 log := by
  induction hser with
  | nil => exact Or.inl ⟨[], st0, h0, ⟨.nil, .nil, (fun o h => by cases h)⟩, H.weak _ _ hi0, hs0.csim, fun _ => hs0⟩
  | @done log m d t kd b r m' hser hA hrun hd hD ih =>
    rcases ih with ⟨evs, st, h, ⟨h1, h2, h3⟩, h4, h5, h6⟩ | ⟨l1, evs, st, t', o, hp, he, ho, hno⟩
    case inr => exact Or.inr ⟨l1, evs, st, t', o, hp.trans (List.prefix_append _ _), he, ho, hno⟩
    obtain ⟨se, hse, hal⟩ := hA
    obtain ⟨o, ho, rfl⟩ := List.mem_map.1 hse
    by_cases hok : ok st o
    case neg => exact Or.inr ⟨log, evs, st, t, o, List.prefix_append _ _, ⟨h1, h2, h3⟩, ho, hok⟩
    refine Or.inl ?_
    have hdied : ∀ (r : Out R) o', Ev.died o' ∈ evs ++ [Ev.done o r] → ∃ t, o' ∈ calls t ∧ D (pid t) := by
      intro r o' ho'
      rcases List.mem_append.1 ho' with h7 | h7
      · exact h3 o' h7
      · simp at h7
    have fin : b = methodBody f o → d = false → ∃ (evs : List (Ev O R)) (st : S) (h : Heap),
        Explains f dummy calls pid D Spec Cut st0 (log ++ [(t, some kd, b, r)]) evs st ∧ CI st h ∧ CSim h m' ∧ (false = false → Sim h m') := by
      intro hb hd0
      subst hb
      have hs := h6 hd0
      obtain ⟨out, p', e1, r', st', h', rfl, e2, e3, e4⟩ := pool_run (H.method hok (H.heal _ _ _ h4 hs) hs)
      obtain ⟨e6, e7⟩ := Prod.mk.inj (hrun.symm.trans e1)
      subst e7
      subst e6
      refine ⟨evs ++ [.done o r'], st', h', ⟨.done h1 e2, ?_, hdied r'⟩, H.weak _ _ e3, e4.csim, fun _ => e4⟩
      rw [results_append]
      exact .call h2 ho
    have fin2 : ∀ n, n ≠ 0 → kd = .write n → b = (repairBody dummy).bind (fun _ => methodBody f o) → ∃ (evs : List (Ev O R)) (st : S) (h : Heap),
        Explains f dummy calls pid D Spec Cut st0 (log ++ [(t, some kd, b, r)]) evs st ∧ CI st h ∧ CSim h m' ∧ (false = false → Sim h m') := by
      intro n hn hk hb
      subst hb
      subst hk
      obtain ⟨out, p', e1, r', st', h', rfl, e2, e3, e4⟩ := pool_run (H.repaired (dummy := dummy) hok h4 h5)
      obtain ⟨e6, e7⟩ := Prod.mk.inj (hrun.symm.trans e1)
      subst e7
      subst e6
      refine ⟨evs ++ [.done o r'], st', h', ⟨.done h1 e2, ?_, hdied r'⟩, H.weak _ _ e3, e4.csim, fun _ => e4⟩
      rw [results_append]
      exact .repaired h2 ho hn
    have hd0 : (∀ n, n ≠ 0 → kd ≠ .write n) → d = false := by
      intro hk
      cases hdd : d with
      | false => rfl
      | true => obtain ⟨n, hn, e⟩ := hd hT hdd; exact absurd e (hk n hn)
    unfold callSession at hal
    split at hal
    · obtain ⟨n, hk, hb⟩ := hal
      by_cases hn : n = 0
      · subst hn
        refine fin ?_ (hd0 ?_)
        · rw [hb]; unfold afterSteal; rw [if_neg (by simp)]
        · rintro n hn rfl; injection hk with hk; exact hn hk
      · refine fin2 n hn hk ?_
        rw [hb]; unfold afterSteal; rw [if_pos hn]
    · rcases hal with ⟨hk, hb⟩ | ⟨n, hn, hk, hb⟩
      · refine fin hb (hd0 ?_)
        rintro n hn rfl; cases hk
      · subst hb
        subst hk
        obtain ⟨out, p', e1, rfl, e2⟩ := pool_run (repairBody_rwp (R := R) (dummy := dummy) h5)
        obtain ⟨e6, e7⟩ := Prod.mk.inj (hrun.symm.trans e1)
        subst e7
        subst e6
        exact ⟨evs, st, h, ⟨h1, .repair h2 hn, h3⟩, h4, e2.csim, fun _ => e2⟩
  | @crash log m d t n b c hser hA hDt hd hD ih =>
    rcases ih with ⟨evs, st, h, ⟨h1, h2, h3⟩, h4, h5, h6⟩ | ⟨l1, evs, st, t', o, hp, he, ho, hno⟩
    case inr => exact Or.inr ⟨l1, evs, st, t', o, hp, he, ho, hno⟩
    obtain ⟨se, hse, hal⟩ := hA
    obtain ⟨o, ho, rfl⟩ := List.mem_map.1 hse
    by_cases hok : ok st o
    case neg => exact Or.inr ⟨log, evs, st, t, o, List.prefix_rfl, ⟨h1, h2, h3⟩, ho, hok⟩
    refine Or.inl ?_
    have hdied : ∀ o', Ev.died o' ∈ evs ++ [Ev.died o] → ∃ t, o' ∈ calls t ∧ D (pid t) := by
      intro o' ho'
      rcases List.mem_append.1 ho' with h7 | h7
      · exact h3 o' h7
      · simp only [List.mem_singleton, Ev.died.injEq] at h7; subst h7; exact ⟨t, ho, hDt⟩
    have fin : (∃ s' h', (s' = st ∨ Cut st o s') ∧ CI s' h' ∧ CSim h' (Body.after (K := poolMach (Out R)) c b m).2) →
        ∃ (evs : List (Ev O R)) (st : S) (h : Heap), Explains f dummy calls pid D Spec Cut st0 log evs st ∧ CI st h ∧ CSim h (Body.after (K := poolMach (Out R)) c b m).2 ∧
          (true = false → Sim h (Body.after (K := poolMach (Out R)) c b m).2) := by
      rintro ⟨s', h', e1, e2, e3⟩
      refine ⟨evs ++ [.died o], s', h', ⟨.died h1 e1, ?_, hdied⟩, e2, e3, fun h => by cases h⟩
      rw [results_append]
      simpa [results] using h2
    unfold callSession at hal
    split at hal
    · obtain ⟨n', hk, hb⟩ := hal
      injection hk with hk
      subst hk
      by_cases hn : n = 0
      · subst hn
        have hd0 : d = false := by
          cases hdd : d with
          | false => rfl
          | true => exact absurd rfl (hd hT hdd)
        have hs := h6 hd0
        have := pool_after c (H.method hok (H.heal _ _ _ h4 hs) hs)
        refine fin ?_
        rw [hb]; unfold afterSteal; rw [if_neg (by simp)]
        exact this
      · refine fin ?_
        rw [hb]; unfold afterSteal; rw [if_pos hn]
        exact pool_after c (H.repaired (dummy := dummy) hok h4 h5)
    · rcases hal with ⟨hk, hb⟩ | ⟨n', hn, hk, hb⟩
      · cases hk
      · subst hb
        refine fin ⟨st, h, Or.inl rfl, h4, ?_⟩
        exact pool_after c (repairBody_rwp (R := R) (dummy := dummy) h5)

/-- **C55 for a structure that deaths can damage.** Threads of several processes call the methods of a structure; their memory accesses interleave in any way and any process may die at any
time, also inside a call or a repair.  Either a sequential history with deaths explains it: the finished calls, in the order they finished, have the results of the specification; each death
inside a call leaves the state it found or one that `Cut` allows; and as long as no (live) process is writing, a repair succeeds and leaves the structure in the state in which that history
ends.  Or, at some time, the history so far ended in a state in which some thread then made a call that may not be made in it (`Spoilt`). -/
theorem concurrent_calls_guarded (H : Fragile f Spec Cut Inv CI ok) {writes : O → Bool} {dummy : R}
    (hro : ∀ o, writes o = false → Ro (methodBody f o))
    {calls : Nat → List O} {pid : Nat → Nat} {fuel : Nat} {p0 : Pool} {h0 : Heap} {st0 : S}
    (hi0 : Inv st0 h0) (hs0 : Sim h0 p0) (hp : PidsOk pid) {s0 s : St (poolMach (Out R))}
    (hi : Init pid fuel (fun t => (calls t).map (callSession f writes dummy)) p0 s0) (hr : Reach pid s0 s) :
    (∃ evs st, Explains f dummy calls pid (fun p => s.alive p = false) Spec Cut st0 s.log evs st ∧
      ((∀ t n, ¬ s.inside pid t (.write n)) → ∃ p' h, run Simple.repair s.mem = (.ok (), p') ∧ Inv st h ∧ Sim h p')) ∨
    Spoilt f dummy calls pid (fun p => s.alive p = false) Spec Cut ok st0 s.log := by
  have hro' : ReadOnly (fun t => (calls t).map (callSession f writes dummy)) := by
    intro t se hse
    obtain ⟨o, -, rfl⟩ := List.mem_map.1 hse
    unfold callSession
    split
    · trivial
    · rename_i h; exact hro o (by simpa using h)
  have hna : NoAny (fun t => (calls t).map (callSession f writes dummy)) := by
    intro t se hse
    obtain ⟨o, -, rfl⟩ := List.mem_map.1 hse
    unfold callSession
    split <;> exact fun h => h
  obtain ⟨m, d, h1, h2, -⟩ := C19_serializable_partial hp hro' hi hr
  rcases serial_guarded H hi0 hs0 hna h1 with ⟨evs, st, h, ⟨e1, e2, e3⟩, e4, e5, -⟩ | ⟨l1, evs, st, t, o, hp, ⟨e1, e2, e3⟩, ho, hno⟩
  · refine Or.inl ⟨evs, st, ⟨e1, e2, fun o ho => ?_⟩, ?_⟩
    · obtain ⟨t, h3, h4⟩ := e3 o ho; exact ⟨t, h3, h4.2⟩
    · intro hw
      rw [h2 hw]
      obtain ⟨o, h3, h4, h5⟩ := rwp_run (repair_rwp e5)
      refine ⟨_, h, run_eta (h3.trans (by rw [h4]; rfl)), H.heal _ _ _ e4 h5, h5⟩
  · refine Or.inr ⟨l1, evs, st, t, o, hp, ⟨e1, e2, fun o ho => ?_⟩, ho, hno⟩
    obtain ⟨t, h3, h4⟩ := e3 o ho; exact ⟨t, h3, h4.2⟩

/-- The same when the threads make no call that may not be made: whatever sequential history with deaths of processes that did die there has been, `ok` holds of every call in the state it left. -/
theorem concurrent_calls_kept (H : Fragile f Spec Cut Inv CI ok) {writes : O → Bool} {dummy : R}
    (hro : ∀ o, writes o = false → Ro (methodBody f o))
    {calls : Nat → List O} {pid : Nat → Nat} {fuel : Nat} {p0 : Pool} {h0 : Heap} {st0 : S}
    (hi0 : Inv st0 h0) (hs0 : Sim h0 p0) (hp : PidsOk pid) {s0 s : St (poolMach (Out R))}
    (hi : Init pid fuel (fun t => (calls t).map (callSession f writes dummy)) p0 s0) (hr : Reach pid s0 s)
    (hk : ∀ evs st, CTrace Spec Cut st0 evs st → (∀ o, Ev.died (R := R) o ∈ evs → ∃ t, o ∈ calls t ∧ s.alive (pid t) = false) → ∀ t, ∀ o ∈ calls t, ok st o) :
    ∃ evs st, Explains f dummy calls pid (fun p => s.alive p = false) Spec Cut st0 s.log evs st ∧
      ((∀ t n, ¬ s.inside pid t (.write n)) → ∃ p' h, run Simple.repair s.mem = (.ok (), p') ∧ Inv st h ∧ Sim h p') := by
  rcases concurrent_calls_guarded H hro hi0 hs0 hp hi hr with h | ⟨l1, evs, st, t, o, -, ⟨e1, -, e3⟩, ho, hno⟩
  · exact h
  · exact absurd (hk evs st e1 e3 t o ho) hno

end Verif.Lock
