import Verif.Conc
/-
Data structures used by several processes at once, any of which may die at any point, also in the middle of a call.
-/
namespace Verif.Lock
open Verif
variable {R O S : Type}

/-- what happens to a structure: a call finishes, or a process dies inside a call -/
inductive Ev (O R : Type)
  | done (o : O) (r : Out R)
  | died (o : O)

/-- sequential histories with deaths: `Spec` for calls that finish; a call that is cut short leaves the state as it was or as `Cut` says -/
inductive CTrace (Spec : S → O → Out R → S → Prop) (Cut : S → O → S → Prop) (s : S) : List (Ev O R) → S → Prop
  | nil : CTrace Spec Cut s [] s
  | done {l s1 o r s2} : CTrace Spec Cut s l s1 → Spec s1 o r s2 → CTrace Spec Cut s (l ++ [.done o r]) s2
  | died {l s1 o s2} : CTrace Spec Cut s l s1 → (s2 = s1 ∨ Cut s1 o s2) → CTrace Spec Cut s (l ++ [.died o]) s2

/-- the finished calls of a history, with their results -/
def results : List (Ev O R) → List (O × Out R)
  | [] => []
  | .done o r :: l => (o, r) :: results l
  | .died _ :: l => results l

theorem results_append (l l' : List (Ev O R)) : results (l ++ l') = results l ++ results l' := by
  induction l with
  | nil => rfl
  | cons e l ih => cases e <;> simp [results, ih]

/-- the log of finished sections shows these calls and results: a section is a call, or a call after a repair, or (the first part of
a read-only call after a steal) a repair alone -/
inductive Logged (f : O → HProg R) (dummy : R) (calls : Nat → List O) :
    List (Nat × Option Kind × Body (poolMach (Out R)) × Verif.Res (Out R)) → List (O × Out R) → Prop
  | nil : Logged f dummy calls [] []
  | call {l cs t kd o r} : Logged f dummy calls l cs → o ∈ calls t → Logged f dummy calls (l ++ [(t, some kd, methodBody f o, .ok r)]) (cs ++ [(o, r)])
  | repaired {l cs t n o r} : Logged f dummy calls l cs → o ∈ calls t → n ≠ 0 →
      Logged f dummy calls (l ++ [(t, some (.write n), (repairBody dummy).bind fun _ => methodBody f o, .ok r)]) (cs ++ [(o, r)])
  | repair {l cs t n} : Logged f dummy calls l cs → n ≠ 0 → Logged f dummy calls (l ++ [(t, some (.write n), repairBody dummy, .ok (.ok dummy))]) cs

theorem always_bind_ret {α β : Type} {p : HProg α} {g : α → β} {I : Heap → Prop} : ∀ {h}, always p I h → always (p.bind fun a => .ret (g a)) I h := by
  induction p with
  | ret a => exact fun h => h
  | err e => exact fun h => h
  | ub => exact fun h => h
  | step op k ih =>
    intro h hw
    cases op with
    | alloc n => exact ⟨hw.1, hw.2.1, fun o d hf => ih _ (hw.2.2.1 o d hf), ih _ hw.2.2.2⟩
    | getBase => exact ⟨hw.1, ih _ hw.2⟩
    | setBase => exact ⟨hw.1, hw.2.1, ih _ hw.2.2⟩
    | free | bsize => obtain ⟨h0, b, h1, h2⟩ := hw; exact ⟨h0, b, h1, ih _ h2⟩
    | rd | wr | rdB | wrB => obtain ⟨h0, b, h1, h2, h3⟩ := hw; exact ⟨h0, b, h1, h2, ih _ h3⟩

theorem always_tryCatch {α : Type} {p : HProg α} {g : Err → α} {I : Heap → Prop} : ∀ {h}, always p I h → always (p.tryCatch fun e => .ret (g e)) I h := by
  induction p with
  | ret a => exact fun h => h
  | err e => exact fun h => h
  | ub => exact fun h => h
  | step op k ih =>
    intro h hw
    cases op with
    | alloc n => exact ⟨hw.1, hw.2.1, fun o d hf => ih _ (hw.2.2.1 o d hf), ih _ hw.2.2.2⟩
    | getBase => exact ⟨hw.1, ih _ hw.2⟩
    | setBase => exact ⟨hw.1, hw.2.1, ih _ hw.2.2⟩
    | free | bsize => obtain ⟨h0, b, h1, h2⟩ := hw; exact ⟨h0, b, h1, ih _ h2⟩
    | rd | wr | rdB | wrB => obtain ⟨h0, b, h1, h2, h3⟩ := hw; exact ⟨h0, b, h1, h2, ih _ h3⟩

theorem always_mono {α : Type} {p : HProg α} {I I' : Heap → Prop} (hI : ∀ h, I h → I' h) : ∀ {h}, always p I h → always p I' h := by
  induction p with
  | ret a => exact fun h => hI _ h
  | err e => exact fun h => hI _ h
  | ub => exact fun h => h
  | step op k ih =>
    intro h hw
    cases op with
    | alloc n => exact ⟨hI _ hw.1, hw.2.1, fun o d hf => ih _ (hw.2.2.1 o d hf), ih _ hw.2.2.2⟩
    | getBase => exact ⟨hI _ hw.1, ih _ hw.2⟩
    | setBase => exact ⟨hI _ hw.1, hw.2.1, ih _ hw.2.2⟩
    | free | bsize => obtain ⟨h0, b, h1, h2⟩ := hw; exact ⟨hI _ h0, b, h1, ih _ h2⟩
    | rd | wr | rdB | wrB => obtain ⟨h0, b, h1, h2, h3⟩ := hw; exact ⟨hI _ h0, b, h1, h2, ih _ h3⟩

theorem always_attempt {p : HProg R} {I : Heap → Prop} {h : Heap} (ha : always p I h) : always (attempt p) I h :=
  always_tryCatch (always_bind_ret ha)

/-- repair, also when it is cut short -/
theorem repair_rwp {h : Heap} {p : Pool} (hs : CSim h p) :
    rwp Simple.repair (fun out p' => out = .ok () ∧ Sim h p') (fun p' => CSim h p') p := by
  obtain ⟨L, h1, h2⟩ := hs
  refine rwp_mono ?_ ?_ (Simple.repair_spec h1)
  · rintro out p' ⟨e, h3, h4, -⟩; exact ⟨e, L, h3, h2.keep h4 (fun _ h => h)⟩
  · rintro p' ⟨h3, h4, -⟩; exact ⟨L, h3, h2.keep h4 (fun _ h => h)⟩

/-- What must be shown of a structure: each call refines `Spec`, and whatever prefix of it has been executed, `CI` holds of a state as `Cut` says.
`CI` is the invariant without the allocator's part, which repair restores. -/
structure Crashable (f : O → HProg R) (Spec : S → O → Out R → S → Prop) (Cut : S → O → S → Prop) (Inv CI : S → Heap → Prop) (ok : O → Prop) : Prop where
  step : ∀ s o h, ok o → Inv s h → wp (f o) (fun out h' => ∃ s', Spec s o out s' ∧ Inv s' h') h
  cut : ∀ s o h, ok o → Inv s h → always (f o) (fun h' => ∃ s', (s' = s ∨ Cut s o s') ∧ CI s' h') h
  weak : ∀ s h, Inv s h → CI s h
  heal : ∀ s h p, CI s h → Sim h p → Inv s h

variable {f : O → HProg R} {Spec : S → O → Out R → S → Prop} {Cut : S → O → S → Prop} {Inv CI : S → Heap → Prop} {ok : O → Prop}

/-- a call, also when it is cut short -/
theorem Crashable.method (H : Crashable f Spec Cut Inv CI ok) {o : O} (ho : ok o) {s : S} {h : Heap} {p : Pool} (hi : Inv s h) (hs : Sim h p) :
    rwp (methodBody f o) (fun out p' => ∃ r s' h', out = .ok r ∧ Spec s o r s' ∧ Inv s' h' ∧ Sim h' p')
      (fun p' => ∃ s' h', (s' = s ∨ Cut s o s') ∧ CI s' h' ∧ CSim h' p') p := by
  have hw : wp (attempt (f o)) (fun out h' => ∃ r s', out = .ok r ∧ Spec s o r s' ∧ Inv s' h') h := by
    rw [wp_attempt]
    refine wp_mono ?_ (H.step s o h ho hi)
    rintro out h' ⟨s', h1, h2⟩
    exact ⟨out, s', rfl, h1, h2⟩
  refine rwp_mono ?_ ?_ (sim hw (always_attempt (H.cut s o h ho hi)) hs)
  · rintro out p' ⟨h', ⟨r, s', e, h1, h2⟩, h3⟩; exact ⟨r, s', h', e, h1, h2, h3⟩
  · rintro p' ⟨h', ⟨s', h1, h2⟩, h3⟩; exact ⟨s', h', h1, h2, h3⟩

theorem repair_bind {dummy : R} (q : RProg (Out R)) :
    (Prog.bind (repairBody dummy : RProg (Out R)) fun _ => q) = Prog.bind Simple.repair fun _ => q :=
  Prog.bind_assoc Simple.repair (fun _ => .ret (Out.ok dummy)) (fun _ => q)

theorem Crashable.repaired (H : Crashable f Spec Cut Inv CI ok) {dummy : R} {o : O} (ho : ok o) {s : S} {h : Heap} {p : Pool} (hi : CI s h) (hs : CSim h p) :
    rwp (Prog.bind (repairBody dummy) fun _ => methodBody f o) (fun out p' => ∃ r s' h', out = .ok r ∧ Spec s o r s' ∧ Inv s' h' ∧ Sim h' p')
      (fun p' => ∃ s' h', (s' = s ∨ Cut s o s') ∧ CI s' h' ∧ CSim h' p') p := by
  refine Eq.mpr (congrArg (fun q => rwp q _ _ p) (repair_bind (dummy := dummy) (methodBody f o))) ?_
  refine rwp_bind_of (repair_rwp hs) ?_ ?_ (by rintro e s' ⟨h, -⟩; cases h)
  · intro p' h1; exact ⟨s, h, Or.inl rfl, hi, h1⟩
  · rintro a p' ⟨-, h1⟩
    exact H.method ho (H.heal _ _ _ hi h1) h1

theorem repairBody_rwp {dummy : R} {h : Heap} {p : Pool} (hs : CSim h p) :
    rwp (repairBody dummy) (fun out p' => out = .ok (.ok dummy) ∧ Sim h p') (fun p' => CSim h p') p := by
  unfold repairBody
  refine rwp_bind_of (repair_rwp hs) (fun _ h => h) ?_ (by rintro e s' ⟨h, -⟩; cases h)
  rintro a p' ⟨-, h1⟩
  exact ⟨h1.csim, rfl, h1⟩

/-- the invariant of the serial execution -/
theorem serial_calls (H : Crashable f Spec Cut Inv CI ok) {writes : O → Bool} {dummy : R} {calls : Nat → List O} (hok : ∀ t, ∀ o ∈ calls t, ok o)
    {pid : Nat → Nat} {D : Nat → Prop} {p0 : Pool} {h0 : Heap} {st0 : S} (hi0 : Inv st0 h0) (hs0 : Sim h0 p0)
    {log : List (Nat × Option Kind × Body (poolMach (Out R)) × Verif.Res (Out R))} {m : Pool} {d : Bool} {T : Prop} (hT : T)
    (hser : Serial (K := poolMach (Out R)) pid T (Allowed (fun t => (calls t).map (callSession f writes dummy))) D p0 log m d) :
    ∃ (evs : List (Ev O R)) (st : S) (h : Heap), CTrace Spec Cut st0 evs st ∧ Logged f dummy calls log (results evs) ∧
      (∀ o, .died o ∈ evs → ∃ t, o ∈ calls t ∧ D (pid t)) ∧ CI st h ∧ CSim h m ∧ (d = false → Sim h m) := by
  induction hser with
  | nil => exact ⟨[], st0, h0, .nil, .nil, (fun o h => by cases h), H.weak _ _ hi0, hs0.csim, fun _ => hs0⟩
  | @done log m d t kd b r m' hser hA hrun hd hD ih =>
    obtain ⟨evs, st, h, h1, h2, h3, h4, h5, h6⟩ := ih
    obtain ⟨se, hse, hal⟩ := hA
    obtain ⟨o, ho, rfl⟩ := List.mem_map.1 hse
    have hdied : ∀ (r : Out R) o', Ev.died o' ∈ evs ++ [Ev.done o r] → ∃ t, o' ∈ calls t ∧ D (pid t) := by
      intro r o' ho'
      rcases List.mem_append.1 ho' with h7 | h7
      · exact h3 o' h7
      · simp at h7
    have fin : b = methodBody f o → d = false → ∃ (evs : List (Ev O R)) (st : S) (h : Heap), CTrace Spec Cut st0 evs st ∧
        Logged f dummy calls (log ++ [(t, some kd, b, r)]) (results evs) ∧
        (∀ o, .died o ∈ evs → ∃ t, o ∈ calls t ∧ D (pid t)) ∧ CI st h ∧ CSim h m' ∧ (false = false → Sim h m') := by
      intro hb hd0
      subst hb
      have hs := h6 hd0
      obtain ⟨out, p', e1, r', st', h', rfl, e2, e3, e4⟩ := pool_run (H.method (hok t o ho) (H.heal _ _ _ h4 hs) hs)
      obtain ⟨e6, e7⟩ := Prod.mk.inj (hrun.symm.trans e1)
      subst e7
      subst e6
      refine ⟨evs ++ [.done o r'], st', h', .done h1 e2, ?_, hdied r', H.weak _ _ e3, e4.csim, fun _ => e4⟩
      rw [results_append]
      exact .call h2 ho
    have fin2 : ∀ n, n ≠ 0 → kd = .write n → b = (repairBody dummy).bind (fun _ => methodBody f o) → ∃ (evs : List (Ev O R)) (st : S) (h : Heap), CTrace Spec Cut st0 evs st ∧
        Logged f dummy calls (log ++ [(t, some kd, b, r)]) (results evs) ∧
        (∀ o, .died o ∈ evs → ∃ t, o ∈ calls t ∧ D (pid t)) ∧ CI st h ∧ CSim h m' ∧ (false = false → Sim h m') := by
      intro n hn hk hb
      subst hb
      subst hk
      obtain ⟨out, p', e1, r', st', h', rfl, e2, e3, e4⟩ := pool_run (H.repaired (dummy := dummy) (hok t o ho) h4 h5)
      obtain ⟨e6, e7⟩ := Prod.mk.inj (hrun.symm.trans e1)
      subst e7
      subst e6
      refine ⟨evs ++ [.done o r'], st', h', .done h1 e2, ?_, hdied r', H.weak _ _ e3, e4.csim, fun _ => e4⟩
      rw [results_append]
      exact .repaired h2 ho hn
    have hd0 : (∀ n, n ≠ 0 → kd ≠ .write n) → d = false := by
      intro hk
      cases hdd : d with
      | false => rfl
      | true => obtain ⟨n, hn, e⟩ := hd hT hdd; exact absurd e (hk n hn)
    unfold callSession at hal
    split at hal
    · obtain ⟨n, hk, hb⟩ := hal
      by_cases hn : n = 0
      · subst hn
        refine fin ?_ (hd0 ?_)
        · rw [hb]; unfold afterSteal; rw [if_neg (by simp)]
        · rintro n hn rfl; injection hk with hk; exact hn hk
      · refine fin2 n hn hk ?_
        rw [hb]; unfold afterSteal; rw [if_pos hn]
    · rcases hal with ⟨hk, hb⟩ | ⟨n, hn, hk, hb⟩
      · refine fin hb (hd0 ?_)
        rintro n hn rfl; cases hk
      · subst hb
        subst hk
        obtain ⟨out, p', e1, rfl, e2⟩ := pool_run (repairBody_rwp (R := R) (dummy := dummy) h5)
        obtain ⟨e6, e7⟩ := Prod.mk.inj (hrun.symm.trans e1)
        subst e7
        subst e6
        exact ⟨evs, st, h, h1, .repair h2 hn, h3, h4, e2.csim, fun _ => e2⟩
  | @crash log m d t n b c hser hA hDt hd hD ih =>
    obtain ⟨evs, st, h, h1, h2, h3, h4, h5, h6⟩ := ih
    obtain ⟨se, hse, hal⟩ := hA
    obtain ⟨o, ho, rfl⟩ := List.mem_map.1 hse
    have hdied : ∀ o', Ev.died o' ∈ evs ++ [Ev.died o] → ∃ t, o' ∈ calls t ∧ D (pid t) := by
      intro o' ho'
      rcases List.mem_append.1 ho' with h7 | h7
      · exact h3 o' h7
      · simp only [List.mem_singleton, Ev.died.injEq] at h7; subst h7; exact ⟨t, ho, hDt⟩
    have fin : (∃ s' h', (s' = st ∨ Cut st o s') ∧ CI s' h' ∧ CSim h' (Body.after (K := poolMach (Out R)) c b m).2) →
        ∃ (evs : List (Ev O R)) (st : S) (h : Heap), CTrace Spec Cut st0 evs st ∧ Logged f dummy calls log (results evs) ∧
        (∀ o, .died o ∈ evs → ∃ t, o ∈ calls t ∧ D (pid t)) ∧ CI st h ∧ CSim h (Body.after (K := poolMach (Out R)) c b m).2 ∧
          (true = false → Sim h (Body.after (K := poolMach (Out R)) c b m).2) := by
      rintro ⟨s', h', e1, e2, e3⟩
      refine ⟨evs ++ [.died o], s', h', .died h1 e1, ?_, hdied, e2, e3, fun h => by cases h⟩
      rw [results_append]
      simpa [results] using h2
    unfold callSession at hal
    split at hal
    · obtain ⟨n', hk, hb⟩ := hal
      injection hk with hk
      subst hk
      by_cases hn : n = 0
      · subst hn
        have hd0 : d = false := by
          cases hdd : d with
          | false => rfl
          | true => exact absurd rfl (hd hT hdd)
        have hs := h6 hd0
        have := pool_after c (H.method (hok t o ho) (H.heal _ _ _ h4 hs) hs)
        refine fin ?_
        rw [hb]; unfold afterSteal; rw [if_neg (by simp)]
        exact this
      · refine fin ?_
        rw [hb]; unfold afterSteal; rw [if_pos hn]
        exact pool_after c (H.repaired (dummy := dummy) (hok t o ho) h4 h5)
    · rcases hal with ⟨hk, hb⟩ | ⟨n', hn, hk, hb⟩
      · cases hk
      · subst hb
        refine fin ⟨st, h, Or.inl rfl, h4, ?_⟩
        exact pool_after c (repairBody_rwp (R := R) (dummy := dummy) h5)

/-- **C19 for a structure, with deaths.** Threads of several processes call the methods of a structure; their memory accesses interleave in any way and any
process may die at any time, also inside a call or a repair.  There is a sequential history with deaths that explains it: the finished calls, in the order they finished, have the results of
the specification; each death inside a call leaves the state it found or one that `Cut` allows; and as long as no (live) process is writing, a repair succeeds and
leaves the structure in the state in which that history ends. -/
theorem concurrent_calls_crash (H : Crashable f Spec Cut Inv CI ok) {writes : O → Bool} {dummy : R}
    (hro : ∀ o, writes o = false → Ro (methodBody f o))
    {calls : Nat → List O} (hok : ∀ t, ∀ o ∈ calls t, ok o) {pid : Nat → Nat} {fuel : Nat} {p0 : Pool} {h0 : Heap} {st0 : S}
    (hi0 : Inv st0 h0) (hs0 : Sim h0 p0) (hp : PidsOk pid) {s0 s : St (poolMach (Out R))}
    (hi : Init pid fuel (fun t => (calls t).map (callSession f writes dummy)) p0 s0) (hr : Reach pid s0 s) :
    ∃ (evs : List (Ev O R)) (st : S), CTrace Spec Cut st0 evs st ∧ Logged f dummy calls s.log (results evs) ∧
      (∀ o, .died o ∈ evs → ∃ t, o ∈ calls t ∧ s.alive (pid t) = false) ∧
      ((∀ t n, ¬ s.inside pid t (.write n)) → ∃ p' h, run Simple.repair s.mem = (.ok (), p') ∧ Inv st h ∧ Sim h p') := by
  have hro' : ReadOnly (fun t => (calls t).map (callSession f writes dummy)) := by
    intro t se hse
    obtain ⟨o, -, rfl⟩ := List.mem_map.1 hse
    unfold callSession
    split
    · trivial
    · rename_i h; exact hro o (by simpa using h)
  have hna : NoAny (fun t => (calls t).map (callSession f writes dummy)) := by
    intro t se hse
    obtain ⟨o, -, rfl⟩ := List.mem_map.1 hse
    unfold callSession
    split <;> exact fun h => h
  obtain ⟨m, d, h1, h2, -⟩ := C19_serializable_partial hp hro' hi hr
  obtain ⟨evs, st, h, e1, e2, e3, e4, e5, -⟩ := serial_calls H hok hi0 hs0 hna h1
  refine ⟨evs, st, e1, e2, ?_, ?_⟩
  · intro o ho; obtain ⟨t, h3, h4⟩ := e3 o ho; exact ⟨t, h3, h4.2⟩
  · intro hw
    rw [h2 hw]
    obtain ⟨o, h3, h4, h5⟩ := rwp_run (repair_rwp e5)
    refine ⟨_, h, run_eta (h3.trans (by rw [h4]; rfl)), H.heal _ _ _ e4 h5, h5⟩

end Verif.Lock
