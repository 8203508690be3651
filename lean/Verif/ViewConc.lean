import Verif.View
/-
The theorems of Conc.lean and ConcCrash.lean for bodies other than the compiled methods, and their use for methods that run with a mapping of their own.
-/
namespace Verif.Lock
open Verif
variable {R O S : Type}

/-- the session of a call with the given bodies for the call and for the repair -/
def bodySession (mb : O → Body (poolMach (Out R))) (rb : Body (poolMach (Out R))) (writes : O → Bool) (o : O) : Session (poolMach (Out R)) :=
  if writes o then .write rb (mb o) else .read rb (mb o)

/-- the log of finished sections shows these calls and results: a section is a call, or a call after a repair, or (the first part of
a read-only call after a steal) a repair alone -/
inductive LoggedB (mb : O → Body (poolMach (Out R))) (rb : Body (poolMach (Out R))) (dummy : R) (calls : Nat → List O) :
    List (Nat × Option Kind × Body (poolMach (Out R)) × Verif.Res (Out R)) → List (O × Out R) → Prop
  | nil : LoggedB mb rb dummy calls [] []
  | call {l cs t kd o r} : LoggedB mb rb dummy calls l cs → o ∈ calls t → LoggedB mb rb dummy calls (l ++ [(t, some kd, mb o, .ok r)]) (cs ++ [(o, r)])
  | repaired {l cs t n o r} : LoggedB mb rb dummy calls l cs → o ∈ calls t → n ≠ 0 →
      LoggedB mb rb dummy calls (l ++ [(t, some (.write n), rb.bind fun _ => mb o, .ok r)]) (cs ++ [(o, r)])
  | repair {l cs t n} : LoggedB mb rb dummy calls l cs → n ≠ 0 → LoggedB mb rb dummy calls (l ++ [(t, some (.write n), rb, .ok (.ok dummy))]) cs


/-- what the bodies must satisfy; see `Crashable` -/
structure BodyCrash (mb : O → Body (poolMach (Out R))) (rb : Body (poolMach (Out R))) (dummy : R) (Spec : S → O → Out R → S → Prop) (Cut : S → O → S → Prop) (Inv CI : S → Heap → Prop)
    (ok : O → Prop) : Prop where
  method : ∀ {o}, ok o → ∀ {s h p}, Inv s h → Sim h p → rwp (mb o) (fun out p' => ∃ r s' h', out = .ok r ∧ Spec s o r s' ∧ Inv s' h' ∧ Sim h' p')
      (fun p' => ∃ s' h', (s' = s ∨ Cut s o s') ∧ CI s' h' ∧ CSim h' p') p
  repaired : ∀ {o}, ok o → ∀ {s h p}, CI s h → CSim h p → rwp (Prog.bind rb fun _ => mb o) (fun out p' => ∃ r s' h', out = .ok r ∧ Spec s o r s' ∧ Inv s' h' ∧ Sim h' p')
      (fun p' => ∃ s' h', (s' = s ∨ Cut s o s') ∧ CI s' h' ∧ CSim h' p') p
  repair : ∀ {h p}, CSim h p → rwp rb (fun out p' => out = .ok (.ok dummy) ∧ Sim h p') (fun p' => CSim h p') p
  weak : ∀ s h, Inv s h → CI s h
  heal : ∀ s h p, CI s h → Sim h p → Inv s h

variable {mb : O → Body (poolMach (Out R))} {rb : Body (poolMach (Out R))} {dummy : R} {Spec : S → O → Out R → S → Prop} {Cut : S → O → S → Prop} {Inv CI : S → Heap → Prop} {ok : O → Prop}

/-- the invariant of the serial execution -/
theorem serial_bodies (H : BodyCrash mb rb dummy Spec Cut Inv CI ok) {writes : O → Bool} {calls : Nat → List O} (hok : ∀ t, ∀ o ∈ calls t, ok o)
    {pid : Nat → Nat} {D : Nat → Prop} {p0 : Pool} {h0 : Heap} {st0 : S} (hi0 : Inv st0 h0) (hs0 : Sim h0 p0)
    {log : List (Nat × Option Kind × Body (poolMach (Out R)) × Verif.Res (Out R))} {m : Pool} {d : Bool} {T : Prop} (hT : T)
    (hser : Serial (K := poolMach (Out R)) pid T (Allowed (fun t => (calls t).map (bodySession mb rb writes))) D p0 log m d) :
    ∃ (evs : List (Ev O R)) (st : S) (h : Heap), CTrace Spec Cut st0 evs st ∧ LoggedB mb rb dummy calls log (results evs) ∧
      (∀ o, .died o ∈ evs → ∃ t, o ∈ calls t ∧ D (pid t)) ∧ CI st h ∧ CSim h m ∧ (d = false → Sim h m) := by
  induction hser with
  | nil => exact ⟨[], st0, h0, .nil, .nil, (fun o h => by cases h), H.weak _ _ hi0, hs0.csim, fun _ => hs0⟩
  | @done log m d t kd b r m' hser hA hrun hd hD ih =>
    obtain ⟨evs, st, h, h1, h2, h3, h4, h5, h6⟩ := ih
    obtain ⟨se, hse, hal⟩ := hA
    obtain ⟨o, ho, rfl⟩ := List.mem_map.1 hse
    have hdied : ∀ (r : Out R) o', Ev.died o' ∈ evs ++ [Ev.done o r] → ∃ t, o' ∈ calls t ∧ D (pid t) := by
      intro r o' ho'
      rcases List.mem_append.1 ho' with h7 | h7
      · exact h3 o' h7
      · simp at h7
    have fin : b = mb o → d = false → ∃ (evs : List (Ev O R)) (st : S) (h : Heap), CTrace Spec Cut st0 evs st ∧
        LoggedB mb rb dummy calls (log ++ [(t, some kd, b, r)]) (results evs) ∧
        (∀ o, .died o ∈ evs → ∃ t, o ∈ calls t ∧ D (pid t)) ∧ CI st h ∧ CSim h m' ∧ (false = false → Sim h m') := by
      intro hb hd0
      subst hb
      have hs := h6 hd0
      obtain ⟨out, p', e1, r', st', h', rfl, e2, e3, e4⟩ := pool_run (H.method (hok t o ho) (H.heal _ _ _ h4 hs) hs)
      obtain ⟨e6, e7⟩ := Prod.mk.inj (hrun.symm.trans e1)
      subst e7
      subst e6
      refine ⟨evs ++ [.done o r'], st', h', .done h1 e2, ?_, hdied r', H.weak _ _ e3, e4.csim, fun _ => e4⟩
      rw [results_append]
      exact .call h2 ho
    have fin2 : ∀ n, n ≠ 0 → kd = .write n → b = rb.bind (fun _ => mb o) → ∃ (evs : List (Ev O R)) (st : S) (h : Heap), CTrace Spec Cut st0 evs st ∧
        LoggedB mb rb dummy calls (log ++ [(t, some kd, b, r)]) (results evs) ∧
        (∀ o, .died o ∈ evs → ∃ t, o ∈ calls t ∧ D (pid t)) ∧ CI st h ∧ CSim h m' ∧ (false = false → Sim h m') := by
      intro n hn hk hb
      subst hb
      subst hk
      obtain ⟨out, p', e1, r', st', h', rfl, e2, e3, e4⟩ := pool_run (H.repaired (hok t o ho) h4 h5)
      obtain ⟨e6, e7⟩ := Prod.mk.inj (hrun.symm.trans e1)
      subst e7
      subst e6
      refine ⟨evs ++ [.done o r'], st', h', .done h1 e2, ?_, hdied r', H.weak _ _ e3, e4.csim, fun _ => e4⟩
      rw [results_append]
      exact .repaired h2 ho hn
    have hd0 : (∀ n, n ≠ 0 → kd ≠ .write n) → d = false := by
      intro hk
      cases hdd : d with
      | false => rfl
      | true => obtain ⟨n, hn, e⟩ := hd hT hdd; exact absurd e (hk n hn)
    unfold bodySession at hal
    split at hal
    · obtain ⟨n, hk, hb⟩ := hal
      by_cases hn : n = 0
      · subst hn
        refine fin ?_ (hd0 ?_)
        · rw [hb]; unfold afterSteal; rw [if_neg (by simp)]
        · rintro n hn rfl; injection hk with hk; exact hn hk
      · refine fin2 n hn hk ?_
        rw [hb]; unfold afterSteal; rw [if_pos hn]
    · rcases hal with ⟨hk, hb⟩ | ⟨n, hn, hk, hb⟩
      · refine fin hb (hd0 ?_)
        rintro n hn rfl; cases hk
      · subst hb
        subst hk
        obtain ⟨out, p', e1, rfl, e2⟩ := pool_run (H.repair h5)
        obtain ⟨e6, e7⟩ := Prod.mk.inj (hrun.symm.trans e1)
        subst e7
        subst e6
        exact ⟨evs, st, h, h1, .repair h2 hn, h3, h4, e2.csim, fun _ => e2⟩
  | @crash log m d t n b c hser hA hDt hd hD ih =>
    obtain ⟨evs, st, h, h1, h2, h3, h4, h5, h6⟩ := ih
    obtain ⟨se, hse, hal⟩ := hA
    obtain ⟨o, ho, rfl⟩ := List.mem_map.1 hse
    have hdied : ∀ o', Ev.died o' ∈ evs ++ [Ev.died o] → ∃ t, o' ∈ calls t ∧ D (pid t) := by
      intro o' ho'
      rcases List.mem_append.1 ho' with h7 | h7
      · exact h3 o' h7
      · simp only [List.mem_singleton, Ev.died.injEq] at h7; subst h7; exact ⟨t, ho, hDt⟩
    have fin : (∃ s' h', (s' = st ∨ Cut st o s') ∧ CI s' h' ∧ CSim h' (Body.after (K := poolMach (Out R)) c b m).2) →
        ∃ (evs : List (Ev O R)) (st : S) (h : Heap), CTrace Spec Cut st0 evs st ∧ LoggedB mb rb dummy calls log (results evs) ∧
        (∀ o, .died o ∈ evs → ∃ t, o ∈ calls t ∧ D (pid t)) ∧ CI st h ∧ CSim h (Body.after (K := poolMach (Out R)) c b m).2 ∧
          (true = false → Sim h (Body.after (K := poolMach (Out R)) c b m).2) := by
      rintro ⟨s', h', e1, e2, e3⟩
      refine ⟨evs ++ [.died o], s', h', .died h1 e1, ?_, hdied, e2, e3, fun h => by cases h⟩
      rw [results_append]
      simpa [results] using h2
    unfold bodySession at hal
    split at hal
    · obtain ⟨n', hk, hb⟩ := hal
      injection hk with hk
      subst hk
      by_cases hn : n = 0
      · subst hn
        have hd0 : d = false := by
          cases hdd : d with
          | false => rfl
          | true => exact absurd rfl (hd hT hdd)
        have hs := h6 hd0
        have := pool_after c (H.method (hok t o ho) (H.heal _ _ _ h4 hs) hs)
        refine fin ?_
        rw [hb]; unfold afterSteal; rw [if_neg (by simp)]
        exact this
      · refine fin ?_
        rw [hb]; unfold afterSteal; rw [if_pos hn]
        exact pool_after c (H.repaired (hok t o ho) h4 h5)
    · rcases hal with ⟨hk, hb⟩ | ⟨n', hn, hk, hb⟩
      · cases hk
      · subst hb
        refine fin ⟨st, h, Or.inl rfl, h4, ?_⟩
        exact pool_after c (H.repair h5)

/-- **C19 for a structure, with deaths.** Threads of several processes call the methods of a structure; their memory accesses interleave in any way and any
process may die at any time, also inside a call or a repair.  There is a sequential history with deaths that explains it: the finished calls, in the order they finished, have the results of
the specification; each death inside a call leaves the state it found or one that `Cut` allows; and as long as no (live) process is writing, a repair succeeds and
leaves the structure in the state in which that history ends. -/
theorem concurrent_bodies_crash (H : BodyCrash mb rb dummy Spec Cut Inv CI ok) {writes : O → Bool}
    (hro : ∀ o, writes o = false → Ro (mb o))
    {calls : Nat → List O} (hok : ∀ t, ∀ o ∈ calls t, ok o) {pid : Nat → Nat} {fuel : Nat} {p0 : Pool} {h0 : Heap} {st0 : S}
    (hi0 : Inv st0 h0) (hs0 : Sim h0 p0) (hp : PidsOk pid) {s0 s : St (poolMach (Out R))}
    (hi : Init pid fuel (fun t => (calls t).map (bodySession mb rb writes)) p0 s0) (hr : Reach pid s0 s) :
    ∃ (evs : List (Ev O R)) (st : S), CTrace Spec Cut st0 evs st ∧ LoggedB mb rb dummy calls s.log (results evs) ∧
      (∀ o, .died o ∈ evs → ∃ t, o ∈ calls t ∧ s.alive (pid t) = false) ∧
      ((∀ t n, ¬ s.inside pid t (.write n)) → ∃ p' h, run Simple.repair s.mem = (.ok (), p') ∧ Inv st h ∧ Sim h p') := by
  have hro' : ReadOnly (fun t => (calls t).map (bodySession mb rb writes)) := by
    intro t se hse
    obtain ⟨o, -, rfl⟩ := List.mem_map.1 hse
    unfold bodySession
    split
    · trivial
    · rename_i h; exact hro o (by simpa using h)
  have hna : NoAny (fun t => (calls t).map (bodySession mb rb writes)) := by
    intro t se hse
    obtain ⟨o, -, rfl⟩ := List.mem_map.1 hse
    unfold bodySession
    split <;> exact fun h => h
  obtain ⟨m, d, h1, h2, -⟩ := C19_serializable_partial hp hro' hi hr
  obtain ⟨evs, st, h, e1, e2, e3, e4, e5, -⟩ := serial_bodies H hok hi0 hs0 hna h1
  refine ⟨evs, st, e1, e2, ?_, ?_⟩
  · intro o ho; obtain ⟨t, h3, h4⟩ := e3 o ho; exact ⟨t, h3, h4.2⟩
  · intro hw
    rw [h2 hw]
    obtain ⟨o, h3, h4, h5⟩ := rwp_run (repair_rwp e5)
    refine ⟨_, h, run_eta (h3.trans (by rw [h4]; rfl)), H.heal _ _ _ e4 h5, h5⟩

/-- **C19 for a structure.** Threads call the methods of a structure that refines `Spec` sequentially, concurrently and in any interleaving of their
memory accesses, none of them dying.  Then the results of the finished calls, in the order they finished, are those of the sequential specification. -/
theorem concurrent_bodies {writes : O → Bool}
    (hm : ∀ {o}, ok o → ∀ {s h p}, Inv s h → Sim h p → ∃ (r : Out R) (p' : Pool) (s' : S) (h' : Heap), Body.run (mb o) p = (.ok r, p') ∧ Spec s o r s' ∧ Inv s' h' ∧ Sim h' p')
    (hro : ∀ o, writes o = false → Ro (mb o))
    {calls : Nat → List O} (hok : ∀ t, ∀ o ∈ calls t, ok o) {pid : Nat → Nat} {fuel : Nat} {p0 : Pool} {h0 : Heap} {st0 : S}
    (hi0 : Inv st0 h0) (hs0 : Sim h0 p0) (hp : PidsOk pid) {s0 s : St (poolMach (Out R))}
    (hi : Init pid fuel (fun t => (calls t).map (bodySession mb rb writes)) p0 s0) (hr : Reach pid s0 s) (hal : ∀ t, s.alive (pid t) = true) :
    ∃ (ops : List O) (rs : List (Out R)) (st : S), Trace Spec st0 ops rs st ∧
      s.log.map (fun e => (e.2.2.1, e.2.2.2)) = (ops.zip rs).map (fun x => (mb x.1, Res.ok x.2)) ∧ ops.length = rs.length ∧
      ((∀ t n, s.st t ≠ some (.write n)) → ∃ h, Inv st h ∧ Sim h s.mem) := by
  have hro' : ReadOnly (fun t => (calls t).map (bodySession mb rb writes)) := by
    intro t se hse
    obtain ⟨o, -, rfl⟩ := List.mem_map.1 hse
    unfold bodySession
    split
    · trivial
    · rename_i h; exact hro o (by simpa using h)
  obtain ⟨m, h1, h2, h3⟩ := C19_sequential_partial hp hro' hi hr hal
  have key : ∀ (l : List (Body (poolMach (Out R)) × Res (Out R))) (m : Pool), SeqRun (K := poolMach (Out R)) p0 l m →
      (∀ e ∈ l, ∃ o, ok o ∧ e.1 = mb o) →
      ∃ (ops : List O) (rs : List (Out R)) (st : S) (h : Heap), Trace Spec st0 ops rs st ∧
        l = (ops.zip rs).map (fun x => (mb x.1, Res.ok x.2)) ∧ ops.length = rs.length ∧ Inv st h ∧ Sim h m := by
    intro l m hrun
    induction hrun with
    | nil => intro _; exact ⟨[], [], st0, h0, .nil _, rfl, rfl, hi0, hs0⟩
    | snoc hl hb ih =>
      intro hall
      obtain ⟨ops, rs, st, h, e1, e2, e3, e4, e5⟩ := ih (fun e he => hall e (List.mem_append_left _ he))
      obtain ⟨o, ho, e6⟩ := hall _ (List.mem_append_right _ (List.mem_singleton.2 rfl))
      simp only at e6
      subst e6
      obtain ⟨r, p', st', h', f1, f2, f3, f4⟩ := hm ho e4 e5
      rw [hb] at f1
      injection f1 with f1 f1'
      subst f1'
      refine ⟨ops ++ [o], rs ++ [r], st', h', Trace.snoc e1 f2, ?_, by simp [e3], f3, f4⟩
      rw [e2, f1, List.zip_append e3, List.map_append]; rfl
  obtain ⟨ops, rs, st, h, e1, e2, e3, e4, e5⟩ := key _ m h1 (by
    intro e he
    obtain ⟨e', he', rfl⟩ := List.mem_map.1 he
    obtain ⟨kd, -, ⟨se, hse, hal⟩, hn⟩ := h2 e' he'
    obtain ⟨o, ho, rfl⟩ := List.mem_map.1 hse
    refine ⟨o, hok _ o ho, ?_⟩
    unfold bodySession at hal
    split at hal
    · obtain ⟨n, hk, hb⟩ := hal
      have := hn n hk
      subst this
      exact hb
    · rcases hal with ⟨-, hb⟩ | ⟨n, hn0, hk, -⟩
      · exact hb
      · exact absurd (hn n hk) hn0)
  exact ⟨ops, rs, st, e1, e2, e3, fun h' => ⟨h, e4, by rw [h3 h']; exact e5⟩⟩

/-! ### Calls with a mapping of their own -/

theorem CSim.geo {h : Heap} {p : Pool} (hs : CSim h p) : Simple.Geo p := by
  obtain ⟨L, h1, -⟩ := hs
  exact h1.geo

/-- a call: the mapping is refreshed, then the method runs in it (SimpleAllocator.cc 201-223) -/
def viewBody (f : O → HProg R) (o : O) : Body (poolMach (Out R)) := remapped (methodBody f o)

/-- a repair -/
def viewRepair (dummy : R) : Body (poolMach (Out R)) := remapped (repairBody dummy)

/-- the session of a method call -/
def viewSession (f : O → HProg R) (writes : O → Bool) (dummy : R) (o : O) : Session (poolMach (Out R)) := bodySession (viewBody f) (viewRepair dummy) writes o

theorem ro_ite {c : Prop} [Decidable c] {p q : RProg (Out R)} (hp : Ro (K := poolMach (Out R)) p) (hq : Ro (K := poolMach (Out R)) q) : Ro (K := poolMach (Out R)) (if c then p else q) := by
  by_cases h : c
  · exact Eq.mpr (congrArg (Ro (K := poolMach (Out R))) (if_pos h)) hp
  · exact Eq.mpr (congrArg (Ro (K := poolMach (Out R))) (if_neg h)) hq

theorem viewed_ro : ∀ (p : RProg (Out R)) (v : Nat), Ro (K := poolMach (Out R)) p → Ro (K := poolMach (Out R)) (viewed p v) := by
  have hrd : ∀ (k : Nat → RProg (Out R)), (∀ v, Ro (K := poolMach (Out R)) (k v)) → Ro (K := poolMach (Out R)) (.step (.rd 0 8) k) := fun k hk => ⟨fun _ => rfl, hk⟩
  intro p
  induction p with
  | ret a => intro v h; exact h
  | err e => intro v h; exact h
  | ub => intro v h; exact h
  | step op k ih =>
    intro v h
    have h2 : ∀ x, Ro (K := poolMach (Out R)) (k x) := h.2
    cases op with
    | rd a n => exact ro_ite ⟨h.1, fun x => ih x v (h2 x)⟩ trivial
    | rdB a n => exact ro_ite ⟨h.1, fun x => ih x v (h2 x)⟩ trivial
    | wr a n x => exact ro_ite ⟨h.1, fun u => ro_ite (hrd _ fun v' => ih _ _ (h2 u)) (ih _ _ (h2 u))⟩ trivial
    | wrB a bs => exact ro_ite ⟨h.1, fun u => ro_ite (hrd _ fun v' => ih _ _ (h2 u)) (ih _ _ (h2 u))⟩ trivial
    | trunc n => exact ⟨h.1, fun x => ih x v (h2 x)⟩
    | maxSize => exact ⟨h.1, fun x => ih x v (h2 x)⟩

theorem viewBody_ro {f : O → HProg R} {o : O} (h : Ro (methodBody f o)) : Ro (viewBody f o) := ⟨fun _ => rfl, fun v => viewed_ro _ v h⟩

theorem Crashable.view {f : O → HProg R} (H : Crashable f Spec Cut Inv CI ok) : BodyCrash (viewBody f) (viewRepair dummy) dummy Spec Cut Inv CI ok where
  method := fun ho _ _ _ hi hs => remapped_rwp (by rintro p ⟨s', h', -, -, h⟩; exact CSim.geo h) (H.method ho hi hs)
  repaired := by
    intro o ho s h p hi hs
    refine rwp_bind_of (remapped_rwp (fun _ h => CSim.geo h) (repairBody_rwp (dummy := dummy) hs)) ?_ ?_ (by rintro e s' ⟨h, -⟩; cases h)
    · intro p' h1; exact ⟨s, h, Or.inl rfl, hi, h1⟩
    · rintro a p' ⟨-, h1⟩
      exact remapped_rwp (by rintro p ⟨s', h', -, -, h⟩; exact CSim.geo h) (H.method ho (H.heal _ _ _ hi h1) h1)
  repair := fun hs => remapped_rwp (fun _ h => CSim.geo h) (repairBody_rwp hs)
  weak := H.weak
  heal := H.heal

theorem view_run {f : O → HProg R} (hstep : ∀ s o h, ok o → Inv s h → wp (f o) (fun out h' => ∃ s', Spec s o out s' ∧ Inv s' h') h)
    {o : O} (ho : ok o) {s : S} {h : Heap} {p : Pool} (hi : Inv s h) (hs : Sim h p) :
    ∃ (r : Out R) (p' : Pool) (s' : S) (h' : Heap), Body.run (viewBody f o) p = (.ok r, p') ∧ Spec s o r s' ∧ Inv s' h' ∧ Sim h' p' := by
  have hw : wp (attempt (f o)) (fun out h' => ∃ r s', out = .ok r ∧ Spec s o r s' ∧ Inv s' h') h := by
    rw [wp_attempt]
    refine wp_mono ?_ (hstep s o h ho hi)
    rintro out h' ⟨s', h1, h2⟩
    exact ⟨out, s', rfl, h1, h2⟩
  obtain ⟨out, p', h1, h', ⟨r, s', rfl, h2, h3⟩, h4⟩ := pool_run (remapped_rwp (by rintro p ⟨h', -, h⟩; exact CSim.geo h) (sim hw (wp_always hw) hs))
  exact ⟨r, p', s', h', h1, h2, h3, h4⟩

end Verif.Lock
