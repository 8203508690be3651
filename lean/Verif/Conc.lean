import Verif.PropsLock
import Verif.HeapOk
/-
Data structures used by several threads at once: the protected memory is a pool, the protected operations are compiled methods.
-/
namespace Verif.Lock
open Verif

/-- one access to the pool (Raw.lean `run`); accesses outside the mapping do nothing (`pool_run` shows that none happens) -/
def pexec : (op : ROp) → Pool → RRe op × Pool
  | .rd a n, s => (if s.inb a n then leRd s.mem a n else 0, s)
  | .wr a n v, s => ((), if s.inb a n then { s with mem := leWr s.mem a n v } else s)
  | .rdB a n, s => (if s.inb a n then bsRd s.mem a n else [], s)
  | .wrB a bs, s => ((), if s.inb a bs.length then { s with mem := bsWr s.mem a bs } else s)
  | .trunc n, s => (decide (n ≤ s.lim), if n ≤ s.lim then s.trunc n else s)
  | .maxSize, s => (s.maxSize, s)

/-- the pool as a machine -/
def poolMach (R : Type) : Mach := ⟨ROp, RRe, Pool, pexec, R⟩

variable {R O S : Type}

theorem pool_run {p : RProg R} {Q : Out R → Pool → Prop} {I : Pool → Prop} : ∀ {s : Pool}, rwp p Q I s →
    ∃ o s', Body.run (K := poolMach R) p s = (Out.toRes o, s') ∧ Q o s' := by
  induction p with
  | ret a => intro s h; exact ⟨.ok a, s, rfl, h.2⟩
  | err e => intro s h; exact ⟨.err e, s, rfl, h.2⟩
  | ub => intro s h; exact h.elim
  | step op k ih =>
    intro s h
    show ∃ o s', Body.run (K := poolMach R) (k (pexec op s).1) (pexec op s).2 = _ ∧ _
    cases op with
    | rd a n => simp only [pexec, if_pos h.2.1]; exact ih _ h.2.2
    | wr a n v => simp only [pexec, if_pos h.2.1]; exact ih _ h.2.2
    | rdB a n => simp only [pexec, if_pos h.2.1]; exact ih _ h.2.2
    | wrB a bs => simp only [pexec, if_pos h.2.1]; exact ih _ h.2.2
    | trunc n =>
      by_cases hn : n ≤ s.lim
      · simp only [pexec, if_pos hn, decide_eq_true hn]; exact ih _ (h.2.1 hn)
      · simp only [pexec, if_neg hn, decide_eq_false hn]; exact ih _ (h.2.2 hn)
    | maxSize => exact ih _ h.2

theorem pool_after {Q : Out R → Pool → Prop} {I : Pool → Prop} (c : Nat) : ∀ {p : RProg R} {s : Pool}, rwp p Q I s →
    I (Body.after (K := poolMach R) c p s).2 := by
  induction c with
  | zero =>
    intro p s h
    have : (Body.after (K := poolMach R) 0 p s).2 = s := by cases p <;> rfl
    rw [this]
    exact rwp_inv h
  | succ c ih =>
    intro p s h
    cases p with
    | ret a => exact h.1
    | err e => exact h.1
    | ub => exact h.elim
    | step op k =>
      show I (Body.after (K := poolMach R) c (k (pexec op s).1) (pexec op s).2).2
      cases op with
      | rd a n => simp only [pexec, if_pos h.2.1]; exact ih h.2.2
      | wr a n v => simp only [pexec, if_pos h.2.1]; exact ih h.2.2
      | rdB a n => simp only [pexec, if_pos h.2.1]; exact ih h.2.2
      | wrB a bs => simp only [pexec, if_pos h.2.1]; exact ih h.2.2
      | trunc n =>
        by_cases hn : n ≤ s.lim
        · simp only [pexec, if_pos hn, decide_eq_true hn]; exact ih (h.2.1 hn)
        · simp only [pexec, if_neg hn, decide_eq_false hn]; exact ih (h.2.2 hn)
      | maxSize => exact ih h.2

/-- a method call on the pool, as the calling thread sees it (result or exception) -/
def methodBody (f : O → HProg R) (o : O) : Body (poolMach (Out R)) := compile (attempt (f o))

/-- the repair that follows a stolen lock (SimpleAllocator.cc 213-222); its result is not looked at -/
def repairBody (dummy : R) : Body (poolMach (Out R)) := Prog.bind Simple.repair fun _ => .ret (Out.ok dummy)

/-- the session of a method call: `lock(true)` for methods that write, `lock(false)` for the others -/
def callSession (f : O → HProg R) (writes : O → Bool) (dummy : R) (o : O) : Session (poolMach (Out R)) :=
  if writes o then .write (repairBody dummy) (methodBody f o) else .read (repairBody dummy) (methodBody f o)

theorem Trace.snoc {Spec : S → O → Out R → S → Prop} {s s1 s2 : S} {os : List O} {rs : List (Out R)} {o : O} {r : Out R}
    (h : Trace Spec s os rs s1) (hs : Spec s1 o r s2) : Trace Spec s (os ++ [o]) (rs ++ [r]) s2 := by
  induction h with
  | nil s => exact .cons hs (.nil _)
  | cons h1 _ ih => exact .cons h1 (ih hs)

/-- one call -/
theorem method_run {f : O → HProg R} {Spec : S → O → Out R → S → Prop} {Inv : S → Heap → Prop} {ok : O → Prop}
    (hstep : ∀ s o h, ok o → Inv s h → wp (f o) (fun out h' => ∃ s', Spec s o out s' ∧ Inv s' h') h)
    {o : O} (ho : ok o) {s : S} {h : Heap} {p : Pool} (hi : Inv s h) (hs : Sim h p) :
    ∃ (r : Out R) (p' : Pool) (s' : S) (h' : Heap), Body.run (methodBody f o) p = (.ok r, p') ∧ Spec s o r s' ∧ Inv s' h' ∧ Sim h' p' := by
  have hw : wp (attempt (f o)) (fun out h' => ∃ r s', out = .ok r ∧ Spec s o r s' ∧ Inv s' h') h := by
    rw [wp_attempt]
    refine wp_mono ?_ (hstep s o h ho hi)
    rintro out h' ⟨s', h1, h2⟩
    exact ⟨out, s', rfl, h1, h2⟩
  obtain ⟨out, p', h1, h', ⟨r, s', rfl, h2, h3⟩, h4⟩ := pool_run (sim hw (wp_always hw) hs)
  exact ⟨r, p', s', h', h1, h2, h3, h4⟩

/-- **C19 for a structure.** Threads call the methods of a structure that refines `Spec` sequentially, concurrently and in any interleaving of their
memory accesses, none of them dying.  Then the results of the finished calls, in the order they finished, are those of the sequential specification. -/
theorem concurrent_calls {f : O → HProg R} {Spec : S → O → Out R → S → Prop} {Inv : S → Heap → Prop} {ok : O → Prop} {writes : O → Bool} {dummy : R}
    (hstep : ∀ s o h, ok o → Inv s h → wp (f o) (fun out h' => ∃ s', Spec s o out s' ∧ Inv s' h') h)
    (hro : ∀ o, writes o = false → Ro (methodBody f o))
    {calls : Nat → List O} (hok : ∀ t, ∀ o ∈ calls t, ok o) {pid : Nat → Nat} {fuel : Nat} {p0 : Pool} {h0 : Heap} {st0 : S}
    (hi0 : Inv st0 h0) (hs0 : Sim h0 p0) (hp : PidsOk pid) {s0 s : St (poolMach (Out R))}
    (hi : Init pid fuel (fun t => (calls t).map (callSession f writes dummy)) p0 s0) (hr : Reach pid s0 s) (hal : ∀ t, s.alive (pid t) = true) :
    ∃ (ops : List O) (rs : List (Out R)) (st : S), Trace Spec st0 ops rs st ∧
      s.log.map (fun e => (e.2.2.1, e.2.2.2)) = (ops.zip rs).map (fun x => (methodBody f x.1, Res.ok x.2)) ∧ ops.length = rs.length ∧
      ((∀ t n, s.st t ≠ some (.write n)) → ∃ h, Inv st h ∧ Sim h s.mem) := by
  have hro' : ReadOnly (fun t => (calls t).map (callSession f writes dummy)) := by
    intro t se hse
    obtain ⟨o, -, rfl⟩ := List.mem_map.1 hse
    unfold callSession
    split
    · trivial
    · rename_i h; exact hro o (by simpa using h)
  obtain ⟨m, h1, h2, h3⟩ := C19_sequential_partial hp hro' hi hr hal
  have key : ∀ (l : List (Body (poolMach (Out R)) × Res (Out R))) (m : Pool), SeqRun (K := poolMach (Out R)) p0 l m →
      (∀ e ∈ l, ∃ o, ok o ∧ e.1 = methodBody f o) →
      ∃ (ops : List O) (rs : List (Out R)) (st : S) (h : Heap), Trace Spec st0 ops rs st ∧
        l = (ops.zip rs).map (fun x => (methodBody f x.1, Res.ok x.2)) ∧ ops.length = rs.length ∧ Inv st h ∧ Sim h m := by
    intro l m hrun
    induction hrun with
    | nil => intro _; exact ⟨[], [], st0, h0, .nil _, rfl, rfl, hi0, hs0⟩
    | snoc hl hb ih =>
      intro hall
      obtain ⟨ops, rs, st, h, e1, e2, e3, e4, e5⟩ := ih (fun e he => hall e (List.mem_append_left _ he))
      obtain ⟨o, ho, e6⟩ := hall _ (List.mem_append_right _ (List.mem_singleton.2 rfl))
      simp only at e6
      subst e6
      obtain ⟨r, p', st', h', f1, f2, f3, f4⟩ := method_run hstep ho e4 e5
      rw [hb] at f1
      injection f1 with f1 f1'
      subst f1'
      refine ⟨ops ++ [o], rs ++ [r], st', h', Trace.snoc e1 f2, ?_, by simp [e3], f3, f4⟩
      rw [e2, f1, List.zip_append e3, List.map_append]; rfl
  obtain ⟨ops, rs, st, h, e1, e2, e3, e4, e5⟩ := key _ m h1 (by
    intro e he
    obtain ⟨e', he', rfl⟩ := List.mem_map.1 he
    obtain ⟨kd, -, ⟨se, hse, hal⟩, hn⟩ := h2 e' he'
    obtain ⟨o, ho, rfl⟩ := List.mem_map.1 hse
    refine ⟨o, hok _ o ho, ?_⟩
    unfold callSession at hal
    split at hal
    · obtain ⟨n, hk, hb⟩ := hal
      have := hn n hk
      subst this
      exact hb
    · rcases hal with ⟨-, hb⟩ | ⟨n, hn0, hk, -⟩
      · exact hb
      · exact absurd (hn n hk) hn0)
  exact ⟨ops, rs, st, e1, e2, e3, fun h' => ⟨h, e4, by rw [h3 h']; exact e5⟩⟩

end Verif.Lock
