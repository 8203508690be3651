import Verif.Conc
import Verif.PropsLockOrder
/-
Linearizability: the finished calls of all threads are an interleaving of what each thread called, and have the results of a sequential execution.
-/
namespace Verif.Lock
open Verif
variable {R O S : Type}

/-- What several threads that call methods (`calls t`: the calls of thread `t`) may see: there is one sequence `hist` of (thread, call, result) such that
its calls have these results one after another, from state `st0` to state `st`; `log`, the calls that finished, is this sequence; and
the calls of each thread in it are its first ones, in the order in which it made them. -/
structure Linear (Spec : S → O → Out R → S → Prop) (body : O → Body (poolMach (Out R))) (calls : Nat → List O) (st0 : S)
    (log : List (Nat × Option Kind × Body (poolMach (Out R)) × Res (Out R))) (hist : List (Nat × O × Out R)) (st : S) : Prop where
  seq : Trace Spec st0 (hist.map (·.2.1)) (hist.map (·.2.2)) st
  log : log.map (fun e => (e.1, e.2.2.1, e.2.2.2)) = hist.map fun x => (x.1, body x.2.1, Res.ok x.2.2)
  order : ∀ t, (hist.filter fun x => x.1 = t).map (·.2.1) <+: calls t

/-- one call after those of `hist` -/
theorem linear_run {Spec : S → O → Out R → S → Prop} {body : O → Body (poolMach (Out R))} {calls : Nat → List O} {J : List O → S → Pool → Prop} {p0 : Pool} {st0 : S}
    (hone : ∀ (hist : List (Nat × O)) (t : Nat) (o : O) (s : S) (p : Pool), (∀ u, ((hist ++ [(t, o)]).filter fun x => x.1 = u).map (·.2) <+: calls u) → J (hist.map (·.2)) s p →
      ∃ r p' s', Body.run (body o) p = (.ok r, p') ∧ Spec s o r s' ∧ J (hist.map (·.2) ++ [o]) s' p')
    (h0 : J [] st0 p0) : ∀ {l : List (Body (poolMach (Out R)) × Res (Out R))} {m : Pool}, SeqRun (K := poolMach (Out R)) p0 l m →
    ∀ (log : List (Nat × Option Kind × Body (poolMach (Out R)) × Res (Out R))), log.map (fun e => (e.2.2.1, e.2.2.2)) = l →
      (∀ t, ∃ n, (log.filter fun e => e.1 = t).map (·.2.2.1) = ((calls t).take n).map body) →
      ∃ hist st, Linear Spec body calls st0 log hist st ∧ J (hist.map (·.2.1)) st m := by
  intro l m hrun
  induction hrun with
  | nil =>
    intro log e _
    have e : log = [] := List.map_eq_nil_iff.1 e
    subst e
    exact ⟨[], st0, ⟨.nil _, rfl, fun t => by simp⟩, h0⟩
  | @snoc l m b r m' _ hb ih =>
    intro log e hall
    obtain ⟨log1, log2, rfl, e1, e2⟩ := List.map_eq_append_iff.1 e
    obtain ⟨x, rfl, e3⟩ := List.map_eq_singleton_iff.1 e2
    obtain ⟨t, kd, b', r'⟩ := x
    injection e3 with e3 e4
    subst e3 e4
    have hall1 : ∀ u, ∃ n, (log1.filter fun e => e.1 = u).map (·.2.2.1) = ((calls u).take n).map body := by
      intro u
      obtain ⟨n, hn⟩ := hall u
      rw [List.filter_append, List.map_append] at hn
      have hpre : (log1.filter fun e => e.1 = u).map (·.2.2.1) <+: ((calls u).take n).map body := hn ▸ List.prefix_append _ _
      have := List.prefix_iff_eq_take.1 hpre
      rw [← List.map_take, List.take_take] at this
      exact ⟨_, this⟩
    obtain ⟨hist, st, ⟨i1, i2, i3⟩, i4⟩ := ih log1 e1 hall1
    have hmine : ∀ u, (log1.filter fun e => e.1 = u).map (·.2.2.1) = (((hist.filter fun x => x.1 = u).map (·.2.1))).map body := by
      intro u
      have := congrArg (fun l => (l.filter fun e => e.1 = u).map (·.2.1)) i2
      simpa [List.filter_map, Function.comp_def] using this
    obtain ⟨n, hn⟩ := hall t
    have hlen : ((hist.filter fun x => x.1 = t).map (·.2.1)).length < n ∧ ∃ o, (calls t)[((hist.filter fun x => x.1 = t).map (·.2.1)).length]? = some o ∧ b' = body o := by
      rw [List.filter_append, List.map_append, hmine t] at hn
      simp only [List.filter_cons, decide_true, if_true, List.filter_nil, List.map_cons, List.map_nil] at hn
      have h2 := congrArg (fun l => l[((hist.filter fun x => x.1 = t).map (·.2.1)).length]?) hn
      simp only [List.getElem?_map] at h2
      rw [List.getElem?_append_right (by simp)] at h2
      simp only [List.length_map, Nat.sub_self, List.getElem?_cons_zero] at h2
      rw [List.getElem?_take] at h2
      split at h2
      · rename_i hlt
        obtain ⟨o, ho, h3⟩ := Option.map_eq_some_iff.1 h2.symm
        exact ⟨by simpa using hlt, o, by simpa using ho, h3.symm⟩
      · cases h2
    obtain ⟨-, o, ho, rfl⟩ := hlen
    have hord : ∀ u, ((hist.map (fun x => (x.1, x.2.1)) ++ [(t, o)]).filter fun x => x.1 = u).map (·.2) <+: calls u := by
      intro u
      have e0 : ((hist.map (fun x => (x.1, x.2.1))).filter fun x => x.1 = u).map (·.2) = (hist.filter fun x => x.1 = u).map (·.2.1) := by
        simp [List.filter_map, Function.comp_def]
      rw [List.filter_append, List.map_append, e0]
      by_cases e : t = u
      · subst e
        simp only [List.filter_cons, decide_true, if_true, List.filter_nil, List.map_cons, List.map_nil]
        have h1 := List.prefix_iff_eq_take.1 (i3 t)
        rw [List.prefix_iff_eq_take, List.length_append, List.length_singleton, List.take_succ, ho, ← h1]
        rfl
      · simpa [List.filter_cons, e] using i3 u
    have em : (hist.map (fun x => (x.1, x.2.1))).map (·.2) = hist.map (·.2.1) := by simp
    obtain ⟨(r1 : Out R), p1, s1, f1, f2, f3⟩ := hone (hist.map fun x => (x.1, x.2.1)) t o st m hord (em.symm ▸ i4)
    rw [hb] at f1
    injection f1 with f1 f1'
    subst f1'
    refine ⟨hist ++ [(t, o, r1)], s1, ⟨?_, ?_, ?_⟩, ?_⟩
    · rw [List.map_append, List.map_append]; exact Trace.snoc i1 f2
    · have f1 : r' = Res.ok r1 := f1
      subst f1
      rw [List.map_append, List.map_append, i2]; rfl
    · intro u
      have := hord u
      rw [List.filter_append, List.map_append] at this ⊢
      convert this using 2
      · simp [List.filter_map, Function.comp_def]
      · by_cases e : t = u <;> simp [List.filter_cons, e]
    · rw [List.map_append]
      rw [em] at f3
      exact f3

/-- **Linearizability of method calls.**  If a call that follows some of the calls answers as `Spec` says when it is not disturbed, then the calls of any number of threads in any number of
processes, in any interleaving of their memory accesses, none of them dying, are linearizable. -/
theorem linearizable {Spec : S → O → Out R → S → Prop} {body : O → Body (poolMach (Out R))} {rep : Body (poolMach (Out R))} {writes : O → Bool} {calls : Nat → List O}
    {J : List O → S → Pool → Prop} {p0 : Pool} {st0 : S}
    (hone : ∀ (hist : List (Nat × O)) (t : Nat) (o : O) (s : S) (p : Pool), (∀ u, ((hist ++ [(t, o)]).filter fun x => x.1 = u).map (·.2) <+: calls u) → J (hist.map (·.2)) s p →
      ∃ r p' s', Body.run (body o) p = (.ok r, p') ∧ Spec s o r s' ∧ J (hist.map (·.2) ++ [o]) s' p')
    (h0 : J [] st0 p0) (hro : ∀ o, writes o = false → Ro (body o)) {pid : Nat → Nat} {fuel : Nat} (hp : PidsOk pid) {s0 s : St (poolMach (Out R))}
    (hi : Init pid fuel (fun t => (calls t).map (sessionOf body rep writes)) p0 s0) (hr : Reach pid s0 s) (hal : ∀ t, s.alive (pid t) = true) :
    ∃ hist st, Linear Spec body calls st0 s.log hist st ∧
      (∀ t, s.th t = .ret () → (s.log.filter fun e => e.1 = t).map (·.2.2.1) = (calls t).map body) ∧
      ((∀ t n, s.st t ≠ some (.write n)) → J (hist.map (·.2.1)) st s.mem) := by
  have hro' : ReadOnly (fun t => (calls t).map (sessionOf body rep writes)) := by
    intro t se hse
    obtain ⟨o, -, rfl⟩ := List.mem_map.1 hse
    unfold sessionOf
    split
    · trivial
    · rename_i h; exact hro o (by simpa using h)
  obtain ⟨m, h1, -, h3⟩ := C19_sequential_partial hp hro' hi hr hal
  have hord := C19_calls_in_order hp hro' hi hr hal
  obtain ⟨hist, st, h4, h5⟩ := linear_run hone h0 h1 s.log rfl fun t => (hord t).1
  exact ⟨hist, st, h4, fun t => (hord t).2, fun h => by rw [h3 h]; exact h5⟩

end Verif.Lock
