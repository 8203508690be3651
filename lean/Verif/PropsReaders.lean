import Verif.ConcGuard
import Verif.PropsConc
import Verif.PropsCrash
import Verif.PropsPrefixTree
import Verif.PropsHashTableCrash
import Verif.PropsPrioQueue
import Verif.PropsOpening
/-
C81: processes that only read may die at any time without harm.
-/
namespace Verif
namespace Lock
variable {R O S : Type} {f : O → HProg R} {Spec : S → O → Out R → S → Prop} {Inv : S → Heap → Prop} {ok : O → Prop} {writes : O → Bool}

/-- what is known of a structure as long as no process has died in a call that writes; `none` afterwards -/
def whole (Inv : S → Heap → Prop) : Option S → Heap → Prop
  | some s, h => Inv s h
  | none, _ => True

/-- calls are made only as long as no process has died in a call that writes -/
def wholeOk (ok : O → Prop) : Option S → O → Prop
  | some _, o => ok o
  | none, _ => False

def wholeSpec (Spec : S → O → Out R → S → Prop) (s : Option S) (o : O) (r : Out R) (s' : Option S) : Prop := ∃ a b, s = some a ∧ s' = some b ∧ Spec a o r b
def wholeCut (writes : O → Bool) (_ : Option S) (o : O) (s' : Option S) : Prop := writes o = true ∧ s' = none

theorem fragile_whole (hstep : ∀ s o h, ok o → Inv s h → wp (f o) (fun out h' => ∃ s', Spec s o out s' ∧ Inv s' h') h) (hro : ∀ o, writes o = false → HRo (f o)) :
    Fragile f (wholeSpec Spec) (wholeCut writes) (whole Inv) (whole Inv) (wholeOk ok) := by
  refine ⟨?_, ?_, fun _ _ h => h, fun _ _ _ h _ => h⟩
  · rintro (- | s) o h ho hi
    · exact ho.elim
    · refine wp_mono ?_ (hstep s o h ho hi)
      rintro out h' ⟨s', h1, h2⟩
      exact ⟨some s', ⟨s, s', rfl, rfl, h1⟩, h2⟩
  · rintro (- | s) o h ho hi
    · exact ho.elim
    · have ha := wp_always (hstep s o h ho hi)
      cases hw : writes o with
      | true => exact always_mono (fun _ _ => ⟨none, Or.inr ⟨hw, rfl⟩, trivial⟩) ha
      | false => exact always_mono (fun h' e => ⟨some s, Or.inl rfl, by rw [e]; exact hi⟩) ((hro o hw).still ha)

theorem whole_trace {s0 : S} {evs : List (Ev O R)} {st : Option S} (h : CTrace (wholeSpec Spec) (wholeCut writes) (some s0) evs st) (hd : ∀ o, Ev.died o ∈ evs → writes o = false) :
    ∃ s, st = some s ∧ Trace Spec s0 ((results evs).map (·.1)) ((results evs).map (·.2)) s := by
  induction h with
  | nil => exact ⟨s0, rfl, .nil _⟩
  | @done l s1 o r s2 h1 h2 ih =>
    obtain ⟨s, e, ht⟩ := ih fun o ho => hd o (List.mem_append_left _ ho)
    obtain ⟨a, b, rfl, rfl, h3⟩ := h2
    injection e with e
    subst e
    refine ⟨b, rfl, ?_⟩
    rw [results_append, List.map_append, List.map_append]
    exact Trace.snoc ht h3
  | @died l s1 o s2 h1 h2 ih =>
    obtain ⟨s, rfl, ht⟩ := ih fun o ho => hd o (List.mem_append_left _ ho)
    have ho := hd o (by simp)
    rcases h2 with rfl | ⟨h2, -⟩
    · refine ⟨s, rfl, ?_⟩
      rw [results_append]
      simpa [results] using ht
    · rw [ho] at h2; cases h2

/-- **C81 for a structure.** Threads of several processes call the methods of a structure that refines `Spec` sequentially; their memory accesses interleave in any way, and any of the processes
whose threads only read (the calls with `writes o = false`) may die at any time: while they wait for the lock, while they hold it, inside a call, or while they repair the allocator after
another death.  The finished calls, in the order they finished, have the results of the sequential specification, and as long as no live process is writing, a repair of the allocator succeeds
and leaves the structure in the state this history ends in. -/
theorem readers_may_die (hstep : ∀ s o h, ok o → Inv s h → wp (f o) (fun out h' => ∃ s', Spec s o out s' ∧ Inv s' h') h) (hro : ∀ o, writes o = false → HRo (f o)) {dummy : R}
    {calls : Nat → List O} (hok : ∀ t, ∀ o ∈ calls t, ok o) {pid : Nat → Nat} {fuel : Nat} {p0 : Pool} {h0 : Heap} {st0 : S}
    (hi0 : Inv st0 h0) (hs0 : Sim h0 p0) (hp : PidsOk pid) {s0 s : St (poolMach (Out R))}
    (hi : Init pid fuel (fun t => (calls t).map (callSession f writes dummy)) p0 s0) (hr : Reach pid s0 s)
    (hd : ∀ t, s.alive (pid t) = false → ∀ o ∈ calls t, writes o = false) :
    ∃ cs st, Trace Spec st0 (cs.map (·.1)) (cs.map (·.2)) st ∧ Logged f dummy calls s.log cs ∧
      ((∀ t n, ¬ s.inside pid t (.write n)) → ∃ p' h, run Simple.repair s.mem = (.ok (), p') ∧ Inv st h ∧ Sim h p') := by
  have key : ∀ evs : List (Ev O R), (∀ o, Ev.died (R := R) o ∈ evs → ∃ t, o ∈ calls t ∧ s.alive (pid t) = false) → ∀ o, Ev.died o ∈ evs → writes o = false := by
    intro evs h o ho
    obtain ⟨t, h1, h2⟩ := h o ho
    exact hd t h2 o h1
  obtain ⟨evs, st, ⟨e1, e2, e3⟩, e4⟩ := concurrent_calls_kept (fragile_whole hstep hro) (fun o ho => (hro o ho).body) (st0 := some st0) (Inv := whole Inv) hi0 hs0 hp hi hr (by
    intro evs st h1 h2 t o ho
    obtain ⟨s', rfl, -⟩ := whole_trace h1 (key evs h2)
    exact hok t o ho)
  obtain ⟨st', rfl, ht⟩ := whole_trace e1 (key evs e3)
  exact ⟨results evs, st', ht, e2, e4⟩

end Lock
open Lock

/-- **C81, Queue.** -/
theorem C81_queue {b : Nat} {G : Nat → Option Block} {q0 : List Bytes} {h0 : Heap} {p0 : Pool}
    (hi0 : Queue.Inv b G q0 h0) (hs0 : Sim h0 p0) {calls : Nat → List Deque.Op} (hok : ∀ t, ∀ o ∈ calls t, o.ok) {pid : Nat → Nat} {fuel : Nat}
    (hp : PidsOk pid) {s0 s : St (poolMach (Out Deque.Ret))}
    (hi : Init pid fuel (fun t => (calls t).map (callSession (Queue.call b) Deque.Op.writes .unit)) p0 s0)
    (hr : Reach pid s0 s) (hd : ∀ t, s.alive (pid t) = false → ∀ o ∈ calls t, o = .size ∨ o = .bytes) :
    ∃ cs q, Trace Deque.Spec q0 (cs.map (·.1)) (cs.map (·.2)) q ∧ Logged (Queue.call b) .unit calls s.log cs ∧
      ((∀ t n, ¬ s.inside pid t (.write n)) → ∃ p' h, run Simple.repair s.mem = (.ok (), p') ∧ Queue.Inv b G q h ∧ Sim h p') := by
  refine readers_may_die (Queue.step b G) ?_ hok hi0 hs0 hp hi hr ?_
  · intro o ho
    cases o with
    | size => exact HRo.bind .rd fun _ => .ret
    | bytes => exact HRo.bind .rd fun _ => .ret
    | _ => cases ho
  · intro t ht o ho
    rcases hd t ht o ho with rfl | rfl <;> rfl

/-- **C81, PriorityQueue.** -/
theorem C81_prioqueue {b : Nat} {G : Nat → Option Block} {q0 : List Bytes} {h0 : Heap} {p0 : Pool}
    (hi0 : PrioQueue.Inv b G q0 h0) (hs0 : Sim h0 p0) {calls : Nat → List PQ.Op} (hok : ∀ t, ∀ o ∈ calls t, o.ok) {pid : Nat → Nat} {fuel : Nat}
    (hp : PidsOk pid) {s0 s : St (poolMach (Out PQ.Ret))}
    (hi : Init pid fuel (fun t => (calls t).map (callSession (PrioQueue.call b) PQ.Op.writes .unit)) p0 s0)
    (hr : Reach pid s0 s) (hd : ∀ t, s.alive (pid t) = false → ∀ o ∈ calls t, o = .size) :
    ∃ cs q, Trace PQ.Spec q0 (cs.map (·.1)) (cs.map (·.2)) q ∧ Logged (PrioQueue.call b) .unit calls s.log cs ∧
      ((∀ t n, ¬ s.inside pid t (.write n)) → ∃ p' h, run Simple.repair s.mem = (.ok (), p') ∧ PrioQueue.Inv b G q h ∧ Sim h p') := by
  refine readers_may_die (PrioQueue.step b G) ?_ hok hi0 hs0 hp hi hr ?_
  · intro o ho
    cases o with
    | size => exact HRo.bind .rd fun _ => .ret
    | _ => cases ho
  · intro t ht o ho
    rw [hd t ht o ho]; rfl

/-- **C81, PrefixTree.** Calls as in `C19_prefixtree_concurrent_partial`. -/
theorem C81_prefixtree {add : BitVec 64 → BitVec 64 → BitVec 64} {base : Nat} {F : Nat → Option Block} {st0 : PT.State} {h0 : Heap} {p0 : Pool}
    {calls : Nat → List PT.Op} (_hit : ∀ t, PT.Op.items ∉ calls t) (hok : ∀ t, ∀ o ∈ calls t, o.free)
    (hi0 : PrefixTree.Holds base F st0 h0) (hs0 : Sim h0 p0) {pid : Nat → Nat} {fuel : Nat} (hp : PidsOk pid) {s0 s : St (poolMach (Out PT.Ret))}
    (hi : Init pid fuel (fun t => (calls t).map (callSession (PrefixTree.call add base) PT.Op.writes .unit)) p0 s0)
    (hr : Reach pid s0 s) (hd : ∀ t, s.alive (pid t) = false → ∀ o ∈ calls t, o.writes = false) :
    ∃ cs st, Trace (PT.Spec add) st0 (cs.map (·.1)) (cs.map (·.2)) st ∧ Logged (PrefixTree.call add base) .unit calls s.log cs ∧
      ((∀ t n, ¬ s.inside pid t (.write n)) → ∃ p' h, run Simple.repair s.mem = (.ok (), p') ∧ PrefixTree.Holds base F st h ∧ Sim h p') :=
  readers_may_die (fun s o h h1 h2 => PrefixTree.step o s h h1.ok h2) PrefixTree.ro_call hok hi0 hs0 hp hi hr hd

theorem htHRo {hash : Bytes → Nat} {F : HT.Fp} {b : Nat} (o : HT.Op) (h : o.writes = false) : HRo (HashTable.call hash F b o) := by
  refine HashTable.ro_read o ?_ ?_ <;> cases o <;> first | rfl | (intro e; cases e; done) | (cases h; done)

/-- **C81, HashTable.** Calls as in `C19_hashtable_concurrent_partial`. -/
theorem C81_hashtable {hash : Bytes → Nat} {F : HT.Fp} {base slots bits : Nat} {G : Nat → Option Block} {m0 : HashTable.Pairs} {lk : List Nat} {h0 : Heap} {p0 : Pool}
    {calls : Nat → List HT.Op} (_hit : ∀ t, HT.Op.items ∉ calls t)
    (hok : (∀ t, ∀ o ∈ calls t, o.free) ∨ ∃ K, HashTable.Apart hash bits K ∧ (∀ k ∈ HashTable.keys m0, K k) ∧ ∀ t, ∀ o ∈ calls t, o.within K)
    (hi0 : HashTable.Table hash base slots bits G m0 lk h0) (hs0 : Sim h0 p0) {pid : Nat → Nat} {fuel : Nat}
    (hp : PidsOk pid) {s0 s : St (poolMach (Out HT.Ret))}
    (hi : Init pid fuel (fun t => (calls t).map (callSession (HashTable.call hash F base) HT.Op.writes .unit)) p0 s0)
    (hr : Reach pid s0 s) (hd : ∀ t, s.alive (pid t) = false → ∀ o ∈ calls t, o.writes = false) :
    ∃ cs m, Trace (HT.Spec F) m0 (cs.map (·.1)) (cs.map (·.2)) m ∧ Logged (HashTable.call hash F base) .unit calls s.log cs ∧
      ((∀ t n, ¬ s.inside pid t (.write n)) → ∃ p' h lk, run Simple.repair s.mem = (.ok (), p') ∧ HashTable.Table hash base slots bits G m lk h ∧ Sim h p') := by
  rcases hok with hok | ⟨K, ha, hm0, hok⟩
  · have hstep := htStep (hash := hash) (F := F) (base := base) (slots := slots) (bits := bits) (G := G) (ok := HT.Op.free) (P := fun _ => True)
      (fun _ _ _ h => h.ok) (fun _ _ _ _ _ _ _ => trivial)
    obtain ⟨cs, m, h1, h2, h3⟩ := readers_may_die (writes := HT.Op.writes) hstep htHRo hok ⟨trivial, lk, hi0⟩ hs0 hp hi hr hd
    refine ⟨cs, m, h1, h2, fun hw => ?_⟩
    obtain ⟨p', h, e1, ⟨-, lk, e2⟩, e3⟩ := h3 hw
    exact ⟨p', h, lk, e1, e2, e3⟩
  · have hstep := htStep (hash := hash) (F := F) (base := base) (slots := slots) (bits := bits) (G := G) (ok := fun o => o.within K)
      (P := fun m => (HashTable.keys m).Nodup ∧ ∀ k ∈ HashTable.keys m, K k) (fun _ _ hm h => h.ok ha hm.1 hm.2) (fun _ _ _ _ ho hm hs => hs.keys ho hm)
    have hn : (HashTable.keys m0).Nodup := by obtain ⟨bk, -, -, hn⟩ := hi0; exact hn
    obtain ⟨cs, m, h1, h2, h3⟩ := readers_may_die (writes := HT.Op.writes) hstep htHRo hok ⟨⟨hn, hm0⟩, lk, hi0⟩ hs0 hp hi hr hd
    refine ⟨cs, m, h1, h2, fun hw => ?_⟩
    obtain ⟨p', h, e1, ⟨-, lk, e2⟩, e3⟩ := h3 hw
    exact ⟨p', h, lk, e1, e2, e3⟩

/-- the hypotheses of `C81_queue` are met by a queue on a fresh pool, a process that pushes and pops, and one that only asks for the size and has died -/
example : ∃ h G, Queue.Inv 344 G [] h ∧ Sim h qPool ∧ PidsOk (fun t => t % 2 + 1) ∧
    ∃ s0 s, Init (fun t => t % 2 + 1) 10 (fun t => (if t = 0 then [Deque.Op.pushBack [1], .popFront] else if t = 1 then [.size, .bytes, .size] else []).map
      (callSession (Queue.call 344) Deque.Op.writes .unit)) qPool s0 ∧ Reach (fun t => t % 2 + 1) s0 s ∧ s.alive 2 = false ∧
      ∀ t, s.alive (t % 2 + 1) = false → ∀ o ∈ (if t = 0 then [Deque.Op.pushBack [1], .popFront] else if t = 1 then [.size, .bytes, .size] else []), o = .size ∨ o = .bytes := by
  obtain ⟨h, G, h1, h2⟩ := qPool_ready
  generalize qPool = P at h2 ⊢
  let s0 : St (poolMach (Out Deque.Ret)) := ⟨fun _ => 0, fun _ => true, P, [], fun t => thread 10 (t % 2 + 1) ((if t = 0 then [Deque.Op.pushBack [1], .popFront] else if t = 1 then [.size, .bytes, .size] else []).map
      (callSession (Queue.call 344) Deque.Op.writes .unit)), fun _ => none, fun _ => none, fun _ => 0⟩
  refine ⟨h, G, h1, h2, fun t => ⟨Nat.succ_ne_zero _, by show t % 2 + 1 < 2 ^ 18; omega⟩, s0, { s0 with alive := fset s0.alive 2 false },
    ⟨fun _ => rfl, rfl, rfl, fun _ => rfl, fun _ => rfl, fun _ => rfl, fun _ => rfl⟩, .step .refl (.die 2), by simp [fset], ?_⟩
  intro t ht o ho
  have h3 : t % 2 = 1 := by
    simp [fset, s0] at ht
    omega
  rw [if_neg (by omega)] at ho
  split at ho
  · simp at ho; rcases ho with rfl | rfl | rfl <;> simp
  · cases ho

end Verif
