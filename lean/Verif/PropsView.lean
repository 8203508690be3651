import Verif.ViewConc
import Verif.PropsConc
import Verif.PropsCrash
import Verif.PropsHashTable
import Verif.PropsPrioQueue
import Verif.PrefixTreeCrash
/-
C68: mappings that another process has made out of date.
-/
namespace Verif
open Lock
open HashTable (Pairs get put del keys Check)

/-- the log of finished sections has no fault (an access beyond the mapping or beyond the file) -/
def NoFault {R : Type} (s : St (poolMach R)) : Prop := ∀ e ∈ s.log, e.2.2.2 ≠ Res.ub

theorem LoggedB.noFault {R O : Type} {mb : O → Body (poolMach (Out R))} {rb : Body (poolMach (Out R))} {dummy : R} {calls : Nat → List O} {l cs} (h : LoggedB mb rb dummy calls l cs) :
    ∀ e ∈ l, e.2.2.2 ≠ Res.ub := by
  induction h with
  | nil => intro e he; cases he
  | call _ _ ih =>
    intro e he
    rcases List.mem_append.1 he with he | he
    · exact ih e he
    · rw [List.mem_singleton.1 he]; intro h; cases h
  | repaired _ _ _ ih =>
    intro e he
    rcases List.mem_append.1 he with he | he
    · exact ih e he
    · rw [List.mem_singleton.1 he]; intro h; cases h
  | repair _ _ ih =>
    intro e he
    rcases List.mem_append.1 he with he | he
    · exact ih e he
    · rw [List.mem_singleton.1 he]; intro h; cases h

theorem noFault_of {R O : Type} {mb : O → Body (poolMach (Out R))} {s : St (poolMach (Out R))} {ops : List O} {rs : List (Out R)}
    (h : s.log.map (fun e => (e.2.2.1, e.2.2.2)) = (ops.zip rs).map (fun x => (mb x.1, Res.ok x.2))) : NoFault s := by
  intro e he hu
  have : (e.2.2.1, e.2.2.2) ∈ s.log.map (fun e => (e.2.2.1, e.2.2.2)) := List.mem_map.2 ⟨e, he, rfl⟩
  rw [h] at this
  obtain ⟨x, -, hx⟩ := List.mem_map.1 this
  have h2 := (Prod.mk.inj hx).2
  rw [hu] at h2
  cases h2

/-- **C68, for every structure.** Threads, each with a Pool object of its own, call the methods of a structure that refines `Spec`; any of them may expand the pool while the mappings
of the others are out of date.  No call accesses memory beyond its mapping, and the results are those of the sequential specification. -/
theorem C68_mappings {R O S : Type} {f : O → HProg R} {Spec : S → O → Out R → S → Prop} {Inv : S → Heap → Prop} {ok : O → Prop} {writes : O → Bool} {dummy : R}
    (hstep : ∀ s o h, ok o → Inv s h → wp (f o) (fun out h' => ∃ s', Spec s o out s' ∧ Inv s' h') h)
    (hro : ∀ o, writes o = false → Ro (methodBody f o))
    {calls : Nat → List O} (hok : ∀ t, ∀ o ∈ calls t, ok o) {pid : Nat → Nat} {fuel : Nat} {p0 : Pool} {h0 : Heap} {st0 : S}
    (hi0 : Inv st0 h0) (hs0 : Sim h0 p0) (hp : PidsOk pid) {s0 s : St (poolMach (Out R))}
    (hi : Init pid fuel (fun t => (calls t).map (viewSession f writes dummy)) p0 s0) (hr : Reach pid s0 s) (hal : ∀ t, s.alive (pid t) = true) :
    NoFault s ∧ ∃ (ops : List O) (rs : List (Out R)) (st : S), Trace Spec st0 ops rs st ∧
      s.log.map (fun e => (e.2.2.1, e.2.2.2)) = (ops.zip rs).map (fun x => (viewBody f x.1, Res.ok x.2)) ∧ ops.length = rs.length ∧
      ((∀ t n, s.st t ≠ some (.write n)) → ∃ h, Inv st h ∧ Sim h s.mem) := by
  obtain ⟨ops, rs, st, h1, h2, h3, h4⟩ := concurrent_bodies (mb := viewBody f) (rb := viewRepair dummy) (writes := writes) (fun ho _ _ _ hi hs => view_run hstep ho hi hs)
    (fun o ho => viewBody_ro (hro o ho)) hok hi0 hs0 hp hi hr hal
  exact ⟨noFault_of h2, ops, rs, st, h1, h2, h3, h4⟩

/-- **C68, for every structure, with deaths.** The same when processes may die at any point: also repairs stay within the mapping. -/
theorem C68_mappings_crash {R O S : Type} {f : O → HProg R} {Spec : S → O → Out R → S → Prop} {Cut : S → O → S → Prop} {Inv CI : S → Heap → Prop} {ok : O → Prop}
    (H : Crashable f Spec Cut Inv CI ok) {writes : O → Bool} {dummy : R} (hro : ∀ o, writes o = false → Ro (methodBody f o))
    {calls : Nat → List O} (hok : ∀ t, ∀ o ∈ calls t, ok o) {pid : Nat → Nat} {fuel : Nat} {p0 : Pool} {h0 : Heap} {st0 : S}
    (hi0 : Inv st0 h0) (hs0 : Sim h0 p0) (hp : PidsOk pid) {s0 s : St (poolMach (Out R))}
    (hi : Init pid fuel (fun t => (calls t).map (viewSession f writes dummy)) p0 s0) (hr : Reach pid s0 s) :
    NoFault s ∧ ∃ (evs : List (Ev O R)) (st : S), CTrace Spec Cut st0 evs st ∧ LoggedB (viewBody f) (viewRepair dummy) dummy calls s.log (results evs) ∧
      (∀ o, .died o ∈ evs → ∃ t, o ∈ calls t ∧ s.alive (pid t) = false) ∧
      ((∀ t n, ¬ s.inside pid t (.write n)) → ∃ p' h, run Simple.repair s.mem = (.ok (), p') ∧ Inv st h ∧ Sim h p') := by
  obtain ⟨evs, st, h1, h2, h3⟩ := concurrent_bodies_crash (writes := writes) (H.view (dummy := dummy)) (fun o ho => viewBody_ro (hro o ho)) hok hi0 hs0 hp hi hr
  exact ⟨LoggedB.noFault h2, evs, st, h1, h2, h3⟩

/-- **C68, Queue.** -/
theorem C68_queue {b : Nat} {G : Nat → Option Block} {q0 : List Bytes} {h0 : Heap} {p0 : Pool}
    (hi0 : Queue.Inv b G q0 h0) (hs0 : Sim h0 p0) {calls : Nat → List Deque.Op} (hok : ∀ t, ∀ o ∈ calls t, o.ok) {pid : Nat → Nat} {fuel : Nat}
    (hp : PidsOk pid) {s0 s : St (poolMach (Out Deque.Ret))}
    (hi : Init pid fuel (fun t => (calls t).map (viewSession (Queue.call b) Deque.Op.writes .unit)) p0 s0)
    (hr : Reach pid s0 s) (hal : ∀ t, s.alive (pid t) = true) :
    NoFault s ∧ ∃ (ops : List Deque.Op) (rs : List (Out Deque.Ret)) (q : List Bytes), Trace Deque.Spec q0 ops rs q ∧
      s.log.map (fun e => (e.2.2.1, e.2.2.2)) = (ops.zip rs).map (fun x => (viewBody (Queue.call b) x.1, Res.ok x.2)) ∧ ops.length = rs.length ∧
      ((∀ t n, s.st t ≠ some (.write n)) → ∃ h, Queue.Inv b G q h ∧ Sim h s.mem) := by
  refine C68_mappings (Queue.step b G) ?_ hok hi0 hs0 hp hi hr hal
  intro o ho
  cases o with
  | size => exact ⟨fun _ => rfl, fun _ => trivial⟩
  | bytes => exact ⟨fun _ => rfl, fun _ => trivial⟩
  | _ => cases ho

/-- **C68, PriorityQueue.** -/
theorem C68_prioqueue {b : Nat} {G : Nat → Option Block} {q0 : List Bytes} {h0 : Heap} {p0 : Pool}
    (hi0 : PrioQueue.Inv b G q0 h0) (hs0 : Sim h0 p0) {calls : Nat → List PQ.Op} (hok : ∀ t, ∀ o ∈ calls t, o.ok) {pid : Nat → Nat} {fuel : Nat}
    (hp : PidsOk pid) {s0 s : St (poolMach (Out PQ.Ret))}
    (hi : Init pid fuel (fun t => (calls t).map (viewSession (PrioQueue.call b) PQ.Op.writes .unit)) p0 s0)
    (hr : Reach pid s0 s) (hal : ∀ t, s.alive (pid t) = true) :
    NoFault s ∧ ∃ (ops : List PQ.Op) (rs : List (Out PQ.Ret)) (q : List Bytes), Trace PQ.Spec q0 ops rs q ∧
      s.log.map (fun e => (e.2.2.1, e.2.2.2)) = (ops.zip rs).map (fun x => (viewBody (PrioQueue.call b) x.1, Res.ok x.2)) ∧ ops.length = rs.length ∧
      ((∀ t n, s.st t ≠ some (.write n)) → ∃ h, PrioQueue.Inv b G q h ∧ Sim h s.mem) := by
  refine C68_mappings (PrioQueue.step b G) ?_ hok hi0 hs0 hp hi hr hal
  intro o ho
  cases o with
  | size => exact ⟨fun _ => rfl, fun _ => trivial⟩
  | _ => cases ho

/-- **C68, HashTable.** Calls as in `C19_hashtable_concurrent_partial`. -/
theorem C68_hashtable {hash : Bytes → Nat} {F : HT.Fp} {base slots bits : Nat} {G : Nat → Option Block} {m0 : Pairs} {lk : List Nat} {h0 : Heap} {p0 : Pool}
    {calls : Nat → List HT.Op} (_hit : ∀ t, HT.Op.items ∉ calls t)
    (hok : (∀ t, ∀ o ∈ calls t, o.free) ∨ ∃ K, HashTable.Apart hash bits K ∧ (∀ k ∈ keys m0, K k) ∧ ∀ t, ∀ o ∈ calls t, o.within K)
    (hi0 : HashTable.Table hash base slots bits G m0 lk h0) (hs0 : Sim h0 p0) {pid : Nat → Nat} {fuel : Nat}
    (hp : PidsOk pid) {s0 s : St (poolMach (Out HT.Ret))}
    (hi : Init pid fuel (fun t => (calls t).map (viewSession (HashTable.call hash F base) HT.Op.writes .unit)) p0 s0)
    (hr : Reach pid s0 s) (hal : ∀ t, s.alive (pid t) = true) :
    NoFault s ∧ ∃ (ops : List HT.Op) (rs : List (Out HT.Ret)) (m : Pairs), Trace (HT.Spec F) m0 ops rs m ∧
      s.log.map (fun e => (e.2.2.1, e.2.2.2)) = (ops.zip rs).map (fun x => (viewBody (HashTable.call hash F base) x.1, Res.ok x.2)) ∧ ops.length = rs.length := by
  rcases hok with hok | ⟨K, ha, hm0, hok⟩
  · have hstep := htStep (hash := hash) (F := F) (base := base) (slots := slots) (bits := bits) (G := G) (ok := HT.Op.free) (P := fun _ => True)
      (fun _ _ _ h => h.ok) (fun _ _ _ _ _ _ _ => trivial)
    obtain ⟨h0, ops, rs, m, h1, h2, h3, h4⟩ := C68_mappings (writes := HT.Op.writes) hstep htRo hok ⟨trivial, lk, hi0⟩ hs0 hp hi hr hal
    exact ⟨h0, ops, rs, m, h1, h2, h3⟩
  · have hstep := htStep (hash := hash) (F := F) (base := base) (slots := slots) (bits := bits) (G := G) (ok := fun o => o.within K)
      (P := fun m => (keys m).Nodup ∧ ∀ k ∈ keys m, K k) (fun _ _ hm h => h.ok ha hm.1 hm.2) (fun _ _ _ _ ho hm hs => hs.keys ho hm)
    have hn : (keys m0).Nodup := by obtain ⟨bk, -, -, hn⟩ := hi0; exact hn
    obtain ⟨h0, ops, rs, m, h1, h2, h3, h4⟩ := C68_mappings (writes := HT.Op.writes) hstep htRo hok ⟨⟨hn, hm0⟩, lk, hi0⟩ hs0 hp hi hr hal
    exact ⟨h0, ops, rs, m, h1, h2, h3⟩

/-- **C68, PrefixTree, with deaths.** Calls as in `C55_prefixtree_crashes_partial`. -/
theorem C68_prefixtree {add : BitVec 64 → BitVec 64 → BitVec 64} {base : Nat} {F : Nat → Option Block} {st0 : PT.State} {h0 : Heap} {p0 : Pool}
    {calls : Nat → List PT.Op} (_hit : ∀ t, PT.Op.items ∉ calls t) (hok : ∀ t, ∀ o ∈ calls t, o.free)
    (hi0 : PrefixTree.Holds base F st0 h0) (hs0 : Sim h0 p0) {pid : Nat → Nat} {fuel : Nat} (hp : PidsOk pid) {s0 s : St (poolMach (Out PT.Ret))}
    (hi : Init pid fuel (fun t => (calls t).map (viewSession (PrefixTree.call add base) PT.Op.writes .unit)) p0 s0) (hr : Reach pid s0 s) :
    NoFault s ∧ ∃ (evs : List (Ev PT.Op PT.Ret)) (st : PT.State), CTrace (PT.Spec add) (fun s o s' => ∃ m', PT.Cut add s.m o m' ∧ s' = PT.torn m') st0 evs st ∧
      LoggedB (viewBody (PrefixTree.call add base)) (viewRepair .unit) .unit calls s.log (results evs) ∧
      (∀ o, .died o ∈ evs → ∃ t, o ∈ calls t ∧ s.alive (pid t) = false) ∧
      ((∀ t n, ¬ s.inside pid t (.write n)) → ∃ p' h, run Simple.repair s.mem = (.ok (), p') ∧ (∃ F, PrefixTree.Holds base F st h) ∧ Sim h p') :=
  C68_mappings_crash PrefixTree.crashable (fun o ho => (PrefixTree.ro_call o ho).body) hok ⟨F, hi0⟩ hs0 hp hi hr

/-- the hypotheses of `C68_queue` are met by a queue created on a fresh pool and two processes, one of which expands the pool by pushing a long string -/
example : ∃ h G, Queue.Inv 344 G [] h ∧ Sim h qPool ∧ PidsOk (fun t => t % 2 + 1) ∧
    ∃ s0, Init (fun t => t % 2 + 1) 10 (fun t => (if t = 0 then [Deque.Op.pushBack (List.replicate 5000 1)] else if t = 1 then [.popFront, .size] else []).map
      (viewSession (Queue.call 344) Deque.Op.writes .unit)) qPool s0 := by
  obtain ⟨h, G, h1, h2⟩ := qPool_ready
  exact ⟨h, G, h1, h2, fun t => ⟨Nat.succ_ne_zero _, by show t % 2 + 1 < 2 ^ 18; omega⟩,
    ⟨fun _ => 0, fun _ => true, qPool, [], fun t => thread 10 (t % 2 + 1) _, fun _ => none, fun _ => none, fun _ => 0⟩,
    ⟨fun _ => rfl, rfl, rfl, fun _ => rfl, fun _ => rfl, fun _ => rfl, fun _ => rfl⟩⟩

/-- a queue in a pool that has grown from 4096 to 8192 bytes (a block of 3700 bytes, then a node): with a mapping that is out of date popBack faults, with a refreshed one it
returns the string -/
example : let p := (run (compile (Queue.call 344 (.pushBack [1, 2, 3]))) (run (compile (H.alloc 3700)) qPool).2).2
    p.size = 8192 ∧ (run (viewed (compile (Queue.call 344 .popBack)) 4096) p).1 = .ub ∧
      (run (remapped (compile (Queue.call 344 .popBack))) p).1 = .ok (.str [1, 2, 3]) := by
  decide +kernel

end Verif
