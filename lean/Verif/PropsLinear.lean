import Verif.Linear
import Verif.PropsConc
import Verif.PropsPrefixTree
import Verif.PropsHashTable
import Verif.PropsPrioQueue
/-
C19 for the data structures on a SimpleAllocator, in its full form: one sequential history that contains each thread's calls in the order it made them.
-/
namespace Verif
namespace Lock
variable {R O S : Type}

/-- the next call is one of the calls of its thread -/
theorem next_mem {calls : Nat → List O} {hist : List (Nat × O)} {t : Nat} {o : O} (h : ∀ u, ((hist ++ [(t, o)]).filter fun x => x.1 = u).map (·.2) <+: calls u) : o ∈ calls t := by
  refine (h t).subset ?_
  simp [List.filter_append]

/-- a structure that refines `Spec` sequentially is linearizable -/
theorem simple_linearizable {f : O → HProg R} {Spec : S → O → Out R → S → Prop} {Inv : S → Heap → Prop} {ok : O → Prop} {writes : O → Bool} {dummy : R}
    (hstep : ∀ s o h, ok o → Inv s h → wp (f o) (fun out h' => ∃ s', Spec s o out s' ∧ Inv s' h') h)
    (hro : ∀ o, writes o = false → Ro (methodBody f o))
    {calls : Nat → List O} (hok : ∀ t, ∀ o ∈ calls t, ok o) {pid : Nat → Nat} {fuel : Nat} {p0 : Pool} {h0 : Heap} {st0 : S}
    (hi0 : Inv st0 h0) (hs0 : Sim h0 p0) (hp : PidsOk pid) {s0 s : St (poolMach (Out R))}
    (hi : Init pid fuel (fun t => (calls t).map (callSession f writes dummy)) p0 s0) (hr : Reach pid s0 s) (hal : ∀ t, s.alive (pid t) = true) :
    ∃ hist st, Linear Spec (methodBody f) calls st0 s.log hist st ∧
      (∀ t, s.th t = .ret () → (s.log.filter fun e => e.1 = t).map (·.2.2.1) = (calls t).map (methodBody f)) ∧
      ((∀ t n, s.st t ≠ some (.write n)) → ∃ h, Inv st h ∧ Sim h s.mem) := by
  refine linearizable (J := fun _ s p => ∃ h, Inv s h ∧ Sim h p) (rep := repairBody dummy) (writes := writes) ?_ ⟨h0, hi0, hs0⟩ hro hp hi hr hal
  rintro hist t o s p hnext ⟨h, h1, h2⟩
  obtain ⟨r, p', s', h', f1, f2, f3, f4⟩ := method_run hstep (hok t o (next_mem hnext)) h1 h2
  exact ⟨r, p', s', f1, f2, h', f3, f4⟩

end Lock
open Lock

/-- **C19, Queue.** Threads of any number of processes call the methods of one queue on one pool at the same time, each call under the allocator's lock; their memory accesses interleave in any
way, and no process dies.  There is one sequential history of the calls that finished, with the results of a deque, in which each thread's calls are its first ones in the order it
made them (all of them, for a thread that has come to its end); while nobody is writing, the pool holds the queue this history leaves. -/
theorem C19_queue_linearizable_partial {b : Nat} {G : Nat → Option Block} {q0 : List Bytes} {h0 : Heap} {p0 : Pool}
    (hi0 : Queue.Inv b G q0 h0) (hs0 : Sim h0 p0) {calls : Nat → List Deque.Op} (hok : ∀ t, ∀ o ∈ calls t, o.ok) {pid : Nat → Nat} {fuel : Nat}
    (hp : PidsOk pid) {s0 s : St (poolMach (Out Deque.Ret))}
    (hi : Init pid fuel (fun t => (calls t).map (callSession (Queue.call b) Deque.Op.writes .unit)) p0 s0)
    (hr : Reach pid s0 s) (hal : ∀ t, s.alive (pid t) = true) :
    ∃ hist q, Linear Deque.Spec (methodBody (Queue.call b)) calls q0 s.log hist q ∧
      (∀ t, s.th t = .ret () → (s.log.filter fun e => e.1 = t).map (·.2.2.1) = (calls t).map (methodBody (Queue.call b))) ∧
      ((∀ t n, s.st t ≠ some (.write n)) → ∃ h, Queue.Inv b G q h ∧ Sim h s.mem) := by
  refine simple_linearizable (Queue.step b G) ?_ hok hi0 hs0 hp hi hr hal
  intro o ho
  cases o with
  | size => exact ⟨fun _ => rfl, fun _ => trivial⟩
  | bytes => exact ⟨fun _ => rfl, fun _ => trivial⟩
  | _ => cases ho

/-- **C19, PriorityQueue.** The same for a priority queue. -/
theorem C19_prioqueue_linearizable_partial {b : Nat} {G : Nat → Option Block} {q0 : List Bytes} {h0 : Heap} {p0 : Pool}
    (hi0 : PrioQueue.Inv b G q0 h0) (hs0 : Sim h0 p0) {calls : Nat → List PQ.Op} (hok : ∀ t, ∀ o ∈ calls t, o.ok) {pid : Nat → Nat} {fuel : Nat}
    (hp : PidsOk pid) {s0 s : St (poolMach (Out PQ.Ret))}
    (hi : Init pid fuel (fun t => (calls t).map (callSession (PrioQueue.call b) PQ.Op.writes .unit)) p0 s0)
    (hr : Reach pid s0 s) (hal : ∀ t, s.alive (pid t) = true) :
    ∃ hist q, Linear PQ.Spec (methodBody (PrioQueue.call b)) calls q0 s.log hist q ∧
      (∀ t, s.th t = .ret () → (s.log.filter fun e => e.1 = t).map (·.2.2.1) = (calls t).map (methodBody (PrioQueue.call b))) ∧
      ((∀ t n, s.st t ≠ some (.write n)) → ∃ h, PrioQueue.Inv b G q h ∧ Sim h s.mem) := by
  refine simple_linearizable (PrioQueue.step b G) ?_ hok hi0 hs0 hp hi hr hal
  intro o ho
  cases o with
  | size => exact ⟨fun _ => rfl, fun _ => trivial⟩
  | _ => cases ho

/-- **C19, PrefixTree.** The same for a prefix tree.  Calls as in `C19_prefixtree_concurrent_partial`. -/
theorem C19_prefixtree_linearizable_partial {add : BitVec 64 → BitVec 64 → BitVec 64} {base : Nat} {F : Nat → Option Block} {st0 : PT.State} {h0 : Heap} {p0 : Pool}
    {calls : Nat → List PT.Op} (_hit : ∀ t, PT.Op.items ∉ calls t) (hok : ∀ t, ∀ o ∈ calls t, o.free)
    (hi0 : PrefixTree.Holds base F st0 h0) (hs0 : Sim h0 p0) {pid : Nat → Nat} {fuel : Nat} (hp : PidsOk pid) {s0 s : St (poolMach (Out PT.Ret))}
    (hi : Init pid fuel (fun t => (calls t).map (callSession (PrefixTree.call add base) PT.Op.writes .unit)) p0 s0)
    (hr : Reach pid s0 s) (hal : ∀ t, s.alive (pid t) = true) :
    ∃ hist st, Linear (PT.Spec add) (methodBody (PrefixTree.call add base)) calls st0 s.log hist st ∧
      (∀ t, s.th t = .ret () → (s.log.filter fun e => e.1 = t).map (·.2.2.1) = (calls t).map (methodBody (PrefixTree.call add base))) ∧
      ((∀ t n, s.st t ≠ some (.write n)) → ∃ h, PrefixTree.Holds base F st h ∧ Sim h s.mem) :=
  simple_linearizable (writes := PT.Op.writes) (fun s o h h1 h2 => PrefixTree.step o s h h1.ok h2) (fun o ho => (PrefixTree.ro_call o ho).body) hok hi0 hs0 hp hi hr hal

/-- **C19, HashTable.** The same for a hash table.  Calls as in `C19_hashtable_concurrent_partial`. -/
theorem C19_hashtable_linearizable_partial {hash : Bytes → Nat} {F : HT.Fp} {base slots bits : Nat} {G : Nat → Option Block} {m0 : HashTable.Pairs} {lk : List Nat} {h0 : Heap} {p0 : Pool}
    {calls : Nat → List HT.Op} (_hit : ∀ t, HT.Op.items ∉ calls t)
    (hok : (∀ t, ∀ o ∈ calls t, o.free) ∨ ∃ K, HashTable.Apart hash bits K ∧ (∀ k ∈ HashTable.keys m0, K k) ∧ ∀ t, ∀ o ∈ calls t, o.within K)
    (hi0 : HashTable.Table hash base slots bits G m0 lk h0) (hs0 : Sim h0 p0) {pid : Nat → Nat} {fuel : Nat}
    (hp : PidsOk pid) {s0 s : St (poolMach (Out HT.Ret))}
    (hi : Init pid fuel (fun t => (calls t).map (callSession (HashTable.call hash F base) HT.Op.writes .unit)) p0 s0)
    (hr : Reach pid s0 s) (hal : ∀ t, s.alive (pid t) = true) :
    ∃ hist m, Linear (HT.Spec F) (methodBody (HashTable.call hash F base)) calls m0 s.log hist m ∧
      (∀ t, s.th t = .ret () → (s.log.filter fun e => e.1 = t).map (·.2.2.1) = (calls t).map (methodBody (HashTable.call hash F base))) ∧
      ((∀ t n, s.st t ≠ some (.write n)) → ∃ h lk, HashTable.Table hash base slots bits G m lk h ∧ Sim h s.mem) := by
  rcases hok with hok | ⟨K, ha, hm0, hok⟩
  · have hstep := htStep (hash := hash) (F := F) (base := base) (slots := slots) (bits := bits) (G := G) (ok := HT.Op.free) (P := fun _ => True)
      (fun _ _ _ h => h.ok) (fun _ _ _ _ _ _ _ => trivial)
    obtain ⟨hist, m, h1, h2, h4⟩ := simple_linearizable (writes := HT.Op.writes) hstep htRo hok ⟨trivial, lk, hi0⟩ hs0 hp hi hr hal
    refine ⟨hist, m, h1, h2, fun hw => ?_⟩
    obtain ⟨h, ⟨-, lk, h5⟩, h6⟩ := h4 hw
    exact ⟨h, lk, h5, h6⟩
  · have hstep := htStep (hash := hash) (F := F) (base := base) (slots := slots) (bits := bits) (G := G) (ok := fun o => o.within K)
      (P := fun m => (HashTable.keys m).Nodup ∧ ∀ k ∈ HashTable.keys m, K k) (fun _ _ hm h => h.ok ha hm.1 hm.2) (fun _ _ _ _ ho hm hs => hs.keys ho hm)
    have hn : (HashTable.keys m0).Nodup := by obtain ⟨bk, -, -, hn⟩ := hi0; exact hn
    obtain ⟨hist, m, h1, h2, h4⟩ := simple_linearizable (writes := HT.Op.writes) hstep htRo hok ⟨⟨hn, hm0⟩, lk, hi0⟩ hs0 hp hi hr hal
    refine ⟨hist, m, h1, h2, fun hw => ?_⟩
    obtain ⟨h, ⟨-, lk, h5⟩, h6⟩ := h4 hw
    exact ⟨h, lk, h5, h6⟩

end Verif
