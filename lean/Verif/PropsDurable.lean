import Verif.ConcDurable
import Verif.PropsCrashMore
import Verif.PropsLockLive
/-
C85: durable linearizability of the structures, with the program order of every thread.
-/
namespace Verif
open Lock

/-- One history accounts for a whole run: at each moment a first part of it, which only grows, accounts for what has happened so far. -/
def Told {O R S : Type} (f : O → HProg R) (dummy : R) (calls : Nat → List O) (pid : Nat → Nat) (Spec : S → O → Out R → S → Prop) (Cut : S → O → S → Prop) (Inv : S → Heap → Prop) (st0 : S)
    (N : Nat) (σ : Nat → St (poolMach (Out R))) : Prop :=
  ∃ (evs : List (Nat × Ev O R)) (n : Nat → Nat), (∀ i j, i ≤ j → j ≤ N → n i ≤ n j) ∧ n N = evs.length ∧
    ∀ i, i ≤ N → ∃ st, Accounts f dummy calls pid Spec Cut Inv st0 (σ i) (evs.take (n i)) st

/-- **C85, PrefixTree.** Threads of any number of processes call the methods of one prefix tree on one pool at the same time; their memory accesses interleave in any way, and any process may
die at any time, also inside a call, inside the allocator or inside a repair.  Then there is one sequential history of calls, finished or cut short, with each thread's calls in the order it
makes them: the finished ones in the order they finished and with the results they returned, which are those of the sequential map; at most one cut short per thread, its last, only of threads of dead
processes, and it leaves the map as `Cut` says (every other key keeps its value).  At every moment of the run a first part of the history accounts for what has happened so far: a thread that has come
to its end has all its calls in it, finished; and as long as no live process is writing, repair succeeds and leaves a tree with the map in which that part ends.
Calls as in `C19_prefixtree_concurrent_partial`. -/
theorem C85_prefixtree {add : BitVec 64 → BitVec 64 → BitVec 64} {base : Nat} {F : Nat → Option Block} {st0 : PT.State} {h0 : Heap} {p0 : Pool}
    {calls : Nat → List PT.Op} (_hit : ∀ t, PT.Op.items ∉ calls t) (hok : ∀ t, ∀ o ∈ calls t, o.free)
    (hi0 : PrefixTree.Holds base F st0 h0) (hs0 : Sim h0 p0) {pid : Nat → Nat} {fuel : Nat} (hp : PidsOk pid) {N : Nat} {σ : Nat → St (poolMach (Out PT.Ret))}
    (hi : Init pid fuel (fun t => (calls t).map (callSession (PrefixTree.call add base) PT.Op.writes .unit)) p0 (σ 0)) (hr : Running pid N σ) :
    Told (PrefixTree.call add base) .unit calls pid (PT.Spec add) (fun s o s' => ∃ m', PT.Cut add s.m o m' ∧ s' = PT.torn m') (fun s h => ∃ F, PrefixTree.Holds base F s h) st0 N σ := by
  rcases concurrent_run_durable (PrefixTree.fragile add base) (fun o ho => (PrefixTree.ro_call o ho).body) (st0 := st0) ⟨F, hi0⟩ hs0 hp hi hr with
    h | ⟨l1, evs, st, t, o, -, -, -, e4, e5⟩
  · exact h
  · exact absurd (hok t o (List.mem_of_getElem? e4)).ok e5

/-- **C85, PrefixTree, all calls**, also those covered in some states only (`Op.ok`): unless, at some time, a thread's next call was one that is not covered in the state it found. -/
theorem C85_prefixtree_guarded {add : BitVec 64 → BitVec 64 → BitVec 64} {base : Nat} {F : Nat → Option Block} {st0 : PT.State} {h0 : Heap} {p0 : Pool}
    {calls : Nat → List PT.Op} (_hit : ∀ t, PT.Op.items ∉ calls t)
    (hi0 : PrefixTree.Holds base F st0 h0) (hs0 : Sim h0 p0) {pid : Nat → Nat} {fuel : Nat} (hp : PidsOk pid) {N : Nat} {σ : Nat → St (poolMach (Out PT.Ret))}
    (hi : Init pid fuel (fun t => (calls t).map (callSession (PrefixTree.call add base) PT.Op.writes .unit)) p0 (σ 0)) (hr : Running pid N σ) :
    Told (PrefixTree.call add base) .unit calls pid (PT.Spec add) (fun s o s' => ∃ m', PT.Cut add s.m o m' ∧ s' = PT.torn m') (fun s h => ∃ F, PrefixTree.Holds base F s h) st0 N σ ∨
    Misused (PrefixTree.call add base) .unit calls pid (fun p => (σ N).alive p = false) (PT.Spec add) (fun s o s' => ∃ m', PT.Cut add s.m o m' ∧ s' = PT.torn m') (fun s o => o.ok s) st0 (σ N).log :=
  concurrent_run_durable (PrefixTree.fragile add base) (fun o ho => (PrefixTree.ro_call o ho).body) (st0 := st0) ⟨F, hi0⟩ hs0 hp hi hr

/-- **C85, Queue.** The same for a queue; a death leaves it as `CutC` says; unless a thread went on to use a queue that a death had split: then this holds up to that call, which is the thread's next. -/
theorem C85_queue {b : Nat} {G : Nat → Option Block} {q0 : List Bytes} {h0 : Heap} {p0 : Pool}
    (hi0 : Queue.Inv b G q0 h0) (hs0 : Sim h0 p0) {calls : Nat → List Deque.Op} (hok : ∀ t, ∀ o ∈ calls t, o.ok) {pid : Nat → Nat} {fuel : Nat}
    (hp : PidsOk pid) {N : Nat} {σ : Nat → St (poolMach (Out Deque.Ret))}
    (hi : Init pid fuel (fun t => (calls t).map (callSession (Queue.call b) Deque.Op.writes .unit)) p0 (σ 0)) (hr : Running pid N σ) :
    Told (Queue.call b) .unit calls pid Deque.SpecC Deque.CutC (fun st h => HeapOk h ∧ Queue.Left b G st h) (.fine q0 0 0) N σ ∨
    ∃ l1 evs sn so t o, l1 <+: (σ N).log ∧ Durable (Queue.call b) .unit calls pid (fun p => (σ N).alive p = false) Deque.SpecC Deque.CutC (.fine q0 0 0) l1 evs (.split sn so) ∧
      (∀ o', .died o' ∉ evsOf evs t) ∧ (calls t)[(evsOf evs t).length]? = some o := by
  obtain ⟨hk, L, rfl, h2⟩ := Queue.Inv.invD hi0
  rcases concurrent_run_durable (Queue.fragile b G) (fun o ho => (Queue.ro_call b o ho).body) (st0 := .fine (L.map (·.2)) 0 0) ⟨hk, G, L, fun _ _ h => h, rfl, h2⟩ hs0 hp hi hr with
    h | ⟨l1, evs, st, t, o, e1, e2, e3, e4, e5⟩
  · exact Or.inl h
  · cases st with
    | fine q dc dt => exact absurd (hok t o (List.mem_of_getElem? e4)) e5
    | split sn so => exact Or.inr ⟨l1, evs, sn, so, t, o, e1, e2, e3, e4⟩

/-- **C85, PriorityQueue.** The same for a priority queue; unless a thread went on to use a queue that a death had damaged, other than to ask for its size. -/
theorem C85_prioqueue {b : Nat} {G : Nat → Option Block} {q0 : List Bytes} {h0 : Heap} {p0 : Pool}
    (hi0 : PrioQueue.Inv b G q0 h0) (hs0 : Sim h0 p0) {calls : Nat → List PQ.Op} (hok : ∀ t, ∀ o ∈ calls t, o.ok) {pid : Nat → Nat} {fuel : Nat}
    (hp : PidsOk pid) {N : Nat} {σ : Nat → St (poolMach (Out PQ.Ret))}
    (hi : Init pid fuel (fun t => (calls t).map (callSession (PrioQueue.call b) PQ.Op.writes .unit)) p0 (σ 0)) (hr : Running pid N σ) :
    Told (PrioQueue.call b) .unit calls pid PQ.SpecC PQ.CutC (fun st h => HeapOk h ∧ PrioQueue.Left' b G st h) (.fine q0) N σ ∨
    ∃ l1 evs e t o, l1 <+: (σ N).log ∧ Durable (PrioQueue.call b) .unit calls pid (fun p => (σ N).alive p = false) PQ.SpecC PQ.CutC (.fine q0) l1 evs (.hurt e) ∧
      (∀ o', .died o' ∉ evsOf evs t) ∧ (calls t)[(evsOf evs t).length]? = some o ∧ o ≠ .size := by
  obtain ⟨hk, arr, cap, A, D, lk, h1, h2⟩ := id hi0
  rcases concurrent_run_durable (PrioQueue.fragile b G) (fun o ho => (PrioQueue.ro_call b o ho).body) (st0 := .fine q0) ⟨hk, G, arr, cap, A, D, lk, fun _ _ h => h, h1, h2.weaken⟩ hs0 hp hi hr with
    h | ⟨l1, evs, st, t, o, e1, e2, e3, e4, e5⟩
  · exact Or.inl h
  · cases st with
    | fine q => exact absurd (hok t o (List.mem_of_getElem? e4)) e5
    | hurt e => exact Or.inr ⟨l1, evs, e, t, o, e1, e2, e3, e4, e5⟩

/-- **C85, HashTable.** The same for a hash table; unless a thread's next call was one that may not be made in the state reached (`okC`). -/
theorem C85_hashtable {hash : Bytes → Nat} {F : HT.Fp} {base slots bits : Nat} {G : Nat → Option Block} {m0 : HashTable.Pairs} {lk : List Nat} {h0 : Heap} {p0 : Pool}
    {calls : Nat → List HT.Op} (_hit : ∀ t, HT.Op.items ∉ calls t)
    (hi0 : HashTable.Table hash base slots bits G m0 lk h0) (hs0 : Sim h0 p0) {pid : Nat → Nat} {fuel : Nat}
    (hp : PidsOk pid) {N : Nat} {σ : Nat → St (poolMach (Out HT.Ret))}
    (hi : Init pid fuel (fun t => (calls t).map (callSession (HashTable.call hash F base) HT.Op.writes .unit)) p0 (σ 0)) (hr : Running pid N σ) :
    Told (HashTable.call hash F base) .unit calls pid (HT.SpecC F) (HT.CutC hash bits) (fun st h => HeapOk h ∧ HashTable.Left hash base bits G st h) (some ⟨m0, []⟩) N σ ∨
    Misused (HashTable.call hash F base) .unit calls pid (fun p => (σ N).alive p = false) (HT.SpecC F) (HT.CutC hash bits) (HT.okC hash bits) (some ⟨m0, []⟩) (σ N).log :=
  concurrent_run_durable (HashTable.fragile hash F base bits G) (fun o ho => (htHRo o ho).body) (st0 := some ⟨m0, []⟩)
    ⟨hs0.heapOk, slots, 0, lk, HashTable.tableD_nil.2 hi0, fun _ => rfl⟩ hs0 hp hi hr

/-! ### a run in which a process dies inside push_back and another one takes its lock, repairs and goes on -/

def duCalls : Nat → List Deque.Op
  | 0 => [.pushBack [1]]
  | 1 => [.size]
  | _ => []

def duInit : St (poolMach (Out Deque.Ret)) :=
  ⟨fun _ => 0, fun _ => true, qPool, [], fun t => thread 10 (t % 2 + 1) ((duCalls t).map (callSession (Queue.call 344) Deque.Op.writes .unit)), fun _ => none, fun _ => none, fun _ => 0⟩

/-- thread 0 makes 80 steps, its process dies, thread 1 makes 98 steps -/
def duRun : Option (St (poolMach (Out Deque.Ret))) := (soloN 0 80 duInit).bind fun s => soloN 1 98 { s with alive := fset s.alive 1 false }

def duGood : Bool :=
  match duRun with
  | some s => (match s.th 1 with | .ret _ => true | _ => false) && ((s.log.map fun e => (e.1, match e.2.2.2 with | .ok (.ok (.num n)) => n + 1 | _ => 0)) == [(1, 0), (1, 1)])
  | none => false

/-- A run that meets the hypotheses of `C85_queue`: process 1 dies inside push_back([1]); thread 1, of process 2, takes the lock from it, repairs, and finishes size(), which returns 0. -/
theorem duRun_reach : ∃ s, Reach (fun t => t % 2 + 1) duInit s ∧ s.alive 1 = false ∧ s.th 1 = .ret () ∧
    ∃ e ∈ s.log, e.1 = 1 ∧ e.2.2.2 = .ok (.ok (.num 0)) := by
  have hg : duGood = true := by decide +kernel
  unfold duGood at hg
  cases h : duRun with
  | none => rw [h] at hg; cases hg
  | some s =>
    rw [h] at hg
    unfold duRun at h
    obtain ⟨s1, e1, e2⟩ := Option.bind_eq_some_iff.1 h
    obtain ⟨r1, a1⟩ := soloN_reach (pid := fun t => t % 2 + 1) (s0 := duInit) rfl .refl e1
    obtain ⟨r2, a2⟩ := soloN_reach (pid := fun t => t % 2 + 1) (s0 := duInit) (s := { s1 with alive := fset s1.alive 1 false })
      (by show fset s1.alive 1 false 2 = true; rw [fset_ne _ _ (by omega), a1]; rfl) (r1.step (.die 1)) e2
    clear e1 e2 h
    simp only [Bool.and_eq_true, beq_iff_eq] at hg
    obtain ⟨g1, g2⟩ := hg
    refine ⟨s, r2, by rw [a2]; show fset s1.alive 1 false 1 = false; exact fset_same _ _ _, ?_, ?_⟩
    · revert g1
      generalize s.th 1 = p
      intro g1
      match p, g1 with
      | .ret (), _ => rfl
    · obtain ⟨x, l, e3, e4, e5⟩ := List.map_eq_cons_iff.1 g2
      obtain ⟨y, l2, e6, e7, e8⟩ := List.map_eq_cons_iff.1 e5
      refine ⟨y, by rw [e3, e6]; simp, congrArg Prod.fst e7, ?_⟩
      have e9 := congrArg Prod.snd e7
      simp only at e9
      revert e9
      generalize y.2.2.2 = r
      intro e9
      match r, e9 with
      | .ok (.ok (.num 0)), _ => rfl

/-- every reachable state is the end of a run, as the theorems above take them -/
theorem running_of_reach {K : Mach} {pid : Nat → Nat} {s0 s : St K} (h : Reach pid s0 s) : ∃ N σ, σ 0 = s0 ∧ σ N = s ∧ Running pid N σ := by
  induction h with
  | refl => exact ⟨0, fun _ => s0, rfl, rfl, fun i hi => absurd hi (Nat.not_lt_zero i)⟩
  | step _ ha ih =>
    rename_i b c _ a
    obtain ⟨N, σ, e1, e2, e3⟩ := ih
    refine ⟨N + 1, fun i => if i ≤ N then σ i else c, (if_pos (Nat.zero_le N)).trans e1, if_neg (by omega), fun i hi => ?_⟩
    show ∃ a, Step pid a (if i ≤ N then σ i else c) (if i + 1 ≤ N then σ (i + 1) else c)
    by_cases hN : i < N
    · rw [if_pos (by omega), if_pos (by omega)]; exact e3 i hN
    · obtain rfl : i = N := by omega
      rw [if_pos (Nat.le_refl _), if_neg (by omega), e2]
      exact ⟨_, ha⟩

example : ∃ (N : Nat) (σ : Nat → St (poolMach (Out Deque.Ret))), σ 0 = duInit ∧ Running (fun t => t % 2 + 1) N σ ∧ (σ N).alive 1 = false ∧ (σ N).th 1 = .ret () ∧ ∃ e ∈ (σ N).log, e.1 = 1 ∧ e.2.2.2 = .ok (.ok (.num 0)) := by
  obtain ⟨s, h1, h2, h3, h4⟩ := duRun_reach
  obtain ⟨N, σ, e1, rfl, e3⟩ := running_of_reach h1
  exact ⟨N, σ, e1, e3, h2, h3, h4⟩

example : ∃ h G, Queue.Inv 344 G [] h ∧ Sim h qPool ∧ PidsOk (fun t => t % 2 + 1) ∧ (∀ t, ∀ o ∈ duCalls t, o.ok) ∧
    Init (fun t => t % 2 + 1) 10 (fun t => (duCalls t).map (callSession (Queue.call 344) Deque.Op.writes .unit)) qPool duInit := by
  obtain ⟨h, G, h1, h2⟩ := qPool_ready
  refine ⟨h, G, h1, h2, fun t => ⟨Nat.succ_ne_zero _, by show t % 2 + 1 < 2 ^ 18; omega⟩, ?_, ⟨fun _ => rfl, rfl, rfl, fun _ => rfl, fun _ => rfl, fun _ => rfl, fun _ => rfl⟩⟩
  intro t o ho
  match t with
  | 0 => simp only [duCalls, List.mem_singleton] at ho; subst ho; simp [Deque.Op.ok]
  | 1 => simp only [duCalls, List.mem_singleton] at ho; subst ho; trivial
  | t + 2 => cases ho

end Verif
