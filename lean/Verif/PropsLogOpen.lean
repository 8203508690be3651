import Verif.PropsPrioDelivery
import Verif.PropsLogConc
/-
C96: structures on a LogarithmicAllocator (the default) used by threads that choose each call when they make it, and queues and priority queues of jobs on it.  No process dies.
-/
namespace Verif
open Lock Logarithmic

namespace Lock
variable {R O S : Type}

/-- a run of threads that choose their calls as they go is, at each moment, a run of threads that make the calls begun until then -/
theorem open_closed {K : Mach} {pid : Nat → Nat} {fuel : Nat} {ses : O → Session K} {N : Nat} {lab : Nat → Option (Nat × O)} {σ : Nat → St K} {m0 : K.M}
    (hi : OpenInit m0 (σ 0)) (hr : OpenRun pid fuel ses N lab σ) (hal : ∀ p, (σ N).alive p = true) {i : Nat} (hiN : i ≤ N) :
    ∃ s0, Init pid fuel (fun t => (begun lab t i).map ses) m0 s0 ∧ Reach pid s0 (σ i) ∧ ∀ t, (σ i).alive (pid t) = true := by
  have h := closed_reach (hr.cut hiN) i (Nat.le_refl i)
  rw [closed_end] at h
  refine ⟨_, closed_init hi, h, fun t => ?_⟩
  cases e : (σ i).alive (pid t) with
  | true => rfl
  | false =>
    have := (dead_begins hr hiN (Nat.le_refl N) e).1
    rw [hal] at this
    cases this

/-- What C96 says of a moment `s` of a run in which thread `t` has begun the calls `calls t`: the calls that have finished, in the order in which they finished, have the results of one sequential history from the state `st0`, to `st`;
those of each thread are its first ones; a thread that is not in a call has finished them all; and unless somebody is writing, memory represents `st`. -/
def ToldLog (C full : Prop) (f : O → HProg R) (Spec : S → O → Out R → S → Prop) (Inv : S → Heap → Prop) (st0 : S) (calls : Nat → List O) (s : St (poolMach (Out R))) (hist : List (Nat × O × Out R)) (st : S) : Prop :=
  Linear Spec (lmethodBody f) calls st0 s.log hist st ∧
    (∀ t, s.th t = .ret () → (s.log.filter fun e => e.1 = t).map (·.2.2.1) = (calls t).map (lmethodBody f)) ∧
    ((∀ t n, s.st t ≠ some (.write n)) → ∃ h, Inv st h ∧ LSim C full h s.mem)

/-- **C96, Queue.** -/
theorem C96_queue {C full : Prop} {b : Nat} {G : Nat → Option Block} {q0 : List Bytes} {h0 : Heap} {p0 : Pool}
    (hi0 : Queue.Inv b G q0 h0) (hs0 : LSim C full h0 p0) {lab : Nat → Option (Nat × Deque.Op)} {N : Nat} (hok : ∀ i t o, i < N → lab i = some (t, o) → o.good full) {pid : Nat → Nat} {fuel : Nat}
    (hp : PidsOk pid) {σ : Nat → St (poolMach (Out Deque.Ret))} (hi : OpenInit p0 (σ 0)) (hr : OpenRun pid fuel (lcallSession (Queue.call b) Deque.Op.writes .unit) N lab σ)
    (hal : ∀ p, (σ N).alive p = true) {i : Nat} (hiN : i ≤ N) :
    ∃ hist q, ToldLog C full (Queue.call b) Deque.Spec (Queue.Inv b G) q0 (fun t => begun lab t i) (σ i) hist q := by
  obtain ⟨s0, h1, h2, h3⟩ := open_closed hi hr hal hiN
  exact C79_queue_partial hi0 hs0 (fun t o ho => by obtain ⟨j, hj, hl⟩ := mem_begun ho; exact hok j t o (by omega) hl) hp h1 h2 h3

/-- **C96, PrefixTree.** -/
theorem C96_prefixtree {C full : Prop} {add : BitVec 64 → BitVec 64 → BitVec 64} {base : Nat} {F : Nat → Option Block} {st0 : PT.State} {h0 : Heap} {p0 : Pool}
    (hi0 : PrefixTree.Holds base F st0 h0) (hs0 : LSim C full h0 p0) {lab : Nat → Option (Nat × PT.Op)} {N : Nat}
    (hok : ∀ i t o, i < N → lab i = some (t, o) → o ≠ .items ∧ o.free ∧ o.good full) {pid : Nat → Nat} {fuel : Nat}
    (hp : PidsOk pid) {σ : Nat → St (poolMach (Out PT.Ret))} (hi : OpenInit p0 (σ 0)) (hr : OpenRun pid fuel (lcallSession (PrefixTree.call add base) PT.Op.writes .unit) N lab σ)
    (hal : ∀ p, (σ N).alive p = true) {i : Nat} (hiN : i ≤ N) :
    ∃ hist st, ToldLog C full (PrefixTree.call add base) (PT.Spec add) (PrefixTree.Holds base F) st0 (fun t => begun lab t i) (σ i) hist st := by
  obtain ⟨s0, h1, h2, h3⟩ := open_closed hi hr hal hiN
  exact C79_prefixtree_partial (fun t ho => by obtain ⟨j, hj, hl⟩ := mem_begun ho; exact (hok j t _ (by omega) hl).1 rfl)
    (fun t o ho => by obtain ⟨j, hj, hl⟩ := mem_begun ho; exact (hok j t o (by omega) hl).2) hi0 hs0 hp h1 h2 h3

/-- **C96, HashTable.** -/
theorem C96_hashtable {C full : Prop} {hash : Bytes → Nat} {F : HT.Fp} {base slots bits : Nat} {G : Nat → Option Block} {m0 : HashTable.Pairs} {lk : List Nat} {h0 : Heap} {p0 : Pool}
    (hi0 : HashTable.Table hash base slots bits G m0 lk h0) (hs0 : LSim C full h0 p0) {lab : Nat → Option (Nat × HT.Op)} {N : Nat}
    (hg : ∀ i t o, i < N → lab i = some (t, o) → o ≠ .items ∧ o.good full)
    (hok : (∀ i t o, i < N → lab i = some (t, o) → o.free) ∨
      ∃ K, HashTable.Apart hash bits K ∧ (∀ k ∈ HashTable.keys m0, K k) ∧ ∀ i t o, i < N → lab i = some (t, o) → o.within K) {pid : Nat → Nat} {fuel : Nat}
    (hp : PidsOk pid) {σ : Nat → St (poolMach (Out HT.Ret))} (hi : OpenInit p0 (σ 0)) (hr : OpenRun pid fuel (lcallSession (HashTable.call hash F base) HT.Op.writes .unit) N lab σ)
    (hal : ∀ p, (σ N).alive p = true) {i : Nat} (hiN : i ≤ N) :
    ∃ hist m, ToldLog C full (HashTable.call hash F base) (HT.Spec F) (fun m h => ∃ lk, HashTable.Table hash base slots bits G m lk h) m0 (fun t => begun lab t i) (σ i) hist m := by
  obtain ⟨s0, h1, h2, h3⟩ := open_closed hi hr hal hiN
  obtain ⟨hist, m, k1, k2, k3⟩ := C79_hashtable_partial (fun t ho => by obtain ⟨j, hj, hl⟩ := mem_begun ho; exact (hg j t _ (by omega) hl).1 rfl)
    (fun t o ho => by obtain ⟨j, hj, hl⟩ := mem_begun ho; exact (hg j t o (by omega) hl).2)
    (hok.imp (fun hok t o ho => by obtain ⟨j, hj, hl⟩ := mem_begun ho; exact hok j t o (by omega) hl)
      fun ⟨K, k1, k2, k3⟩ => ⟨K, k1, k2, fun t o ho => by obtain ⟨j, hj, hl⟩ := mem_begun ho; exact k3 j t o (by omega) hl⟩) hi0 hs0 hp h1 h2 h3
  refine ⟨hist, m, k1, k2, fun hw => ?_⟩
  obtain ⟨h, lk, k4, k5⟩ := k3 hw
  exact ⟨h, ⟨lk, k4⟩, k5⟩

/-- **C96, PriorityQueue.** `T` lists the threads that push; what they push altogether, with the items there already, is at most 256. -/
theorem C96_prioqueue {C full : Prop} {b : Nat} {G : Nat → Option Block} {q0 : List Bytes} {h0 : Heap} {p0 : Pool}
    (hi0 : PrioQueue.Inv b G q0 h0) (hs0 : LSim C full h0 p0) {lab : Nat → Option (Nat × PQ.Op)} {N : Nat} (hok : ∀ i t d, i < N → lab i = some (t, .push d) → Good full d.length)
    {T : List Nat} (hT : ∀ i t d, i < N → lab i = some (t, .push d) → t ∈ T) (hlen : q0.length + (T.map fun t => (begun lab t N).countP PQ.Op.isPush).sum ≤ 256) {pid : Nat → Nat} {fuel : Nat}
    (hp : PidsOk pid) {σ : Nat → St (poolMach (Out PQ.Ret))} (hi : OpenInit p0 (σ 0)) (hr : OpenRun pid fuel (lcallSession (PrioQueue.call b) PQ.Op.writes .unit) N lab σ)
    (hal : ∀ p, (σ N).alive p = true) {i : Nat} (hiN : i ≤ N) :
    ∃ hist q, ToldLog C full (PrioQueue.call b) PQ.Spec (PrioQueue.Inv b G) q0 (fun t => begun lab t i) (σ i) hist q := by
  obtain ⟨s0, h1, h2, h3⟩ := open_closed hi hr hal hiN
  refine C79_prioqueue_partial hi0 hs0 (fun t d ho => by obtain ⟨j, hj, hl⟩ := mem_begun ho; exact hok j t d (by omega) hl)
    (T := T) (fun t d ho => by obtain ⟨j, hj, hl⟩ := mem_begun ho; exact hT j t d (by omega) hl) (Nat.le_trans (Nat.add_le_add_left ?_ _) hlen) hp h1 h2 h3
  clear hT hlen
  induction T with
  | nil => exact Nat.le_refl _
  | cons u T ih =>
    simp only [List.map_cons, List.sum_cons]
    exact Nat.add_le_add ((begun_mono lab u hiN).sublist.countP_le) ih
end Lock

/-! ### jobs -/

theorem Deque.trace_same {f : Prop} : ∀ {hist : List (Nat × Deque.Op × Out Deque.Ret)} {q0 q : List Bytes}, (f → ∀ x ∈ hist, x.2.1.fifo) → Trace Deque.Spec q0 (hist.map (·.2.1)) (hist.map (·.2.2)) q →
    Deque.Same f (q0 ++ (Deque.pushed hist).map (·.2)) ((Deque.popped hist).map (·.2) ++ q)
  | [], q0, q, _, h => by cases h; simpa [Deque.pushed, Deque.popped] using Deque.Same.refl (f := f) q0
  | (t, o, r) :: hist, q0, q, hf, h => by
    cases h with
    | @cons _ s1 _ _ _ _ _ hs ht =>
      obtain ⟨i1, i2⟩ := Deque.trace_same (f := f) (fun hf' x hx => hf hf' x (List.mem_cons_of_mem _ hx)) ht
      obtain ⟨j1, j2⟩ := Deque.spec_same (f := f) (fun hf' => hf hf' (t, o, r) (by simp)) hs
      have e1 : (Deque.pushed ((t, o, r) :: hist)).map (·.2) = (Deque.added o r).toList ++ (Deque.pushed hist).map (·.2) := by
        cases e : Deque.added o r <;> simp [Deque.pushed, e]
      have e2 : (Deque.popped ((t, o, r) :: hist)).map (·.2) = (Deque.taken r).toList ++ (Deque.popped hist).map (·.2) := by
        cases e : Deque.taken r <;> simp [Deque.popped, e]
      rw [e1, e2, ← List.append_assoc q0, List.append_assoc (Deque.taken r).toList]
      refine ⟨?_, fun hf' => ?_⟩
      · refine (j1.append_right _).trans ?_
        rw [List.append_assoc]
        exact i1.append_left _
      · rw [← i2 hf', show q0 ++ (Deque.added o r).toList = _ from j2 hf', List.append_assoc]

/-- the order of finished calls that `Linear` gives is that of the log, and its calls have begun -/
theorem Lock.Linear.begun {R O S : Type} {Spec : S → O → Out R → S → Prop} {body : O → Body (poolMach (Out R))} {lab : Nat → Option (Nat × O)} {i : Nat} {st0 : S}
    {log : List (Nat × Option Kind × Body (poolMach (Out R)) × Res (Out R))} {hist : List (Nat × O × Out R)} {st : S} (h : Linear Spec body (fun t => begun lab t i) st0 log hist st) :
    ∀ x ∈ hist, ∃ j, j < i ∧ lab j = some (x.1, x.2.1) := by
  rintro ⟨t, o, r⟩ hx
  exact mem_begun ((h.order t).subset (List.mem_map.2 ⟨(t, o, r), List.mem_filter.2 ⟨hx, by simp⟩, rfl⟩))

/-- **C96, a queue of jobs.** At every moment the initial contents and the values pushed by finished calls are, as a multiset, the values that finished calls have popped and the contents `q`; and if values are pushed at the back and popped
at the front only, then in this order: pushed in the order in which the pushes finished, popped in the order in which the pops finished. -/
theorem C96_jobs {C full : Prop} {b : Nat} {G : Nat → Option Block} {q0 : List Bytes} {h0 : Heap} {p0 : Pool}
    (hi0 : Queue.Inv b G q0 h0) (hs0 : LSim C full h0 p0) {lab : Nat → Option (Nat × Deque.Op)} {N : Nat} (hok : ∀ i t o, i < N → lab i = some (t, o) → o.good full) {pid : Nat → Nat} {fuel : Nat}
    (hp : PidsOk pid) {σ : Nat → St (poolMach (Out Deque.Ret))} (hi : OpenInit p0 (σ 0)) (hr : OpenRun pid fuel (lcallSession (Queue.call b) Deque.Op.writes .unit) N lab σ)
    (hal : ∀ p, (σ N).alive p = true) {i : Nat} (hiN : i ≤ N) :
    ∃ cs q, (σ i).log.map (fun e => (e.1, e.2.2.1, e.2.2.2)) = cs.map (fun x => (x.1, lmethodBody (Queue.call b) x.2.1, Res.ok x.2.2)) ∧
      (q0 ++ (Deque.pushed cs).map (·.2)).Perm ((Deque.popped cs).map (·.2) ++ q) ∧
      ((∀ i t o, i < N → lab i = some (t, o) → o.fifo) → q0 ++ (Deque.pushed cs).map (·.2) = (Deque.popped cs).map (·.2) ++ q) ∧
      ((∀ t n, (σ i).st t ≠ some (.write n)) → ∃ h, Queue.Inv b G q h ∧ LSim C full h (σ i).mem) := by
  obtain ⟨hist, q, h1, -, h3⟩ := C96_queue hi0 hs0 hok hp hi hr hal hiN
  obtain ⟨k1, k2⟩ := Deque.trace_same (f := ∀ i t o, i < N → lab i = some (t, o) → o.fifo) (fun hf x hx => by
    obtain ⟨j, hj, hl⟩ := h1.begun x hx
    exact hf j _ _ (by omega) hl) h1.seq
  exact ⟨hist, q, h1.log, k1, k2, h3⟩

theorem Trace.same_length {O R S : Type} {Spec : S → O → Out R → S → Prop} {s s' : S} {os : List O} {rs : List (Out R)} (h : Trace Spec s os rs s') : rs.length = os.length := by
  induction h with
  | nil => rfl
  | cons _ _ ih => simp [ih]

theorem PQ.trace_events : ∀ {hist : List (Nat × PQ.Op × Out PQ.Ret)} {q0 q : List Bytes}, Trace PQ.Spec q0 (hist.map (·.2.1)) (hist.map (·.2.2)) q →
    CTrace PQ.SpecC PQ.CutC (.fine q0) (hist.map fun x => Ev.done x.2.1 x.2.2) (.fine q) := by
  intro hist
  induction hist using List.reverseRecOn with
  | nil => intro q0 q h; cases h; exact .nil
  | append_singleton hist x ih =>
    intro q0 q h
    rw [List.map_append] at h
    obtain ⟨r1, r2, s1, e, h1, h2⟩ := h.split
    have hlen : r1.length = (hist.map (·.2.2)).length := by rw [h1.same_length]; simp
    rw [List.map_append] at e
    obtain ⟨rfl, rfl⟩ := List.append_inj e.symm hlen
    rw [List.map_append]
    cases h2 with
    | cons hs ht =>
      cases ht
      exact (ih h1).done hs

/-- **C96, a priority queue of jobs.** At every moment the initial contents and the values pushed are, as a multiset, the values popped and the contents `q`; and each pop that has finished returned the least of the values in the queue,
counting the calls that had finished before it, or failed because there was none. -/
theorem C96_least {C full : Prop} {b : Nat} {G : Nat → Option Block} {q0 : List Bytes} {h0 : Heap} {p0 : Pool}
    (hi0 : PrioQueue.Inv b G q0 h0) (hs0 : LSim C full h0 p0) {lab : Nat → Option (Nat × PQ.Op)} {N : Nat} (hok : ∀ i t d, i < N → lab i = some (t, .push d) → Good full d.length)
    (hc : ∀ i t, i < N → lab i ≠ some (t, .clear))
    {T : List Nat} (hT : ∀ i t d, i < N → lab i = some (t, .push d) → t ∈ T) (hlen : q0.length + (T.map fun t => (begun lab t N).countP PQ.Op.isPush).sum ≤ 256) {pid : Nat → Nat} {fuel : Nat}
    (hp : PidsOk pid) {σ : Nat → St (poolMach (Out PQ.Ret))} (hi : OpenInit p0 (σ 0)) (hr : OpenRun pid fuel (lcallSession (PrioQueue.call b) PQ.Op.writes .unit) N lab σ)
    (hal : ∀ p, (σ N).alive p = true) {i : Nat} (hiN : i ≤ N) :
    ∃ cs q, (σ i).log.map (fun e => (e.1, e.2.2.1, e.2.2.2)) = cs.map (fun x => (x.1, lmethodBody (PrioQueue.call b) x.2.1, Res.ok x.2.2)) ∧
      (q0 ++ (PQ.pushed cs).map (·.2)).Perm ((PQ.popped cs).map (·.2) ++ q) ∧
      (∀ a t r b, cs = a ++ (t, PQ.Op.pop, r) :: b → (∃ d s, r = .ok (.str d) ∧ (q0 ++ (PQ.pushed a).map (·.2)).Perm ((PQ.popped a).map (·.2) ++ d :: s) ∧ ∀ x ∈ s, d ≤ x) ∨
        (r = .err .outOfRange ∧ (q0 ++ (PQ.pushed a).map (·.2)).Perm ((PQ.popped a).map (·.2)))) ∧
      ((∀ t n, (σ i).st t ≠ some (.write n)) → ∃ h, PrioQueue.Inv b G q h ∧ LSim C full h (σ i).mem) := by
  obtain ⟨hist, q, h1, -, h3⟩ := C96_prioqueue hi0 hs0 hok hT hlen hp hi hr hal hiN
  have ha : answers (hist.map fun x => (x.1, Ev.done x.2.1 x.2.2)) = hist := by
    clear h1
    induction hist with
    | nil => rfl
    | cons x hist ih => simp only [List.map_cons, answers, ih]
  obtain ⟨s, e, k1, k2⟩ := PQ.least (PQ.trace_events h1.seq) (hist.map fun x => (x.1, Ev.done x.2.1 x.2.2)) (by simp) (by simp) (by
    intro x hx
    obtain ⟨y, hy, rfl⟩ := List.mem_map.1 hx
    obtain ⟨j, hj, hl⟩ := h1.begun y hy
    intro h
    have h : y.2.1 = .clear := h
    rw [h] at hl
    exact hc j _ (by omega) hl)
  cases e
  rw [ha] at k1 k2
  exact ⟨hist, q, h1.log, k1, k2, h3⟩

/-! ### concrete runs -/

theorem begun_of {O : Type} {lab : Nat → Option (Nat × O)} {t : Nat} : ∀ N, begun lab t N = (((List.range N).filterMap lab).filter fun x => x.1 = t).map (·.2)
  | 0 => rfl
  | N + 1 => by
    rw [begun, begun_of N, List.range_succ, List.filterMap_append, List.filter_append, List.map_append]
    congr 1
    cases h : lab N with
    | none => simp [h]
    | some x =>
      obtain ⟨u, o⟩ := x
      by_cases e : u = t <;> simp [h, e]

/-- thread 1 begins its push while thread 0 has the lock; then both pop -/
def lJobSchedule : List (Cmd Deque.Op) :=
  [.call 0 (.pushBack [1]), .go 0 50, .call 1 (.pushBack [2]), .go 1 3, .go 0 44, .go 1 160, .call 1 .popFront, .go 1 113, .call 0 .popFront, .go 0 139]

/-- A run that meets the hypotheses of `C96_queue` and `C96_jobs` (with the pool `lqPool_ready`). -/
example : ∃ N lab σ, σ 0 = quiet lqPool ∧ OpenRun (fun t => t + 1) 10 (lcallSession (Queue.call 1224) Deque.Op.writes .unit) N lab σ ∧
    (∀ i t o, i < N → lab i = some (t, o) → o.good False ∧ o.fifo) ∧ (∀ p, (σ N).alive p = true) ∧
    shownQ (σ N) = ([(0, some (.ok .unit)), (1, some (.ok .unit)), (1, some (.ok (.str [1]))), (0, some (.ok (.str [2])))], true) := by
  have h : (play (fun t => t + 1) 10 (lcallSession (Queue.call 1224) Deque.Op.writes .unit) lJobSchedule (quiet lqPool)).map shownQ =
      some ([(0, some (.ok .unit)), (1, some (.ok .unit)), (1, some (.ok (.str [1]))), (0, some (.ok (.str [2])))], true) := by decide +kernel
  obtain ⟨s, h1, h4⟩ := Option.map_eq_some_iff.1 h
  have h3 := play_alive h1 (fun p => by simp [lJobSchedule])
  obtain ⟨N, lab, σ, e1, rfl, e3, e4⟩ := play_open (cs := []) (OpenTo.refl _) h1
  refine ⟨N, lab, σ, e1, e3, fun i t o hi hl => ?_, fun p => by rw [h3]; rfl, h4⟩
  have hm := mem_filterMap_range hi hl
  rw [e4] at hm
  simp only [List.nil_append, Cmd.made, lJobSchedule, List.mem_cons, Prod.mk.injEq, List.not_mem_nil, or_false] at hm
  rcases hm with ⟨-, rfl⟩ | ⟨-, rfl⟩ | ⟨-, rfl⟩ | ⟨-, rfl⟩
  · exact ⟨⟨by decide, Or.inl (by decide)⟩, trivial⟩
  · exact ⟨⟨by decide, Or.inl (by decide)⟩, trivial⟩
  · exact ⟨trivial, trivial⟩
  · exact ⟨trivial, trivial⟩

def lPrioSchedule : List (Cmd PQ.Op) := [.call 0 (.push [5]), .go 0 50, .call 1 (.push [2]), .go 1 3, .go 0 58, .go 1 146, .call 0 .pop, .go 0 133, .call 1 .pop, .go 1 102]

/-- A run that meets the hypotheses of `C96_prioqueue` and `C96_least` (with the pool `lpqPool_ready`). -/
example : ∃ N lab σ, σ 0 = quiet lpqPool ∧ OpenRun (fun t => t + 1) 10 (lcallSession (PrioQueue.call 1192) PQ.Op.writes .unit) N lab σ ∧
    (∀ i t d, i < N → lab i = some (t, .push d) → Good False d.length ∧ t ∈ [0, 1]) ∧ (∀ i t, i < N → lab i ≠ some (t, .clear)) ∧
    ([] : List Bytes).length + ([0, 1].map fun t => (begun lab t N).countP PQ.Op.isPush).sum ≤ 256 ∧ (∀ p, (σ N).alive p = true) ∧
    shownPrio (σ N) = ([(0, some (.ok .unit)), (1, some (.ok .unit)), (0, some (.ok (.str [2]))), (1, some (.ok (.str [5])))], true) := by
  have h : (play (fun t => t + 1) 10 (lcallSession (PrioQueue.call 1192) PQ.Op.writes .unit) lPrioSchedule (quiet lpqPool)).map shownPrio =
      some ([(0, some (.ok .unit)), (1, some (.ok .unit)), (0, some (.ok (.str [2]))), (1, some (.ok (.str [5])))], true) := by decide +kernel
  obtain ⟨s, h1, h4⟩ := Option.map_eq_some_iff.1 h
  have h3 := play_alive h1 (fun p => by simp [lPrioSchedule])
  obtain ⟨N, lab, σ, e1, rfl, e3, e4⟩ := play_open (cs := []) (OpenTo.refl _) h1
  have hm : ∀ {i t o}, i < N → lab i = some (t, o) → (t, o) = (0, .push [5]) ∨ (t, o) = (1, .push [2]) ∨ (t, o) = (0, .pop) ∨ (t, o) = (1, .pop) := by
    intro i t o hi hl
    have hm := mem_filterMap_range hi hl
    rw [e4] at hm
    simpa only [List.nil_append, Cmd.made, lPrioSchedule, List.mem_cons, List.not_mem_nil, or_false] using hm
  refine ⟨N, lab, σ, e1, e3, fun i t d hi hl => ?_, fun i t hi hl => ?_, ?_, fun p => by rw [h3]; rfl, h4⟩
  · rcases hm hi hl with h | h | h | h <;> cases h
    · exact ⟨⟨by decide, Or.inl (by decide)⟩, by simp⟩
    · exact ⟨⟨by decide, Or.inl (by decide)⟩, by simp⟩
  · rcases hm hi hl with h | h | h | h <;> cases h
  · simp only [begun_of, e4]
    decide

/-- the pool of a prefix tree just created in a new pool of a LogarithmicAllocator -/
def lptPool : Pool := (run (lcompile PrefixTree.create) (run init (newPool (2 ^ 30))).2).2

theorem lptPool_ready : ∃ h G, PrefixTree.Holds 4104 G PT.new h ∧ LSim False False h lptPool := by
  obtain ⟨hp, ⟨-, hs⟩, -⟩ := lfresh.sim
  have hs : LSim False False hp (run init (newPool (2 ^ 30))).2 := ⟨False.elim, hs⟩
  have hz : ∀ b n x, Sized (Good False) (PrefixTree.zeroSlots b 32 n x) := fun b n x => PrefixTree.sz_zeroSlots b 32 n x
  obtain ⟨out, p1, h1, hr, hq, hs1⟩ := lsim_run (PrefixTree.create_spec hp).wp (Sized.sized (by
    unfold PrefixTree.create PrefixTree.createBase; szd [hz]) _) hs
  have e : (run (lcompile PrefixTree.create) (run init (newPool (2 ^ 30))).2).1 = .ok 4104 := by decide +kernel
  rw [hr] at e
  have e2 : lptPool = p1 := by unfold lptPool; rw [hr]
  rcases hq with ⟨rfl, -⟩ | ⟨b, rfl, -, t⟩
  · cases e
  · injection e with e
    subst e
    exact ⟨h1, hp.blk, PrefixTree.holds_new t hs1.heapOk, e2 ▸ hs1⟩

/-- the pool of a hash table of 16 slots just created in a new pool of a LogarithmicAllocator -/
def lhtPool : Pool := (run (lcompile (HashTable.create 4)) (run init (newPool (2 ^ 30))).2).2

theorem lhtPool_ready : ∃ h G sl full, HashTable.Table HashTable.fnv1a64 1192 sl 4 G [] [] h ∧ LSim False full h lhtPool ∧ (full ↔ Full (run init (newPool (2 ^ 30))).2) := by
  obtain ⟨out, p1, h1, hp, hr, hq, hs1, -⟩ := HashTable.lcreate (hash := HashTable.fnv1a64) (bits := 4) (by decide) (by decide) lfresh (Or.inl ⟨by decide, Or.inl (by decide)⟩)
  have e : (run (lcompile (HashTable.create 4)) (run init (newPool (2 ^ 30))).2).1 = .ok 1192 := by decide +kernel
  rw [hr] at e
  have e2 : lhtPool = p1 := by unfold lhtPool; rw [hr]
  rcases hq with ⟨rfl, -⟩ | ⟨b, sl, rfl, -, ht⟩
  · cases e
  · injection e with e
    subst e
    exact ⟨h1, hp.blk, sl, _, ht, e2 ▸ hs1, Iff.rfl⟩

/-- thread 1 begins its increment of `a` while thread 0 is inserting `ab`; then it reads `a` while thread 0 erases `ab` -/
def lTreeSchedule : List (Cmd PT.Op) :=
  [.call 0 (.insert [97, 98] (.str [1, 2, 3, 4, 5, 6, 7, 8, 9]) none), .go 0 50, .call 1 (.incr [97] 5), .go 1 3, .go 0 85, .go 1 77, .call 0 (.erase [97, 98] none), .go 0 20, .call 1 (.at [97]), .go 1 3,
    .go 0 131, .go 1 11]

/-- A run that meets the hypotheses of `C96_prefixtree` (with the pool `lptPool_ready`). -/
example : ∃ N lab σ, σ 0 = quiet lptPool ∧ OpenRun (fun t => t + 1) 10 (lcallSession (PrefixTree.call noAdd 4104) PT.Op.writes .unit) N lab σ ∧
    (∀ i t o, i < N → lab i = some (t, o) → o ≠ .items ∧ o.free ∧ o.good False) ∧ (∀ p, (σ N).alive p = true) ∧
    shown (σ N) = ([(0, some (.ok (.bool true))), (1, some (.ok (.word 5))), (0, some (.ok (.bool true))), (1, some (.ok (.val (.int 5))))], true, true) := by
  have h : (play (fun t => t + 1) 10 (lcallSession (PrefixTree.call noAdd 4104) PT.Op.writes .unit) lTreeSchedule (quiet lptPool)).map shown =
      some ([(0, some (.ok (.bool true))), (1, some (.ok (.word 5))), (0, some (.ok (.bool true))), (1, some (.ok (.val (.int 5))))], true, true) := by decide +kernel
  obtain ⟨s, h1, h4⟩ := Option.map_eq_some_iff.1 h
  have h3 := play_alive h1 (fun p => by simp [lTreeSchedule])
  obtain ⟨N, lab, σ, e1, rfl, e3, e4⟩ := play_open (cs := []) (OpenTo.refl _) h1
  refine ⟨N, lab, σ, e1, e3, fun i t o hi hl => ?_, fun p => by rw [h3]; rfl, h4⟩
  have hm := mem_filterMap_range hi hl
  rw [e4] at hm
  simp only [List.nil_append, Cmd.made, lTreeSchedule, List.mem_cons, Prod.mk.injEq, List.not_mem_nil, or_false] at hm
  rcases hm with ⟨-, rfl⟩ | ⟨-, rfl⟩ | ⟨-, rfl⟩ | ⟨-, rfl⟩
  · exact ⟨fun h => (by cases h), (fun d h => by cases h; decide), by constructor <;> decide⟩
  · exact ⟨fun h => (by cases h), trivial, trivial⟩
  · exact ⟨fun h => (by cases h), trivial, trivial⟩
  · exact ⟨fun h => (by cases h), trivial, trivial⟩

def shownH (s : St (poolMach (Out HT.Ret))) : List (Nat × Option (Out HT.Ret)) × Bool :=
  (s.log.map fun e => (e.1, match e.2.2.2 with | .ok r => some r | _ => none), isRet (s.th 0))

/-- the same calls as in `lTreeSchedule` -/
def lTableSchedule : List (Cmd HT.Op) :=
  [.call 0 (.insert [97, 98] [1, 2, 3, 4, 5, 6, 7, 8, 9] none), .go 0 50, .call 1 (.incr [97] 5), .go 1 3, .go 0 62, .go 1 90, .call 0 (.erase [97, 98] none), .go 0 20, .call 1 (.at [97]), .go 1 3, .go 0 89, .go 1 17]

deriving instance DecidableEq for HT.Ret

/-- A run that meets the hypotheses of `C96_hashtable` (with the pool `lhtPool_ready`), with erases. -/
example : ∃ N lab σ, σ 0 = quiet lhtPool ∧ OpenRun (fun t => t + 1) 10 (lcallSession (HashTable.call HashTable.fnv1a64 noFp 1192) HT.Op.writes .unit) N lab σ ∧
    (∀ full i t o, i < N → lab i = some (t, o) → o ≠ .items ∧ o.good full) ∧
    (∃ K, HashTable.Apart HashTable.fnv1a64 4 K ∧ (∀ k ∈ HashTable.keys [], K k) ∧ ∀ i t o, i < N → lab i = some (t, o) → o.within K) ∧ (∀ p, (σ N).alive p = true) ∧
    shownH (σ N) = ([(0, some (.ok (.bool true))), (1, some (.ok (.word 5))), (0, some (.ok (.bool true))), (1, some (.ok (.str [5, 0, 0, 0, 0, 0, 0, 0])))], true) := by
  have h : (play (fun t => t + 1) 10 (lcallSession (HashTable.call HashTable.fnv1a64 noFp 1192) HT.Op.writes .unit) lTableSchedule (quiet lhtPool)).map shownH =
      some ([(0, some (.ok (.bool true))), (1, some (.ok (.word 5))), (0, some (.ok (.bool true))), (1, some (.ok (.str [5, 0, 0, 0, 0, 0, 0, 0])))], true) := by decide +kernel
  obtain ⟨s, h1, h4⟩ := Option.map_eq_some_iff.1 h
  have h3 := play_alive h1 (fun p => by simp [lTableSchedule])
  obtain ⟨N, lab, σ, e1, rfl, e3, e4⟩ := play_open (cs := []) (OpenTo.refl _) h1
  have hm : ∀ {i t o}, i < N → lab i = some (t, o) → o = .insert [97, 98] [1, 2, 3, 4, 5, 6, 7, 8, 9] none ∨ o = .incr [97] 5 ∨ o = .erase [97, 98] none ∨ o = .at [97] := by
    intro i t o hi hl
    have hm := mem_filterMap_range hi hl
    rw [e4] at hm
    simp only [List.nil_append, Cmd.made, lTableSchedule, List.mem_cons, Prod.mk.injEq, List.not_mem_nil, or_false] at hm
    rcases hm with ⟨-, h⟩ | ⟨-, h⟩ | ⟨-, h⟩ | ⟨-, h⟩ <;> simp [h]
  refine ⟨N, lab, σ, e1, e3, fun full i t o hi hl => ?_, ⟨fun k => k = [97] ∨ k = [97, 98], ?_, fun k hk => by simp [HashTable.keys] at hk, fun i t o hi hl => ?_⟩, fun p => by rw [h3]; rfl, h4⟩
  · rcases hm hi hl with rfl | rfl | rfl | rfl
    · exact ⟨fun h => (by cases h), by decide, Or.inl (by decide)⟩
    · exact ⟨fun h => (by cases h), by decide, Or.inl (by decide)⟩
    · exact ⟨fun h => (by cases h), trivial⟩
    · exact ⟨fun h => (by cases h), trivial⟩
  · intro k k' h1 h2 he
    rcases h1 with rfl | rfl <;> rcases h2 with rfl | rfl
    · rfl
    · exact absurd he (by decide +kernel)
    · exact absurd he (by decide +kernel)
    · rfl
  · rcases hm hi hl with rfl | rfl | rfl | rfl
    · exact ⟨Or.inr rfl, by decide⟩
    · exact ⟨Or.inl rfl, by decide⟩
    · exact Or.inr rfl
    · trivial

end Verif
