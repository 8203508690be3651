import Verif.PropsLogStruct
import Verif.PropsLinear
import Verif.ReadOnly
import Verif.PropsLogStructRuns
/-
C79: structures on a LogarithmicAllocator (the README's and the Python module's default) used by several threads at once.
-/
namespace Verif
open Logarithmic

namespace Lock
variable {R O S : Type} {C full : Prop}

/-- a method call on a pool of a LogarithmicAllocator, as the calling thread sees it (result or exception) -/
def lmethodBody (f : O → HProg R) (o : O) : Body (poolMach (Out R)) := lcompile (attempt (f o))

/-- the repair that follows a stolen lock (LogarithmicAllocator.cc 317-379); its result is not looked at -/
def lrepairBody (dummy : R) : Body (poolMach (Out R)) := Prog.bind Logarithmic.repair fun _ => .ret (Out.ok dummy)

/-- the session of a method call: `lock(true)` for methods that write, `lock(false)` for the others -/
def lcallSession (f : O → HProg R) (writes : O → Bool) (dummy : R) (o : O) : Session (poolMach (Out R)) :=
  if writes o then .write (lrepairBody dummy) (lmethodBody f o) else .read (lrepairBody dummy) (lmethodBody f o)

/-- one call -/
theorem lmethod_run {f : O → HProg R} {Spec : S → O → Out R → S → Prop} {Inv : S → Heap → Prop} {s : S} {o : O} {h : Heap} {p : Pool}
    (hstep : wp (f o) (fun out h' => ∃ s', Spec s o out s' ∧ Inv s' h') h) (hsz : sized (Good full) (f o) h) (hs : LSim C full h p) :
    ∃ (r : Out R) (p' : Pool) (s' : S) (h' : Heap), Body.run (lmethodBody f o) p = (.ok r, p') ∧ Spec s o r s' ∧ Inv s' h' ∧ LSim C full h' p' := by
  have hw : wp (attempt (f o)) (fun out h' => ∃ r s', out = .ok r ∧ Spec s o r s' ∧ Inv s' h') h := by
    rw [wp_attempt]
    refine wp_mono ?_ hstep
    rintro out h' ⟨s', h1, h2⟩
    exact ⟨out, s', rfl, h1, h2⟩
  obtain ⟨out, p', h1, h', ⟨r, s', rfl, h2, h3⟩, h4⟩ := pool_run (lsim hw (sized_attempt hsz) hs)
  exact ⟨r, p', s', h', h1, h2, h3, h4⟩

theorem _root_.Verif.HRo.lcompile {p : HProg R} (hp : HRo p) : Ro (K := poolMach R) (lcompile p) := by
  induction p with
  | ret | err | ub => trivial
  | step op k ih =>
    cases op with
    | rd b o n => exact ⟨fun _ => rfl, fun v => ih v (hp v)⟩
    | rdB b o n => exact ⟨fun _ => rfl, fun v => ih v (hp v)⟩
    | bsize b => exact ⟨fun _ => rfl, fun v => ih _ (hp _)⟩
    | getBase => exact ⟨fun _ => rfl, fun v => ih v (hp v)⟩
    | _ => exact hp.elim

theorem _root_.Verif.HRo.lbody {f : O → HProg R} {o : O} (h : HRo (f o)) : Ro (lmethodBody f o) := h.attempt.lcompile

/-- **C79 for a structure.** A structure that refines `Spec` sequentially and asks the allocator only for blocks it serves lawfully is linearizable. -/
theorem log_linearizable {f : O → HProg R} {Spec : S → O → Out R → S → Prop} {Inv : S → Heap → Prop} {ok : O → Prop} {writes : O → Bool} {dummy : R}
    (hstep : ∀ s o h, ok o → Inv s h → wp (f o) (fun out h' => ∃ s', Spec s o out s' ∧ Inv s' h') h)
    (hsz : ∀ s o h, ok o → Inv s h → sized (Good full) (f o) h)
    (hro : ∀ o, writes o = false → Ro (lmethodBody f o))
    {calls : Nat → List O} (hok : ∀ t, ∀ o ∈ calls t, ok o) {pid : Nat → Nat} {fuel : Nat} {p0 : Pool} {h0 : Heap} {st0 : S}
    (hi0 : Inv st0 h0) (hs0 : LSim C full h0 p0) (hp : PidsOk pid) {s0 s : St (poolMach (Out R))}
    (hi : Init pid fuel (fun t => (calls t).map (lcallSession f writes dummy)) p0 s0) (hr : Reach pid s0 s) (hal : ∀ t, s.alive (pid t) = true) :
    ∃ hist st, Linear Spec (lmethodBody f) calls st0 s.log hist st ∧
      (∀ t, s.th t = .ret () → (s.log.filter fun e => e.1 = t).map (·.2.2.1) = (calls t).map (lmethodBody f)) ∧
      ((∀ t n, s.st t ≠ some (.write n)) → ∃ h, Inv st h ∧ LSim C full h s.mem) := by
  refine linearizable (J := fun _ s p => ∃ h, Inv s h ∧ LSim C full h p) (rep := lrepairBody dummy) (writes := writes) ?_ ⟨h0, hi0, hs0⟩ hro hp hi hr hal
  rintro hist t o s p hnext ⟨h, h1, h2⟩
  have ho := hok t o (next_mem hnext)
  obtain ⟨r, p', s', h', f1, f2, f3, f4⟩ := lmethod_run (hstep s o h ho h1) (hsz s o h ho h1) h2
  exact ⟨r, p', s', f1, f2, h', f3, f4⟩

end Lock
open Lock

/-- **C79, Queue.** Threads of any number of processes call the methods of one queue on one pool of a LogarithmicAllocator at the same time, each call under the allocator's lock; their memory
accesses interleave in any way, and no process dies.  There is one sequential history of the calls that finished, with the results of a deque, in which each thread's calls are its first ones
in the order it made them.  The strings pushed must fit in a page, or the pool cannot grow. -/
theorem C79_queue_partial {C full : Prop} {b : Nat} {G : Nat → Option Block} {q0 : List Bytes} {h0 : Heap} {p0 : Pool}
    (hi0 : Queue.Inv b G q0 h0) (hs0 : LSim C full h0 p0) {calls : Nat → List Deque.Op} (hok : ∀ t, ∀ o ∈ calls t, o.good full) {pid : Nat → Nat} {fuel : Nat}
    (hp : PidsOk pid) {s0 s : St (poolMach (Out Deque.Ret))}
    (hi : Init pid fuel (fun t => (calls t).map (lcallSession (Queue.call b) Deque.Op.writes .unit)) p0 s0)
    (hr : Reach pid s0 s) (hal : ∀ t, s.alive (pid t) = true) :
    ∃ hist q, Linear Deque.Spec (lmethodBody (Queue.call b)) calls q0 s.log hist q ∧
      (∀ t, s.th t = .ret () → (s.log.filter fun e => e.1 = t).map (·.2.2.1) = (calls t).map (lmethodBody (Queue.call b))) ∧
      ((∀ t n, s.st t ≠ some (.write n)) → ∃ h, Queue.Inv b G q h ∧ LSim C full h s.mem) := by
  refine log_linearizable (ok := fun o => o.good full) (fun s o h ho => Queue.step b G s o h (by
      cases o <;> simp only [Deque.Op.good, Deque.Op.ok, Good] at ho ⊢ <;> omega))
    (fun s o h ho _ => (Queue.sz_call b o ho).sized h) ?_ hok hi0 hs0 hp hi hr hal
  intro o ho
  cases o with
  | size => exact ⟨fun _ => rfl, fun _ => trivial⟩
  | bytes => exact ⟨fun _ => rfl, fun _ => trivial⟩
  | _ => cases ho

/-- **C79, PrefixTree.** The same for a prefix tree: insert (with or without check), erase, incr, clear, at, type, exists, size, node counts, find, and the first key. -/
theorem C79_prefixtree_partial {C full : Prop} {add : BitVec 64 → BitVec 64 → BitVec 64} {base : Nat} {F : Nat → Option Block} {st0 : PT.State} {h0 : Heap} {p0 : Pool}
    {calls : Nat → List PT.Op} (_hit : ∀ t, PT.Op.items ∉ calls t) (hok : ∀ t, ∀ o ∈ calls t, o.free ∧ o.good full)
    (hi0 : PrefixTree.Holds base F st0 h0) (hs0 : LSim C full h0 p0) {pid : Nat → Nat} {fuel : Nat} (hp : PidsOk pid) {s0 s : St (poolMach (Out PT.Ret))}
    (hi : Init pid fuel (fun t => (calls t).map (lcallSession (PrefixTree.call add base) PT.Op.writes .unit)) p0 s0)
    (hr : Reach pid s0 s) (hal : ∀ t, s.alive (pid t) = true) :
    ∃ hist st, Linear (PT.Spec add) (lmethodBody (PrefixTree.call add base)) calls st0 s.log hist st ∧
      (∀ t, s.th t = .ret () → (s.log.filter fun e => e.1 = t).map (·.2.2.1) = (calls t).map (lmethodBody (PrefixTree.call add base))) ∧
      ((∀ t n, s.st t ≠ some (.write n)) → ∃ h, PrefixTree.Holds base F st h ∧ LSim C full h s.mem) :=
  log_linearizable (ok := fun o => o.free ∧ o.good full) (writes := PT.Op.writes) (fun s o h h1 h2 => PrefixTree.step o s h h1.1.ok h2)
    (fun s o h ho _ => (PrefixTree.sz_call add base o ho.2).sized h) (fun o ho => (PrefixTree.ro_call o ho).lbody) hok hi0 hs0 hp hi hr hal

theorem htRoL {hash : Bytes → Nat} {F : HT.Fp} {b : Nat} (o : HT.Op) (h : o.writes = false) : Ro (lmethodBody (HashTable.call hash F b) o) := by
  refine HRo.lbody ?_
  cases o with
  | size => exact HRo.bind (HRo.bind .rd fun _ => .ret) fun _ => .ret
  | «at» k =>
    refine HRo.bind (HRo.bind HashTable.ro_walkTables fun r => ?_) fun _ => .ret
    cases r with
    | none => exact .err
    | some l => exact HRo.bind .rdB fun _ => .ret
  | «exists» k => exact HRo.bind (HRo.bind HashTable.ro_walkTables fun _ => .ret) fun _ => .ret
  | _ => cases h

/-- **C79, HashTable.** The same for a hash table.  Either only insert (with or without check), at, exists, size and clear are used, with any keys; or all methods, with keys of a
set `K` in which no two have the same slot. -/
theorem C79_hashtable_partial {C full : Prop} {hash : Bytes → Nat} {F : HT.Fp} {base slots bits : Nat} {G : Nat → Option Block} {m0 : HashTable.Pairs} {lk : List Nat} {h0 : Heap} {p0 : Pool}
    {calls : Nat → List HT.Op} (_hit : ∀ t, HT.Op.items ∉ calls t) (hg : ∀ t, ∀ o ∈ calls t, o.good full)
    (hok : (∀ t, ∀ o ∈ calls t, o.free) ∨ ∃ K, HashTable.Apart hash bits K ∧ (∀ k ∈ HashTable.keys m0, K k) ∧ ∀ t, ∀ o ∈ calls t, o.within K)
    (hi0 : HashTable.Table hash base slots bits G m0 lk h0) (hs0 : LSim C full h0 p0) {pid : Nat → Nat} {fuel : Nat}
    (hp : PidsOk pid) {s0 s : St (poolMach (Out HT.Ret))}
    (hi : Init pid fuel (fun t => (calls t).map (lcallSession (HashTable.call hash F base) HT.Op.writes .unit)) p0 s0)
    (hr : Reach pid s0 s) (hal : ∀ t, s.alive (pid t) = true) :
    ∃ hist m, Linear (HT.Spec F) (lmethodBody (HashTable.call hash F base)) calls m0 s.log hist m ∧
      (∀ t, s.th t = .ret () → (s.log.filter fun e => e.1 = t).map (·.2.2.1) = (calls t).map (lmethodBody (HashTable.call hash F base))) ∧
      ((∀ t n, s.st t ≠ some (.write n)) → ∃ h lk, HashTable.Table hash base slots bits G m lk h ∧ LSim C full h s.mem) := by
  rcases hok with hok | ⟨K, ha, hm0, hok⟩
  · have hstep := htStep (hash := hash) (F := F) (base := base) (slots := slots) (bits := bits) (G := G) (ok := HT.Op.free) (P := fun _ => True)
      (fun _ _ _ h => h.ok) (fun _ _ _ _ _ _ _ => trivial)
    obtain ⟨hist, m, h1, h2, h4⟩ := log_linearizable (ok := fun o => o.free ∧ o.good full) (writes := HT.Op.writes) (fun s o h h1 h2 => hstep s o h h1.1 h2)
      (fun s o h ho _ => (HashTable.sz_call hash F base o ho.2).sized h) htRoL (fun t o ho => ⟨hok t o ho, hg t o ho⟩) ⟨trivial, lk, hi0⟩ hs0 hp hi hr hal
    refine ⟨hist, m, h1, h2, fun hw => ?_⟩
    obtain ⟨h, ⟨-, lk, h5⟩, h6⟩ := h4 hw
    exact ⟨h, lk, h5, h6⟩
  · have hstep := htStep (hash := hash) (F := F) (base := base) (slots := slots) (bits := bits) (G := G) (ok := fun o => o.within K)
      (P := fun m => (HashTable.keys m).Nodup ∧ ∀ k ∈ HashTable.keys m, K k) (fun _ _ hm h => h.ok ha hm.1 hm.2) (fun _ _ _ _ ho hm hs => hs.keys ho hm)
    have hn : (HashTable.keys m0).Nodup := by obtain ⟨bk, -, -, hn⟩ := hi0; exact hn
    obtain ⟨hist, m, h1, h2, h4⟩ := log_linearizable (ok := fun o => o.within K ∧ o.good full) (writes := HT.Op.writes) (fun s o h h1 h2 => hstep s o h h1.1 h2)
      (fun s o h ho _ => (HashTable.sz_call hash F base o ho.2).sized h) htRoL (fun t o ho => ⟨hok t o ho, hg t o ho⟩) ⟨⟨hn, hm0⟩, lk, hi0⟩ hs0 hp hi hr hal
    refine ⟨hist, m, h1, h2, fun hw => ?_⟩
    obtain ⟨h, ⟨-, lk, h5⟩, h6⟩ := h4 hw
    exact ⟨h, lk, h5, h6⟩

/-! ### PriorityQueue -/

namespace PQ
/-- push -/
def Op.isPush : Op → Bool
  | .push _ => true
  | _ => false

theorem Spec.length {s s' : List Bytes} {o : Op} {r : Out Ret} (h : Spec s o r s') : s'.length ≤ s.length + (if o.isPush then 1 else 0) := by
  cases o with
  | push d =>
    rcases h with ⟨-, h⟩ | ⟨-, h⟩ <;> have := h.length_eq <;> simp [Op.isPush] at this ⊢ <;> omega
  | pop =>
    rcases h with ⟨-, -, rfl⟩ | ⟨m, h, -⟩
    · simp
    · have := h.length_eq
      simp at this
      omega
  | clear => rw [h.2]; simp
  | size => have := h.2.length_eq; simp [Op.isPush, this]
end PQ

/-- the calls of the threads `T`, counted thread by thread -/
theorem count_threads {O : Type} (P : O → Bool) (hist : List (Nat × O)) : ∀ T : List Nat,
    (hist.filter fun x => decide (x.1 ∈ T)).countP (fun x => P x.2) ≤ (T.map fun t => ((hist.filter fun x => x.1 = t).map (·.2)).countP P).sum
  | [] => by
    have : (hist.filter fun x => decide (x.1 ∈ ([] : List Nat))) = [] := by simp
    rw [this]
    exact Nat.zero_le _
  | t :: T => by
    have ih := count_threads P hist T
    rw [List.map_cons, List.sum_cons]
    refine Nat.le_trans ?_ (Nat.add_le_add_left ih _)
    clear ih
    rw [List.countP_map, List.countP_filter, List.countP_filter, List.countP_filter]
    induction hist with
    | nil => exact Nat.le_refl _
    | cons x hist ih =>
      simp only [List.countP_cons, Function.comp]
      simp only [Function.comp] at ih
      have h : (if (P x.2 && decide (x.1 ∈ t :: T)) = true then 1 else 0) ≤ (if (P x.2 && decide (x.1 = t)) = true then 1 else 0) + (if (P x.2 && decide (x.1 ∈ T)) = true then 1 else 0) := by
        by_cases h1 : x.1 = t <;> by_cases h2 : x.1 ∈ T <;> cases P x.2 <;> simp [h1, h2]
      omega

/-- **C79, PriorityQueue.** The same for a priority queue.  No item may be empty, each must fit in a page (or the pool cannot grow), and at most 256 items may be in the queue: `T` lists the
threads that push, and what they push altogether, with the items there already, is at most 256. -/
theorem C79_prioqueue_partial {C full : Prop} {b : Nat} {G : Nat → Option Block} {q0 : List Bytes} {h0 : Heap} {p0 : Pool}
    (hi0 : PrioQueue.Inv b G q0 h0) (hs0 : LSim C full h0 p0) {calls : Nat → List PQ.Op} (hok : ∀ t, ∀ d, PQ.Op.push d ∈ calls t → Good full d.length)
    {T : List Nat} (hT : ∀ t d, PQ.Op.push d ∈ calls t → t ∈ T) (hlen : q0.length + (T.map fun t => (calls t).countP PQ.Op.isPush).sum ≤ 256) {pid : Nat → Nat} {fuel : Nat}
    (hp : PidsOk pid) {s0 s : St (poolMach (Out PQ.Ret))}
    (hi : Init pid fuel (fun t => (calls t).map (lcallSession (PrioQueue.call b) PQ.Op.writes .unit)) p0 s0)
    (hr : Reach pid s0 s) (hal : ∀ t, s.alive (pid t) = true) :
    ∃ hist q, Linear PQ.Spec (lmethodBody (PrioQueue.call b)) calls q0 s.log hist q ∧
      (∀ t, s.th t = .ret () → (s.log.filter fun e => e.1 = t).map (·.2.2.1) = (calls t).map (lmethodBody (PrioQueue.call b))) ∧
      ((∀ t n, s.st t ≠ some (.write n)) → ∃ h, PrioQueue.Inv b G q h ∧ LSim C full h s.mem) := by
  have hro : ∀ o : PQ.Op, o.writes = false → Ro (lmethodBody (PrioQueue.call b) o) := by
    intro o ho
    cases o with
    | size => exact ⟨fun _ => rfl, fun _ => trivial⟩
    | _ => cases ho
  have key := linearizable (Spec := PQ.Spec) (body := lmethodBody (PrioQueue.call b)) (rep := lrepairBody .unit) (writes := PQ.Op.writes) (calls := calls) (st0 := q0) (p0 := p0)
    (J := fun done q p => q.length ≤ q0.length + done.countP PQ.Op.isPush ∧ ∃ h, PrioQueue.Inv b G q h ∧ LSim C full h p) ?_ ⟨by simp, h0, hi0, hs0⟩ hro hp hi hr hal
  · obtain ⟨hist, q, h1, h2, h3⟩ := key
    exact ⟨hist, q, h1, h2, fun h => (h3 h).2⟩
  rintro hist t o q p hnext ⟨hl, h, h1, h2⟩
  have hmem := next_mem hnext
  have hgood : o.good full q := by
    cases o with
    | push d =>
      refine ⟨hok t d hmem, Or.inl ?_⟩
      have e1 := count_threads PQ.Op.isPush (hist ++ [(t, .push d)]) T
      have e2 : ((hist ++ [(t, PQ.Op.push d)]).filter fun x => decide (x.1 ∈ T)).countP (fun x => x.2.isPush) = (hist.map (·.2)).countP PQ.Op.isPush + 1 := by
        rw [List.countP_filter, List.countP_append, List.countP_map]
        have e3 : ∀ x ∈ hist, (x.2.isPush && decide (x.1 ∈ T)) = (PQ.Op.isPush ∘ fun x => x.2) x := by
          rintro ⟨u, o⟩ hx
          cases o with
          | push d' =>
            have : PQ.Op.push d' ∈ calls u := by
              refine (hnext u).subset (List.mem_map.2 ⟨(u, .push d'), List.mem_filter.2 ⟨List.mem_append_left _ hx, by simp⟩, rfl⟩)
            simp [PQ.Op.isPush, hT u d' this]
          | _ => simp [PQ.Op.isPush]
        rw [List.countP_congr (q := PQ.Op.isPush ∘ fun x => x.2) (fun x hx => by rw [e3 x hx])]
        simp [PQ.Op.isPush, hT t d hmem]
      have e4 : ∀ T : List Nat, (T.map fun u => (((hist ++ [(t, PQ.Op.push d)]).filter fun x => x.1 = u).map (·.2)).countP PQ.Op.isPush).sum ≤ (T.map fun u => (calls u).countP PQ.Op.isPush).sum := by
        intro T
        induction T with
        | nil => exact Nat.le_refl _
        | cons u T ih =>
          simp only [List.map_cons, List.sum_cons]
          exact Nat.add_le_add ((hnext u).sublist.countP_le) ih
      have := e4 T
      omega
    | _ => trivial
  have hw := PrioQueue.step b G q o h (by
    cases o <;> simp only [PQ.Op.good, PQ.Op.ok, Good] at hgood ⊢
    omega) h1
  obtain ⟨r, p', q', h', f1, f2, f3, f4⟩ := lmethod_run hw (PrioQueue.sized_call h1 o hgood) h2
  refine ⟨r, p', q', f1, f2, ?_, h', f3, f4⟩
  have := f2.length
  rw [List.countP_append, List.countP_singleton]
  omega

theorem lpqPool_ready : ∃ h G, PrioQueue.Inv 1192 G [] h ∧ LSim False False h lpqPool := by
  obtain ⟨hp, ⟨-, hs⟩, -⟩ := lfresh.sim
  have hs : LSim False False hp (run init (newPool (2 ^ 30))).2 := ⟨False.elim, hs⟩
  obtain ⟨out, p1, h1, hr, hq, hs1⟩ := lsim_run (PrioQueue.create_spec hp) (Sized.sized (by
    unfold PrioQueue.create PrioQueue.allocBase; szd) _) hs
  have e : (run (lcompile PrioQueue.create) (run init (newPool (2 ^ 30))).2).1 = .ok 1192 := by decide +kernel
  rw [hr] at e
  have e2 : lpqPool = p1 := by unfold lpqPool; rw [hr]
  cases out with
  | err e => cases e
  | ok b =>
    injection e with e
    subst e
    exact ⟨h1, hp.blk, ⟨hs1.heapOk, _, _, _, _, _, .refl _, hq⟩, e2 ▸ hs1⟩

/-- the hypotheses of `C79_prioqueue_partial` are met by a queue created in a fresh pool, and two processes that push 100 items each and pop some -/
example : ∃ h G, PrioQueue.Inv 1192 G [] h ∧ LSim False False h lpqPool ∧ PidsOk (fun t => t % 2 + 1) ∧ ∃ calls : Nat → List PQ.Op,
    (∀ t d, PQ.Op.push d ∈ calls t → Good False d.length) ∧ (∀ t d, PQ.Op.push d ∈ calls t → t ∈ [0, 1]) ∧
    ([] : List Bytes).length + ([0, 1].map fun t => (calls t).countP PQ.Op.isPush).sum ≤ 256 ∧ PQ.Op.pop ∈ calls 7 ∧
    ∃ s0, Init (fun t => t % 2 + 1) 10 (fun t => (calls t).map (lcallSession (PrioQueue.call 1192) PQ.Op.writes .unit)) lpqPool s0 := by
  obtain ⟨h, G, h1, h2⟩ := lpqPool_ready
  generalize lpqPool = P at h2 ⊢
  refine ⟨h, G, h1, h2, fun t => ⟨Nat.succ_ne_zero _, by show t % 2 + 1 < 2 ^ 18; omega⟩, fun t => if t ≤ 1 then List.replicate 100 (.push [3, 4]) else [.pop, .size], ?_, ?_, by decide +kernel, by simp,
    ⟨fun _ => 0, fun _ => true, P, [], fun t => thread 10 (t % 2 + 1) _, fun _ => none, fun _ => none, fun _ => 0⟩,
    ⟨fun _ => rfl, rfl, rfl, fun _ => rfl, fun _ => rfl, fun _ => rfl, fun _ => rfl⟩⟩
  · intro t d hd
    beta_reduce at hd
    split at hd
    · cases (List.mem_replicate.1 hd).2
      exact ⟨by decide, Or.inl (by decide)⟩
    · simp at hd
  · intro t d hd
    beta_reduce at hd
    split at hd
    · rename_i ht
      have : t = 0 ∨ t = 1 := by omega
      simpa using this
    · simp at hd

theorem lqPool_ready : ∃ h G, Queue.Inv 1224 G [] h ∧ LSim False False h lqPool := by
  obtain ⟨hp, ⟨-, hs⟩, -⟩ := lfresh.sim
  have hs : LSim False False hp (run init (newPool (2 ^ 30))).2 := ⟨False.elim, hs⟩
  obtain ⟨out, p1, h1, hr, ⟨-, hq⟩, hs1⟩ := lsim_run (Queue.create_spec hp) (Sized.sized (by
    unfold Queue.create Queue.allocBase Queue.setupBase Queue.wrPrev Queue.wrNext; szd) _) hs
  have e : (run (lcompile Queue.create) (run init (newPool (2 ^ 30))).2).1 = .ok 1224 := by decide +kernel
  rw [hr] at e
  have e2 : lqPool = p1 := by unfold lqPool; rw [hr]
  cases out with
  | err e => cases e
  | ok b =>
    injection e with e
    subst e
    exact ⟨h1, hp.blk, ⟨hs1.heapOk, [], rfl, hq⟩, e2 ▸ hs1⟩

/-- the hypotheses of `C79_queue_partial` are met by a queue created in a fresh pool and two processes, one pushing and one popping; the pool can grow (`full := False`) -/
example : ∃ h G, Queue.Inv 1224 G [] h ∧ LSim False False h lqPool ∧ PidsOk (fun t => t % 2 + 1) ∧
    (∀ t, ∀ o ∈ (if t = 0 then [Deque.Op.pushBack [1], .pushBack []] else if t = 1 then [.popFront, .size] else []), o.good False) ∧
    ∃ s0, Init (fun t => t % 2 + 1) 10 (fun t => (if t = 0 then [Deque.Op.pushBack [1], .pushBack []] else if t = 1 then [.popFront, .size] else []).map
      (lcallSession (Queue.call 1224) Deque.Op.writes .unit)) lqPool s0 := by
  obtain ⟨h, G, h1, h2⟩ := lqPool_ready
  generalize lqPool = P at h2 ⊢
  refine ⟨h, G, h1, h2, fun t => ⟨Nat.succ_ne_zero _, by show t % 2 + 1 < 2 ^ 18; omega⟩, ?_,
    ⟨fun _ => 0, fun _ => true, P, [], fun t => thread 10 (t % 2 + 1) _, fun _ => none, fun _ => none, fun _ => 0⟩,
    ⟨fun _ => rfl, rfl, rfl, fun _ => rfl, fun _ => rfl, fun _ => rfl, fun _ => rfl⟩⟩
  intro t o ho
  split at ho
  · simp only [List.mem_cons, List.not_mem_nil, or_false] at ho
    rcases ho with rfl | rfl <;> exact ⟨by decide, Or.inl (by decide)⟩
  · split at ho
    · simp only [List.mem_cons, List.not_mem_nil, or_false] at ho
      rcases ho with rfl | rfl <;> trivial
    · cases ho

/-- a prefix tree or hash table created in a pool with any history of LogarithmicAllocator calls meets the hypotheses of `C79_prefixtree_partial` and `C79_hashtable_partial` -/
example {p0 p : Pool} {live : List (Nat × Nat)} (h : LHistX p0 p live) : ∃ (out : Out Nat) (p1 : Pool) (h1 hp : Heap), run (lcompile PrefixTree.create) p = (Out.toRes out, p1) ∧
    LSim False (Full p) h1 p1 ∧ (out = .err .noMem ∨ ∃ b, out = .ok b ∧ PrefixTree.Holds b hp.blk PT.new h1) := by
  obtain ⟨hp, hs, -⟩ := h.sim
  have hz : ∀ b n x, Sized (Good (Full p)) (PrefixTree.zeroSlots b 32 n x) := fun b n x => PrefixTree.sz_zeroSlots b 32 n x
  obtain ⟨out, p1, h1, hr, hq, hs1⟩ := lsim_run (PrefixTree.create_spec hp).wp (Sized.sized (by
    unfold PrefixTree.create PrefixTree.createBase; szd [hz]) _) hs
  refine ⟨out, p1, h1, hp, hr, hs1, ?_⟩
  rcases hq with ⟨rfl, -⟩ | ⟨b, rfl, -, t⟩
  · exact Or.inl rfl
  · exact Or.inr ⟨b, rfl, PrefixTree.holds_new t hs1.heapOk⟩

example (hash : Bytes → Nat) {p0 p : Pool} {live : List (Nat × Nat)} (h : LHistX p0 p live) (hf : SlotsFit p live 8) : ∃ (out : Out Nat) (p1 : Pool) (h1 hp : Heap),
    run (lcompile (HashTable.create 8)) p = (Out.toRes out, p1) ∧ LSim False (Full p) h1 p1 ∧
    (out = .err .noMem ∨ ∃ b sl, out = .ok b ∧ HashTable.Table hash b sl 8 hp.blk [] [] h1) := by
  obtain ⟨out, p1, h1, hp, hr, hq, hs1, -⟩ := HashTable.lcreate (hash := hash) (by decide) (by decide) h hf
  refine ⟨out, p1, h1, hp, hr, hs1, ?_⟩
  rcases hq with ⟨rfl, -⟩ | ⟨b, sl, rfl, -, ht⟩
  · exact Or.inl rfl
  · exact Or.inr ⟨b, sl, rfl, ht⟩

end Verif
