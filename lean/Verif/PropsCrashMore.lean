import Verif.ConcGuard
import Verif.PropsReaders
import Verif.PropsQueueCrash
import Verif.PropsHashTableCrash
import Verif.PropsPrioQueueCrash
/-
C55 for the structures that a death can damage: Queue, PriorityQueue and HashTable.
-/
namespace Verif
open Lock

namespace PQ
/-- a priority queue in order with the items `s` (as a multiset), or one that a death has damaged and whose entries stand for the items `e` -/
inductive State
  | fine (s : List Bytes)
  | hurt (e : List Bytes)

/-- in order: as `Spec`; damaged: size() tells the number of entries -/
def SpecC : State → Op → Out Ret → State → Prop
  | .fine s, o, r, .fine s' => Spec s o r s'
  | .hurt e, .size, r, .hurt e' => r = .ok (.num e.length) ∧ e' = e
  | _, _, _, _ => False

/-- what a death in the call `o` may leave -/
def CutC : State → Op → State → Prop
  | .fine s, o, .fine s' => Fine s o s'
  | .fine s, o, .hurt e => Hurt s o e
  | _, _, _ => False

/-- a damaged queue is not used any more, except for its size -/
def State.may : State → Op → Prop
  | .fine _, o => o.ok
  | .hurt _, o => o = .size
end PQ

namespace PrioQueue
open PQ
/-- the heap holds a queue at `b` in this state, beside the blocks `G`; the allocator's part of the invariant is left out -/
def Left' (b : Nat) (G : Nat → Option Block) : PQ.State → Heap → Prop
  | .fine s, h => ∃ G' arr cap A D lk, (∀ x B, G x = some B → G' x = some B) ∧ s.Perm (A.map D) ∧ RepX False h b arr cap A D lk G'
  | .hurt e, h => ∃ arr cap L D lk, Shape h b arr cap L D lk ∧ Keeps G h b arr cap L lk ∧ e = L.map D

theorem fragile (b : Nat) (G : Nat → Option Block) : Fragile (call b) SpecC CutC (fun s h => HeapOk h ∧ Left' b G s h) (Left' b G) State.may := by
  refine ⟨?_, ?_, fun _ _ h => h.2, fun _ _ _ h hs => ⟨hs.heapOk, h⟩⟩
  · rintro (s | e) o h ho ⟨hk, hl⟩
    · obtain ⟨G', arr, cap, A, D, lk, h1, h2, h3⟩ := hl
      refine wp_mono ?_ (lives_step (G := G) ho ⟨G', h1, hk, arr, cap, A, D, lk, h2, h3⟩)
      rintro out h' ⟨s', e1, G2, f1, f2, arr', cap', A', D', lk', f3, f4⟩
      exact ⟨.fine s', e1, f2, G2, arr', cap', A', D', lk', f1, f3, f4⟩
    · have ho : o = .size := ho
      subst ho
      obtain ⟨arr, cap, L, D, lk, h1, h2, rfl⟩ := hl
      refine wp_bind_of h1.size_spec ?_ ?_
      · rintro n h' ⟨hn, rfl⟩
        injection hn with hn
        subst hn
        exact ⟨.hurt (L.map D), ⟨by rw [List.length_map], rfl⟩, hk, arr, cap, L, D, lk, h1, h2, rfl⟩
      · rintro e h' ⟨he, -⟩; cases he
  · rintro (s | e) o h ho ⟨hk, hl⟩
    · obtain ⟨G', arr, cap, A, D, lk, h1, h2, h3⟩ := hl
      refine always_mono ?_ (cut (G := G') (s := s) ho ⟨hk, arr, cap, A, D, lk, h2, h3⟩)
      rintro h' (⟨s', G2, arr', cap', A', D', lk', f1, f2, f3, f4⟩ | ⟨arr', cap', L, D', lk', f1, f2, f3⟩)
      · exact ⟨.fine s', Or.inr f1, G2, arr', cap', A', D', lk', fun x B hx => f2 x B (h1 x B hx), f3, f4⟩
      · exact ⟨.hurt (L.map D'), Or.inr f3, arr', cap', L, D', lk', f1, fun x B hx => f2 x B (h1 x B hx), rfl⟩
    · have ho : o = .size := ho
      subst ho
      obtain ⟨arr, cap, L, D, lk, h1, h2, rfl⟩ := hl
      have ha := wp_always h1.size_spec
      have hro : HRo (size b) := .rd
      refine always_bind_ret (always_mono ?_ (hro.still ha))
      rintro h' rfl
      exact ⟨_, Or.inl rfl, arr, cap, L, D, lk, h1, h2, rfl⟩

theorem ro_call (b : Nat) (o : Op) (ho : o.writes = false) : HRo (call b o) := by
  cases o with
  | size => exact HRo.bind .rd fun _ => .ret
  | _ => cases ho
end PrioQueue

/-- **C55, PriorityQueue.** Threads of any number of processes call the methods of one priority queue on one pool at the same time; their memory accesses interleave in any way, and any process
may die at any time, also inside a call, inside the allocator or inside a repair.  Then a sequential history with deaths explains it: the finished calls, in the order they finished, have the results
of a priority queue; a death inside a call leaves the items before the call or those after it, or, in a push onto a nonempty queue or a pop from a queue with two items or more, perhaps a damaged queue, whose
entries are as `Hurt` says; as long as no live process is writing, repair succeeds and leaves the queue in the state in which the history ends.  Unless, after the queue was damaged, a
thread went on to use it (other than to ask for its size): then this holds up to that call. -/
theorem C55_prioqueue_crashes_partial {b : Nat} {G : Nat → Option Block} {q0 : List Bytes} {h0 : Heap} {p0 : Pool}
    (hi0 : PrioQueue.Inv b G q0 h0) (hs0 : Sim h0 p0) {calls : Nat → List PQ.Op} (hok : ∀ t, ∀ o ∈ calls t, o.ok) {pid : Nat → Nat} {fuel : Nat}
    (hp : PidsOk pid) {s0 s : St (poolMach (Out PQ.Ret))}
    (hi : Init pid fuel (fun t => (calls t).map (callSession (PrioQueue.call b) PQ.Op.writes .unit)) p0 s0) (hr : Reach pid s0 s) :
    (∃ evs st, Explains (PrioQueue.call b) .unit calls pid (fun p => s.alive p = false) PQ.SpecC PQ.CutC (.fine q0) s.log evs st ∧
      ((∀ t n, ¬ s.inside pid t (.write n)) → ∃ p' h, run Simple.repair s.mem = (.ok (), p') ∧ (HeapOk h ∧ PrioQueue.Left' b G st h) ∧ Sim h p')) ∨
    ∃ l1 evs e t o, l1 <+: s.log ∧ Explains (PrioQueue.call b) .unit calls pid (fun p => s.alive p = false) PQ.SpecC PQ.CutC (.fine q0) l1 evs (.hurt e) ∧ o ∈ calls t ∧ o ≠ .size := by
  obtain ⟨hk, arr, cap, A, D, lk, h1, h2⟩ := id hi0
  rcases concurrent_calls_guarded (PrioQueue.fragile b G) (fun o ho => (PrioQueue.ro_call b o ho).body) (st0 := .fine q0) ⟨hk, G, arr, cap, A, D, lk, fun _ _ h => h, h1, h2.weaken⟩ hs0 hp hi hr with
    h | ⟨l1, evs, st, t, o, e1, e2, e3, e4⟩
  · exact Or.inl h
  · cases st with
    | fine q => exact absurd (hok t o e3) e4
    | hurt e => exact Or.inr ⟨l1, evs, e, t, o, e1, e2, e3, e4⟩

/-- calls in which a death cannot damage a priority queue -/
theorem pq_safe {s0 : List Bytes} {evs : List (Ev PQ.Op PQ.Ret)} {st : PQ.State} (h : CTrace PQ.SpecC PQ.CutC (.fine s0) evs st) (hd : ∀ o, Ev.died o ∈ evs → o = .size ∨ o = .clear) :
    ∃ s, st = .fine s ∧ CTrace PQ.Spec PQ.Fine s0 evs s := by
  induction h with
  | nil => exact ⟨s0, rfl, .nil⟩
  | @done l s1 o r s2 h1 h2 ih =>
    obtain ⟨s, rfl, ht⟩ := ih fun o ho => hd o (List.mem_append_left _ ho)
    cases s2 with
    | fine s' => exact ⟨s', rfl, .done ht h2⟩
    | hurt e => exact h2.elim
  | @died l s1 o s2 h1 h2 ih =>
    obtain ⟨s, rfl, ht⟩ := ih fun o ho => hd o (List.mem_append_left _ ho)
    rcases h2 with rfl | h2
    · exact ⟨s, rfl, .died ht (Or.inl rfl)⟩
    · cases s2 with
      | fine s' => exact ⟨s', rfl, .died ht (Or.inr h2)⟩
      | hurt e =>
        obtain ⟨h3, -⟩ := h2
        rcases hd o (by simp) with rfl | rfl <;> exact h3.elim

/-- **C55, PriorityQueue, harmless deaths.** If the processes that die only make calls of size() and clear(), then the queue stays in order, whenever they die: the history is one of calls on a
priority queue, in which each death in a call leaves the items before the call or those after it. -/
theorem C55_prioqueue_safe_partial {b : Nat} {G : Nat → Option Block} {q0 : List Bytes} {h0 : Heap} {p0 : Pool}
    (hi0 : PrioQueue.Inv b G q0 h0) (hs0 : Sim h0 p0) {calls : Nat → List PQ.Op} (hok : ∀ t, ∀ o ∈ calls t, o.ok) {pid : Nat → Nat} {fuel : Nat}
    (hp : PidsOk pid) {s0 s : St (poolMach (Out PQ.Ret))}
    (hi : Init pid fuel (fun t => (calls t).map (callSession (PrioQueue.call b) PQ.Op.writes .unit)) p0 s0) (hr : Reach pid s0 s)
    (hd : ∀ t, s.alive (pid t) = false → ∀ o ∈ calls t, o = .size ∨ o = .clear) :
    ∃ evs q, Explains (PrioQueue.call b) .unit calls pid (fun p => s.alive p = false) PQ.Spec PQ.Fine q0 s.log evs q ∧
      ((∀ t n, ¬ s.inside pid t (.write n)) → ∃ p' h, run Simple.repair s.mem = (.ok (), p') ∧ PrioQueue.Lives b G q h ∧ Sim h p') := by
  obtain ⟨hk, arr, cap, A, D, lk, h1, h2⟩ := id hi0
  have key : ∀ evs : List (Ev PQ.Op PQ.Ret), (∀ o, Ev.died o ∈ evs → ∃ t, o ∈ calls t ∧ s.alive (pid t) = false) → ∀ o, Ev.died o ∈ evs → o = .size ∨ o = .clear := by
    intro evs h o ho
    obtain ⟨t, h1, h2⟩ := h o ho
    exact hd t h2 o h1
  obtain ⟨evs, st, ⟨e1, e2, e3⟩, e4⟩ := concurrent_calls_kept (PrioQueue.fragile b G) (fun o ho => (PrioQueue.ro_call b o ho).body) (st0 := .fine q0)
    ⟨hk, G, arr, cap, A, D, lk, fun _ _ h => h, h1, h2.weaken⟩ hs0 hp hi hr (by
      intro evs st h1 h2 t o ho
      obtain ⟨s', rfl, -⟩ := pq_safe h1 (key evs h2)
      exact hok t o ho)
  obtain ⟨q, rfl, ht⟩ := pq_safe e1 (key evs e3)
  refine ⟨evs, q, ⟨ht, e2, e3⟩, fun hw => ?_⟩
  obtain ⟨p', h, f1, ⟨f2, G', arr', cap', A', D', lk', f3, f4, f5⟩, f6⟩ := e4 hw
  exact ⟨p', h, f1, ⟨G', f3, f2, arr', cap', A', D', lk', f4, f5⟩, f6⟩

namespace Deque
/-- a well-formed queue with contents `s` whose counters are off by `dc` and `dt`, or one whose next links give `sn` and whose prev links give `so` -/
inductive State
  | fine (s : List Bytes) (dc dt : Nat)
  | split (sn so : List Bytes)

def SpecC : State → Op → Out Ret → State → Prop
  | .fine s dc dt, o, r, .fine s' dc' dt' => SpecOff dc dt s o r s' ∧ dc' = dc ∧ dt' = dt
  | _, _, _, _ => False

/-- What a death in the call `o` may leave: the contents before or after it, with size() and bytes() each as before or after it; or a queue that is split because the process died between the
two link stores of a push or pop -/
def CutC : State → Op → State → Prop
  | .fine s dc dt, o, .fine s' dc' dt' => (s' = s ∨ s' = after s o) ∧
      ((s'.length + dc') % 2 ^ 64 = (s.length + dc) % 2 ^ 64 ∨ (s'.length + dc') % 2 ^ 64 = ((after s o).length + dc) % 2 ^ 64) ∧
      (((s'.map List.length).sum + dt') % 2 ^ 64 = ((s.map List.length).sum + dt) % 2 ^ 64 ∨ ((s'.map List.length).sum + dt') % 2 ^ 64 = (((after s o).map List.length).sum + dt) % 2 ^ 64)
  | .fine s _ _, o, .split sn so => so = s ∧ sn = after s o ∧ sn.length ≠ so.length
  | _, _, _ => False

/-- a split queue is not used any more -/
def State.may : State → Op → Prop
  | .fine _ _ _, o => o.ok
  | .split _ _, _ => False
end Deque

namespace Queue
open Deque
/-- the heap holds a queue at `b` in this state, and the blocks `G` beside it; the allocator's part of the invariant is left out -/
def Left (b : Nat) (G : Nat → Option Block) : Deque.State → Heap → Prop
  | .fine s dc dt, h => ∃ G' L, (∀ x B, G x = some B → G' x = some B) ∧ s = L.map (·.2) ∧ RepD h b L G' dc dt
  | .split sn so, h => ∃ Ln Lo, Ln.map (·.2) = sn ∧ Lo.map (·.2) = so ∧ Split h b Ln Lo ∧ ∀ x B, G x = some B → h.blk x = some B

theorem fragile (b : Nat) (G : Nat → Option Block) : Fragile (call b) SpecC CutC (fun s h => HeapOk h ∧ Left b G s h) (Left b G) State.may := by
  refine ⟨?_, ?_, fun _ _ h => h.2, fun _ _ _ h hs => ⟨hs.heapOk, h⟩⟩
  · rintro (⟨s, dc, dt⟩ | ⟨sn, so⟩) o h ho ⟨hk, hl⟩
    · obtain ⟨G', L, h1, rfl, h2⟩ := hl
      refine wp_mono ?_ (stepD (G := G') (dc := dc) (dt := dt) _ o h ho ⟨hk, L, rfl, h2⟩)
      rintro out h' ⟨s', e1, e2, L', e3, e4⟩
      exact ⟨.fine s' dc dt, ⟨e1, rfl, rfl⟩, e2, G', L', h1, e3, e4⟩
    · exact ho.elim
  · rintro (⟨s, dc, dt⟩ | ⟨sn, so⟩) o h ho ⟨hk, hl⟩
    · obtain ⟨G', L, h1, rfl, h2⟩ := hl
      refine always_mono ?_ ((cut (G := G') (dc := dc) (dt := dt) _ o h ho ⟨hk, L, rfl, h2⟩).always (Cr.start h2))
      rintro h' (⟨L', G2, dc', dt', lost, r, e1, e2, e3, e4, e5⟩ | ⟨Ln, Lo, e1, e2, e3, e4⟩)
      · refine ⟨.fine (L'.map (·.2)) dc' dt', Or.inr ⟨e1, ?_, ?_⟩, G2, L', ?_, rfl, r⟩
        · rw [List.length_map (as := L')]; exact e2
        · rw [total_eq L']; exact e3
        · intro x B hx
          have hx := h1 x B hx
          by_cases hxl : x = lost
          · subst hxl; rw [e4] at hx; cases hx
          · rw [e5 x hxl]; exact hx
      · refine ⟨.split _ _, Or.inr ⟨rfl, rfl, ?_⟩, Ln, Lo, e1, e2, e3, fun x B hx => e4 x B (h1 x B hx)⟩
        rw [← e1, ← e2, List.length_map, List.length_map]
        exact e3.len
    · exact ho.elim

theorem ro_call (b : Nat) (o : Op) (ho : o.writes = false) : HRo (call b o) := by
  cases o with
  | size => exact HRo.bind .rd fun _ => .ret
  | bytes => exact HRo.bind .rd fun _ => .ret
  | _ => cases ho
end Queue

/-- **C55, Queue.** The same for a queue: a death inside a call leaves the contents before the call or those after it, with counters that are from then on off by a constant, or, if the process died
between the two link stores of a push or a pop, a split queue.  Unless a thread went on to use a split queue: then this holds up to that call. -/
theorem C55_queue_crashes_partial {b : Nat} {G : Nat → Option Block} {q0 : List Bytes} {h0 : Heap} {p0 : Pool}
    (hi0 : Queue.Inv b G q0 h0) (hs0 : Sim h0 p0) {calls : Nat → List Deque.Op} (hok : ∀ t, ∀ o ∈ calls t, o.ok) {pid : Nat → Nat} {fuel : Nat}
    (hp : PidsOk pid) {s0 s : St (poolMach (Out Deque.Ret))}
    (hi : Init pid fuel (fun t => (calls t).map (callSession (Queue.call b) Deque.Op.writes .unit)) p0 s0) (hr : Reach pid s0 s) :
    (∃ evs st, Explains (Queue.call b) .unit calls pid (fun p => s.alive p = false) Deque.SpecC Deque.CutC (.fine q0 0 0) s.log evs st ∧
      ((∀ t n, ¬ s.inside pid t (.write n)) → ∃ p' h, run Simple.repair s.mem = (.ok (), p') ∧ (HeapOk h ∧ Queue.Left b G st h) ∧ Sim h p')) ∨
    ∃ l1 evs sn so t o, l1 <+: s.log ∧ Explains (Queue.call b) .unit calls pid (fun p => s.alive p = false) Deque.SpecC Deque.CutC (.fine q0 0 0) l1 evs (.split sn so) ∧ o ∈ calls t := by
  obtain ⟨hk, L, rfl, h2⟩ := Queue.Inv.invD hi0
  rcases concurrent_calls_guarded (Queue.fragile b G) (fun o ho => (Queue.ro_call b o ho).body) (st0 := .fine (L.map (·.2)) 0 0) ⟨hk, G, L, fun _ _ h => h, rfl, h2⟩ hs0 hp hi hr with
    h | ⟨l1, evs, st, t, o, e1, e2, e3, e4⟩
  · exact Or.inl h
  · cases st with
    | fine q dc dt => exact absurd (hok t o e3) e4
    | split sn so => exact Or.inr ⟨l1, evs, sn, so, t, o, e1, e2, e3⟩

namespace HT
/-- as `SpecD`; `none` after a process died in clear() -/
def SpecC (F : Fp) : Option Damaged → Op → Out Ret → Option Damaged → Prop
  | some s, o, r, some s' => SpecD F s o r s'
  | _, _, _, _ => False

/-- a death in a call on a key gives up the slot of the key; a death in clear() gives up the table -/
def CutC (hash : Bytes → Nat) (bits : Nat) : Option Damaged → Op → Option Damaged → Prop
  | some s, o, some s' => s' = lose hash bits s o
  | some _, o, none => o = .clear
  | _, _, _ => False

def okC (hash : Bytes → Nat) (bits : Nat) : Option Damaged → Op → Prop
  | some s, o => s.ok hash bits o
  | none, _ => False
end HT

namespace HashTable
open HT
def Left (hash : Bytes → Nat) (base bits : Nat) (G : Nat → Option Block) : Option Damaged → Heap → Prop
  | some s, h => Lives hash base bits G s h
  | none, _ => True

theorem fragile (hash : Bytes → Nat) (F : Fp) (base bits : Nat) (G : Nat → Option Block) :
    Fragile (call hash F base) (SpecC F) (CutC hash bits) (fun s h => HeapOk h ∧ Left hash base bits G s h) (Left hash base bits G) (okC hash bits) := by
  refine ⟨?_, ?_, fun _ _ h => h.2, fun _ _ _ h hs => ⟨hs.heapOk, h⟩⟩
  · rintro (- | s) o h ho ⟨hk, hl⟩
    · exact ho.elim
    · refine wp_mono ?_ (wp_heapOk hk (lives_step (F := F) ho hl))
      rintro out h' ⟨⟨s', e1, e2⟩, e3⟩
      exact ⟨some s', e1, e3, e2⟩
  · rintro (- | s) o h ho ⟨hk, hl⟩
    · exact ho.elim
    · by_cases hc : o = .clear
      · exact always_mono (fun h' _ => ⟨none, Or.inr hc, trivial⟩) (wp_always (lives_step (F := F) ho hl))
      · exact always_mono (fun h' h1 => ⟨some (lose hash bits s o), Or.inr rfl, h1⟩) (lives_cut hk ho hc hl)
end HashTable

/-- **C55, HashTable.** The same for a hash table: a death inside a call on a key gives up the slot of the key (`lose`), the pairs in all other slots are kept; a death in clear() gives up the table.
Unless a thread went on to make a call that may not be made in the state reached (`okC`: on a key in a slot that has been given up, a clear or an iteration once there is such a slot, or one of the calls of C35/C37
that are false of the code): then this holds up to that call. -/
theorem C55_hashtable_crashes_partial {hash : Bytes → Nat} {F : HT.Fp} {base slots bits : Nat} {G : Nat → Option Block} {m0 : HashTable.Pairs} {lk : List Nat} {h0 : Heap} {p0 : Pool}
    {calls : Nat → List HT.Op} (_hit : ∀ t, HT.Op.items ∉ calls t)
    (hi0 : HashTable.Table hash base slots bits G m0 lk h0) (hs0 : Sim h0 p0) {pid : Nat → Nat} {fuel : Nat}
    (hp : PidsOk pid) {s0 s : St (poolMach (Out HT.Ret))}
    (hi : Init pid fuel (fun t => (calls t).map (callSession (HashTable.call hash F base) HT.Op.writes .unit)) p0 s0) (hr : Reach pid s0 s) :
    (∃ evs st, Explains (HashTable.call hash F base) .unit calls pid (fun p => s.alive p = false) (HT.SpecC F) (HT.CutC hash bits) (some ⟨m0, []⟩) s.log evs st ∧
      ((∀ t n, ¬ s.inside pid t (.write n)) → ∃ p' h, run Simple.repair s.mem = (.ok (), p') ∧ (HeapOk h ∧ HashTable.Left hash base bits G st h) ∧ Sim h p')) ∨
    ∃ l1 evs st t o, l1 <+: s.log ∧ Explains (HashTable.call hash F base) .unit calls pid (fun p => s.alive p = false) (HT.SpecC F) (HT.CutC hash bits) (some ⟨m0, []⟩) l1 evs st ∧
      o ∈ calls t ∧ ¬ HT.okC hash bits st o :=
  concurrent_calls_guarded (HashTable.fragile hash F base bits G) (fun o ho => (htHRo o ho).body) (st0 := some ⟨m0, []⟩)
    ⟨hs0.heapOk, slots, 0, lk, HashTable.tableD_nil.2 hi0, fun _ => rfl⟩ hs0 hp hi hr

namespace PrefixTree
open PT
theorem fragile (add : BitVec 64 → BitVec 64 → BitVec 64) (base : Nat) :
    Fragile (call add base) (Spec add) (fun s o s' => ∃ m', Cut add s.m o m' ∧ s' = torn m') (fun s h => ∃ F, Holds base F s h) (Stands base) (fun s o => o.ok s) := by
  refine ⟨?_, ?_, (crashable (add := add)).weak, (crashable (add := add)).heal⟩
  · rintro s o h ho ⟨F, hi⟩
    refine wp_mono ?_ (step (add := add) o s h ho hi)
    rintro out h' ⟨s', h1, h2⟩
    exact ⟨s', h1, F, h2⟩
  · rintro s o h ho ⟨F, hi⟩
    obtain ⟨n, hn⟩ := hi.fin
    have h0 : Cr base (Cut add s.m o) h := by
      obtain ⟨⟨g, ni, nn, t, hm, -⟩, -⟩ := hi
      exact ⟨F, g, ni, nn, t, hm ▸ cut_refl⟩
    refine always_mono ?_ ((cut (add := add) o s h ho hi).always h0)
    rintro h' ⟨F', g', ni', nn', t', hm'⟩
    exact ⟨torn g'.kv, Or.inr ⟨_, hm', rfl⟩, ⟨F', g', ni', nn', t', rfl, (fun h => by cases h), (fun h => by cases h), (fun h => by cases h)⟩, cut_fin hm' hn⟩
end PrefixTree

/-- **C55, PrefixTree, all calls.** As `C55_prefixtree_crashes_partial`, for all calls, also those that are covered in some states only (searches from a key and bounds, incr by a double, `Op.ok`):
unless, at some time, a thread made a call in a state in which it is not covered; then this holds up to that call. -/
theorem C55_prefixtree_guarded_partial {add : BitVec 64 → BitVec 64 → BitVec 64} {base : Nat} {F : Nat → Option Block} {st0 : PT.State} {h0 : Heap} {p0 : Pool}
    {calls : Nat → List PT.Op} (_hit : ∀ t, PT.Op.items ∉ calls t)
    (hi0 : PrefixTree.Holds base F st0 h0) (hs0 : Sim h0 p0) {pid : Nat → Nat} {fuel : Nat} (hp : PidsOk pid) {s0 s : St (poolMach (Out PT.Ret))}
    (hi : Init pid fuel (fun t => (calls t).map (callSession (PrefixTree.call add base) PT.Op.writes .unit)) p0 s0) (hr : Reach pid s0 s) :
    (∃ evs st, Explains (PrefixTree.call add base) .unit calls pid (fun p => s.alive p = false) (PT.Spec add) (fun s o s' => ∃ m', PT.Cut add s.m o m' ∧ s' = PT.torn m') st0 s.log evs st ∧
      ((∀ t n, ¬ s.inside pid t (.write n)) → ∃ p' h, run Simple.repair s.mem = (.ok (), p') ∧ (∃ F, PrefixTree.Holds base F st h) ∧ Sim h p')) ∨
    ∃ l1 evs st t o, l1 <+: s.log ∧ Explains (PrefixTree.call add base) .unit calls pid (fun p => s.alive p = false) (PT.Spec add) (fun s o s' => ∃ m', PT.Cut add s.m o m' ∧ s' = PT.torn m') st0 l1 evs st ∧
      o ∈ calls t ∧ ¬ o.ok st :=
  concurrent_calls_guarded (PrefixTree.fragile add base) (fun o ho => (PrefixTree.ro_call o ho).body) (st0 := st0) ⟨F, hi0⟩ hs0 hp hi hr

/-- the hypotheses are met by structures on fresh pools and two processes, one of which dies at once -/
example : ∃ h G, PrioQueue.Inv 344 G [] h ∧ Sim h pqPool ∧ PidsOk (fun t => t % 2 + 1) ∧
    ∃ s0 s, Init (fun t => t % 2 + 1) 10 (fun t => (if t = 0 then [PQ.Op.push [1], .pop] else if t = 1 then [.clear, .size] else []).map
      (callSession (PrioQueue.call 344) PQ.Op.writes .unit)) pqPool s0 ∧ Reach (fun t => t % 2 + 1) s0 s ∧ s.alive 2 = false ∧
      ∀ t, s.alive (t % 2 + 1) = false → ∀ o ∈ (if t = 0 then [PQ.Op.push [1], .pop] else if t = 1 then [.clear, .size] else []), o = .size ∨ o = .clear := by
  obtain ⟨h, G, h1, h2⟩ := pqPool_ready
  generalize pqPool = P at h2 ⊢
  let s0 : St (poolMach (Out PQ.Ret)) := ⟨fun _ => 0, fun _ => true, P, [], fun t => thread 10 (t % 2 + 1) ((if t = 0 then [PQ.Op.push [1], .pop] else if t = 1 then [.clear, .size] else []).map
      (callSession (PrioQueue.call 344) PQ.Op.writes .unit)), fun _ => none, fun _ => none, fun _ => 0⟩
  refine ⟨h, G, h1, h2, fun t => ⟨Nat.succ_ne_zero _, by show t % 2 + 1 < 2 ^ 18; omega⟩, s0, { s0 with alive := fset s0.alive 2 false },
    ⟨fun _ => rfl, rfl, rfl, fun _ => rfl, fun _ => rfl, fun _ => rfl, fun _ => rfl⟩, .step .refl (.die 2), by simp [fset], ?_⟩
  intro t ht o ho
  have h3 : t % 2 = 1 := by
    simp [fset, s0] at ht
    omega
  rw [if_neg (by omega)] at ho
  split at ho
  · simp at ho; rcases ho with rfl | rfl <;> simp
  · cases ho

/-- deaths that damage a queue, and deaths that do not -/
example : PQ.CutC (.fine [[2], [3]]) (.push [1]) (.fine [[1], [2], [3]]) ∧ PQ.CutC (.fine [[2], [3]]) (.push [1]) (.hurt [[2], [2], [3]]) ∧
    Deque.CutC (.fine [[2]] 0 0) (.pushBack [3]) (.fine [[2]] 1 0) ∧ Deque.CutC (.fine [[2]] 0 0) (.pushBack [3]) (.split [[2], [3]] [[2]]) := by
  refine ⟨Or.inr ⟨.ok .unit, _, Or.inl ⟨rfl, .refl _⟩, .refl _⟩, ⟨(fun h => by cases h), [[1], [2], [3]], 0, [2], .refl _, by decide, rfl⟩, ⟨Or.inl rfl, Or.inr rfl, Or.inl rfl⟩, rfl, rfl, by decide⟩

end Verif
