import Verif.OpenSys
import Verif.PropsCrashMore
import Verif.PropsLockLive
/-
C86: the concurrent theorems for threads that decide from what they have seen what to call next.
C87: counters shared by several processes.
-/
namespace Verif
open Lock

theorem mem_begun {O : Type} {lab : Nat → Option (Nat × O)} {t : Nat} {o : O} : ∀ {i : Nat}, o ∈ begun lab t i → ∃ j, j < i ∧ lab j = some (t, o)
  | 0, h => by cases h
  | i + 1, h => by
    rcases List.mem_append.1 h with h' | h'
    · obtain ⟨j, h1, h2⟩ := mem_begun h'
      exact ⟨j, by omega, h2⟩
    · clear h
      refine ⟨i, by omega, ?_⟩
      split at h'
      · rename_i u o' he
        split at h'
        · rename_i hu; subst hu; rw [List.mem_singleton.1 h']; exact he
        · cases h'
      · cases h'

/-- **C86, PrefixTree.** Any number of threads of any number of processes call the methods of a prefix tree; when a thread has finished a call it may begin any other, at any time, depending on
whatever it has seen; memory accesses interleave in any way and any process may die at any time.  Then one sequential history accounts for the whole run: at each moment `i` a first part of it, which
only grows, has exactly the calls that have finished (in the order they finished, with the results they returned, which are those of the map) and some of those begun and cut short by deaths, each thread's
calls in the order in which it has begun them; a thread that is not in a call has all its calls in it; and as long as no live process is writing, repair leaves a tree with the map in which that part ends. -/
theorem C86_prefixtree {add : BitVec 64 → BitVec 64 → BitVec 64} {base : Nat} {F : Nat → Option Block} {st0 : PT.State} {h0 : Heap} {p0 : Pool}
    {lab : Nat → Option (Nat × PT.Op)} {N : Nat} (hok : ∀ i t o, i < N → lab i = some (t, o) → o.free ∧ o ≠ .items)
    (hi0 : PrefixTree.Holds base F st0 h0) (hs0 : Sim h0 p0) {pid : Nat → Nat} {fuel : Nat} (hp : PidsOk pid) {σ : Nat → St (poolMach (Out PT.Ret))}
    (hi : OpenInit p0 (σ 0)) (hr : OpenRun pid fuel (callSession (PrefixTree.call add base) PT.Op.writes .unit) N lab σ) :
    ToldOpen (PrefixTree.call add base) .unit pid (PT.Spec add) (fun s o s' => ∃ m', PT.Cut add s.m o m' ∧ s' = PT.torn m') (fun s h => ∃ F, PrefixTree.Holds base F s h) st0 N lab σ := by
  rcases open_run_durable (PrefixTree.fragile add base) (fun o ho => (PrefixTree.ro_call o ho).body) (st0 := st0) ⟨F, hi0⟩ hs0 hp hi hr with
    h | ⟨l1, evs, st, t, o, -, -, -, e4, e5⟩
  · exact h
  · obtain ⟨j, hj, hl⟩ := mem_begun (List.mem_of_getElem? e4)
    exact absurd (hok j t o hj hl).1.ok e5

/-- **C86, Queue**; unless a thread went on to use a queue that a death had split: then this holds up to that call. -/
theorem C86_queue {b : Nat} {G : Nat → Option Block} {q0 : List Bytes} {h0 : Heap} {p0 : Pool}
    (hi0 : Queue.Inv b G q0 h0) (hs0 : Sim h0 p0) {lab : Nat → Option (Nat × Deque.Op)} {N : Nat} (hok : ∀ i t o, i < N → lab i = some (t, o) → o.ok) {pid : Nat → Nat} {fuel : Nat}
    (hp : PidsOk pid) {σ : Nat → St (poolMach (Out Deque.Ret))}
    (hi : OpenInit p0 (σ 0)) (hr : OpenRun pid fuel (callSession (Queue.call b) Deque.Op.writes .unit) N lab σ) :
    ToldOpen (Queue.call b) .unit pid Deque.SpecC Deque.CutC (fun st h => HeapOk h ∧ Queue.Left b G st h) (.fine q0 0 0) N lab σ ∨
    ∃ l1 evs sn so t o, l1 <+: (σ N).log ∧ Durable (Queue.call b) .unit (fun t => begun lab t N) pid (fun p => (σ N).alive p = false) Deque.SpecC Deque.CutC (.fine q0 0 0) l1 evs (.split sn so) ∧
      (∀ o', .died o' ∉ evsOf evs t) ∧ (begun lab t N)[(evsOf evs t).length]? = some o := by
  obtain ⟨hk, L, rfl, h2⟩ := Queue.Inv.invD hi0
  rcases open_run_durable (Queue.fragile b G) (fun o ho => (Queue.ro_call b o ho).body) (st0 := .fine (L.map (·.2)) 0 0) ⟨hk, G, L, fun _ _ h => h, rfl, h2⟩ hs0 hp hi hr with
    h | ⟨l1, evs, st, t, o, e1, e2, e3, e4, e5⟩
  · exact Or.inl h
  · cases st with
    | fine q dc dt =>
      obtain ⟨j, hj, hl⟩ := mem_begun (List.mem_of_getElem? e4)
      exact absurd (hok j t o hj hl) e5
    | split sn so => exact Or.inr ⟨l1, evs, sn, so, t, o, e1, e2, e3, e4⟩

/-- **C86, PriorityQueue**; unless a thread went on to use a queue that a death had damaged, other than to ask for its size. -/
theorem C86_prioqueue {b : Nat} {G : Nat → Option Block} {q0 : List Bytes} {h0 : Heap} {p0 : Pool}
    (hi0 : PrioQueue.Inv b G q0 h0) (hs0 : Sim h0 p0) {lab : Nat → Option (Nat × PQ.Op)} {N : Nat} (hok : ∀ i t o, i < N → lab i = some (t, o) → o.ok) {pid : Nat → Nat} {fuel : Nat}
    (hp : PidsOk pid) {σ : Nat → St (poolMach (Out PQ.Ret))}
    (hi : OpenInit p0 (σ 0)) (hr : OpenRun pid fuel (callSession (PrioQueue.call b) PQ.Op.writes .unit) N lab σ) :
    ToldOpen (PrioQueue.call b) .unit pid PQ.SpecC PQ.CutC (fun st h => HeapOk h ∧ PrioQueue.Left' b G st h) (.fine q0) N lab σ ∨
    ∃ l1 evs e t o, l1 <+: (σ N).log ∧ Durable (PrioQueue.call b) .unit (fun t => begun lab t N) pid (fun p => (σ N).alive p = false) PQ.SpecC PQ.CutC (.fine q0) l1 evs (.hurt e) ∧
      (∀ o', .died o' ∉ evsOf evs t) ∧ (begun lab t N)[(evsOf evs t).length]? = some o ∧ o ≠ .size := by
  obtain ⟨hk, arr, cap, A, D, lk, h1, h2⟩ := id hi0
  rcases open_run_durable (PrioQueue.fragile b G) (fun o ho => (PrioQueue.ro_call b o ho).body) (st0 := .fine q0) ⟨hk, G, arr, cap, A, D, lk, fun _ _ h => h, h1, h2.weaken⟩ hs0 hp hi hr with
    h | ⟨l1, evs, st, t, o, e1, e2, e3, e4, e5⟩
  · exact Or.inl h
  · cases st with
    | fine q =>
      obtain ⟨j, hj, hl⟩ := mem_begun (List.mem_of_getElem? e4)
      exact absurd (hok j t o hj hl) e5
    | hurt e => exact Or.inr ⟨l1, evs, e, t, o, e1, e2, e3, e4, e5⟩

/-- **C86, HashTable**; unless a thread's next call was one that may not be made in the state reached (`okC`). -/
theorem C86_hashtable {hash : Bytes → Nat} {F : HT.Fp} {base slots bits : Nat} {G : Nat → Option Block} {m0 : HashTable.Pairs} {lk : List Nat} {h0 : Heap} {p0 : Pool}
    {lab : Nat → Option (Nat × HT.Op)} {N : Nat} (_hit : ∀ i t, i < N → lab i ≠ some (t, HT.Op.items))
    (hi0 : HashTable.Table hash base slots bits G m0 lk h0) (hs0 : Sim h0 p0) {pid : Nat → Nat} {fuel : Nat}
    (hp : PidsOk pid) {σ : Nat → St (poolMach (Out HT.Ret))}
    (hi : OpenInit p0 (σ 0)) (hr : OpenRun pid fuel (callSession (HashTable.call hash F base) HT.Op.writes .unit) N lab σ) :
    ToldOpen (HashTable.call hash F base) .unit pid (HT.SpecC F) (HT.CutC hash bits) (fun st h => HeapOk h ∧ HashTable.Left hash base bits G st h) (some ⟨m0, []⟩) N lab σ ∨
    Misused (HashTable.call hash F base) .unit (fun t => begun lab t N) pid (fun p => (σ N).alive p = false) (HT.SpecC F) (HT.CutC hash bits) (HT.okC hash bits) (some ⟨m0, []⟩) (σ N).log :=
  open_run_durable (HashTable.fragile hash F base bits G) (fun o ho => (htHRo o ho).body) (st0 := some ⟨m0, []⟩)
    ⟨hs0.heapOk, slots, 0, lk, HashTable.tableD_nil.2 hi0, fun _ => rfl⟩ hs0 hp hi hr

/-! ### C87: counters -/

namespace PT
open PrefixTree (Val Check)

/-- the calls that never change the value of `k` -/
def Op.spares (k : Bytes) : Op → Prop
  | .insert k' _ _ | .insertResult k' _ _ | .erase k' _ | .incr k' _ | .incrDouble k' _ => k' ≠ k
  | .clear => False
  | _ => True

/-- a write of the small integer `y` to `k` on condition that its value is the integer `x` -/
def Op.cas (k : Bytes) (x y : BitVec 64) : Op := .insert k (.int y) (some (k, .val (.int x)))

/-- the calls a counter `k` may be used with: those that do not change it, increments, and conditional writes of integers that need no buffer -/
def Op.counts (k : Bytes) (o : Op) : Prop :=
  o.spares k ∨ (∃ d, o = .incr k d) ∨ ∃ x y, o = .cas k x y ∧ ¬ (y.toInt < -2 ^ 60 ∨ 2 ^ 60 ≤ y.toInt)

/-- what a call that finished with result `r` has added to the counter `k` -/
def gain (k : Bytes) : Op → Out Ret → BitVec 64
  | .incr k' d, .ok _ => if k' = k then d else 0
  | .insert k' (.int y) (some (_, .val (.int x))), .ok (.bool true) => if k' = k then y - x else 0
  | _, _ => 0

/-- the counter `k` has the value `x` (a missing key counts as 0) -/
def Reads (m : Map) (k : Bytes) (x : BitVec 64) : Prop := m k = some (.int x) ∨ (m k = none ∧ x = 0)

def total (l : List (BitVec 64)) : BitVec 64 := l.foldl (· + ·) 0

theorem total_snoc (l : List (BitVec 64)) (d : BitVec 64) : total (l ++ [d]) = total l + d := by simp [total, List.foldl_append]

theorem put_other {m : Map} {k k' : Bytes} {w : Option Val} (h : k' ≠ k) : put m k' w k = m k := if_neg (Ne.symm h)
theorem put_self {m : Map} {k : Bytes} {w : Option Val} : put m k w k = w := if_pos rfl

theorem spares_insert {s s' : State} {k k' : Bytes} {v : Val} {c : Option Check} {r : Out Ret} (h : SpecInsert s k' v c r s') (hk : k' ≠ k) : s'.m k = s.m k := by
  rcases h with ⟨-, -, rfl⟩ | ⟨-, -, rfl⟩ | ⟨-, -, m', rfl, rfl | ⟨rfl, -⟩⟩
  · rfl
  · exact put_other hk
  · rfl
  · exact put_other hk

theorem spares_erase {s s' : State} {k k' : Bytes} {c : Option Check} {r : Out Ret} (h : SpecErase s k' c r s') (hk : k' ≠ k) : s'.m k = s.m k := by
  rcases h with ⟨-, -, rfl⟩ | ⟨-, b, -, rfl, -⟩
  · rfl
  · exact put_other hk

theorem spares_spec {add : BitVec 64 → BitVec 64 → BitVec 64} {s s' : State} {o : Op} {r : Out Ret} {k : Bytes} (h : Spec add s o r s') (hk : o.spares k) : s'.m k = s.m k := by
  cases o with
  | insert k' v c => exact spares_insert h hk
  | insertResult k' v c =>
    cases v with
    | missing => exact spares_erase h hk
    | val v => exact spares_insert h hk
    | ref d => exact spares_insert h hk
  | erase k' c => exact spares_erase h hk
  | incr k' d =>
    simp only [Spec] at h
    split at h
    · rcases h with ⟨-, rfl⟩ | ⟨-, rfl⟩
      · exact put_other hk
      · rfl
    · rcases h with ⟨-, rfl⟩ | ⟨-, rfl⟩
      · exact put_other hk
      · rfl
    · rw [h.2]
  | incrDouble k' d =>
    simp only [Spec] at h
    split at h
    · rcases h with ⟨-, rfl⟩ | ⟨-, rfl⟩
      · exact put_other hk
      · rfl
    · rcases h with ⟨-, rfl⟩ | ⟨-, rfl⟩
      · exact put_other hk
      · rfl
    · rw [h.2]
  | clear => exact absurd hk id
  | _ => rw [h.1]

theorem spares_gain {o : Op} {r : Out Ret} {k : Bytes} (hk : o.spares k) : gain k o r = 0 := by
  unfold gain
  split
  · exact if_neg hk
  · exact if_neg hk
  · rfl

/-- a finished call adds its gain to the counter -/
theorem gain_step {add : BitVec 64 → BitVec 64 → BitVec 64} {s s' : State} {o : Op} {r : Out Ret} {k : Bytes} {x : BitVec 64} (h : Spec add s o r s') (hk : o.counts k) (hx : Reads s.m k x) :
    Reads s'.m k (x + gain k o r) := by
  rcases hk with hk | ⟨d, rfl⟩ | ⟨a, b, rfl, hb⟩
  · rw [spares_gain hk, show x + (0 : BitVec 64) = x from BitVec.add_zero x]
    unfold Reads
    rw [spares_spec h hk]
    exact hx
  · simp only [Spec] at h
    rcases hx with hx | ⟨hx, rfl⟩
    · rw [hx] at h
      rcases h with ⟨rfl, rfl⟩ | ⟨rfl, rfl⟩
      · exact Or.inl (by simp [gain, put_self])
      · exact Or.inl (by simpa [gain] using hx)
    · rw [hx] at h
      rcases h with ⟨rfl, rfl⟩ | ⟨rfl, rfl⟩
      · exact Or.inl (by simp [gain, put_self])
      · exact Or.inr ⟨hx, by simp [gain]⟩
  · have hsame : passes s.m (some (k, .val (.int a))) → x = a ∧ s.m k = some (.int x) := by
      rintro ⟨w, h1, h2⟩
      rcases hx with hx | ⟨hx, -⟩
      · rw [hx] at h1
        injection h1 with h1
        subst h1
        have h2 : Val.int x = Val.int a := h2
        injection h2 with h2
        exact ⟨h2, hx⟩
      · rw [hx] at h1; cases h1
    rcases h with ⟨-, rfl, rfl⟩ | ⟨hp, rfl, rfl⟩ | ⟨hp, rfl, m', rfl, rfl | ⟨rfl, h5⟩⟩
    · simpa [gain, Op.cas] using hx
    · obtain ⟨rfl, -⟩ := hsame hp
      refine Or.inl ?_
      have e : x + gain k (Op.cas k x b) (.ok (.bool true)) = b := by
        simp only [gain, Op.cas, if_true]
        rw [BitVec.add_comm, BitVec.sub_add_cancel]
      rw [e]
      exact put_self
    · simpa [gain, Op.cas] using hx
    · rcases h5 with ⟨d, h5, -⟩ | ⟨y, h5, h6⟩
      · cases h5
      · injection h5 with h5
        subst h5
        exact absurd h6 hb

/-- a call cut short leaves the value of `k` alone if the whole call does -/
theorem spares_cut {add : BitVec 64 → BitVec 64 → BitVec 64} {m m' : Map} {o : Op} {k : Bytes} (h : Cut add m o m') (hk : o.spares k) : m' k = m k := by
  have hins : ∀ {k' v c}, CutInsert m k' v c m' → k' ≠ k → m' k = m k := by
    rintro k' v c (rfl | ⟨-, rfl | rfl | ⟨d, y, -, -, rfl⟩⟩) hk
    · rfl
    · exact put_other hk
    · exact put_other hk
    · exact put_other hk
  have her : ∀ {k' c}, CutErase m k' c m' → k' ≠ k → m' k = m k := by
    rintro k' c (rfl | ⟨-, rfl⟩) hk
    · rfl
    · exact put_other hk
  cases o with
  | insert k' v c => exact hins h hk
  | insertResult k' v c =>
    cases v with
    | missing => exact her h hk
    | val v => exact hins h hk
    | ref d => exact hins h hk
  | erase k' c => exact her h hk
  | incr k' d =>
    rcases h with rfl | ⟨-, rfl⟩ | ⟨y, -, rfl⟩
    · rfl
    · exact put_other hk
    · exact put_other hk
  | incrDouble k' d =>
    rcases h with rfl | ⟨-, rfl⟩ | ⟨y, -, rfl⟩
    · rfl
    · exact put_other hk
    · exact put_other hk
  | clear => exact absurd hk id
  | _ => have h : m' = m := h
         rw [h]

/-- a call cut short leaves the counter alone or, if it is an increment, adds to it -/
theorem cut_step {add : BitVec 64 → BitVec 64 → BitVec 64} {m m' : Map} {o : Op} {k : Bytes} {x : BitVec 64} (h : Cut add m o m') (hk : o.spares k ∨ ∃ d, o = .incr k d) (hx : Reads m k x) :
    Reads m' k x ∨ ∃ d, o = .incr k d ∧ Reads m' k (x + d) := by
  have hsame : m' k = m k → Reads m' k x := fun e => by unfold Reads; rw [e]; exact hx
  rcases hk with hk | ⟨d, rfl⟩
  · exact Or.inl (hsame (spares_cut h hk))
  · rcases h with rfl | ⟨h1, rfl⟩ | ⟨y, h1, rfl⟩
    · exact Or.inl hx
    · rcases hx with hx | ⟨-, rfl⟩
      · rw [hx] at h1; cases h1
      · exact Or.inr ⟨d, rfl, Or.inl (by rw [put_self, show (0 : BitVec 64) + d = d from BitVec.zero_add d])⟩
    · rcases hx with hx | ⟨hx, -⟩
      · rw [hx] at h1
        injection h1 with h1
        injection h1 with h1
        subst h1
        exact Or.inr ⟨d, rfl, Or.inl put_self⟩
      · rw [hx] at h1; cases h1

/-- the increments of `k` in a history that were cut short: thread and amount -/
def cutIncrs (k : Bytes) (evs : List (Nat × Ev Op Ret)) : List (Nat × BitVec 64) :=
  evs.filterMap fun e => match e.2 with
    | .died (.incr k' d) => if k' = k then some (e.1, d) else none
    | _ => none

/-- the value of a counter after a history with deaths -/
theorem counted_trace {add : BitVec 64 → BitVec 64 → BitVec 64} {k : Bytes} {x : BitVec 64} {st0 : State} (hx : Reads st0.m k x) {l : List (Ev Op Ret)} {st : State}
    (h : CTrace (Spec add) (fun s o s' => ∃ m', Cut add s.m o m' ∧ s' = torn m') st0 l st) :
    ∀ (evs : List (Nat × Ev Op Ret)), evs.map (·.2) = l → (∀ e ∈ evs, e.2.op.counts k) → (∀ t o, (t, Ev.died o) ∈ evs → o.spares k ∨ ∃ d, o = .incr k d) →
    ∃ D : List (Nat × BitVec 64), D.Sublist (cutIncrs k evs) ∧ Reads st.m k (x + total ((answers evs).map fun a => gain k a.2.1 a.2.2) + total (D.map (·.2))) := by
  induction h with
  | nil =>
    intro evs he _ _
    obtain rfl := List.map_eq_nil_iff.1 he
    exact ⟨[], List.Sublist.refl _, by simpa [answers, total] using hx⟩
  | @done l s1 o r s2 _ hs ih =>
    intro evs he hc hd
    obtain ⟨evs', e', rfl, rfl, e2⟩ := List.map_eq_append_iff.1 he
    obtain ⟨⟨t, ev⟩, rfl, e3⟩ := List.map_eq_singleton_iff.1 e2
    obtain rfl : ev = .done o r := e3
    obtain ⟨D, h1, h2⟩ := ih evs' rfl (fun e h => hc e (List.mem_append_left _ h)) (fun t o h => hd t o (List.mem_append_left _ h))
    refine ⟨D, ?_, ?_⟩
    · rw [cutIncrs, List.filterMap_append]
      exact h1.trans (List.sublist_append_left _ _)
    · have h3 := gain_step hs (hc (t, .done o r) (by simp)) h2
      rw [answers_append]
      simp only [answers, List.map_append, List.map_cons, List.map_nil]
      rw [total_snoc]
      have e : ∀ a b c d : BitVec 64, a + (b + c) + d = a + b + d + c := by
        intro a b c d
        rw [← BitVec.add_assoc, BitVec.add_assoc (a + b), BitVec.add_comm c, ← BitVec.add_assoc]
      rw [e]
      exact h3
  | @died l s1 o s2 _ hs ih =>
    intro evs he hc hd
    obtain ⟨evs', e', rfl, rfl, e2⟩ := List.map_eq_append_iff.1 he
    obtain ⟨⟨t, ev⟩, rfl, e3⟩ := List.map_eq_singleton_iff.1 e2
    obtain rfl : ev = .died o := e3
    obtain ⟨D, h1, h2⟩ := ih evs' rfl (fun e h => hc e (List.mem_append_left _ h)) (fun t o h => hd t o (List.mem_append_left _ h))
    have ha : answers (evs' ++ [(t, Ev.died o)]) = answers evs' := by rw [answers_append]; simp [answers]
    have hD : D.Sublist (cutIncrs k (evs' ++ [(t, Ev.died o)])) := by
      rw [cutIncrs, List.filterMap_append]
      exact h1.trans (List.sublist_append_left _ _)
    rw [ha]
    rcases hs with rfl | ⟨m', hm, rfl⟩
    · exact ⟨D, hD, h2⟩
    · rcases cut_step hm (hd t o (by simp)) h2 with h3 | ⟨d, rfl, h3⟩
      · exact ⟨D, hD, h3⟩
      · refine ⟨D ++ [(t, d)], ?_, ?_⟩
        · rw [cutIncrs, List.filterMap_append]
          exact h1.append (by simp)
        · rw [List.map_append, List.map_cons, List.map_nil, total_snoc, ← BitVec.add_assoc]
          exact h3

end PT

theorem answers_count {O R : Type} (evs : List (Nat × Ev O R)) (t : Nat) : ((answers evs).filter fun a => a.1 = t).length = finished evs t := by
  induction evs with
  | nil => rfl
  | cons e evs ih =>
    obtain ⟨u, e⟩ := e
    by_cases h : u = t
    · cases e <;> simp_all [answers, finished, evsOf]
    · cases e <;> simp_all [answers, finished, evsOf]

theorem evsOf_mem {O R : Type} {evs : List (Nat × Ev O R)} {t : Nat} {e : Ev O R} : e ∈ evsOf evs t ↔ (t, e) ∈ evs := by
  unfold evsOf
  constructor
  · intro h
    obtain ⟨⟨u, e'⟩, h1, rfl⟩ := List.mem_map.1 h
    obtain ⟨h2, h3⟩ := List.mem_filter.1 h1
    have : u = t := by simpa using h3
    subst this
    exact h2
  · intro h
    exact List.mem_map.2 ⟨(t, e), List.mem_filter.2 ⟨h, by simp⟩, rfl⟩

/-- the number of calls in a list of events that were cut short -/
def nCut {O R : Type} : List (Ev O R) → Nat
  | [] => 0
  | .done _ _ :: l => nCut l
  | .died _ :: l => nCut l + 1

theorem nCut_append {O R : Type} (l l' : List (Ev O R)) : nCut (l ++ l') = nCut l + nCut l' := by
  induction l with
  | nil => simp [nCut]
  | cons e l ih => cases e <;> (simp [nCut, ih]; try omega)

theorem nCut_zero {O R : Type} {l : List (Ev O R)} (h : ∀ o, .died o ∉ l) : nCut l = 0 := by
  induction l with
  | nil => rfl
  | cons e l ih =>
    cases e with
    | done => exact ih fun o ho => h o (List.mem_cons_of_mem _ ho)
    | died o => exact absurd (List.mem_cons_self ..) (h o)

theorem finished_nCut {O R : Type} (evs : List (Nat × Ev O R)) (t : Nat) : finished evs t + nCut (evsOf evs t) = (evsOf evs t).length := by
  unfold finished
  generalize evsOf evs t = l
  induction l with
  | nil => rfl
  | cons e l ih => cases e <;> (simp [nCut]; omega)

/-- in a history in program order a call cut short is the one after those its thread finished -/
theorem inOrder_cut {O R : Type} {calls : Nat → List O} {pid : Nat → Nat} {D : Nat → Prop} {evs : List (Nat × Ev O R)} (h : Lock.InOrder calls pid D evs) {t : Nat} {o : O}
    (hm : (t, Ev.died o) ∈ evs) : D (pid t) ∧ (calls t)[((answers evs).filter fun a => a.1 = t).length]? = some o ∧ nCut (evsOf evs t) = 1 := by
  obtain ⟨l, l', e⟩ := List.append_of_mem (evsOf_mem.2 hm)
  obtain ⟨rfl, hD⟩ := (h t).2 l o l' e
  have hl : ∀ o', .died o' ∉ l := by
    intro o' ho
    obtain ⟨a, b, rfl⟩ := List.append_of_mem ho
    have := ((h t).2 a o' (b ++ [.died o]) (by rw [e]; simp)).1
    simp at this
  have h1 : nCut (evsOf evs t) = 1 := by rw [e, nCut_append, nCut_zero hl]; rfl
  have hf : finished evs t = l.length := by
    have := finished_nCut evs t
    rw [h1, e] at this
    simpa using this
  refine ⟨hD, ?_, h1⟩
  rw [answers_count, hf]
  have := (h t).1
  rw [e] at this
  have h2 := congrArg (fun x : List O => x[l.length]?) this
  simpa [List.getElem?_take, Ev.op] using h2.symm

/-- no thread has two calls cut short -/
theorem cut_nodup {calls : Nat → List PT.Op} {pid : Nat → Nat} {D : Nat → Prop} {evs : List (Nat × Ev PT.Op PT.Ret)} (h : Lock.InOrder calls pid D evs) (k : Bytes) :
    ((PT.cutIncrs k evs).map (·.1)).Nodup := by
  rw [List.nodup_iff_count_le_one]
  intro t
  have h1 : ((PT.cutIncrs k evs).map (·.1)).count t ≤ nCut (evsOf evs t) := by
    clear h
    induction evs with
    | nil => simp [PT.cutIncrs]
    | cons e evs ih =>
      obtain ⟨u, e⟩ := e
      have hev : evsOf ((u, e) :: evs) t = if u = t then e :: evsOf evs t else evsOf evs t := by
        unfold evsOf
        rw [List.filter_cons]
        by_cases hu : u = t <;> simp [hu]
      rw [hev]
      unfold PT.cutIncrs at ih ⊢
      rw [List.filterMap_cons]
      cases e with
      | done o r =>
        show (List.map _ (List.filterMap _ evs)).count t ≤ _
        split
        · exact ih
        · exact ih
      | died o =>
        have hle : nCut (evsOf evs t) + (if u = t then 1 else 0) = nCut (if u = t then Ev.died o :: evsOf evs t else evsOf evs t) := by
          split <;> rfl
        rw [← hle]
        split
        · exact Nat.le_trans ih (Nat.le_add_right _ _)
        · rename_i y hy
          have hy1 : y.1 = u := by
            simp only at hy
            split at hy
            · split at hy
              · injection hy with hy; rw [← hy]
              · cases hy
            · cases hy
          rw [List.map_cons, List.count_cons, hy1]
          simp only [beq_iff_eq]
          omega
  refine h1.trans ?_
  by_cases hd : ∃ o, .died o ∈ evsOf evs t
  · obtain ⟨o, ho⟩ := hd
    exact Nat.le_of_eq (inOrder_cut h (evsOf_mem.1 ho)).2.2
  · rw [nCut_zero fun o ho => hd ⟨o, ho⟩]
    exact Nat.zero_le 1

theorem mem_cutIncrs {k : Bytes} {evs : List (Nat × Ev PT.Op PT.Ret)} {t : Nat} {d : BitVec 64} (h : (t, d) ∈ PT.cutIncrs k evs) : (t, Ev.died (.incr k d)) ∈ evs := by
  obtain ⟨⟨u, e⟩, h1, h2⟩ := List.mem_filterMap.1 h
  simp only at h2
  split at h2
  · split at h2
    · rename_i hk; subst hk
      injection h2 with h2
      injection h2 with h3 h4
      subst h3; subst h4
      exact h1
    · cases h2
  · cases h2

/-- **C87: a counter shared by several processes.** The value of the key `k` of a prefix tree is changed only by incr(k, d) and by inserts of small integers on condition that the value is a given integer
(check-and-set); threads decide freely what to call next; accesses interleave in any way; processes may die at any time, inside an incr too (but if there are check-and-sets, none may).  Then at each moment
`i` of the run: there are the finished calls `cs`, as the log shows them, and a list `cut` with at most one increment per thread, each being the call after those the thread finished, of a thread whose process is
dead; and as long as no live process is writing, the tree, after a repair, has for `k` the initial value plus what each finished call was to add, plus the increments in `cut`: no finished increment and no
successful check-and-set is lost, and none counts twice, however many processes die. -/
theorem C87_counter {add : BitVec 64 → BitVec 64 → BitVec 64} {base : Nat} {F : Nat → Option Block} {st0 : PT.State} {h0 : Heap} {p0 : Pool}
    {lab : Nat → Option (Nat × PT.Op)} {N : Nat} {k : Bytes} {x : BitVec 64} (hok : ∀ i t o, i < N → lab i = some (t, o) → o.free ∧ o ≠ .items ∧ o.counts k)
    (hi0 : PrefixTree.Holds base F st0 h0) (hx : PT.Reads st0.m k x) (hs0 : Sim h0 p0) {pid : Nat → Nat} {fuel : Nat} (hp : PidsOk pid) {σ : Nat → St (poolMach (Out PT.Ret))}
    (hcas : (∀ p, (σ N).alive p = true) ∨ ∀ i t a b, i < N → lab i ≠ some (t, PT.Op.cas k a b))
    (hi : OpenInit p0 (σ 0)) (hr : OpenRun pid fuel (callSession (PrefixTree.call add base) PT.Op.writes .unit) N lab σ) {i : Nat} (hiN : i ≤ N) :
    ∃ (cs : List (Nat × PT.Op × Out PT.Ret)) (cut : List (Nat × BitVec 64)), Shows (PrefixTree.call add base) .unit (σ i).log cs ∧
      (cut.map (·.1)).Nodup ∧ (∀ t d, (t, d) ∈ cut → (σ i).alive (pid t) = false ∧ (begun lab t i)[(cs.filter fun a => a.1 = t).length]? = some (.incr k d)) ∧
      ((∀ t n, ¬ (σ i).inside pid t (.write n)) → ∃ p' h G st, run Simple.repair (σ i).mem = (.ok (), p') ∧ PrefixTree.Holds base G st h ∧ Sim h p' ∧
        PT.Reads st.m k (x + PT.total (cs.map fun a => PT.gain k a.2.1 a.2.2) + PT.total (cut.map (·.2)))) := by
  obtain ⟨evs, n, -, -, h3⟩ := C86_prefixtree (fun i t o h1 h2 => ⟨(hok i t o h1 h2).1, (hok i t o h1 h2).2.1⟩) hi0 hs0 hp hi hr
  obtain ⟨st, ⟨a1, a2, a3⟩, -, a5⟩ := h3 i hiN
  generalize evs.take (n i) = ev at a1 a2 a3 a5
  have hbeg : ∀ t e, (t, e) ∈ ev → ∃ j, j < N ∧ lab j = some (t, e.op) := by
    intro t e he
    have h1 : e.op ∈ (evsOf ev t).map Ev.op := List.mem_map.2 ⟨e, evsOf_mem.2 he, rfl⟩
    rw [(a3 t).1] at h1
    obtain ⟨j, hj, hl⟩ := mem_begun (List.mem_of_mem_take h1)
    exact ⟨j, by omega, hl⟩
  obtain ⟨D, d1, d2⟩ := PT.counted_trace hx a1 ev rfl
    (fun e he => by obtain ⟨j, hj, hl⟩ := hbeg e.1 e.2 he; exact (hok j _ _ hj hl).2.2)
    (fun t o he => by
      obtain ⟨j, hj, hl⟩ := hbeg t _ he
      rcases (hok j _ _ hj hl).2.2 with h | h | ⟨a, b, h, -⟩
      · exact Or.inl h
      · exact Or.inr h
      · rcases hcas with hcas | hcas
        · have h1 := (inOrder_cut a3 he).1
          have h2 := (dead_begins hr hiN (Nat.le_refl N) h1).1
          rw [hcas] at h2
          cases h2
        · exact absurd (hl.trans (congrArg (fun o => some (t, o)) h)) (hcas j t a b hj))
  refine ⟨answers ev, D, a2, (d1.map _).nodup (cut_nodup a3 k), fun t d hm => ?_, fun hw => ?_⟩
  · obtain ⟨h1, h2, -⟩ := inOrder_cut a3 (mem_cutIncrs (d1.subset hm))
    exact ⟨h1, h2⟩
  · obtain ⟨p', h, e1, ⟨G, e2⟩, e3⟩ := a5 hw
    exact ⟨p', h, G, st, e1, e2, e3, d2⟩

/-! ### concrete runs -/

/-- a schedule: `n` steps of thread `t`, thread `t` begins a call, process `p` dies -/
inductive Cmd (O : Type)
  | go (t n : Nat)
  | call (t : Nat) (o : O)
  | die (p : Nat)

def Cmd.made {O : Type} : List (Cmd O) → List (Nat × O)
  | [] => []
  | .call t o :: l => (t, o) :: Cmd.made l
  | _ :: l => Cmd.made l

def isRet {K : Mach} : LProg K Unit → Bool
  | .ret () => true
  | _ => false

/-- carry out a schedule -/
def play {K : Mach} {O : Type} (pid : Nat → Nat) (fuel : Nat) (ses : O → Session K) : List (Cmd O) → St K → Option (St K)
  | [], s => some s
  | .go t n :: l, s => if s.alive (pid t) = true then (soloN t n s).bind (play pid fuel ses l) else none
  | .call t o :: l, s => if s.alive (pid t) = true ∧ isRet (s.th t) = true then play pid fuel ses l (s.goto t ((session fuel (pid t) (ses o)).bind fun _ => .step .idle .ret)) else none
  | .die p :: l, s => play pid fuel ses l { s with alive := fset s.alive p false }

theorem isRet_iff {K : Mach} {p : LProg K Unit} (h : isRet p = true) : p = .ret () := by
  unfold isRet at h
  split at h
  · rfl
  · cases h

theorem soloN_open {K : Mach} {O : Type} {pid : Nat → Nat} {fuel : Nat} {ses : O → Session K} {cs : List (Nat × O)} {s0 : St K} {t : Nat} : ∀ {n : Nat} {s s' : St K},
    OpenTo pid fuel ses cs s0 s → s.alive (pid t) = true → soloN t n s = some s' → OpenTo pid fuel ses cs s0 s'
  | 0, s, s', h, _, e => by injection e with e; subst e; exact h
  | n + 1, s, s', h, ha, e => by
    unfold soloN at e
    obtain ⟨s1, e1, e2⟩ := Option.bind_eq_some_iff.1 e
    have h1 := h.step (.go (solo_step ha e1))
    simp only [Option.toList, List.append_nil] at h1
    exact soloN_open h1 (by rw [solo_alive e1]; exact ha) e2

theorem play_open {K : Mach} {O : Type} {pid : Nat → Nat} {fuel : Nat} {ses : O → Session K} {s0 : St K} : ∀ {l : List (Cmd O)} {cs : List (Nat × O)} {s s' : St K},
    OpenTo pid fuel ses cs s0 s → play pid fuel ses l s = some s' → OpenTo pid fuel ses (cs ++ Cmd.made l) s0 s'
  | [], cs, s, s', h, e => by injection e with e; subst e; simpa [Cmd.made] using h
  | .go t n :: l, cs, s, s', h, e => by
    unfold play at e
    split at e
    · rename_i ha
      obtain ⟨s1, e1, e2⟩ := Option.bind_eq_some_iff.1 e
      exact play_open (l := l) (soloN_open h ha e1) e2
    · cases e
  | .call t o :: l, cs, s, s', h, e => by
    unfold play at e
    split at e
    · rename_i ha
      have := play_open (l := l) (h.step (.call t o ha.1 (isRet_iff ha.2))) e
      simpa [Cmd.made] using this
    · cases e
  | .die p :: l, cs, s, s', h, e => by
    unfold play at e
    have h1 := h.step (.go (.die p))
    simp only [Option.toList, List.append_nil] at h1
    exact play_open (l := l) h1 e

/-- in a schedule without deaths nobody dies -/
theorem play_alive {K : Mach} {O : Type} {pid : Nat → Nat} {fuel : Nat} {ses : O → Session K} : ∀ {l : List (Cmd O)} {s s' : St K}, play pid fuel ses l s = some s' → (∀ p, Cmd.die p ∉ l) → s'.alive = s.alive
  | [], s, s', e, _ => by injection e with e; subst e; rfl
  | .go t n :: l, s, s', e, hd => by
    unfold play at e
    split at e
    · rename_i ha
      obtain ⟨s1, e1, e2⟩ := Option.bind_eq_some_iff.1 e
      exact (play_alive (l := l) e2 fun p h => hd p (List.mem_cons_of_mem _ h)).trans (soloN_reach (pid := pid) ha .refl e1).2
    · cases e
  | .call t o :: l, s, s', e, hd => by
    unfold play at e
    split at e
    · exact play_alive (l := l) (s := s.goto t ((session fuel (pid t) (ses o)).bind fun _ => .step .idle .ret)) e fun p h => hd p (List.mem_cons_of_mem _ h)
    · cases e
  | .die p :: l, s, s', e, hd => absurd (List.mem_cons_self ..) (hd p)

/-- no thread in a call, on the pool `m0` -/
def quiet {K : Mach} (m0 : K.M) : St K := ⟨fun _ => 0, fun _ => true, m0, [], fun _ => .ret (), fun _ => none, fun _ => none, fun _ => 0⟩

theorem quiet_init {K : Mach} (m0 : K.M) : OpenInit m0 (quiet m0) := ⟨fun _ => rfl, rfl, rfl, fun _ => rfl, fun _ => rfl, fun _ => rfl, fun _ => rfl⟩

/-- schedules on a new prefix tree; thread `t` is in process `t + 1` -/
def ptPlay (l : List (Cmd PT.Op)) : Option (St (poolMach (Out PT.Ret))) :=
  play (fun t => t + 1) 10 (callSession (PrefixTree.call noAdd 344) PT.Op.writes .unit) l (quiet (ptPool 0))

/-- the results in the log of a state, and whether thread 0 and thread 1 are in a call -/
def shown (s : St (poolMach (Out PT.Ret))) : List (Nat × Option (Out PT.Ret)) × Bool × Bool :=
  (s.log.map fun e => (e.1, match e.2.2.2 with | .ok r => some r | _ => none), isRet (s.th 0), isRet (s.th 1))

deriving instance DecidableEq for PT.Ret
deriving instance DecidableEq for Out

/-- thread 0 sets t[k] = 0; then thread 0 and thread 1 each execute t[k] += 1, which is x = t[k] followed by t[k] = x + 1; both read first -/
def lostSchedule : List (Cmd PT.Op) :=
  [.call 0 (.insert [7] (.int 0) none), .go 0 80, .call 0 (.at [7]), .go 0 11, .call 1 (.at [7]), .go 1 11, .call 0 (.insert [7] (.int 1) none), .go 0 80, .call 1 (.insert [7] (.int 1) none), .go 1 80,
   .call 0 (.at [7]), .go 0 11]

/-- **C87: not with t[k] += 1**, as README 259 says: two processes add 1 to a counter that is 0 with a read and a write each; both calls of both succeed, nobody dies, and the counter is 1. -/
theorem C87_race : ∃ s, OpenTo (fun t => t + 1) 10 (callSession (PrefixTree.call noAdd 344) PT.Op.writes .unit) (Cmd.made lostSchedule) (quiet (ptPool 0)) s ∧
    shown s = ([(0, some (.ok (.bool true))), (0, some (.ok (.val (.int 0)))), (1, some (.ok (.val (.int 0)))), (0, some (.ok (.bool true))), (1, some (.ok (.bool true))),
      (0, some (.ok (.val (.int 1))))], true, true) := by
  have h : (ptPlay lostSchedule).map shown = some ([(0, some (.ok (.bool true))), (0, some (.ok (.val (.int 0)))), (1, some (.ok (.val (.int 0)))), (0, some (.ok (.bool true))), (1, some (.ok (.bool true))),
      (0, some (.ok (.val (.int 1))))], true, true) := by decide +kernel
  obtain ⟨s, h1, h2⟩ := Option.map_eq_some_iff.1 h
  exact ⟨s, play_open (cs := []) (OpenTo.refl _) h1, h2⟩

/-- process 1 dies in incr(k, 5) between the store of the value and the unlocking; process 2 takes the lock from it, repairs, and adds 7 -/
def deadSchedule : List (Cmd PT.Op) := [.call 0 (.incr [7] 5), .go 0 77, .die 1, .call 1 (.incr [7] 7), .go 1 95]

/-- A run that meets the hypotheses of `C86_prefixtree` and `C87_counter` (with the pool `ptPool_ready`): the increment that was cut short has been counted, so thread 1 is told 12. -/
theorem deadSchedule_runs : ∃ N lab σ, σ 0 = quiet (ptPool 0) ∧ OpenRun (fun t => t + 1) 10 (callSession (PrefixTree.call noAdd 344) PT.Op.writes .unit) N lab σ ∧
    (∀ i t o, i < N → lab i = some (t, o) → (o.free ∧ o ≠ .items ∧ o.counts [7]) ∧ ∀ a b, o ≠ PT.Op.cas [7] a b) ∧ (σ N).alive 1 = false ∧
    shown (σ N) = ([(1, some (.ok (.word 12)))], false, true) := by
  have h : (ptPlay deadSchedule).map shown = some ([(1, some (.ok (.word 12)))], false, true) := by decide +kernel
  have h' : (ptPlay deadSchedule).map (fun s => s.alive 1) = some false := by decide +kernel
  obtain ⟨s, h1, h4⟩ := Option.map_eq_some_iff.1 h
  have h3 : s.alive 1 = false := by
    rw [h1] at h'
    exact Option.some.inj h'
  clear h h'
  obtain ⟨N, lab, σ, e1, rfl, e3, e4⟩ := play_open (cs := []) (OpenTo.refl _) h1
  refine ⟨N, lab, σ, e1, e3, fun i t o hi hl => ?_, h3, h4⟩
  have hm := mem_filterMap_range hi hl
  rw [e4] at hm
  simp only [List.nil_append, Cmd.made, deadSchedule, List.mem_cons, Prod.mk.injEq, List.not_mem_nil, or_false] at hm
  rcases hm with ⟨-, rfl⟩ | ⟨-, rfl⟩
  · exact ⟨⟨trivial, (fun h => by cases h), Or.inr (Or.inl ⟨_, rfl⟩)⟩, fun a b h => by cases h⟩
  · exact ⟨⟨trivial, (fun h => by cases h), Or.inr (Or.inl ⟨_, rfl⟩)⟩, fun a b h => by cases h⟩

/-- a run with check-and-set: two processes read 0 and write 1 if the value still is 0: one of them is refused -/
def casSchedule : List (Cmd PT.Op) :=
  [.call 0 (.incr [7] 0), .go 0 80, .call 0 (.at [7]), .go 0 11, .call 1 (.at [7]), .go 1 11, .call 0 (PT.Op.cas [7] 0 1), .go 0 84, .call 1 (PT.Op.cas [7] 0 1), .go 1 74, .call 0 (.at [7]), .go 0 11]

/-- Another run that meets the hypotheses of `C87_counter`, with check-and-sets and without deaths. -/
example : ∃ N lab σ, σ 0 = quiet (ptPool 0) ∧ OpenRun (fun t => t + 1) 10 (callSession (PrefixTree.call noAdd 344) PT.Op.writes .unit) N lab σ ∧
    (∀ i t o, i < N → lab i = some (t, o) → o.free ∧ o ≠ .items ∧ o.counts [7]) ∧ (∀ p, (σ N).alive p = true) ∧
    shown (σ N) = ([(0, some (.ok (.word 0))), (0, some (.ok (.val (.int 0)))), (1, some (.ok (.val (.int 0)))), (0, some (.ok (.bool true))), (1, some (.ok (.bool false))),
      (0, some (.ok (.val (.int 1))))], true, true) := by
  have h : (ptPlay casSchedule).map shown = some ([(0, some (.ok (.word 0))), (0, some (.ok (.val (.int 0)))), (1, some (.ok (.val (.int 0)))), (0, some (.ok (.bool true))), (1, some (.ok (.bool false))),
      (0, some (.ok (.val (.int 1))))], true, true) := by decide +kernel
  obtain ⟨s, h1, h2⟩ := Option.map_eq_some_iff.1 h
  have h3 := play_alive h1 (fun p => by simp [casSchedule])
  obtain ⟨N, lab, σ, e1, rfl, e3, e4⟩ := play_open (cs := []) (OpenTo.refl _) h1
  refine ⟨N, lab, σ, e1, e3, fun i t o hi hl => ?_, fun p => by rw [h3]; rfl, h2⟩
  have hm := mem_filterMap_range hi hl
  rw [e4] at hm
  simp only [List.nil_append, Cmd.made, casSchedule, List.mem_cons, Prod.mk.injEq, List.not_mem_nil, or_false] at hm
  have hat : (PT.Op.at [7]).free ∧ PT.Op.at [7] ≠ .items ∧ (PT.Op.at [7]).counts [7] := ⟨trivial, fun h => (by cases h), Or.inl trivial⟩
  have hcas : (PT.Op.cas [7] 0 1).free ∧ PT.Op.cas [7] 0 1 ≠ .items ∧ (PT.Op.cas [7] 0 1).counts [7] :=
    ⟨fun d h => (by cases h), fun h => (by cases h), Or.inr (Or.inr ⟨0, 1, rfl, by decide⟩)⟩
  rcases hm with ⟨-, rfl⟩ | ⟨-, rfl⟩ | ⟨-, rfl⟩ | ⟨-, rfl⟩ | ⟨-, rfl⟩ | ⟨-, rfl⟩
  · exact ⟨trivial, (fun h => by cases h), Or.inr (Or.inl ⟨_, rfl⟩)⟩
  · exact hat
  · exact hat
  · exact hcas
  · exact hcas
  · exact hat

end Verif
