import Verif.PropsOpen
import Mathlib.Tactic.IntervalCases
/-
C93: a lock made of the conditional calls of a prefix tree (/repo/src/PrefixTree.hh, check_and_set and erase with a check): insert a token on condition that the key is missing, erase it on condition that
it still is the own token.
-/
namespace Verif
open Lock

namespace PT
open PrefixTree (Val Check)

/-- take the lock `k`: insert the token `x` on condition that the key is missing -/
def Op.claim (k : Bytes) (x : BitVec 64) : Op := .insert k (.int x) (some (k, .missing))

/-- give the lock `k` back: erase the key on condition that its value is the token `x` -/
def Op.release (k : Bytes) (x : BitVec 64) : Op := .erase k (some (k, .val (.int x)))

/-- the calls that a thread with the token `x` may make: those that do not change `k`, and `claim` and `release` with its token -/
def Op.leases (k : Bytes) (x : BitVec 64) (o : Op) : Prop := o.spares k ∨ o = .claim k x ∨ o = .release k x

/-- By the finished calls `cs`, thread `t` has taken the lock `k` with the token `x` and not given it back since. -/
def Owns (k : Bytes) (x : BitVec 64) (t : Nat) (cs : List (Nat × Op × Out Ret)) : Prop :=
  ∃ c1 c2, cs = c1 ++ (t, .claim k x, .ok (.bool true)) :: c2 ∧ (t, .release k x, .ok (.bool true)) ∉ c2

theorem owns_snoc {k : Bytes} {x : BitVec 64} {t : Nat} {cs : List (Nat × Op × Out Ret)} {a : Nat × Op × Out Ret} (h : Owns k x t (cs ++ [a])) :
    (Owns k x t cs ∧ a ≠ (t, .release k x, .ok (.bool true))) ∨ a = (t, .claim k x, .ok (.bool true)) := by
  obtain ⟨c1, c2, e, hn⟩ := h
  rcases List.eq_nil_or_concat c2 with rfl | ⟨K, y, rfl⟩
  · right
    exact (List.append_inj' e rfl).2 |> List.singleton_inj.1
  · left
    rw [List.concat_eq_append, ← List.cons_append, ← List.append_assoc] at e
    obtain ⟨e1, e2⟩ := List.append_inj' e rfl
    rw [List.singleton_inj] at e2
    subst e2
    rw [List.concat_eq_append, List.mem_append, List.mem_singleton, not_or] at hn
    exact ⟨⟨c1, K, e1, hn.1⟩, fun h => hn.2 h.symm⟩

theorem owns_keep {k : Bytes} {x : BitVec 64} {t : Nat} {cs : List (Nat × Op × Out Ret)} {a : Nat × Op × Out Ret} (h : Owns k x t cs)
    (ha : a ≠ (t, .release k x, .ok (.bool true))) : Owns k x t (cs ++ [a]) := by
  obtain ⟨c1, c2, rfl, hn⟩ := h
  refine ⟨c1, c2 ++ [a], by simp, ?_⟩
  rw [List.mem_append, List.mem_singleton, not_or]
  exact ⟨hn, fun h => ha h.symm⟩

theorem owns_new {k : Bytes} {x : BitVec 64} {t : Nat} (cs : List (Nat × Op × Out Ret)) : Owns k x t (cs ++ [(t, .claim k x, .ok (.bool true))]) :=
  ⟨cs, [], rfl, by simp⟩

theorem Owns.seen {k : Bytes} {x : BitVec 64} {t : Nat} {evs : List (Nat × Ev Op Ret)} (h : Owns k x t (answers evs)) : ∃ e ∈ evs, e.1 = t := by
  obtain ⟨c1, c2, e, -⟩ := h
  have h1 : (t, Op.claim k x, (.ok (.bool true) : Out Ret)) ∈ answers evs := by rw [e]; simp
  clear e
  induction evs with
  | nil => simp [answers] at h1
  | cons a l ih =>
    obtain ⟨u, a⟩ := a
    cases a with
    | died o =>
      obtain ⟨e, h2, h3⟩ := ih h1
      exact ⟨e, List.mem_cons_of_mem _ h2, h3⟩
    | done o r =>
      rcases List.mem_cons.1 h1 with h1 | h1
      · cases h1; exact ⟨_, List.mem_cons_self .., rfl⟩
      · obtain ⟨e, h2, h3⟩ := ih h1
        exact ⟨e, List.mem_cons_of_mem _ h2, h3⟩

/-- the state of the lock `k` after the history `evs` -/
structure Lease (k : Bytes) (tok : Nat → BitVec 64) (m : Map) (evs : List (Nat × Ev Op Ret)) : Prop where
  owner : ∀ t, Owns k (tok t) t (answers evs) → m k = some (.int (tok t)) ∨ (t, Ev.died (.release k (tok t))) ∈ evs
  owned : m k = none ∨ ∃ t, m k = some (.int (tok t)) ∧ (Owns k (tok t) t (answers evs) ∨ (t, Ev.died (.claim k (tok t))) ∈ evs)

theorem Lease.other {k : Bytes} {tok : Nat → BitVec 64} {m m' : Map} {evs : List (Nat × Ev Op Ret)} {e : Nat × Ev Op Ret} (h : Lease k tok m evs) (hm : m' k = m k)
    (he : ∀ t, e ≠ (t, .done (.claim k (tok t)) (.ok (.bool true))) ∧ e ≠ (t, .done (.release k (tok t)) (.ok (.bool true)))) : Lease k tok m' (evs ++ [e]) := by
  have hs : ∀ t, Owns k (tok t) t (answers (evs ++ [e])) ↔ Owns k (tok t) t (answers evs) := by
    intro t
    obtain ⟨u, e⟩ := e
    rw [answers_append]
    cases e with
    | died o => simp [answers]
    | done o r =>
      simp only [answers]
      constructor
      · intro h'
        rcases owns_snoc h' with h' | h'
        · exact h'.1
        · cases h'; exact absurd rfl (he t).1
      · intro h'
        refine owns_keep h' ?_
        intro h'; cases h'; exact absurd rfl (he t).2
  refine ⟨fun t ht => ?_, ?_⟩
  · rw [hm]
    exact (h.owner t ((hs t).1 ht)).imp id (List.mem_append_left _)
  · rw [hm]
    refine h.owned.imp id ?_
    rintro ⟨t, h1, h2⟩
    exact ⟨t, h1, h2.imp (hs t).2 (List.mem_append_left _)⟩

theorem leased_trace {add : BitVec 64 → BitVec 64 → BitVec 64} {k : Bytes} {tok : Nat → BitVec 64} {T : Nat} (htok : ∀ t u, t < T → u < T → tok t = tok u → t = u) {st0 : State} (hx : st0.m k = none) {l : List (Ev Op Ret)} {st : State}
    (h : CTrace (Spec add) (fun s o s' => ∃ m', Cut add s.m o m' ∧ s' = torn m') st0 l st) :
    ∀ (evs : List (Nat × Ev Op Ret)), evs.map (·.2) = l → (∀ e ∈ evs, e.1 < T ∧ e.2.op.leases k (tok e.1)) → Lease k tok st.m evs := by
  induction h with
  | nil =>
    intro evs he _
    obtain rfl := List.map_eq_nil_iff.1 he
    refine ⟨fun t ht => ?_, Or.inl hx⟩
    obtain ⟨c1, c2, e, -⟩ := ht
    simp [answers] at e
  | @done l s1 o r s2 _ hs ih =>
    intro evs he hc
    obtain ⟨evs', e', rfl, rfl, e2⟩ := List.map_eq_append_iff.1 he
    obtain ⟨⟨u, ev⟩, rfl, e3⟩ := List.map_eq_singleton_iff.1 e2
    obtain rfl : ev = .done o r := e3
    have h := ih evs' rfl (fun e h => hc e (List.mem_append_left _ h))
    have ho : o.leases k (tok u) := (hc (u, .done o r) (by simp)).2
    have hu : u < T := (hc (u, .done o r) (by simp)).1
    rcases ho with ho | rfl | rfl
    · refine h.other (spares_spec hs ho) fun t => ⟨?_, ?_⟩
      · intro e; cases e; exact ho rfl
      · intro e; cases e; exact ho rfl
    · rcases hs with ⟨-, rfl, rfl⟩ | ⟨hp, rfl, rfl⟩ | ⟨hp, rfl, m', rfl, h5⟩
      · exact h.other rfl fun t => ⟨(by intro e; cases e), (by intro e; cases e)⟩
      · have hp : s1.m k = none := hp
        refine ⟨fun t ht => ?_, Or.inr ⟨u, put_self, Or.inl ?_⟩⟩
        · rw [answers_append] at ht
          rcases owns_snoc ht with ⟨ht, -⟩ | ht
          · rcases h.owner t ht with h1 | h1
            · rw [hp] at h1; cases h1
            · exact Or.inr (List.mem_append_left _ h1)
          · cases ht; exact Or.inl put_self
        · rw [answers_append]; exact owns_new _
      · have hp : s1.m k = none := hp
        refine h.other ?_ fun t => ⟨(by intro e; cases e), (by intro e; cases e)⟩
        rcases h5 with rfl | ⟨rfl, -⟩
        · rfl
        · show put s1.m k none k = _; rw [put_self, hp]
    · rcases hs with ⟨-, rfl, rfl⟩ | ⟨⟨w, h1, h2⟩, b, rfl, rfl, h3, -⟩
      · exact h.other rfl fun t => ⟨(by intro e; cases e), (by intro e; cases e)⟩
      · have hb : b = true := h3 (by rw [h1]; simp)
        subst hb
        have h2 : w = .int (tok u) := by cases w <;> exact h2
        subst h2
        refine ⟨fun t ht => ?_, Or.inl put_self⟩
        rw [answers_append] at ht
        rcases owns_snoc ht with ⟨ht, hne⟩ | ht
        · rcases h.owner t ht with h4 | h4
          · rw [h1] at h4
            injection h4 with h4
            injection h4 with h4
            obtain ⟨e, he, rfl⟩ := ht.seen
            obtain rfl := htok _ _ (hc e (List.mem_append_left _ he)).1 hu h4.symm
            exact absurd rfl hne
          · exact Or.inr (List.mem_append_left _ h4)
        · cases ht
  | @died l s1 o s2 _ hs ih =>
    intro evs he hc
    obtain ⟨evs', e', rfl, rfl, e2⟩ := List.map_eq_append_iff.1 he
    obtain ⟨⟨u, ev⟩, rfl, e3⟩ := List.map_eq_singleton_iff.1 e2
    obtain rfl : ev = .died o := e3
    have h := ih evs' rfl (fun e h => hc e (List.mem_append_left _ h))
    have ho : o.leases k (tok u) := (hc (u, .died o) (by simp)).2
    have hu : u < T := (hc (u, .died o) (by simp)).1
    have same : s2.m k = s1.m k → Lease k tok s2.m (evs' ++ [(u, .died o)]) := fun e => h.other e fun t => ⟨(by intro e; cases e), (by intro e; cases e)⟩
    have ha : answers (evs' ++ [(u, Ev.died o)]) = answers evs' := by rw [answers_append]; simp [answers]
    rcases hs with rfl | ⟨m', hm, rfl⟩
    · exact same rfl
    · rcases ho with ho | rfl | rfl
      · exact same (spares_cut hm ho)
      · rcases hm with rfl | ⟨hp, hm⟩
        · exact same rfl
        · have hp : s1.m k = none := hp
          rcases hm with rfl | rfl | ⟨d, y, e, -⟩
          · exact same (by show put s1.m k none k = _; rw [put_self, hp])
          · refine ⟨fun t ht => ?_, Or.inr ⟨u, put_self, Or.inr (by simp)⟩⟩
            rw [ha] at ht
            rcases h.owner t ht with h1 | h1
            · rw [hp] at h1; cases h1
            · exact Or.inr (List.mem_append_left _ h1)
          · cases e
      · rcases hm with rfl | ⟨⟨w, h1, h2⟩, rfl⟩
        · exact same rfl
        · have h2 : w = .int (tok u) := by cases w <;> exact h2
          subst h2
          refine ⟨fun t ht => ?_, Or.inl put_self⟩
          rw [ha] at ht
          rcases h.owner t ht with h4 | h4
          · rw [h1] at h4
            injection h4 with h4
            injection h4 with h4
            obtain ⟨e, he, rfl⟩ := ht.seen
            obtain rfl := htok _ _ (hc e (List.mem_append_left _ he)).1 hu h4.symm
            exact Or.inr (by simp)
          · exact Or.inr (List.mem_append_left _ h4)

end PT
open PT

/-- **C93: a lock made of conditional calls.** Each of the threads 0, …, T − 1 has a token of its own. The key `k` of a prefix tree is missing at first and changed only by claims (insert the token on condition that the key is missing) and releases (erase it on
condition that it is the own token); threads decide freely what to call next; accesses interleave in any way; processes may die at any time, inside these calls too.  At each moment `i` of the run let `cs` be the finished calls, as the
log shows them.  No two threads own the lock, except that one of them may be dead, and have died inside a release.  And as long as no live process is writing, the tree, after a repair, has for `k` the token of
the owner (unless that one has died inside a release); and if it has any value, it is the token of the owner or of a thread that has died inside a claim: the lock is free as soon as it is released. -/
theorem C93_lease {add : BitVec 64 → BitVec 64 → BitVec 64} {base : Nat} {F : Nat → Option Block} {st0 : PT.State} {h0 : Heap} {p0 : Pool}
    {lab : Nat → Option (Nat × PT.Op)} {N : Nat} {k : Bytes} {tok : Nat → BitVec 64} {T : Nat} (htok : ∀ t u, t < T → u < T → tok t = tok u → t = u)
    (hok : ∀ i t o, i < N → lab i = some (t, o) → t < T ∧ o.free ∧ o ≠ .items ∧ o.leases k (tok t))
    (hi0 : PrefixTree.Holds base F st0 h0) (hx : st0.m k = none) (hs0 : Sim h0 p0) {pid : Nat → Nat} {fuel : Nat} (hp : PidsOk pid) {σ : Nat → St (poolMach (Out PT.Ret))}
    (hi : OpenInit p0 (σ 0)) (hr : OpenRun pid fuel (callSession (PrefixTree.call add base) PT.Op.writes .unit) N lab σ) {i : Nat} (hiN : i ≤ N) :
    ∃ cs : List (Nat × PT.Op × Out PT.Ret), Shows (PrefixTree.call add base) .unit (σ i).log cs ∧
      let diedIn := fun t o => (σ i).alive (pid t) = false ∧ (begun lab t i)[(cs.filter fun a => a.1 = t).length]? = some o
      (∀ t u, t ≠ u → Owns k (tok t) t cs → Owns k (tok u) u cs → diedIn t (.release k (tok t)) ∨ diedIn u (.release k (tok u))) ∧
      ((∀ t n, ¬ (σ i).inside pid t (.write n)) → ∃ p' h G st, run Simple.repair (σ i).mem = (.ok (), p') ∧ PrefixTree.Holds base G st h ∧ Sim h p' ∧
        (∀ t, Owns k (tok t) t cs → st.m k = some (.int (tok t)) ∨ diedIn t (.release k (tok t))) ∧
        (st.m k = none ∨ ∃ t, st.m k = some (.int (tok t)) ∧ (Owns k (tok t) t cs ∨ diedIn t (.claim k (tok t))))) := by
  obtain ⟨evs, n, -, -, h3⟩ := C86_prefixtree (fun i t o h1 h2 => ⟨(hok i t o h1 h2).2.1, (hok i t o h1 h2).2.2.1⟩) hi0 hs0 hp hi hr
  obtain ⟨st, ⟨a1, a2, a3⟩, -, a5⟩ := h3 i hiN
  generalize evs.take (n i) = ev at a1 a2 a3 a5
  have hbeg : ∀ t e, (t, e) ∈ ev → ∃ j, j < N ∧ lab j = some (t, e.op) := by
    intro t e he
    have h1 : e.op ∈ (evsOf ev t).map Ev.op := List.mem_map.2 ⟨e, evsOf_mem.2 he, rfl⟩
    rw [(a3 t).1] at h1
    obtain ⟨j, hj, hl⟩ := mem_begun (List.mem_of_mem_take h1)
    exact ⟨j, by omega, hl⟩
  have hall : ∀ e ∈ ev, e.1 < T ∧ e.2.op.leases k (tok e.1) := fun e he => by
    obtain ⟨j, hj, hl⟩ := hbeg e.1 e.2 he
    exact ⟨(hok j _ _ hj hl).1, (hok j _ _ hj hl).2.2.2⟩
  have hL := leased_trace htok hx a1 ev rfl hall
  have hd : ∀ {t o}, (t, Ev.died o) ∈ ev → (σ i).alive (pid t) = false ∧ (begun lab t i)[((answers ev).filter fun a => a.1 = t).length]? = some o := by
    intro t o hm
    obtain ⟨h1, h2, -⟩ := inOrder_cut a3 hm
    exact ⟨h1, h2⟩
  refine ⟨answers ev, a2, fun t u hne ht hu => ?_, fun hw => ?_⟩
  · rcases hL.owner t ht with h1 | h1
    · rcases hL.owner u hu with h2 | h2
      · rw [h1] at h2
        injection h2 with h2
        injection h2 with h2
        obtain ⟨d, hd1, rfl⟩ := ht.seen
        obtain ⟨d', hd2, rfl⟩ := hu.seen
        exact absurd (htok _ _ (hall d hd1).1 (hall d' hd2).1 h2) hne
      · exact Or.inr (hd h2)
    · exact Or.inl (hd h1)
  · obtain ⟨p', h, e1, ⟨G, e2⟩, e3⟩ := a5 hw
    refine ⟨p', h, G, st, e1, e2, e3, fun t ht => (hL.owner t ht).imp id hd, hL.owned.imp id ?_⟩
    rintro ⟨t, h1, h2⟩
    exact ⟨t, h1, h2.imp id hd⟩

/-- Threads 0 and 1 compete for the lock [7] with the tokens 100 and 101: thread 0 gets it, thread 1 is refused, thread 0 gives it back, thread 1 gets it; its process dies inside the release, after the key has been erased; then thread 2
gets the lock, with the token 102, after a repair. -/
def leaseSchedule : List (Cmd PT.Op) := [.call 0 (Op.claim [7] 100), .go 0 83, .call 1 (Op.claim [7] 101), .go 1 74, .call 0 (Op.release [7] 100), .go 0 81, .call 1 (Op.claim [7] 101), .go 1 83,
  .call 1 (Op.release [7] 101), .go 1 78, .die 2, .call 2 (Op.claim [7] 102), .go 2 103]

/-- A run that meets the hypotheses of `C93_lease` (with the pool `ptPool_ready`). -/
example : ∃ N lab σ, σ 0 = quiet (ptPool 0) ∧ OpenRun (fun t => t + 1) 10 (callSession (PrefixTree.call noAdd 344) PT.Op.writes .unit) N lab σ ∧
    (∀ t u : Nat, t < 3 → u < 3 → BitVec.ofNat 64 (100 + t) = BitVec.ofNat 64 (100 + u) → t = u) ∧
    (∀ i t o, i < N → lab i = some (t, o) → t < 3 ∧ o.free ∧ o ≠ .items ∧ o.leases [7] (BitVec.ofNat 64 (100 + t))) ∧ (σ N).alive 2 = false ∧
    shown (σ N) = ([(0, some (.ok (.bool true))), (1, some (.ok (.bool false))), (0, some (.ok (.bool true))), (1, some (.ok (.bool true))), (2, some (.ok (.bool true)))], true, false) := by
  have h : (ptPlay leaseSchedule).map shown =
    some ([(0, some (.ok (.bool true))), (1, some (.ok (.bool false))), (0, some (.ok (.bool true))), (1, some (.ok (.bool true))), (2, some (.ok (.bool true)))], true, false) := by decide +kernel
  have h' : (ptPlay leaseSchedule).map (fun s => s.alive 2) = some false := by decide +kernel
  obtain ⟨s, h1, h4⟩ := Option.map_eq_some_iff.1 h
  have h3 : s.alive 2 = false := by
    rw [h1] at h'
    exact Option.some.inj h'
  clear h h'
  obtain ⟨N, lab, σ, e1, rfl, e3, e4⟩ := play_open (cs := []) (OpenTo.refl _) h1
  have htok : ∀ t u : Nat, t < 3 → u < 3 → BitVec.ofNat 64 (100 + t) = BitVec.ofNat 64 (100 + u) → t = u := by
    intro t u ht hu
    interval_cases t <;> interval_cases u <;> decide
  refine ⟨N, lab, σ, e1, e3, htok, fun i t o hi hl => ?_, h3, h4⟩
  have hm := mem_filterMap_range hi hl
  rw [e4] at hm
  simp only [List.nil_append, Cmd.made, leaseSchedule, List.mem_cons, Prod.mk.injEq, List.not_mem_nil, or_false] at hm
  have hc : ∀ x : BitVec 64, (Op.claim [7] x).free ∧ Op.claim [7] x ≠ .items ∧ (Op.claim [7] x).leases [7] x :=
    fun x => ⟨fun d h => (by cases h), fun h => (by cases h), Or.inr (Or.inl rfl)⟩
  have hr : ∀ x : BitVec 64, (Op.release [7] x).free ∧ Op.release [7] x ≠ .items ∧ (Op.release [7] x).leases [7] x :=
    fun x => ⟨trivial, fun h => (by cases h), Or.inr (Or.inr rfl)⟩
  rcases hm with ⟨rfl, rfl⟩ | ⟨rfl, rfl⟩ | ⟨rfl, rfl⟩ | ⟨rfl, rfl⟩ | ⟨rfl, rfl⟩ | ⟨rfl, rfl⟩
  · exact ⟨by decide, hc _⟩
  · exact ⟨by decide, hc _⟩
  · exact ⟨by decide, hr _⟩
  · exact ⟨by decide, hc _⟩
  · exact ⟨by decide, hr _⟩
  · exact ⟨by decide, hc _⟩

end Verif
