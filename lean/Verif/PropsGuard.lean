import Verif.PropsLease
/-
C97: the value of a key that a lock made of conditional calls (C93) protects.
-/
namespace Verif
open Lock

namespace PT
open PrefixTree (Val Check)

/-- write the value `v` to the key `d` -/
def Op.store (d : Bytes) (v : Val) : Op := .insert d v none

/-- the calls on the protected key: reads and writes -/
def Op.access (d : Bytes) (o : Op) : Prop := o = .at d ∨ ∃ v, o = .store d v

/-- what the last write of `d` among the finished calls that has succeeded has left (a double zero loses its sign); `v0` if there is none -/
def lastWrite (d : Bytes) (v0 : Option Val) : List (Nat × Op × Out Ret) → Option Val
  | [] => v0
  | (_, .insert k v none, .ok _) :: cs => lastWrite d (if k = d then some (kept v) else v0) cs
  | _ :: cs => lastWrite d v0 cs

/-- since the last write of `d` that has succeeded, one has failed for lack of memory (which may lose the value, C51) -/
def lostSince (d : Bytes) (b : Prop) : List (Nat × Op × Out Ret) → Prop
  | [] => b
  | (_, .insert k _ none, .ok _) :: cs => lostSince d (k ≠ d ∧ b) cs
  | (_, .insert k _ none, .err _) :: cs => lostSince d (k = d ∨ b) cs
  | _ :: cs => lostSince d b cs

/-- what a read returns of the value `w` -/
def answer : Option Val → Out Ret
  | some v => .ok (.val v)
  | none => .err .outOfRange

theorem lastWrite_append (d : Bytes) : ∀ (cs cs' : List (Nat × Op × Out Ret)) (v0 : Option Val), lastWrite d v0 (cs ++ cs') = lastWrite d (lastWrite d v0 cs) cs' := by
  intro cs cs'
  induction cs with
  | nil => intro v0; rfl
  | cons a cs ih =>
    intro v0
    obtain ⟨t, o, r⟩ := a
    cases o with
    | insert k v c => cases c <;> cases r <;> exact ih _
    | _ => exact ih _

theorem lostSince_append (d : Bytes) : ∀ (cs cs' : List (Nat × Op × Out Ret)) (b : Prop), lostSince d b (cs ++ cs') ↔ lostSince d (lostSince d b cs) cs' := by
  intro cs cs'
  induction cs with
  | nil => intro b; rfl
  | cons a cs ih =>
    intro b
    obtain ⟨t, o, r⟩ := a
    cases o with
    | insert k v c => cases c <;> cases r <;> exact ih _
    | _ => exact ih _

/-- a value of `d` that the finished calls `cs` explain -/
def Explained (d : Bytes) (v0 : Option Val) (cs : List (Nat × Op × Out Ret)) (w : Option Val) : Prop := w = lastWrite d v0 cs ∨ (w = none ∧ lostSince d False cs)

theorem Explained.other {d : Bytes} {v0 w : Option Val} {cs : List (Nat × Op × Out Ret)} (h : Explained d v0 cs w) {a : Nat × Op × Out Ret} (ha : a.2.1.spares d) : Explained d v0 (cs ++ [a]) w := by
  obtain ⟨t, o, r⟩ := a
  unfold Explained
  rw [lastWrite_append, lostSince_append]
  cases o with
  | insert k v c =>
    have hk : k ≠ d := ha
    cases c with
    | some c => exact h
    | none => cases r with
      | ok r => simp only [lastWrite, lostSince, if_neg hk]; exact h.imp id fun h => ⟨h.1, hk, h.2⟩
      | err e => simp only [lastWrite, lostSince]; exact h.imp id fun h => ⟨h.1, Or.inr h.2⟩
  | _ => exact h

theorem _root_.Verif.Lock.CTrace.left {S O R : Type} {Spec : S → O → Out R → S → Prop} {Cut : S → O → S → Prop} {s s' : S} {L : List (Ev O R)} (h : CTrace Spec Cut s L s') :
    ∀ l l', L = l ++ l' → ∃ s1, CTrace Spec Cut s l s1 := by
  have snoc : ∀ {l l' x : List (Ev O R)} {e : Ev O R}, x ++ [e] = l ++ l' → (l' = [] ∧ x ++ [e] = l) ∨ ∃ K, x = l ++ K := by
    intro l l' x e he
    rcases List.eq_nil_or_concat l' with rfl | ⟨K, y, rfl⟩
    · exact Or.inl ⟨rfl, by simpa using he⟩
    · rw [List.concat_eq_append, ← List.append_assoc] at he
      exact Or.inr ⟨K, (List.append_inj' he rfl).1⟩
  induction h with
  | nil =>
    intro l l' e
    obtain ⟨rfl, -⟩ := List.append_eq_nil_iff.1 e.symm
    exact ⟨s, .nil⟩
  | @done x s1 o r s2 hx hs ih =>
    intro l l' e
    rcases snoc e with ⟨-, rfl⟩ | ⟨K, e⟩
    · exact ⟨s2, .done hx hs⟩
    · exact ih l K e
  | @died x s1 o s2 hx hs ih =>
    intro l l' e
    rcases snoc e with ⟨-, rfl⟩ | ⟨K, e⟩
    · exact ⟨s2, .died hx hs⟩
    · exact ih l K e

/-- the value of `d` after a history of calls that change it by plain writes only, none of which a thread has died in; and what the reads in the history have returned -/
theorem guarded_trace {add : BitVec 64 → BitVec 64 → BitVec 64} {d : Bytes} {st0 : State} {l : List (Ev Op Ret)} {st : State}
    (h : CTrace (Spec add) (fun s o s' => ∃ m', Cut add s.m o m' ∧ s' = torn m') st0 l st) :
    ∀ (evs : List (Nat × Ev Op Ret)), evs.map (·.2) = l → (∀ e ∈ evs, e.2.op.spares d ∨ ∃ v, e.2.op = .store d v) →
      ((∀ t v, (t, Ev.died (.store d v)) ∉ evs) → Explained d (st0.m d) (answers evs) (st.m d)) ∧
      ∀ e1 t r e2, evs = e1 ++ (t, Ev.done (.at d) r) :: e2 → (∀ t v, (t, Ev.died (.store d v)) ∉ e1) → ∃ w, Explained d (st0.m d) (answers e1) w ∧ r = answer w := by
  have snoc : ∀ {e1 e2 x : List (Nat × Ev Op Ret)} {a y : Nat × Ev Op Ret}, x ++ [y] = e1 ++ a :: e2 → (x = e1 ∧ y = a) ∨ ∃ K, x = e1 ++ a :: K := by
    intro e1 e2 x a y he
    rcases List.eq_nil_or_concat e2 with rfl | ⟨K, z, rfl⟩
    · obtain ⟨h1, h2⟩ := List.append_inj' he rfl
      exact Or.inl ⟨h1, List.singleton_inj.1 h2⟩
    · rw [List.concat_eq_append, ← List.cons_append, ← List.append_assoc] at he
      exact Or.inr ⟨K, (List.append_inj' he rfl).1⟩
  induction h with
  | nil =>
    intro evs he _
    obtain rfl := List.map_eq_nil_iff.1 he
    exact ⟨fun _ => Or.inl rfl, fun e1 t r e2 e => by simp at e⟩
  | @done l s1 o r s2 _ hs ih =>
    intro evs he hc
    obtain ⟨evs', e', rfl, rfl, e2⟩ := List.map_eq_append_iff.1 he
    obtain ⟨⟨u, ev⟩, rfl, e3⟩ := List.map_eq_singleton_iff.1 e2
    obtain rfl : ev = .done o r := e3
    obtain ⟨h1, h2⟩ := ih evs' rfl (fun e h => hc e (List.mem_append_left _ h))
    refine ⟨fun hd => ?_, fun e1 t r' e2 e hd => ?_⟩
    · have h1 := h1 fun t v hm => hd t v (List.mem_append_left _ hm)
      rw [answers_append]
      have ho : o.spares d ∨ ∃ v, o = .store d v := hc (u, .done o r) (by simp)
      rcases ho with ho | ⟨v, rfl⟩
      · rw [spares_spec hs ho]
        exact h1.other (a := (u, o, r)) ho
      · rcases hs with ⟨hp, -⟩ | ⟨-, rfl, rfl⟩ | ⟨-, rfl, m', rfl, h5⟩
        · exact absurd trivial hp
        · refine Or.inl ?_
          rw [lastWrite_append]
          simp [answers, lastWrite, Op.store, put_self]
        · unfold Explained
          rw [lastWrite_append, lostSince_append]
          rcases h5 with rfl | ⟨rfl, -⟩
          · exact h1.imp id fun h => ⟨h.1, by simp [answers, lostSince, Op.store]⟩
          · exact Or.inr ⟨put_self, by simp [answers, lostSince, Op.store]⟩
    · rcases snoc e with ⟨rfl, h3⟩ | ⟨K, e⟩
      · cases h3
        refine ⟨_, h1 hd, ?_⟩
        rw [hs.2]
        unfold answer
        rfl
      · exact h2 e1 t r' K e hd
  | @died l s1 o s2 _ hs ih =>
    intro evs he hc
    obtain ⟨evs', e', rfl, rfl, e2⟩ := List.map_eq_append_iff.1 he
    obtain ⟨⟨u, ev⟩, rfl, e3⟩ := List.map_eq_singleton_iff.1 e2
    obtain rfl : ev = .died o := e3
    obtain ⟨h1, h2⟩ := ih evs' rfl (fun e h => hc e (List.mem_append_left _ h))
    refine ⟨fun hd => ?_, fun e1 t r' e2 e hd => ?_⟩
    · have h1 := h1 fun t v hm => hd t v (List.mem_append_left _ hm)
      rw [answers_append]
      have ho : o.spares d ∨ ∃ v, o = .store d v := hc (u, .died o) (by simp)
      have e : s2.m d = s1.m d := by
        rcases ho with ho | ⟨v, rfl⟩
        · rcases hs with rfl | ⟨m', hm, rfl⟩
          · rfl
          · exact spares_cut hm ho
        · exact absurd (by simp) (hd u v)
      rw [e]
      simpa [answers] using h1
    · rcases snoc e with ⟨rfl, h3⟩ | ⟨K, e⟩
      · cases h3
      · exact h2 e1 t r' K e hd

theorem owns_append {k : Bytes} {x : BitVec 64} {t : Nat} {cs : List (Nat × Op × Out Ret)} : ∀ {c : List (Nat × Op × Out Ret)}, (∀ a ∈ c, a.1 ≠ t) → Owns k x t (cs ++ c) → Owns k x t cs := by
  intro c
  induction c using List.reverseRecOn with
  | nil => intro _ h; simpa using h
  | append_singleton c a ih =>
    intro hc h
    rw [← List.append_assoc] at h
    rcases owns_snoc h with ⟨h, -⟩ | h
    · exact ih (fun a ha => hc a (List.mem_append_left _ ha)) h
    · exact absurd (by rw [h]) (hc a (by simp))

theorem owns_held {k : Bytes} {x : BitVec 64} {t : Nat} {cs : List (Nat × Op × Out Ret)} (h : Owns k x t cs) {c : List (Nat × Op × Out Ret)} (hc : (t, .release k x, .ok (.bool true)) ∉ c) : Owns k x t (cs ++ c) := by
  obtain ⟨c1, c2, rfl, hn⟩ := h
  exact ⟨c1, c2 ++ c, by simp, by simp only [List.mem_append, not_or]; exact ⟨hn, hc⟩⟩

theorem answers_split : ∀ {evs : List (Nat × Ev Op Ret)} {c1 c2 : List (Nat × Op × Out Ret)} {t : Nat} {o : Op} {r : Out Ret}, answers evs = c1 ++ (t, o, r) :: c2 →
    ∃ e1 e2, evs = e1 ++ (t, .done o r) :: e2 ∧ answers e1 = c1 ∧ answers e2 = c2
  | [], c1, c2, t, o, r, h => by simp [answers] at h
  | (u, .died o') :: evs, c1, c2, t, o, r, h => by
    obtain ⟨e1, e2, rfl, h1, h2⟩ := answers_split (evs := evs) h
    exact ⟨(u, .died o') :: e1, e2, rfl, h1, h2⟩
  | (u, .done o' r') :: evs, c1, c2, t, o, r, h => by
    cases c1 with
    | nil =>
      obtain ⟨h1, h2⟩ := List.cons.inj h
      cases h1
      exact ⟨[], evs, rfl, rfl, h2⟩
    | cons a c1 =>
      obtain ⟨rfl, h2⟩ := List.cons.inj h
      obtain ⟨e1, e2, rfl, h1, h3⟩ := answers_split (evs := evs) h2
      exact ⟨(u, .done o' r') :: e1, e2, rfl, by simp [answers, h1], h3⟩

theorem answers_mem {evs : List (Nat × Ev Op Ret)} {a : Nat × Op × Out Ret} (h : a ∈ answers evs) : (a.1, Ev.done a.2.1 a.2.2) ∈ evs := by
  obtain ⟨c1, c2, h⟩ := List.append_of_mem h
  obtain ⟨t, o, r⟩ := a
  obtain ⟨e1, e2, rfl, -, -⟩ := answers_split h
  simp

/-- a call cut short is the last event of its thread -/
theorem died_last {calls : Nat → List Op} {pid : Nat → Nat} {D : Nat → Prop} {evs : List (Nat × Ev Op Ret)} (h : Lock.InOrder calls pid D evs) {a b : List (Nat × Ev Op Ret)} {t : Nat} {o : Op}
    (e : evs = a ++ (t, Ev.died o) :: b) : ∀ x ∈ b, x.1 ≠ t := by
  rintro ⟨u, ev⟩ he rfl
  have h1 : evsOf evs u = evsOf a u ++ Ev.died o :: evsOf b u := by rw [e]; simp [evsOf]
  obtain ⟨h2, -⟩ := (h u).2 _ _ _ h1
  have h3 : ev ∈ evsOf b u := evsOf_mem.2 he
  rw [h2] at h3
  cases h3

/-- no thread has two calls cut short -/
theorem died_unique {calls : Nat → List Op} {pid : Nat → Nat} {D : Nat → Prop} {evs : List (Nat × Ev Op Ret)} (h : Lock.InOrder calls pid D evs) {t : Nat} {o o' : Op}
    (h1 : (t, Ev.died o) ∈ evs) (h2 : (t, Ev.died o') ∈ evs) : o = o' := by
  have h3 := (inOrder_cut h h1).2.1
  rw [(inOrder_cut h h2).2.1] at h3
  injection h3 with h3
  exact h3.symm

/-- the finished calls of a thread are the first ones it has begun -/
theorem done_begun {calls : Nat → List Op} {pid : Nat → Nat} {D : Nat → Prop} {evs : List (Nat × Ev Op Ret)} (h : Lock.InOrder calls pid D evs) (t : Nat) :
    ((answers evs).filter fun a => a.1 = t).map (·.2.1) <+: calls t := by
  have h1 : ((answers evs).filter fun a => a.1 = t).map (·.2.1) = (evsOf evs t).filterMap fun e => match e with | .done o _ => some o | .died _ => none := by
    clear h
    induction evs with
    | nil => rfl
    | cons e evs ih =>
      obtain ⟨u, e⟩ := e
      by_cases hu : u = t <;> cases e <;> simp_all [answers, evsOf]
  have h2 : ∀ l : List (Ev Op Ret), (∀ a o b, l = a ++ .died o :: b → b = []) → (l.filterMap fun e => match e with | .done o _ => some o | .died _ => none) <+: l.map Ev.op := by
    intro l
    induction l with
    | nil => intro _; exact List.prefix_refl _
    | cons e l ih =>
      intro hl
      cases e with
      | done o r =>
        have := ih fun a o' b e => hl (.done o r :: a) o' b (by rw [e]; rfl)
        simpa [Ev.op] using this
      | died o =>
        obtain rfl := hl [] o l rfl
        simp
  rw [h1]
  refine (h2 _ fun a o b e => ((h t).2 a o b e).1).trans ?_
  rw [(h t).1]
  exact List.take_prefix ..

end PT
open PT

/-- **C97: a value protected by a lock made of conditional calls.** The threads of C93 also read the key `d` and write it (without a condition); the other calls do not change `d`.  At each moment `i` let `cs` be the finished calls, as the log shows them; `diedIn t o`: the
process of thread `t` is dead and `o` is the call it had begun and not finished.  Suppose that the accesses to `d`, those that threads have died in too, are made by threads that have the lock by the calls finished before them.
Then deaths do not show: each read has returned what the last write before it that has finished with success has written (or the key missing, if a write since then has failed for lack of memory); between two accesses of a thread
without a release in between, no other thread has accessed `d` (so no update that a thread makes of the value it has read is lost); and if no thread has died in a write, then `d` has that value as long as no live process is writing, after a repair. -/
theorem C97_protected {add : BitVec 64 → BitVec 64 → BitVec 64} {base : Nat} {F : Nat → Option Block} {st0 : PT.State} {h0 : Heap} {p0 : Pool}
    {lab : Nat → Option (Nat × PT.Op)} {N : Nat} {k d : Bytes} {tok : Nat → BitVec 64} {T : Nat} (htok : ∀ t u, t < T → u < T → tok t = tok u → t = u)
    (hok : ∀ i t o, i < N → lab i = some (t, o) → t < T ∧ o.free ∧ o ≠ .items ∧ o.leases k (tok t) ∧ (o.spares d ∨ ∃ v, o = .store d v))
    (hi0 : PrefixTree.Holds base F st0 h0) (hx : st0.m k = none) (hs0 : Sim h0 p0) {pid : Nat → Nat} {fuel : Nat} (hp : PidsOk pid) {σ : Nat → St (poolMach (Out PT.Ret))}
    (hi : OpenInit p0 (σ 0)) (hr : OpenRun pid fuel (callSession (PrefixTree.call add base) PT.Op.writes .unit) N lab σ) {i : Nat} (hiN : i ≤ N) :
    ∃ cs : List (Nat × PT.Op × Out PT.Ret), Shows (PrefixTree.call add base) .unit (σ i).log cs ∧ (∀ t, ((cs.filter fun a => a.1 = t).map (·.2.1)) <+: begun lab t i) ∧
      let diedIn := fun t o => (σ i).alive (pid t) = false ∧ (begun lab t i)[(cs.filter fun a => a.1 = t).length]? = some o
      (∀ c1 t o r c2, cs = c1 ++ (t, o, r) :: c2 → o.access d → Owns k (tok t) t c1) → (∀ t o, diedIn t o → o.access d → Owns k (tok t) t cs) →
      (∀ c1 t r c2, cs = c1 ++ (t, .at d, r) :: c2 → r = answer (lastWrite d (st0.m d) c1) ∨ (r = answer none ∧ lostSince d False c1)) ∧
      (∀ c1 t o r c2 o' r' c3, cs = c1 ++ (t, o, r) :: (c2 ++ (t, o', r') :: c3) → o.access d → o'.access d → (t, .release k (tok t), .ok (.bool true)) ∉ c2 → ∀ x ∈ c2, x.2.1.access d → x.1 = t) ∧
      ((∀ t n, ¬ (σ i).inside pid t (.write n)) → (∀ t v, ¬ diedIn t (.store d v)) → ∃ p' h G st, run Simple.repair (σ i).mem = (.ok (), p') ∧ PrefixTree.Holds base G st h ∧ Sim h p' ∧
        (st.m d = lastWrite d (st0.m d) cs ∨ (st.m d = none ∧ lostSince d False cs))) := by
  obtain ⟨evs, n, -, -, h3⟩ := C86_prefixtree (fun i t o h1 h2 => ⟨(hok i t o h1 h2).2.1, (hok i t o h1 h2).2.2.1⟩) hi0 hs0 hp hi hr
  obtain ⟨st, ⟨a1, a2, a3⟩, -, a5⟩ := h3 i hiN
  generalize evs.take (n i) = ev at a1 a2 a3 a5
  have hbeg : ∀ t e, (t, e) ∈ ev → ∃ j, j < N ∧ lab j = some (t, e.op) := by
    intro t e he
    have h1 : e.op ∈ (evsOf ev t).map Ev.op := List.mem_map.2 ⟨e, evsOf_mem.2 he, rfl⟩
    rw [(a3 t).1] at h1
    obtain ⟨j, hj, hl⟩ := mem_begun (List.mem_of_mem_take h1)
    exact ⟨j, by omega, hl⟩
  have hall : ∀ e ∈ ev, e.1 < T ∧ e.2.op.leases k (tok e.1) := fun e he => by
    obtain ⟨j, hj, hl⟩ := hbeg e.1 e.2 he
    exact ⟨(hok j _ _ hj hl).1, (hok j _ _ hj hl).2.2.2.1⟩
  have hsto : ∀ e ∈ ev, e.2.op.spares d ∨ ∃ v, e.2.op = .store d v := fun e he => by
    obtain ⟨j, hj, hl⟩ := hbeg e.1 e.2 he
    exact (hok j _ _ hj hl).2.2.2.2
  have hd : ∀ {t o}, (t, Ev.died o) ∈ ev → (σ i).alive (pid t) = false ∧ (begun lab t i)[((answers ev).filter fun a => a.1 = t).length]? = some o := by
    intro t o hm
    obtain ⟨h1, h2, -⟩ := inOrder_cut a3 hm
    exact ⟨h1, h2⟩
  obtain ⟨g1, g2⟩ := guarded_trace a1 ev rfl hsto
  -- no two threads that are to have another event own the lock
  have hex : ∀ e1 e2, ev = e1 ++ e2 → ∀ t u, Owns k (tok t) t (answers e1) → Owns k (tok u) u (answers e1) → (∀ o, (t, Ev.died o) ∉ e1) → (u, Ev.died (.release k (tok u))) ∉ e1 → t = u := by
    intro e1 e2 e t u ht hu h4 h5
    obtain ⟨s1, h6⟩ := a1.left (e1.map (·.2)) (e2.map (·.2)) (by rw [e, List.map_append])
    have hall1 : ∀ e ∈ e1, e.1 < T ∧ e.2.op.leases k (tok e.1) := fun x hx => hall x (by rw [e]; exact List.mem_append_left _ hx)
    have hL := leased_trace htok hx h6 e1 rfl hall1
    rcases hL.owner t ht with h7 | h7
    · rcases hL.owner u hu with h8 | h8
      · rw [h7] at h8
        injection h8 with h8
        injection h8 with h8
        obtain ⟨x, hx1, rfl⟩ := ht.seen
        obtain ⟨y, hx2, rfl⟩ := hu.seen
        exact htok _ _ (hall1 x hx1).1 (hall1 y hx2).1 h8
      · exact absurd h8 h5
    · exact absurd h7 (h4 _)
  have hlive : ∀ {e1 e2 t e}, ev = e1 ++ (t, e) :: e2 → ∀ o, (t, Ev.died o) ∉ e1 := by
    intro e1 e2 t e he o hm
    obtain ⟨a, b, rfl⟩ := List.append_of_mem hm
    exact died_last a3 (a := a) (o := o) (b := b ++ (t, e) :: e2) (by rw [he]; simp) (t, e) (by simp) rfl
  refine ⟨answers ev, a2, fun t => done_begun a3 t, ?_⟩
  intro diedIn hg1 hg2
  refine ⟨fun c1 t r c2 e => ?_, fun c1 t o r c2 o' r' c3 e ho ho' hrel x hx hxa => ?_, fun hw hno => ?_⟩
  · obtain ⟨e1, e2, e3, rfl, rfl⟩ := answers_split e
    have hno : ∀ u v, (u, Ev.died (.store d v)) ∉ e1 := by
      intro u v hm
      have hm' : (u, Ev.died (.store d v)) ∈ ev := by rw [e3]; exact List.mem_append_left _ hm
      have hu := hg2 u _ (hd hm') (Or.inr ⟨v, rfl⟩)
      obtain ⟨a, b, e4⟩ := List.append_of_mem hm
      have hl := died_last a3 (a := a) (t := u) (o := .store d v) (b := b ++ (t, .done (.at d) r) :: e2) (by rw [e3, e4]; simp)
      have hu1 : Owns k (tok u) u (answers e1) := by
        rw [e3, answers_append] at hu
        refine owns_append (fun y hy => ?_) hu
        exact hl _ (List.mem_append_right _ (answers_mem hy))
      have ht := hg1 _ _ _ _ _ e (Or.inl rfl)
      have htu := hex e1 _ e3 t u ht hu1 (hlive e3) (fun hr => by
        cases died_unique a3 hm' (by rw [e3]; exact List.mem_append_left _ hr))
      subst htu
      exact hlive e3 _ hm
    obtain ⟨w, hw, rfl⟩ := g2 e1 t r e2 e3 hno
    exact hw.imp (fun h => by rw [h]) fun h => ⟨by rw [h.1], h.2⟩
  · obtain ⟨u, ox, rx⟩ := x
    obtain ⟨y1, y2, rfl⟩ := List.append_of_mem hx
    have e' : answers ev = (c1 ++ (t, o, r) :: y1) ++ (u, ox, rx) :: (y2 ++ (t, o', r') :: c3) := by rw [e]; simp
    have hu := hg1 _ _ _ _ _ e' hxa
    have ht : Owns k (tok t) t (c1 ++ (t, o, r) :: y1) := by
      refine owns_held (hg1 _ _ _ _ _ e ho) ?_
      intro hm
      rcases List.mem_cons.1 hm with hm | hm
      · cases hm
        rcases ho with ho | ⟨v, ho⟩ <;> cases ho
      · exact hrel (List.mem_append_left _ hm)
    obtain ⟨e1, e2, e3, h1, h2⟩ := answers_split e'
    have htm : (t, Ev.done o' r') ∈ e2 := answers_mem (a := (t, o', r')) (by rw [h2]; simp)
    rw [← h1] at ht hu
    refine (hex e1 _ e3 t u ht hu (fun o hm => ?_) (hlive e3 _)).symm
    obtain ⟨a, b, rfl⟩ := List.append_of_mem hm
    exact died_last a3 (a := a) (o := o) (b := b ++ (u, .done ox rx) :: e2) (by rw [e3]; simp) _ (List.mem_append_right _ (List.mem_cons_of_mem _ htm)) rfl
  · obtain ⟨p', h, e1, ⟨G, e2⟩, e3⟩ := a5 hw
    exact ⟨p', h, G, st, e1, e2, e3, g1 fun t v hm => hno t v (hd hm)⟩

/-! ### a concrete run -/

theorem begun_list {O : Type} {lab : Nat → Option (Nat × O)} {t : Nat} : ∀ N, begun lab t N = (((List.range N).filterMap lab).filter fun x => x.1 = t).map (·.2)
  | 0 => rfl
  | N + 1 => by
    rw [begun, begun_list N, List.range_succ, List.filterMap_append, List.filter_append, List.map_append]
    congr 1
    cases h : lab N with
    | none => simp [h]
    | some x =>
      obtain ⟨u, o⟩ := x
      by_cases e : u = t <;> simp [h, e]

/-- a history is known from its threads, its results and the calls each thread has begun -/
theorem same_calls {O R : Type} : ∀ {cs ds : List (Nat × O × Out R)} {b : Nat → List O}, cs.map (fun a => (a.1, some a.2.2)) = ds.map (fun a => (a.1, some a.2.2)) →
    (∀ t, ((cs.filter fun a => a.1 = t).map (·.2.1)) <+: b t) → (∀ t, ((ds.filter fun a => a.1 = t).map (·.2.1)) <+: b t) → cs = ds
  | [], [], _, _, _, _ => rfl
  | [], _ :: _, _, h, _, _ => by simp at h
  | _ :: _, [], _, h, _, _ => by simp at h
  | (t, o, r) :: cs, (u, o', r') :: ds, b, h, hc, hd => by
    simp only [List.map_cons, List.cons.injEq, Prod.mk.injEq, Option.some.injEq] at h
    obtain ⟨⟨rfl, rfl⟩, h⟩ := h
    have h1 := hc t
    have h2 := hd t
    simp only [List.filter_cons, decide_true, if_true, List.map_cons] at h1 h2
    obtain ⟨x, h1⟩ := h1
    obtain ⟨y, h2⟩ := h2
    rw [List.cons_append] at h1 h2
    have ho : o = o' := by rw [← h1] at h2; exact (List.cons.inj h2).1.symm
    subst ho
    have hb : ∀ cs : List (Nat × O × Out R), (∀ v, ((((t, o, r) :: cs).filter fun a => a.1 = v).map (·.2.1)) <+: b v) → ∀ v, ((cs.filter fun a => a.1 = v).map (·.2.1)) <+: if v = t then (b v).tail else b v := by
      intro cs hc v
      have h := hc v
      by_cases hv : v = t
      · subst hv
        simp only [List.filter_cons, decide_true, if_true, List.map_cons] at h
        obtain ⟨x, h⟩ := h
        rw [if_pos rfl, ← h]
        exact ⟨x, rfl⟩
      · rw [if_neg hv]
        simpa [List.filter_cons, Ne.symm hv] using h
    rw [same_calls h (hb cs hc) (hb ds hd)]

/-- the threads and results of a log -/
def outcomes {R : Type} (l : List (Nat × Option Kind × Body (poolMach (Out R)) × Res (Out R))) : List (Nat × Option (Out R)) :=
  l.map fun e => (e.1, match e.2.2.2 with | .ok r => some r | _ => none)

/-- if nobody has repaired, the history has the threads and results of the log -/
theorem shows_all {O R : Type} {f : O → HProg R} {dummy : R} {l : List (Nat × Option Kind × Body (poolMach (Out R)) × Res (Out R))} {cs : List (Nat × O × Out R)} (h : Shows f dummy l cs)
    (hn : ∀ e ∈ l, ∀ n, e.2.1 = some (.write n) → n = 0) : outcomes l = cs.map fun a => (a.1, some a.2.2) := by
  unfold outcomes
  induction h with
  | nil => rfl
  | call _ ih => rw [List.map_append, List.map_append, ih fun e he => hn e (List.mem_append_left _ he)]; rfl
  | repaired _ h0 _ => exact absurd (hn _ (List.mem_append_right _ (List.mem_singleton_self _)) _ rfl) h0
  | repair _ h0 _ => exact absurd (hn _ (List.mem_append_right _ (List.mem_singleton_self _)) _ rfl) h0

/-- Thread 0 takes the lock [7], writes 5 to [8] and gives the lock back; thread 1 takes it, reads [8], and dies while it is writing 6. -/
def guardSchedule : List (Cmd PT.Op) := [.call 0 (Op.claim [7] 100), .go 0 83, .call 0 (Op.store [8] (.int 5)), .go 0 80, .call 0 (Op.release [7] 100), .go 0 81,
  .call 1 (Op.claim [7] 101), .go 1 83, .call 1 (.at [8]), .go 1 11, .call 1 (Op.store [8] (.int 6)), .go 1 40, .die 2]

/-- no section in the log of a state has repaired -/
def noRepair (s : St (poolMach (Out PT.Ret))) : Bool := s.log.all fun e => match e.2.1 with
  | some (.write n) => n == 0
  | _ => true

theorem noRepair_spec {s : St (poolMach (Out PT.Ret))} (h : noRepair s = true) : ∀ e ∈ s.log, ∀ n, e.2.1 = some (.write n) → n = 0 := by
  intro e he n hn
  have := List.all_eq_true.1 h e he
  rw [hn] at this
  simpa using this

def guardCalls : List (Nat × PT.Op × Out PT.Ret) := [(0, Op.claim [7] 100, .ok (.bool true)), (0, Op.store [8] (.int 5), .ok (.bool true)), (0, Op.release [7] 100, .ok (.bool true)),
  (1, Op.claim [7] 101, .ok (.bool true)), (1, .at [8], .ok (.val (.int 5)))]

/-- A run that meets the hypotheses of `C97_protected` (with the pool `ptPool_ready`) and the conditions in its conclusion, for every history `cs`. -/
example : ∃ N lab σ, σ 0 = quiet (ptPool 0) ∧ OpenRun (fun t => t + 1) 10 (callSession (PrefixTree.call noAdd 344) PT.Op.writes .unit) N lab σ ∧
    (∀ t u : Nat, t < 2 → u < 2 → BitVec.ofNat 64 (100 + t) = BitVec.ofNat 64 (100 + u) → t = u) ∧
    (∀ i t o, i < N → lab i = some (t, o) → t < 2 ∧ o.free ∧ o ≠ .items ∧ o.leases [7] (BitVec.ofNat 64 (100 + t)) ∧ (o.spares [8] ∨ ∃ v, o = .store [8] v)) ∧ (σ N).alive 2 = false ∧
    ∀ cs, Shows (PrefixTree.call noAdd 344) .unit (σ N).log cs → (∀ t, ((cs.filter fun a => a.1 = t).map (·.2.1)) <+: begun lab t N) →
      (∀ c1 t o r c2, cs = c1 ++ (t, o, r) :: c2 → o.access [8] → Owns [7] (BitVec.ofNat 64 (100 + t)) t c1) ∧
      (∀ t o, (σ N).alive (t + 1) = false → (begun lab t N)[(cs.filter fun a => a.1 = t).length]? = some o → o = .store [8] (.int 6) ∧ Owns [7] (BitVec.ofNat 64 (100 + t)) t cs) := by
  have h : (ptPlay guardSchedule).map shown =
    some ([(0, some (.ok (.bool true))), (0, some (.ok (.bool true))), (0, some (.ok (.bool true))), (1, some (.ok (.bool true))), (1, some (.ok (.val (.int 5))))], true, false) := by decide +kernel
  have h'' : (ptPlay guardSchedule).map (fun s => outcomes s.log) =
    some [(0, some (.ok (.bool true))), (0, some (.ok (.bool true))), (0, some (.ok (.bool true))), (1, some (.ok (.bool true))), (1, some (.ok (.val (.int 5))))] := by decide +kernel
  have h' : (ptPlay guardSchedule).map (fun s => (noRepair s, s.alive 2)) = some (true, false) := by decide +kernel
  obtain ⟨s, h1, -⟩ := Option.map_eq_some_iff.1 h
  rw [h1] at h' h''
  have h7 := Option.some.inj h''
  have h5 : noRepair s = true := congrArg Prod.fst (Option.some.inj h')
  have h6 : s.alive 2 = false := congrArg Prod.snd (Option.some.inj h')
  clear h h' h''
  obtain ⟨N, lab, σ, e1, rfl, e3, e4⟩ := play_open (cs := []) (OpenTo.refl _) h1
  have htok : ∀ t u : Nat, t < 2 → u < 2 → BitVec.ofNat 64 (100 + t) = BitVec.ofNat 64 (100 + u) → t = u := by
    intro t u ht hu
    interval_cases t <;> interval_cases u <;> decide
  refine ⟨N, lab, σ, e1, e3, htok, fun i t o hi hl => ?_, h6, fun cs hs hp => ?_⟩
  · have hm := mem_filterMap_range hi hl
    rw [e4] at hm
    simp only [List.nil_append, Cmd.made, guardSchedule, List.mem_cons, Prod.mk.injEq, List.not_mem_nil, or_false] at hm
    have hc : ∀ x : BitVec 64, (Op.claim [7] x).free ∧ Op.claim [7] x ≠ .items ∧ (Op.claim [7] x).leases [7] x ∧ ((Op.claim [7] x).spares [8] ∨ ∃ v, Op.claim [7] x = .store [8] v) :=
      fun x => ⟨fun d h => (by cases h), fun h => (by cases h), Or.inr (Or.inl rfl), Or.inl (show ([7] : Bytes) ≠ [8] by decide)⟩
    have hr : ∀ x : BitVec 64, (Op.release [7] x).free ∧ Op.release [7] x ≠ .items ∧ (Op.release [7] x).leases [7] x ∧ ((Op.release [7] x).spares [8] ∨ ∃ v, Op.release [7] x = .store [8] v) :=
      fun x => ⟨trivial, fun h => (by cases h), Or.inr (Or.inr rfl), Or.inl (show ([7] : Bytes) ≠ [8] by decide)⟩
    have hst : ∀ x y : BitVec 64, (Op.store [8] (.int y)).free ∧ Op.store [8] (.int y) ≠ .items ∧ (Op.store [8] (.int y)).leases [7] x ∧ ((Op.store [8] (.int y)).spares [8] ∨ ∃ v, Op.store [8] (.int y) = .store [8] v) :=
      fun x y => ⟨fun d h => (by cases h), fun h => (by cases h), Or.inl (show ([8] : Bytes) ≠ [7] by decide), Or.inr ⟨_, rfl⟩⟩
    rcases hm with ⟨rfl, rfl⟩ | ⟨rfl, rfl⟩ | ⟨rfl, rfl⟩ | ⟨rfl, rfl⟩ | ⟨rfl, rfl⟩ | ⟨rfl, rfl⟩
    · exact ⟨by decide, hc _⟩
    · exact ⟨by decide, hst _ _⟩
    · exact ⟨by decide, hr _⟩
    · exact ⟨by decide, hc _⟩
    · exact ⟨by decide, trivial, fun h => (by cases h), Or.inl trivial, Or.inl trivial⟩
    · exact ⟨by decide, hst _ _⟩
  · have hb : ∀ t, begun lab t N = ((([(0, Op.claim [7] 100), (0, Op.store [8] (.int 5)), (0, Op.release [7] 100), (1, Op.claim [7] 101), (1, .at [8]), (1, Op.store [8] (.int 6))] : List (Nat × PT.Op)).filter fun x => x.1 = t).map (·.2)) := by
      intro t
      rw [begun_list, e4]
      rfl
    have hcs : cs = guardCalls := by
      refine same_calls (b := fun t => begun lab t N) ((shows_all hs (noRepair_spec h5)).symm.trans h7) hp fun t => ?_
      show _ <+: begun lab t N
      rw [hb]
      match t with
      | 0 => exact ⟨[], rfl⟩
      | 1 => exact ⟨[Op.store [8] (.int 6)], rfl⟩
      | t + 2 => simp [guardCalls]
    subst hcs
    have ho0 : Owns [7] (BitVec.ofNat 64 (100 + 0)) 0 (guardCalls.take 1) := ⟨[], [], rfl, by simp⟩
    have ho1 : ∀ n, 4 ≤ n → Owns [7] (BitVec.ofNat 64 (100 + 1)) 1 (guardCalls.take n) := by
      intro n hn
      refine ⟨guardCalls.take 3, (guardCalls.drop 4).take (n - 4), ?_, ?_⟩
      · obtain ⟨n, rfl⟩ := Nat.exists_eq_add_of_le hn
        match n with
        | 0 => rfl
        | _ + 1 => simp [guardCalls, Nat.add_comm 4]
      · intro hm
        have hm := List.mem_of_mem_take hm
        simp [guardCalls, Op.release] at hm
    refine ⟨fun c1 t o r c2 e ha => ?_, fun t o _ hd => ?_⟩
    · have hlen : c1.length < 5 := by
        have := congrArg List.length e
        simp [guardCalls] at this
        omega
      have h0 : guardCalls[c1.length]? = some (t, o, r) := by rw [e]; simp
      have hc : c1 = guardCalls.take c1.length := by rw [e]; simp
      rw [hc]
      generalize c1.length = n at hlen h0
      have hn : ∀ x : BitVec 64, ¬ (Op.claim [7] x).access [8] ∧ ¬ (Op.release [7] x).access [8] := by
        intro x
        constructor <;> rintro (h | ⟨v, h⟩) <;> cases h
      interval_cases n <;> cases h0
      · exact absurd ha (hn _).1
      · exact ho0
      · exact absurd ha (hn _).2
      · exact absurd ha (hn _).1
      · exact ho1 4 (by decide)
    · rw [hb] at hd
      match t with
      | 0 => cases hd
      | 1 => cases hd; exact ⟨rfl, ho1 5 (by decide)⟩
      | t + 2 => simp [guardCalls] at hd

end Verif
