import Verif.PropsSpinLock
/-
C95: lock-free updates of an element of an AtomicVector (/repo/src/AtomicVector.hh, load and compare_exchange): load the value, compute another from it, and try to put it in with compare_exchange until it succeeds.
-/
namespace Verif.AtomicVec
open Verif
variable {sz w : Nat}

/-- calls that change element `i` at most by compare_exchange -/
def Swapping (i : Nat) (op : Op w) : Prop := op.idx = some i → op = .load i ∨ (∃ b, op = .loadBit b) ∨ ∃ e d, op = .cas i e d

/-- the successful calls of compare_exchange on element `i`, which have returned the expected value: thread, expected value, new value -/
def swapped (i : Nat) : Nat × Op w × Out (Ret w) → Option (Nat × BitVec w × BitVec w)
  | (t, .cas j e d, .ok (.word v)) => if j = i ∧ v = e then some (t, e, d) else none
  | _ => none

/-- every exchange of the list expects the value that the one before it has put in, the first one `v`; the last one puts in `v'` -/
def Chain (v : BitVec w) : List (Nat × BitVec w × BitVec w) → BitVec w → Prop
  | [], v' => v = v'
  | (_, e, d) :: L, v' => e = v ∧ Chain d L v'

theorem Chain.snoc {v e d : BitVec w} {t : Nat} : ∀ {L : List (Nat × BitVec w × BitVec w)} {v : BitVec w}, Chain v L e → Chain v (L ++ [(t, e, d)]) d
  | [], _, h => ⟨h.symm, rfl⟩
  | (_, _, _) :: _, _, h => ⟨h.1, Chain.snoc (v := v) h.2⟩

theorem Chain.last {v' : BitVec w} : ∀ {L : List (Nat × BitVec w × BitVec w)} {v : BitVec w}, Chain v L v' → v' ∈ v :: L.map fun x => x.2.2
  | [], _, h => by rw [h]; simp
  | (_, _, _) :: _, _, h => List.mem_cons_of_mem _ (Chain.last h.2)

/-- all values of `f` of a run that is a chain of exchanges -/
theorem Chain.iterate {g : BitVec w → BitVec w} {v' : BitVec w} : ∀ {L : List (Nat × BitVec w × BitVec w)} {v : BitVec w}, Chain v L v' → (∀ x ∈ L, x.2.2 = g x.2.1) →
    v' = Nat.repeat g L.length v
  | [], _, h, _ => h.symm
  | (t, e, d) :: L, v, h, hg => by
    obtain ⟨rfl, h2⟩ := h
    have e1 : d = g e := hg (t, e, d) (by simp)
    subst e1
    rw [Chain.iterate h2 fun x hx => hg x (List.mem_cons_of_mem _ hx)]
    have : ∀ n (x : BitVec w), Nat.repeat g n (g x) = g (Nat.repeat g n x) := by
      intro n
      induction n with
      | zero => intro x; rfl
      | succ n ih => intro x; simp only [Nat.repeat, ih]
    exact this _ _

/-- the effects of a run whose calls on element `i` are loads and compare_exchanges -/
theorem LinRun.chain {a0 : List (BitVec w)} {i : Nat} (hl : i < a0.length) {H : List (Ev w)} {lin : List (Nat × Op w × Out (Ret w))} {a : List (BitVec w)}
    {st : Nat → Option (Op w × Option (Out (Ret w)))} (h : LinRun a0 H lin a st) (hA : ∀ t op, .inv t op ∈ H → Swapping i op) :
    a0.length ≤ a.length ∧ Chain a0[i] (lin.filterMap (swapped i)) (a.getD i 0) ∧
      ∀ x ∈ lin, x.2.1 = .load i ∨ (∃ e d, x.2.1 = .cas i e d) → ∃ v, x.2.2 = .ok (.word v) ∧ v ∈ a0[i] :: (lin.filterMap (swapped i)).map fun x => x.2.2 := by
  refine (h.keeps (Swapping i) (fun a lin => a0.length ≤ a.length ∧ Chain a0[i] (lin.filterMap (swapped i)) (a.getD i 0) ∧
      ∀ x ∈ lin, x.2.1 = .load i ∨ (∃ e d, x.2.1 = .cas i e d) → ∃ v, x.2.2 = .ok (.word v) ∧ v ∈ a0[i] :: (lin.filterMap (swapped i)).map fun x => x.2.2)
    ⟨Nat.le_refl _, by simp [Chain, hl], by simp⟩ ?_ hA).1
  rintro a lin t op r a' ⟨h1, h2, h3⟩ hop hsp
  refine ⟨Nat.le_trans h1 (spec_len hsp), ?_⟩
  have hia : i < a.length := by omega
  have old : ∀ x ∈ lin, x.2.1 = .load i ∨ (∃ e d, x.2.1 = .cas i e d) →
      ∃ v, x.2.2 = .ok (.word v) ∧ v ∈ a0[i] :: ((lin ++ [(t, op, r)]).filterMap (swapped i)).map fun x => x.2.2 := by
    intro x hx hk
    obtain ⟨v, e1, e2⟩ := h3 x hx hk
    refine ⟨v, e1, ?_⟩
    rw [List.filterMap_append, List.map_append, ← List.cons_append]
    exact List.mem_append_left _ e2
  -- nothing is put in
  have keep : swapped i (t, op, r) = none → a'.getD i 0 = a.getD i 0 →
      (op = .load i ∨ (∃ e d, op = .cas i e d) → r = .ok (.word (a.getD i 0))) →
      Chain a0[i] ((lin ++ [(t, op, r)]).filterMap (swapped i)) (a'.getD i 0) ∧
      ∀ x ∈ lin ++ [(t, op, r)], x.2.1 = .load i ∨ (∃ e d, x.2.1 = .cas i e d) →
        ∃ v, x.2.2 = .ok (.word v) ∧ v ∈ a0[i] :: ((lin ++ [(t, op, r)]).filterMap (swapped i)).map fun x => x.2.2 := by
    intro k1 k2 k3
    have e : (lin ++ [(t, op, r)]).filterMap (swapped i) = lin.filterMap (swapped i) := by
      rw [List.filterMap_append]; simp [k1]
    refine ⟨by rw [e, k2]; exact h2, fun x hx hk => ?_⟩
    rcases List.mem_append.1 hx with hx | hx
    · exact old x hx hk
    · rw [List.mem_singleton.1 hx] at hk ⊢
      exact ⟨_, k3 hk, by rw [e]; exact h2.last⟩
  by_cases hx : op.idx = some i
  · rcases hop hx with rfl | ⟨b, rfl⟩ | ⟨e, d, rfl⟩
    · rcases hsp with ⟨h, -⟩ | ⟨_, rfl, rfl⟩
      · omega
      · exact keep rfl (by rw [List.set_getElem_self]) fun _ => by simp [hia]
    · have hb : b / w = i := by simpa [Op.idx] using hx
      rcases hsp with ⟨h, -⟩ | ⟨hc, rfl, x, rfl, hb2⟩
      · omega
      · refine keep rfl ?_ (by simp)
        have : x = a[b / w] := by
          apply BitVec.eq_of_getMsbD_eq
          intro c hc'
          rw [hb2 c hc']
          split
          · rename_i e; rw [e]
          · rfl
        rw [this, List.set_getElem_self]
    · rcases hsp with ⟨h, -⟩ | ⟨_, rfl, rfl⟩
      · omega
      · by_cases he : a[i] = e
        · have e1 : (lin ++ [(t, Op.cas i e d, Out.ok (Ret.word a[i]))]).filterMap (swapped i) = lin.filterMap (swapped i) ++ [(t, e, d)] := by
            rw [List.filterMap_append]; simp [swapped, he]
          have e2 : a.getD i 0 = e := by simp [hia, he]
          rw [e2] at h2
          refine ⟨by rw [e1]; simpa [hia, he] using h2.snoc (v := e), fun x hx hk => ?_⟩
          rcases List.mem_append.1 hx with hx | hx
          · exact old x hx hk
          · rw [List.mem_singleton.1 hx]
            refine ⟨_, rfl, ?_⟩
            rw [e1, List.map_append, ← List.cons_append]
            refine List.mem_append_left _ ?_
            rw [he]; exact h2.last
        · refine keep (by simp [swapped, he]) (by simp [hia, he]) fun _ => by simp [hia]
  · refine keep ?_ (spec_other hsp hx) ?_
    · cases op <;> try rfl
      rename_i j e d
      have hj : j ≠ i := fun h => hx (by rw [h]; rfl)
      cases r with
      | ok v => cases v <;> simp [swapped, hj]
      | err _ => rfl
    · rintro (rfl | ⟨e, d, rfl⟩)
      · exact absurd rfl hx
      · exact absurd rfl hx

/-- **C95: lock-free updates.** If element `i` is changed only by compare_exchange, then at every moment, whatever the interleaving and whoever has died, there is a list `L` of exchanges in which each expects what the one
before it has put in: from the initial value of the element to its value in memory.  `L` consists of all calls that have returned success, each once, and of calls that threads are in or have died in, at most one of each
thread.  Every value that a load or a compare_exchange has returned is the initial value or has been put in by a call in `L`.  And `L` respects real time: at any moment of the past, the calls that had returned by then are in a
first part of `L`, and those begun after it are in the rest.  So no update is lost, repeated or based on a value that another one has replaced. -/
theorem C95_chain (hs : 0 < sz) {fuel : Nat} (hf : 0 < fuel) {a0 : List (BitVec (8 * sz))} {s0 s : Sys (8 * sz)} (hi : Init sz a0 s0)
    (hr : Reach sz fuel (Polite sz) s0 s) {i : Nat} (hl : i < a0.length) (hcas : ∀ t op, .inv t op ∈ s.hist → Swapping i op) :
    ∃ a, Shows sz s.sh a ∧ i < a.length ∧ ∃ L, Chain a0[i] L (a.getD i 0) ∧
      (∃ rest : List (Nat × BitVec (8 * sz) × BitVec (8 * sz)), (rest.map Prod.fst).Nodup ∧ (∀ t e d, (t, e, d) ∈ rest → pending t s.hist = some (.cas i e d)) ∧
        L.Perm ((resps s.hist).filterMap (swapped i) ++ rest)) ∧
      (∀ x ∈ resps s.hist, x.2.1 = .load i ∨ (∃ e d, x.2.1 = .cas i e d) → ∃ v, x.2.2 = .ok (.word v) ∧ v ∈ a0[i] :: L.map fun x => x.2.2) ∧
      ∀ H1 H2, s.hist = H1 ++ H2 → ∃ L1 L2, L = L1 ++ L2 ∧ (∃ R, L1.Perm ((resps H1).filterMap (swapped i) ++ R)) ∧
        ∀ x ∈ resps H2, pending x.1 H1 = none → ∀ y, swapped i x = some y → y ∈ L2 := by
  obtain ⟨g, lin, st, h⟩ := reach_inv hs hf hi hr
  obtain ⟨c1, c2, c3⟩ := h.lin.chain hl hcas
  obtain ⟨rest, p1, p2, p3⟩ := h.lin.perm
  have form : ∀ {x : Nat × Op (8 * sz) × Out (Ret (8 * sz))} {y}, swapped i x = some y → x.1 = y.1 ∧ x.2.1 = .cas i y.2.1 y.2.2 := by
    intro x y hy
    obtain ⟨t, op, r⟩ := x
    unfold swapped at hy
    split at hy
    · rename_i e1
      cases e1
      split at hy
      · rename_i e2
        cases hy
        obtain ⟨rfl, rfl⟩ := e2
        exact ⟨rfl, rfl⟩
      · cases hy
    · cases hy
  refine ⟨g.a, h.rep.shows, by omega, lin.filterMap (swapped i), c2, ⟨rest.filterMap (swapped i), ?_, ?_, ?_⟩, ?_, ?_⟩
  · rw [List.map_filterMap]
    refine List.Pairwise.filterMap _ (R := fun x y => x.1 ≠ y.1) ?_ ?_
    · intro x y hxy b hb b' hb'
      obtain ⟨y1, e1, rfl⟩ := Option.map_eq_some_iff.1 hb
      obtain ⟨y2, e2, rfl⟩ := Option.map_eq_some_iff.1 hb'
      rw [← (form e1).1, ← (form e2).1]
      exact hxy
    · refine List.Pairwise.imp_of_mem ?_ p2
      rintro ⟨t, op, r⟩ ⟨t', op', r'⟩ hx hy hne e
      have e : t = t' := e
      subst e
      have := (p3 _ _ _).1 hx
      rw [(p3 _ _ _).1 hy] at this
      cases this
      exact hne rfl
  · intro t e d hm
    obtain ⟨⟨t', op, r⟩, hx, hy⟩ := List.mem_filterMap.1 hm
    obtain ⟨e1, e2⟩ := form hy
    simp only at e1 e2
    subst e1 e2
    rw [h.lin.pending, (p3 _ _ _).1 hx]; rfl
  · rw [← List.filterMap_append]
    exact p1.filterMap _
  · intro x hx hk
    exact c3 x (p1.mem_iff.2 (List.mem_append_left _ hx)) hk
  · intro H1 H2 hH
    obtain ⟨lin1, lin2, a1, st1, h1, h2, h3⟩ := h.lin.split H1 H2 hH
    obtain ⟨rest1, q1, -⟩ := h1.perm
    refine ⟨lin1.filterMap (swapped i), lin2.filterMap (swapped i), by rw [h2, List.filterMap_append], ⟨rest1.filterMap (swapped i), ?_⟩, ?_⟩
    · rw [← List.filterMap_append]
      exact q1.filterMap _
    · intro x hx hp y hy
      exact List.mem_filterMap.2 ⟨x, (h3 x.1 hp).1 x.2.1 x.2.2 hx, hy⟩

/-- **C95, one function.** If every exchange puts in `g` of the value that it expects, then the element is `g` applied to its initial value, once for every call that has returned success and for some that threads are in or
have died in, at most one of each. -/
theorem C95_iterate (hs : 0 < sz) {fuel : Nat} (hf : 0 < fuel) {a0 : List (BitVec (8 * sz))} {s0 s : Sys (8 * sz)} (hi : Init sz a0 s0)
    (hr : Reach sz fuel (Polite sz) s0 s) {i : Nat} (hl : i < a0.length) (hcas : ∀ t op, .inv t op ∈ s.hist → Swapping i op) {g : BitVec (8 * sz) → BitVec (8 * sz)}
    (hg : ∀ t e d, .inv t (.cas i e d) ∈ s.hist → d = g e) :
    ∃ a, Shows sz s.sh a ∧ i < a.length ∧ ∃ P : List Nat, P.Nodup ∧ (∀ t ∈ P, ∃ e, pending t s.hist = some (.cas i e (g e))) ∧
      a.getD i 0 = Nat.repeat g (((resps s.hist).filterMap (swapped i)).length + P.length) a0[i] := by
  obtain ⟨a, h1, h2, L, h3, ⟨rest, r1, r2, r3⟩, -, -⟩ := C95_chain hs hf hi hr hl hcas
  obtain ⟨g', lin, st, h⟩ := reach_inv hs hf hi hr
  have begun : (∀ t op r, (t, op, r) ∈ resps s.hist → .inv t op ∈ s.hist) ∧ ∀ t op, pending t s.hist = some op → .inv t op ∈ s.hist := by
    have key : ∀ {H lin a st}, LinRun a0 H lin a st → (∀ t op r, (t, op, r) ∈ resps H → .inv t op ∈ H) ∧ ∀ t op c, st t = some (op, c) → .inv t op ∈ H := by
      intro H lin a st h
      induction h with
      | nil => exact ⟨by simp [resps], by simp⟩
      | @inv H lin a st t op _ hn ih =>
        refine ⟨fun u op' r hm => ?_, fun u op' c hu => ?_⟩
        · rw [resps_append] at hm
          exact List.mem_append_left _ (ih.1 u op' r (by simpa [resps] using hm))
        · by_cases e : u = t
          · subst e; rw [upd_same] at hu; cases hu; simp
          · rw [upd_ne _ _ e] at hu; exact List.mem_append_left _ (ih.2 u op' c hu)
      | @effect H lin a st t op r a' _ hn hsp ih =>
        refine ⟨ih.1, fun u op' c hu => ?_⟩
        by_cases e : u = t
        · subst e; rw [upd_same] at hu; cases hu; exact ih.2 u _ _ hn
        · rw [upd_ne _ _ e] at hu; exact ih.2 u op' c hu
      | @res H lin a st t op r _ hn ih =>
        refine ⟨fun u op' r' hm => ?_, fun u op' c hu => ?_⟩
        · rw [resps_append] at hm
          rcases List.mem_append.1 hm with hm | hm
          · exact List.mem_append_left _ (ih.1 u op' r' hm)
          · simp only [resps, List.mem_singleton] at hm
            cases hm
            exact List.mem_append_left _ (ih.2 _ _ _ hn)
        · by_cases e : u = t
          · subst e; rw [upd_same] at hu; cases hu
          · rw [upd_ne _ _ e] at hu; exact List.mem_append_left _ (ih.2 u op' c hu)
    obtain ⟨k1, k2⟩ := key h.lin
    refine ⟨k1, fun t op hp => ?_⟩
    rw [h.lin.pending] at hp
    obtain ⟨⟨op', c⟩, e1, rfl⟩ := Option.map_eq_some_iff.1 hp
    exact k2 t op' c e1
  have hL : ∀ x ∈ L, x.2.2 = g x.2.1 := by
    rintro ⟨t, e, d⟩ hx
    refine hg t e d ?_
    rcases List.mem_append.1 (r3.mem_iff.1 hx) with hm | hm
    · obtain ⟨⟨t', op, r⟩, hm, hy⟩ := List.mem_filterMap.1 hm
      have hb := begun.1 _ _ _ hm
      unfold swapped at hy
      split at hy
      · rename_i e1
        cases e1
        split at hy
        · rename_i e2
          cases hy
          obtain ⟨rfl, rfl⟩ := e2
          exact hb
        · cases hy
      · cases hy
    · exact begun.2 _ _ (r2 _ _ _ hm)
  refine ⟨a, h1, h2, rest.map Prod.fst, r1, ?_, ?_⟩
  · intro t ht
    obtain ⟨⟨t', e, d⟩, hm, rfl⟩ := List.mem_map.1 ht
    have hd := hL (t', e, d) (r3.mem_iff.2 (List.mem_append_right _ hm))
    simp only at hd
    subst hd
    exact ⟨e, r2 _ _ _ hm⟩
  · rw [h3.iterate hL, r3.length_eq]
    simp

/-- Threads 0 and 1 double and add one by load and compare_exchange: both load 0, thread 0 puts in 1, thread 1 fails, loads again, and puts in 3; thread 2 dies after it has put in 7. -/
def swapping : List (Cmd (8 * 8)) := [.call 0 (.load 0), .go 0 6, .call 1 (.load 0), .go 1 6, .call 0 (.cas 0 0 1), .go 0 2, .call 1 (.cas 0 0 1), .go 1 2, .go 0 6, .go 1 6,
  .call 1 (.load 0), .go 1 6, .call 1 (.cas 0 1 3), .go 1 8, .call 2 (.cas 0 3 7), .go 2 4, .die 2]

/-- the history of that run -/
def swaps : List (Ev (8 * 8)) := [.inv 0 (.load 0), .res 0 (.load 0) (.ok (.word 0)), .inv 1 (.load 0), .res 1 (.load 0) (.ok (.word 0)), .inv 0 (.cas 0 0 1), .inv 1 (.cas 0 0 1),
  .res 0 (.cas 0 0 1) (.ok (.word 0)), .res 1 (.cas 0 0 1) (.ok (.word 1)), .inv 1 (.load 0), .res 1 (.load 0) (.ok (.word 1)), .inv 1 (.cas 0 1 3), .res 1 (.cas 0 1 3) (.ok (.word 1)),
  .inv 2 (.cas 0 3 7)]

/-- the hypotheses of C95_chain and C95_iterate are met: two calls have succeeded, thread 2 has died in a call that has taken effect -/
example : ∃ s, Reach 8 1 (Polite 8) par s ∧ (∀ t op, .inv t op ∈ s.hist → Swapping 0 op) ∧ (∀ t e d, .inv t (.cas 0 e d) ∈ s.hist → d = 2 * e + 1) ∧
    (resps s.hist).filterMap (swapped 0) = [(0, 0, 1), (1, 1, 3)] ∧ pending 2 s.hist = some (.cas 0 3 7) ∧ leRd s.sh.mem 16 8 = 7 := by
  have e : seen (playAll 8 1 swapping par) = some (swaps, 7) := by unfold par one; decide +kernel
  obtain ⟨s, h1, h2, h3⟩ := par_seen e
  refine ⟨s, h1, ?_, ?_, ?_, ?_, h3⟩
  · rw [h2]
    intro t op hm
    simp only [swaps, List.mem_cons, Ev.inv.injEq, reduceCtorEq, List.not_mem_nil, or_false, false_or] at hm
    rcases hm with ⟨-, rfl⟩ | ⟨-, rfl⟩ | ⟨-, rfl⟩ | ⟨-, rfl⟩ | ⟨-, rfl⟩ | ⟨-, rfl⟩ | ⟨-, rfl⟩ <;> intro _
    · exact Or.inl rfl
    · exact Or.inl rfl
    · exact Or.inr (Or.inr ⟨_, _, rfl⟩)
    · exact Or.inr (Or.inr ⟨_, _, rfl⟩)
    · exact Or.inl rfl
    · exact Or.inr (Or.inr ⟨_, _, rfl⟩)
    · exact Or.inr (Or.inr ⟨_, _, rfl⟩)
  · rw [h2]
    intro t e d hm
    simp only [swaps, List.mem_cons, Ev.inv.injEq, Op.cas.injEq, reduceCtorEq, List.not_mem_nil, or_false, false_or, and_false] at hm
    rcases hm with ⟨-, -, rfl, rfl⟩ | ⟨-, -, rfl, rfl⟩ | ⟨-, -, rfl, rfl⟩ | ⟨-, -, rfl, rfl⟩ <;> decide
  · rw [h2]; decide
  · rw [h2]; rfl

end Verif.AtomicVec
