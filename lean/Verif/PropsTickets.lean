import Verif.PropsAtomicVec
/-
C92: what callers build on an AtomicVector (/repo/src/AtomicVector.hh) shared by several processes: counters, ticket dispensers (fetch_add of 1)
and test-and-set flags (store_bit), with processes dying at any time.  Everything is stated in terms of the history of calls and returns.
-/
namespace Verif.AtomicVec
open Verif
variable {sz w : Nat}

/-- the call that thread `t` has begun and not returned from, according to the history: the call it is in, or in which it died -/
def pending (t : Nat) (H : List (Ev w)) : Option (Op w) :=
  H.foldl (fun o e => match e with
    | .inv u op => if u = t then some op else o
    | .res u _ _ => if u = t then none else o) none

/-- how many calls of the kind `q` have begun -/
def begunOf (q : Op w → Bool) : List (Ev w) → Nat
  | [] => 0
  | .inv _ op :: H => (if q op then 1 else 0) + begunOf q H
  | .res _ _ _ :: H => begunOf q H

theorem begunOf_append (q : Op w → Bool) (H K : List (Ev w)) : begunOf q (H ++ K) = begunOf q H + begunOf q K := by
  induction H with
  | nil => simp [begunOf]
  | cons e H ih => cases e <;> simp only [List.cons_append, begunOf, ih] <;> omega

theorem pending_inv (t u : Nat) (op : Op w) (H : List (Ev w)) : pending t (H ++ [.inv u op]) = if u = t then some op else pending t H := by
  simp [pending, List.foldl_append]

theorem pending_res (t u : Nat) (op : Op w) (r : Out (Ret w)) (H : List (Ev w)) : pending t (H ++ [.res u op r]) = if u = t then none else pending t H := by
  simp [pending, List.foldl_append]

theorem LinRun.pending {a0 : List (BitVec w)} {H : List (Ev w)} {lin : List (Nat × Op w × Out (Ret w))} {a : List (BitVec w)}
    {st : Nat → Option (Op w × Option (Out (Ret w)))} (h : LinRun a0 H lin a st) (t : Nat) : AtomicVec.pending t H = (st t).map Prod.fst := by
  induction h with
  | nil => rfl
  | @inv H lin a st u op _ hn ih =>
    rw [pending_inv]
    by_cases e : u = t
    · subst e; rw [if_pos rfl, upd_same]; rfl
    · rw [if_neg e, upd_ne _ _ (fun h => e h.symm)]; exact ih
  | @effect H lin a st u op r a' _ hn hsp ih =>
    rw [ih]
    by_cases e : u = t
    · subst e; rw [upd_same, hn]; rfl
    · rw [upd_ne _ _ (fun h => e h.symm)]
  | @res H lin a st u op r _ hn ih =>
    rw [pending_res]
    by_cases e : u = t
    · subst e; rw [if_pos rfl, upd_same]; rfl
    · rw [if_neg e, upd_ne _ _ (fun h => e h.symm)]; exact ih

/-- every effect belongs to a call that has begun -/
theorem LinRun.count {a0 : List (BitVec w)} {H : List (Ev w)} {lin : List (Nat × Op w × Out (Ret w))} {a : List (BitVec w)}
    {st : Nat → Option (Op w × Option (Out (Ret w)))} (h : LinRun a0 H lin a st) (q : Op w → Bool) :
    ∃ P : List Nat, P.Nodup ∧ (∀ t, t ∈ P ↔ ∃ op, st t = some (op, none) ∧ q op = true) ∧
      (lin.filter fun x => q x.2.1).length + P.length = begunOf q H := by
  induction h with
  | nil => exact ⟨[], .nil, fun t => by simp, rfl⟩
  | @inv H lin a st t op _ hn ih =>
    obtain ⟨P, h1, h2, h3⟩ := ih
    have ht : t ∉ P := fun hm => by obtain ⟨_, h, -⟩ := (h2 t).1 hm; rw [hn] at h; cases h
    cases hq : q op with
    | true =>
      refine ⟨t :: P, List.nodup_cons.2 ⟨ht, h1⟩, ?_, ?_⟩
      · intro u
        by_cases e : u = t
        · subst e; simp [upd_same, hq]
        · rw [upd_ne _ _ e, List.mem_cons, ← h2]; simp [e]
      · rw [begunOf_append]; simp only [begunOf, hq, if_true, List.length_cons]; omega
    | false =>
      refine ⟨P, h1, ?_, ?_⟩
      · intro u
        by_cases e : u = t
        · subst e; simp [upd_same, hq, ht]
        · rw [upd_ne _ _ e, ← h2]
      · rw [begunOf_append]; simp only [begunOf, hq, Bool.false_eq_true, if_false]; omega
  | @effect H lin a st t op r a' _ hn hsp ih =>
    obtain ⟨P, h1, h2, h3⟩ := ih
    cases hq : q op with
    | true =>
      have ht : t ∈ P := (h2 t).2 ⟨op, hn, hq⟩
      refine ⟨P.erase t, h1.erase _, ?_, ?_⟩
      · intro u
        rw [h1.mem_erase_iff]
        by_cases e : u = t
        · subst e; simp [upd_same]
        · rw [upd_ne _ _ e, ← h2]; simp [e]
      · rw [List.filter_append, List.length_append, List.length_erase_of_mem ht]
        have := List.length_pos_of_mem ht
        simp only [List.filter_cons, hq, if_true, List.filter_nil, List.length_singleton]; omega
    | false =>
      have ht : t ∉ P := fun hm => by obtain ⟨_, h, h'⟩ := (h2 t).1 hm; rw [hn] at h; cases h; rw [hq] at h'; cases h'
      refine ⟨P, h1, ?_, ?_⟩
      · intro u
        by_cases e : u = t
        · subst e; simp [upd_same, ht]
        · rw [upd_ne _ _ e, ← h2]
      · rw [List.filter_append, List.length_append]
        simp only [List.filter_cons, hq, Bool.false_eq_true, if_false, List.filter_nil, List.length_nil]; omega
  | @res H lin a st t op r _ hn ih =>
    obtain ⟨P, h1, h2, h3⟩ := ih
    refine ⟨P, h1, ?_, ?_⟩
    · intro u
      by_cases e : u = t
      · subst e; rw [upd_same, h2, hn]; simp
      · rw [upd_ne _ _ e, ← h2]
    · rw [begunOf_append]; exact h3

/-- a linearization of a history starts with a linearization of its beginning; what has returned since and had not begun has taken effect since -/
theorem LinRun.split {a0 : List (BitVec w)} {H : List (Ev w)} {lin : List (Nat × Op w × Out (Ret w))} {a : List (BitVec w)}
    {st : Nat → Option (Op w × Option (Out (Ret w)))} (h : LinRun a0 H lin a st) : ∀ H1 H2, H = H1 ++ H2 →
    ∃ lin1 lin2 a1 st1, LinRun a0 H1 lin1 a1 st1 ∧ lin = lin1 ++ lin2 ∧ ∀ u, AtomicVec.pending u H1 = none →
      (∀ op r, (u, op, r) ∈ resps H2 → (u, op, r) ∈ lin2) ∧ (∀ op r, st u = some (op, some r) → (u, op, r) ∈ lin2) := by
  have base : ∀ {H : List (Ev w)} {lin : List (Nat × Op w × Out (Ret w))} {a : List (BitVec w)} {st}, LinRun a0 H lin a st →
      ∃ lin1 lin2 a1 st1, LinRun a0 H lin1 a1 st1 ∧ lin = lin1 ++ lin2 ∧ ∀ u, AtomicVec.pending u H = none →
      (∀ op r, (u, op, r) ∈ resps ([] : List (Ev w)) → (u, op, r) ∈ lin2) ∧ (∀ op r, st u = some (op, some r) → (u, op, r) ∈ lin2) := by
    intro H lin a st h
    refine ⟨lin, [], a, st, h, by simp, fun u hu => ⟨fun op r h => (by cases h), fun op r hs => ?_⟩⟩
    rw [h.pending, hs] at hu; cases hu
  induction h with
  | nil =>
    intro H1 H2 e
    obtain ⟨rfl, rfl⟩ := List.append_eq_nil_iff.1 e.symm
    exact base .nil
  | @inv H lin a st t op hl hn ih =>
    intro H1 H2 e
    rcases List.eq_nil_or_concat H2 with rfl | ⟨K, x, rfl⟩
    · rw [List.append_nil] at e; subst e; exact base (.inv hl hn)
    · rw [List.concat_eq_append, ← List.append_assoc] at e
      obtain ⟨e1, e2⟩ := List.append_inj' e rfl
      cases e2
      obtain ⟨lin1, lin2, a1, st1, h1, h2, h3⟩ := ih H1 K e1
      refine ⟨lin1, lin2, a1, st1, h1, h2, fun u hu => ⟨fun op' r hm => ?_, fun op' r hs => ?_⟩⟩
      · rw [List.concat_eq_append, resps_append] at hm
        exact (h3 u hu).1 op' r (by simpa [resps] using hm)
      · by_cases e : u = t
        · subst e; rw [upd_same] at hs; cases hs
        · rw [upd_ne _ _ e] at hs; exact (h3 u hu).2 op' r hs
  | @effect H lin a st t op r a' hl hn hsp ih =>
    intro H1 H2 e
    obtain ⟨lin1, lin2, a1, st1, h1, h2, h3⟩ := ih H1 H2 e
    refine ⟨lin1, lin2 ++ [(t, op, r)], a1, st1, h1, by rw [h2, List.append_assoc], fun u hu => ⟨fun op' r' hm => ?_, fun op' r' hs => ?_⟩⟩
    · exact List.mem_append_left _ ((h3 u hu).1 op' r' hm)
    · by_cases e : u = t
      · subst e; rw [upd_same] at hs; cases hs; simp
      · rw [upd_ne _ _ e] at hs; exact List.mem_append_left _ ((h3 u hu).2 op' r' hs)
  | @res H lin a st t op r hl hn ih =>
    intro H1 H2 e
    rcases List.eq_nil_or_concat H2 with rfl | ⟨K, x, rfl⟩
    · rw [List.append_nil] at e; subst e; exact base (.res hl hn)
    · rw [List.concat_eq_append, ← List.append_assoc] at e
      obtain ⟨e1, e2⟩ := List.append_inj' e rfl
      cases e2
      obtain ⟨lin1, lin2, a1, st1, h1, h2, h3⟩ := ih H1 K e1
      refine ⟨lin1, lin2, a1, st1, h1, h2, fun u hu => ⟨fun op' r' hm => ?_, fun op' r' hs => ?_⟩⟩
      · rw [List.concat_eq_append, resps_append, List.mem_append] at hm
        rcases hm with hm | hm
        · exact (h3 u hu).1 op' r' hm
        · simp only [resps, List.mem_singleton] at hm
          cases hm
          exact (h3 _ hu).2 _ _ hn
      · by_cases e : u = t
        · subst e; rw [upd_same] at hs; cases hs
        · rw [upd_ne _ _ e] at hs; exact (h3 u hu).2 op' r' hs

/-- an invariant of vectors and effects that every allowed call keeps -/
theorem LinRun.keeps {a0 : List (BitVec w)} (A : Op w → Prop) (I : List (BitVec w) → List (Nat × Op w × Out (Ret w)) → Prop)
    (h0 : I a0 []) (hs : ∀ a lin t op r a', I a lin → A op → Spec a op r a' → I a' (lin ++ [(t, op, r)]))
    {H : List (Ev w)} {lin : List (Nat × Op w × Out (Ret w))} {a : List (BitVec w)}
    {st : Nat → Option (Op w × Option (Out (Ret w)))} (h : LinRun a0 H lin a st) (hA : ∀ t op, .inv t op ∈ H → A op) :
    I a lin ∧ ∀ t op τ, st t = some (op, τ) → A op := by
  induction h with
  | nil => exact ⟨h0, by simp⟩
  | @inv H lin a st t op _ hn ih =>
    obtain ⟨h1, h3⟩ := ih (fun t op hm => hA t op (List.mem_append_left _ hm))
    refine ⟨h1, ?_⟩
    intro u op' τ hu
    by_cases e : u = t
    · subst e; rw [upd_same] at hu; cases hu; exact hA u _ (by simp)
    · rw [upd_ne _ _ e] at hu; exact h3 u op' τ hu
  | @effect H lin a st t op r a' _ hn hsp ih =>
    obtain ⟨h1, h3⟩ := ih hA
    refine ⟨hs _ _ _ _ _ _ h1 (h3 t op _ hn) hsp, ?_⟩
    intro u op' τ hu
    by_cases e : u = t
    · subst e; rw [upd_same] at hu; cases hu; exact h3 u _ _ hn
    · rw [upd_ne _ _ e] at hu; exact h3 u op' τ hu
  | @res H lin a st t op r _ hn ih =>
    obtain ⟨h1, h3⟩ := ih (fun t op hm => hA t op (List.mem_append_left _ hm))
    refine ⟨h1, ?_⟩
    intro u op' τ hu
    by_cases e : u = t
    · subst e; rw [upd_same] at hu; cases hu
    · rw [upd_ne _ _ e] at hu; exact h3 u op' τ hu

/-! ### counters -/

/-- **C92**, counters, with deaths. If the calls that touch element `i` are fetch_adds, fetch_subs and loads, then at every moment element `i` is its initial
value plus the amounts of all finished calls and of some of the unfinished ones, at most one for every thread: each counts once. -/
theorem C92_counter (hs : 0 < sz) {fuel : Nat} (hf : 0 < fuel) {a0 : List (BitVec (8 * sz))} {s0 s : Sys (8 * sz)} (hi : Init sz a0 s0)
    (hr : Reach sz fuel (Polite sz) s0 s) {i : Nat} (hl : i < a0.length) (hadd : ∀ t op, .inv t op ∈ s.hist → Additive i op) :
    ∃ a, Shows sz s.sh a ∧ ∃ rest : List (Nat × Op (8 * sz) × Out (Ret (8 * sz))), (rest.map Prod.fst).Nodup ∧
      (∀ t op r, (t, op, r) ∈ rest → pending t s.hist = some op) ∧
      ∃ h : i < a.length, a[i] = a0[i] + total i (resps s.hist) + total i rest := by
  obtain ⟨g, lin, st, h⟩ := reach_inv hs hf hi hr
  obtain ⟨⟨k1, k2⟩, -⟩ := h.lin.keeps (Additive i) (fun a lin => a0.length ≤ a.length ∧ a.getD i 0 = a0.getD i 0 + total i lin)
    ⟨Nat.le_refl _, by simp [total]⟩ (by
      rintro a lin t op r a' ⟨h1, h2⟩ hA hsp
      refine ⟨Nat.le_trans h1 (spec_len hsp), ?_⟩
      rw [spec_delta hsp (by omega) hA, h2, total_append, BitVec.add_assoc]
      simp [total]) hadd
  obtain ⟨rest, p1, p2, p3⟩ := h.lin.perm
  refine ⟨g.a, h.rep.shows, rest, ?_, ?_, by omega, ?_⟩
  · refine List.pairwise_map.2 (List.Pairwise.imp_of_mem ?_ p2)
    rintro ⟨t, op, r⟩ ⟨t', op', r'⟩ hx hy hne e
    have e : t = t' := e
    subst e
    have := (p3 _ _ _).1 hx
    rw [(p3 _ _ _).1 hy] at this
    cases this
    exact hne rfl
  · intro t op r hm
    rw [h.lin.pending, (p3 _ _ _).1 hm]; rfl
  · rw [total_perm i p1, total_append, ← BitVec.add_assoc] at k2
    simpa [List.getD_eq_getElem?_getD, hl, Nat.lt_of_lt_of_le hl k1] using k2

/-! ### tickets -/

/-- calls that change element `i` at most by adding 1 -/
def Dispensing (i : Nat) : Op w → Prop
  | .add j v => j = i → v = 1
  | .load _ | .loadBit _ | .size | .expand _ | .expandBits _ => True
  | op => op.idx ≠ some i

/-- a request for a ticket -/
def draws (i : Nat) : Op w → Bool
  | .add j _ => j == i
  | _ => false

/-- the ticket that a finished call got -/
def ticket (i : Nat) (x : Nat × Op w × Out (Ret w)) : Option (BitVec w) :=
  match x.2.2 with
  | .ok (.word v) => if draws i x.2.1 then some v else none
  | _ => none

/-- the first `n` tickets, starting from `v` -/
def tickets (v : BitVec w) (n : Nat) : List (BitVec w) := (List.range n).map fun k => v + BitVec.ofNat w k

theorem Dispensing.additive {i : Nat} {op : Op w} (h : Dispensing i op) : Additive i op := by
  cases op <;> trivial

theorem spec_ticket {i : Nat} {a a' : List (BitVec w)} {op : Op w} {r : Out (Ret w)} (h : Spec a op r a') (hi : i < a.length) (hA : Dispensing i op) (t : Nat) :
    if draws i op then ticket i (t, op, r) = some (a.getD i 0) ∧ a'.getD i 0 = a.getD i 0 + 1 else ticket i (t, op, r) = none ∧ a'.getD i 0 = a.getD i 0 := by
  have hd := spec_delta h hi hA.additive
  cases hq : draws i op with
  | true =>
    cases op <;> simp only [draws, Bool.false_eq_true, beq_iff_eq] at hq
    subst hq
    have hv := hA rfl
    subst hv
    rcases h with ⟨h, -⟩ | ⟨_, rfl, rfl⟩
    · omega
    · simp [ticket, draws, hi]
  | false =>
    simp only [Bool.false_eq_true, if_false]
    constructor
    · unfold ticket
      simp only [hq]
      split <;> simp
    · rw [hd]
      have : delta i op = 0 := by
        cases op <;> simp only [delta, draws, beq_eq_false_iff_ne, ne_eq] at hq ⊢
        case add => rw [if_neg hq]
        case sub j v => rw [if_neg (fun e => hA (by rw [← e]; rfl))]
      rw [this]; exact BitVec.add_zero _

theorem tickets_succ (v : BitVec w) (n : Nat) : tickets v (n + 1) = tickets v n ++ [v + BitVec.ofNat w n] := by
  simp [tickets, List.range_succ]

/-- the tickets drawn so far are the first ones, in order -/
theorem LinRun.tickets {a0 : List (BitVec w)} {i : Nat} (hl : i < a0.length) {H : List (Ev w)} {lin : List (Nat × Op w × Out (Ret w))} {a : List (BitVec w)}
    {st : Nat → Option (Op w × Option (Out (Ret w)))} (h : LinRun a0 H lin a st) (hA : ∀ t op, .inv t op ∈ H → Dispensing i op) :
    lin.filterMap (ticket i) = AtomicVec.tickets a0[i] (lin.filter fun x => draws i x.2.1).length := by
  have := (h.keeps (Dispensing i) (fun a lin => a0.length ≤ a.length ∧
      a.getD i 0 = a0[i] + BitVec.ofNat w (lin.filter fun x => draws i x.2.1).length ∧
      lin.filterMap (ticket i) = AtomicVec.tickets a0[i] (lin.filter fun x => draws i x.2.1).length)
    ⟨Nat.le_refl _, by simp [hl], by simp [AtomicVec.tickets]⟩ (by
      rintro a lin t op r a' ⟨h1, h2, h3⟩ hA hsp
      have hk := spec_ticket hsp (by omega) hA t
      refine ⟨Nat.le_trans h1 (spec_len hsp), ?_⟩
      rw [List.filter_append, List.length_append, List.filterMap_append, h3]
      cases hq : draws i op with
      | true =>
        rw [hq] at hk
        simp only [if_true] at hk
        simp only [List.filter_cons, hq, if_true, List.filter_nil, List.length_singleton, List.filterMap_cons, hk.1, List.filterMap_nil]
        refine ⟨?_, ?_⟩
        · rw [hk.2, h2, BitVec.add_assoc]; congr 1; exact (BitVec.ofNat_add _ _).symm
        · rw [tickets_succ, h2]
      | false =>
        rw [hq] at hk
        simp only [Bool.false_eq_true, if_false] at hk
        simp only [List.filter_cons, hq, Bool.false_eq_true, if_false, List.filter_nil, List.length_nil, List.filterMap_cons, hk.1, List.filterMap_nil,
          Nat.add_zero, List.append_nil]
        exact ⟨by rw [hk.2, h2], trivial⟩) hA).1
  exact this.2.2

theorem tickets_nodup (v : BitVec w) {n : Nat} (hn : n ≤ 2 ^ w) : (tickets v n).Nodup := by
  refine List.pairwise_map.2 (List.Pairwise.imp_of_mem ?_ List.nodup_range)
  intro j k hj hk hne e
  refine hne ?_
  have e' : BitVec.ofNat w j = BitVec.ofNat w k := BitVec.add_right_inj v |>.1 e
  have := congrArg BitVec.toNat e'
  rw [List.mem_range] at hj hk
  rwa [BitVec.toNat_ofNat, BitVec.toNat_ofNat, Nat.mod_eq_of_lt (by omega), Nat.mod_eq_of_lt (by omega)] at this

/-- **C92**, tickets. If element `i` is changed only by fetch_add of 1, and no more than `2^w` such calls have begun, then no two of those that have returned got the
same ticket, and every ticket is the initial value plus a number below the number of calls begun, whatever the interleaving and whoever has died. -/
theorem C92_tickets (hs : 0 < sz) {fuel : Nat} (hf : 0 < fuel) {a0 : List (BitVec (8 * sz))} {s0 s : Sys (8 * sz)} (hi : Init sz a0 s0)
    (hr : Reach sz fuel (Polite sz) s0 s) {i : Nat} (hl : i < a0.length) (hadd : ∀ t op, .inv t op ∈ s.hist → Dispensing i op)
    (hn : begunOf (draws i) s.hist ≤ 2 ^ (8 * sz)) :
    ((resps s.hist).filterMap (ticket i)).Nodup ∧
    (∀ v ∈ (resps s.hist).filterMap (ticket i), ∃ k < begunOf (draws i) s.hist, v = a0[i] + BitVec.ofNat (8 * sz) k) ∧
    ∀ x ∈ resps s.hist, draws i x.2.1 = true → (ticket i x).isSome := by
  obtain ⟨g, lin, st, h⟩ := reach_inv hs hf hi hr
  have hk := h.lin.tickets hl hadd
  obtain ⟨P, -, -, p3⟩ := h.lin.count (draws i)
  obtain ⟨rest, q1, -⟩ := h.lin.perm
  have hp := q1.filterMap (ticket i)
  rw [List.filterMap_append] at hp
  refine ⟨?_, ?_, ?_⟩
  · have := tickets_nodup (a0[i]) (n := (lin.filter fun x => draws i x.2.1).length) (by omega)
    rw [← hk] at this
    exact (List.nodup_append.1 (hp.nodup_iff.1 this)).1
  · intro v hv
    have hm : v ∈ lin.filterMap (ticket i) := hp.mem_iff.2 (List.mem_append_left _ hv)
    rw [hk] at hm
    simp only [tickets, List.mem_map, List.mem_range] at hm
    obtain ⟨k, hk, rfl⟩ := hm
    exact ⟨k, by omega, rfl⟩
  · intro x hx hd
    have hm : x ∈ lin := q1.mem_iff.2 (List.mem_append_left _ hx)
    have := (h.lin.keeps (Dispensing i) (fun a lin => a0.length ≤ a.length ∧ ∀ x ∈ lin, draws i x.2.1 = true → (ticket i x).isSome)
      ⟨Nat.le_refl _, by simp⟩ (by
        rintro a lin t op r a' ⟨h1, h2⟩ hA hsp
        refine ⟨Nat.le_trans h1 (spec_len hsp), ?_⟩
        intro y hy hd
        rcases List.mem_append.1 hy with hy | hy
        · exact h2 y hy hd
        · rw [List.mem_singleton] at hy
          subst hy
          have hk := spec_ticket hsp (i := i) (by omega) hA t
          rw [hd] at hk
          simp only [if_true] at hk
          rw [hk.1]; rfl) hadd).1
    exact this.2 x hm hd

/-- **C92**, the order of tickets. A call that begins after another one has returned gets a later ticket: at the moment when the history was `H1` the call with
ticket `v` had returned, and thread `u` was in no call; the ticket that `u` gets afterwards comes after `v`. -/
theorem C92_order (hs : 0 < sz) {fuel : Nat} (hf : 0 < fuel) {a0 : List (BitVec (8 * sz))} {s0 s : Sys (8 * sz)} (hi : Init sz a0 s0)
    (hr : Reach sz fuel (Polite sz) s0 s) {i : Nat} (hl : i < a0.length) (hadd : ∀ t op, .inv t op ∈ s.hist → Dispensing i op)
    {H1 H2 : List (Ev (8 * sz))} (hH : s.hist = H1 ++ H2) {x y : Nat × Op (8 * sz) × Out (Ret (8 * sz))} {v v' : BitVec (8 * sz)}
    (hx : x ∈ resps H1) (hv : ticket i x = some v) (hy : y ∈ resps H2) (hu : pending y.1 H1 = none) (hv' : ticket i y = some v') :
    ∃ k k', k < k' ∧ k' < begunOf (draws i) s.hist ∧ v = a0[i] + BitVec.ofNat (8 * sz) k ∧ v' = a0[i] + BitVec.ofNat (8 * sz) k' := by
  obtain ⟨g, lin, st, h⟩ := reach_inv hs hf hi hr
  obtain ⟨lin1, lin2, a1, st1, h1, h2, h3⟩ := h.lin.split H1 H2 hH
  have hk := h.lin.tickets hl hadd
  have hk1 := h1.tickets hl (fun t op hm => hadd t op (by rw [hH]; exact List.mem_append_left _ hm))
  obtain ⟨P, -, -, p3⟩ := h.lin.count (draws i)
  obtain ⟨rest, q1, -⟩ := h1.perm
  have m1 : v ∈ lin1.filterMap (ticket i) := List.mem_filterMap.2 ⟨x, q1.mem_iff.2 (List.mem_append_left _ hx), hv⟩
  have m2 : v' ∈ lin2.filterMap (ticket i) := List.mem_filterMap.2 ⟨y, (h3 y.1 hu).1 y.2.1 y.2.2 hy, hv'⟩
  have e : lin2.filterMap (ticket i) = (List.range' (lin1.filter fun x => draws i x.2.1).length (lin2.filter fun x => draws i x.2.1).length).map
      fun k => a0[i] + BitVec.ofNat (8 * sz) k := by
    rw [h2, List.filterMap_append, hk1, List.filter_append, List.length_append] at hk
    unfold tickets at hk
    rw [List.range_eq_range', List.range_eq_range', ← List.range'_append_1, List.map_append] at hk
    rw [List.append_cancel_left hk, Nat.zero_add]
  rw [hk1] at m1
  rw [e] at m2
  simp only [tickets, List.mem_map, List.mem_range, List.mem_range'_1] at m1 m2
  obtain ⟨k, hk, rfl⟩ := m1
  obtain ⟨k', hk', rfl⟩ := m2
  rw [h2, List.filter_append, List.length_append] at p3
  exact ⟨k, k', by omega, by omega, rfl, rfl⟩

/-! ### flags -/

/-- calls that change bit `b` at most by setting it -/
def Setting (b : Nat) : Op w → Prop
  | .storeBit c v => c = b → v = true
  | .xorBit c => c ≠ b
  | .load _ | .loadBit _ | .size | .expand _ | .expandBits _ => True
  | op => op.idx ≠ some (b / w)

/-- a call of store_bit that sets bit `b` -/
def sets (b : Nat) : Op w → Bool
  | .storeBit c v => c == b && v
  | _ => false

/-- a call of store_bit that has set bit `b` and found it clear -/
def took (b : Nat) (x : Nat × Op w × Out (Ret w)) : Bool := sets b x.2.1 && x.2.2 == .ok (.bit false)

/-- a call of store_bit or load_bit that found bit `b` set -/
def sawSet (b : Nat) (x : Nat × Op w × Out (Ret w)) : Bool := (x.2.1 == .storeBit b true || x.2.1 == .loadBit b) && x.2.2 == .ok (.bit true)

/-- bit `b` of the vector `a` -/
def bitOf (a : List (BitVec w)) (b : Nat) : Bool := (a.getD (b / w) 0).getMsbD (b % w)

theorem bitOf_set {a : List (BitVec w)} {i b : Nat} {x : BitVec w} (hi : i < a.length) :
    bitOf (a.set i x) b = if b / w = i then x.getMsbD (b % w) else bitOf a b := by
  unfold bitOf
  by_cases e : b / w = i
  · subst e; simp [hi]
  · rw [if_neg e]
    simp only [List.getD_eq_getElem?_getD, List.getElem?_set_ne (Ne.symm e)]

/-- two different bits of one word have different positions -/
theorem mod_ne {b c n : Nat} (h1 : c ≠ b) (h2 : b / n = c / n) : b % n ≠ c % n := fun h3 => h1 (by
  rw [← Nat.div_add_mod c n, ← Nat.div_add_mod b n, h2, h3])

theorem spec_flag (hw : 0 < w) {b : Nat} {a a' : List (BitVec w)} {op : Op w} {r : Out (Ret w)} (h : Spec a op r a') (hi : b / w < a.length) (hA : Setting b op) (t : Nat) :
    (sets b op = true → r = .ok (.bit (bitOf a b)) ∧ bitOf a' b = true) ∧ (sets b op = false → bitOf a' b = bitOf a b) ∧
    (sawSet b (t, op, r) = true → bitOf a b = true) := by
  have key : sets b op = false → sawSet b (t, op, r) = false → a'.getD (b / w) 0 = a.getD (b / w) 0 →
      (sets b op = true → r = .ok (.bit (bitOf a b)) ∧ bitOf a' b = true) ∧ (sets b op = false → bitOf a' b = bitOf a b) ∧
      (sawSet b (t, op, r) = true → bitOf a b = true) := by
    intro h1 h2 h3
    rw [h1, h2]
    exact ⟨(by intro h; cases h), fun _ => by unfold bitOf; rw [h3], by intro h; cases h⟩
  cases op
  case load j =>
    refine key rfl rfl ?_
    simp only [Spec] at h
    by_cases e : j = b / w
    · subst e
      rcases h with ⟨-, -, rfl⟩ | ⟨_, -, rfl⟩
      · rfl
      · rw [List.set_getElem_self]
    · exact onElem_other h e
  case loadBit c =>
    simp only [Spec] at h
    refine ⟨(by intro h; cases h), fun _ => by unfold bitOf; rw [onBit_same h], ?_⟩
    intro hs
    simp only [sawSet, beq_iff_eq, Bool.and_eq_true, Bool.or_eq_true, reduceCtorEq, false_or, Op.loadBit.injEq] at hs
    obtain ⟨rfl, rfl⟩ := hs
    rcases h with ⟨h, -⟩ | ⟨hc, h, -⟩
    · omega
    · simp only [Out.ok.injEq, Ret.bit.injEq] at h
      unfold bitOf
      rw [List.getD_eq_getElem?_getD, List.getElem?_eq_getElem hi, Option.getD_some]; exact h.symm
  case storeBit c v =>
    by_cases e : c = b
    · subst e
      have hv := hA rfl
      subst hv
      rcases h with ⟨h, -⟩ | ⟨hc, rfl, x, rfl, hx⟩
      · omega
      · have ea : bitOf a c = a[c / w].getMsbD (c % w) := by
          unfold bitOf; rw [List.getD_eq_getElem?_getD, List.getElem?_eq_getElem hi, Option.getD_some]
        have ea' : bitOf (a.set (c / w) x) c = true := by
          rw [bitOf_set hi, if_pos rfl, hx _ (Nat.mod_lt _ hw), if_pos rfl]
        refine ⟨fun _ => ⟨by rw [ea], ea'⟩, (by intro h; simp [sets] at h), ?_⟩
        intro hs
        simp only [sawSet, beq_self_eq_true, Bool.true_or, Bool.true_and, beq_iff_eq, Out.ok.injEq, Ret.bit.injEq] at hs
        rw [ea]; exact hs
    · have e1 : sets b (.storeBit c v : Op w) = false := by simp [sets, e]
      have e2 : sawSet b (t, .storeBit c v, r) = false := by simp [sawSet, e]
      rw [e1, e2]
      refine ⟨(by intro h; cases h), fun _ => ?_, by intro h; cases h⟩
      rcases h with ⟨-, -, rfl⟩ | ⟨hc, -, x, rfl, hx⟩
      · rfl
      · rw [bitOf_set hc]
        split
        · rename_i e3
          rw [hx _ (Nat.mod_lt _ hw), if_neg (mod_ne e e3)]
          unfold bitOf
          rw [List.getD_eq_getElem?_getD, List.getElem?_eq_getElem hi, Option.getD_some]
          simp only [e3]
        · rfl
  case xorBit c =>
    have e : c ≠ b := hA
    refine ⟨(by intro h; cases h), fun _ => ?_, by intro h; simp [sawSet] at h⟩
    rcases h with ⟨-, -, rfl⟩ | ⟨hc, -, x, rfl, hx⟩
    · rfl
    · rw [bitOf_set hc]
      split
      · rename_i e3
        rw [hx _ (Nat.mod_lt _ hw), if_neg (mod_ne e e3)]
        unfold bitOf
        rw [List.getD_eq_getElem?_getD, List.getElem?_eq_getElem hi, Option.getD_some]
        simp only [e3]
      · rfl
  all_goals exact key rfl rfl (spec_other h (by first | exact hA | simp [Op.idx]))

/-- **C92**, flags. If bit `b` is clear at first and changed only by store_bit(b, true), while other bits of the same element may be changed too, then: at most one of
the calls that have returned found it clear; if one of them has returned the bit is set in memory; and if the bit is set, or some call has found it set, then one call found it clear, which has returned or is
the one that its thread is in, or died in. -/
theorem C92_flags (hs : 0 < sz) {fuel : Nat} (hf : 0 < fuel) {a0 : List (BitVec (8 * sz))} {s0 s : Sys (8 * sz)} (hi : Init sz a0 s0)
    (hr : Reach sz fuel (Polite sz) s0 s) {b : Nat} (hl : b / (8 * sz) < a0.length) (h0 : bitOf a0 b = false)
    (hset : ∀ t op, .inv t op ∈ s.hist → Setting b op) :
    ((resps s.hist).filter (took b)).length ≤ 1 ∧
    ∃ a, Shows sz s.sh a ∧ b / (8 * sz) < a.length ∧ ((∃ x ∈ resps s.hist, sets b x.2.1 = true) → bitOf a b = true) ∧
      (bitOf a b = true ∨ (∃ x ∈ resps s.hist, sawSet b x = true) →
        (∃ x ∈ resps s.hist, took b x = true) ∨ ∃ t, pending t s.hist = some (.storeBit b true)) := by
  obtain ⟨g, lin, st, h⟩ := reach_inv hs hf hi hr
  obtain ⟨⟨k1, k2, k3⟩, -⟩ := h.lin.keeps (Setting b) (fun a lin => a0.length ≤ a.length ∧ (lin.filter (took b)).length = (if bitOf a b then 1 else 0) ∧
      ∀ x ∈ lin, sets b x.2.1 = true ∨ sawSet b x = true → bitOf a b = true)
    ⟨Nat.le_refl _, by simp [h0], by simp⟩ (by
      rintro a lin t op r a' ⟨h1, h2, h3⟩ hA hsp
      obtain ⟨f1, f2, f3⟩ := spec_flag (by omega) hsp (b := b) (by omega) hA t
      refine ⟨Nat.le_trans h1 (spec_len hsp), ?_, ?_⟩
      · rw [List.filter_append, List.length_append, h2]
        cases hq : sets b op with
        | true =>
          obtain ⟨rfl, e⟩ := f1 hq
          rw [e]
          cases bitOf a b <;> simp [took, hq]
        | false =>
          rw [f2 hq]
          simp [took, hq]
      · intro x hx hs
        have mono : bitOf a b = true → bitOf a' b = true := by
          intro hb
          cases hq : sets b op with
          | true => exact (f1 hq).2
          | false => rw [f2 hq]; exact hb
        rcases List.mem_append.1 hx with hx | hx
        · exact mono (h3 x hx hs)
        · rw [List.mem_singleton] at hx
          subst hx
          rcases hs with hs | hs
          · exact (f1 hs).2
          · exact mono (f3 hs)) hset
  obtain ⟨rest, p1, p2, p3⟩ := h.lin.perm
  have hc := (p1.filter (took b)).length_eq
  rw [List.filter_append, List.length_append, k2] at hc
  refine ⟨?_, g.a, h.rep.shows, by omega, ?_, ?_⟩
  · split at hc <;> omega
  · rintro ⟨x, hx, hs⟩
    exact k3 x (p1.mem_iff.2 (List.mem_append_left _ hx)) (Or.inl hs)
  · intro hb
    have hb : bitOf g.a b = true := by
      rcases hb with hb | ⟨x, hx, hs⟩
      · exact hb
      · exact k3 x (p1.mem_iff.2 (List.mem_append_left _ hx)) (Or.inr hs)
    rw [hb] at k2
    simp only [if_true] at k2
    obtain ⟨x, hx⟩ := List.exists_mem_of_length_pos (l := lin.filter (took b)) (by omega)
    obtain ⟨hx, ht⟩ := List.mem_filter.1 hx
    rcases List.mem_append.1 (p1.mem_iff.1 hx) with hx | hx
    · exact Or.inl ⟨x, hx, ht⟩
    · right
      obtain ⟨t, op, r⟩ := x
      refine ⟨t, ?_⟩
      rw [h.lin.pending, (p3 _ _ _).1 hx]
      simp only [took, Bool.and_eq_true] at ht
      have hq := ht.1
      cases op <;> simp only [sets, Bool.false_eq_true, Bool.and_eq_true, beq_iff_eq] at hq
      obtain ⟨rfl, rfl⟩ := hq
      rfl

/-! ### concrete executions -/

/-- what to do next in a concrete execution -/
inductive Cmd (w : Nat)
  | call (t : Nat) (op : Op w)
  | go (t n : Nat)
  | die (t : Nat)

/-- thread `t` takes `n` steps -/
def goes (sz fuel t : Nat) : Nat → Sys (8 * sz) → Sys (8 * sz)
  | 0, s => s
  | n + 1, s => goes sz fuel t n (act sz fuel s t none)

/-- the call is on an element that exists -/
def fits (s : Sys (8 * sz)) (op : Op (8 * sz)) : Bool := !op.isExp && match op.idx with | some i => decide (i < leRd s.sh.mem 8 8) | none => false

/-- run a schedule; every call must be on an element that exists -/
def playAll (sz fuel : Nat) : List (Cmd (8 * sz)) → Sys (8 * sz) → Option (Sys (8 * sz))
  | [], s => some s
  | .call t op :: l, s =>
    if fits s op then playAll sz fuel l (act sz fuel s t (some op)) else none
  | .go t n :: l, s => playAll sz fuel l (goes sz fuel t n s)
  | .die t :: l, s => playAll sz fuel l { s with th := upd s.th t none, alive := upd s.alive t false }

theorem polite_elem {s : Sys (8 * sz)} {t : Nat} {op : Op (8 * sz)} (h : fits s op = true) : Polite sz s t op := by
  unfold fits at h
  rw [Bool.and_eq_true, Bool.not_eq_true'] at h
  obtain ⟨h1, h2⟩ := h
  refine ⟨(by cases op <;> trivial), (by rw [h1]; intro h; cases h), ?_⟩
  intro i hi hle
  rw [hi] at h2
  have := of_decide_eq_true h2
  omega

theorem goes_reach {fuel : Nat} {ok : Sys (8 * sz) → Nat → Op (8 * sz) → Prop} {s0 : Sys (8 * sz)} (t : Nat) : ∀ (n : Nat) {s : Sys (8 * sz)},
    Reach sz fuel ok s0 s → Reach sz fuel ok s0 (goes sz fuel t n s)
  | 0, _, h => h
  | n + 1, _, h => goes_reach t n (act_step h t)

theorem playAll_reach {fuel : Nat} {s0 : Sys (8 * sz)} : ∀ (l : List (Cmd (8 * sz))) {s s' : Sys (8 * sz)}, Reach sz fuel (Polite sz) s0 s →
    playAll sz fuel l s = some s' → Reach sz fuel (Polite sz) s0 s'
  | [], _, _, h, e => by cases e; exact h
  | .call t op :: l, s, s', h, e => by
    rw [playAll] at e
    split at e
    · rename_i hc
      exact playAll_reach l (act_call h t op (polite_elem hc)) e
    · cases e
  | .go t n :: l, _, _, h, e => playAll_reach l (goes_reach t n h) e
  | .die t :: l, _, _, h, e => playAll_reach l (.step h (.die t)) e

/-- what can be seen of a system: the history and the first word -/
def seen (s : Option (Sys (8 * 8))) : Option (List (Ev (8 * 8)) × Nat) := s.map fun s => (s.hist, leRd s.sh.mem 16 8)

/-- Four threads draw tickets with interleaved steps; thread 2 dies after its fetch_add has taken effect, thread 3 before. -/
def drawing : List (Cmd (8 * 8)) := [.call 0 (.add 0 1), .go 0 2, .call 1 (.add 0 1), .call 2 (.add 0 1), .go 2 4, .die 2, .go 1 3, .call 3 (.add 0 1), .go 3 1, .die 3,
  .go 0 4, .go 1 3, .call 0 (.add 0 1), .go 0 6]

/-- Three threads set the same bit, one another bit of the same word; thread 2 dies after it has set it. -/
def setting : List (Cmd (8 * 8)) := [.call 0 (.storeBit 3 true), .go 0 2, .call 1 (.storeBit 3 true), .call 2 (.storeBit 3 true), .go 2 4, .die 2, .call 3 (.xorBit 5), .go 3 6, .go 1 6, .go 0 4]

theorem par_seen {l : List (Cmd (8 * 8))} {H : List (Ev (8 * 8))} {n : Nat} (h : seen (playAll 8 1 l par) = some (H, n)) :
    ∃ s, Reach 8 1 (Polite 8) par s ∧ s.hist = H ∧ leRd s.sh.mem 16 8 = n := by
  unfold seen at h
  cases e : playAll 8 1 l par with
  | none => rw [e] at h; cases h
  | some s =>
    rw [e] at h
    obtain ⟨h1, h2⟩ := Prod.mk.inj (Option.some.inj h)
    exact ⟨s, playAll_reach l .refl e, h1, h2⟩

/-- the hypotheses of C92_counter, C92_tickets and C92_order are met: thread 2 died with ticket 0, which is lost; thread 0 got tickets 1 and 3 -/
example : ∃ s, Reach 8 1 (Polite 8) par s ∧ (∀ t op, .inv t op ∈ s.hist → Dispensing 0 op) ∧ begunOf (draws 0) s.hist = 5 ∧ leRd s.sh.mem 16 8 = 4 ∧
    (resps s.hist).filterMap (ticket 0) = [1, 2, 3] ∧ pending 2 s.hist = some (.add 0 1) ∧
    s.hist = s.hist.take 6 ++ s.hist.drop 6 ∧ (resps (s.hist.take 6)).filterMap (ticket 0) = [1, 2] ∧ (resps (s.hist.drop 6)).filterMap (ticket 0) = [3] ∧ pending 0 (s.hist.take 6) = none := by
  have e : seen (playAll 8 1 drawing par) = some ([.inv 0 (.add 0 1), .inv 1 (.add 0 1), .inv 2 (.add 0 1), .inv 3 (.add 0 1), .res 0 (.add 0 1) (.ok (.word 1)),
      .res 1 (.add 0 1) (.ok (.word 2)), .inv 0 (.add 0 1), .res 0 (.add 0 1) (.ok (.word 3))], 4) := by unfold par one; decide +kernel
  obtain ⟨s, h1, h2, h3⟩ := par_seen e
  refine ⟨s, h1, ?_, ?_, h3, ?_⟩
  · rw [h2]
    intro t op hm
    simp only [List.mem_cons, Ev.inv.injEq, reduceCtorEq, List.not_mem_nil, or_false, false_or] at hm
    rcases hm with ⟨-, rfl⟩ | ⟨-, rfl⟩ | ⟨-, rfl⟩ | ⟨-, rfl⟩ | ⟨-, rfl⟩ <;> exact fun _ => rfl
  · rw [h2]; rfl
  · rw [h2]; decide

/-- the hypotheses of C92_flags are met: thread 2 set the bit first and died, threads 0 and 1 found it set, thread 3 changed another bit of the word -/
example : ∃ s, Reach 8 1 (Polite 8) par s ∧ (∀ t op, .inv t op ∈ s.hist → Setting 3 op) ∧ bitOf ([0] : List (BitVec 64)) 3 = false ∧
    leRd s.sh.mem 16 8 = 2 ^ 60 + 2 ^ 58 ∧ ((resps s.hist).filter (took 3)).length = 0 ∧ ((resps s.hist).filter (sawSet 3)).length = 2 ∧ pending 2 s.hist = some (.storeBit 3 true) := by
  have e : seen (playAll 8 1 setting par) = some ([.inv 0 (.storeBit 3 true), .inv 1 (.storeBit 3 true), .inv 2 (.storeBit 3 true), .inv 3 (.xorBit 5),
      .res 3 (.xorBit 5) (.ok (.bit true)), .res 1 (.storeBit 3 true) (.ok (.bit true)), .res 0 (.storeBit 3 true) (.ok (.bit true))], 2 ^ 60 + 2 ^ 58) := by
    unfold par one; decide +kernel
  obtain ⟨s, h1, h2, h3⟩ := par_seen e
  refine ⟨s, h1, ?_, by decide, h3, ?_⟩
  · rw [h2]
    intro t op hm
    simp only [List.mem_cons, Ev.inv.injEq, reduceCtorEq, List.not_mem_nil, or_false] at hm
    rcases hm with ⟨-, rfl⟩ | ⟨-, rfl⟩ | ⟨-, rfl⟩ | ⟨-, rfl⟩
    · exact fun _ => rfl
    · exact fun _ => rfl
    · exact fun _ => rfl
    · exact (by decide : (5 : Nat) ≠ 3)
  · rw [h2]; decide

end Verif.AtomicVec
