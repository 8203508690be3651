import Verif.Client
import Verif.PropsPrefixTree
import Verif.PropsHashTable
/-
Clients that choose each call by the outcomes of the calls before, on PrefixTree and HashTable: stronger forms of C34, C37, C42 and C47.
-/
namespace Verif
namespace PTClient
open PT

/-- **C42, C47 for programs.** In a pool with any history of SimpleAllocator calls, every client of a new prefix tree - a program that chooses each call by the outcomes of the calls before - gets answers as `Spec` says and makes
exactly the calls that it chooses on these answers, as long as each call meets `Op.ok` when it is made; no call touches the bytes of blocks that other clients hold.  Missing: calls that do not meet `Op.ok`. -/
theorem C42_clients_partial (add : BitVec 64 → BitVec 64 → BitVec 64) {p0 p : Pool} {live lk : List (Nat × Nat)} {ex : Bool} (h : Hist p0 p live lk ex) :
    (∃ p1, run (compile PrefixTree.create) p = (.err .noMem, p1)) ∨
    ∃ b p1, run (compile PrefixTree.create) p = (.ok b, p1) ∧ ∀ c : Client Op Ret, c.Careful (Spec add) Op.ok new →
      ∃ l p2 s, run (compile (c.play (PrefixTree.call add b))) p1 = (.ok l, p2) ∧ c.Made l ∧ Trace (Spec add) new (l.map Prod.fst) (l.map Prod.snd) s ∧
        ∀ o n, (o, n) ∈ live → ∀ i, i < n → p2.mem (o + i) = p.mem (o + i) := by
  rcases PrefixTree.create_pool h with h1 | ⟨b, p1, h1, hp, hr, hh, hs, hl⟩
  · exact Or.inl h1
  · refine Or.inr ⟨b, p1, hr, fun c hok => ?_⟩
    obtain ⟨l, p2, s, h2, e1, e2, e3, hh2, hs2⟩ := Client.play_run (f := PrefixTree.call add b) (Inv := PrefixTree.Holds b hp)
      (fun s o h h1 h2 => PrefixTree.step o s h h1 h2) c hok hh hs
    exact ⟨l, p2, s, e1, e2, e3, fun o n hm => PrefixTree.untouched hh2 hs2 (hl o n hm)⟩

/-- a client that walks over the keys with next_key, from the answers: it stops at out_of_range, and after `n` steps -/
def walk : Nat → Option Bytes → Client Op Ret
  | 0, _ => .done
  | n + 1, k => .call (.nextKey k) fun r => match r with
    | .ok (.key k') => walk n (some k')
    | _ => .done

/-- walking is always careful, in every state: it only searches from keys that next_key has returned -/
theorem walk_careful (add : BitVec 64 → BitVec 64 → BitVec 64) : ∀ (n : Nat) (k : Option Bytes) (s : State), (∀ k', k = some k' → s.m k' ≠ none) → (walk n k).Careful (Spec add) Op.ok s := by
  intro n
  induction n with
  | zero => intro k s _; trivial
  | succ n ih =>
    intro k s hk
    refine ⟨?_, ?_⟩
    · cases k with
      | none => trivial
      | some k => exact Or.inl (Or.inr ⟨[], by rw [List.append_nil]; exact hk k rfl⟩)
    · rintro r s' ⟨rfl, (⟨k', v, rfl, h1⟩ | ⟨rfl, -⟩)⟩
      · refine ih (some k') s' ?_
        rintro k2 e
        injection e with e; subst e
        have : s'.m k' = some v := by
          cases k with
          | none => exact h1.1
          | some k => exact h1.1
        rw [this]; simp
      · trivial

/-- what `walk` lists: the keys in its answers -/
def listed (l : List (Op × Out Ret)) : List Bytes := l.filterMap fun e => match e.2 with
  | .ok (.key k) => some k
  | _ => none

/-- **C46 by next_key.** The loop `k = next_key(); while (...) k = next_key(k)`, stopped by out_of_range or after `n` steps, lists keys of the map in increasing order, without gaps: every key of the map that is below
a listed key is listed, and if the loop stopped by out_of_range, all are. -/
theorem C46_walk (add : BitVec 64 → BitVec 64 → BitVec 64) {s s' : State} : ∀ (n : Nat) (k : Option Bytes) {l : List (Op × Out Ret)}, (walk n k).Made l →
    Trace (Spec add) s (l.map Prod.fst) (l.map Prod.snd) s' →
    s' = s ∧ (listed l).Pairwise (· < ·) ∧ (∀ k' ∈ listed l, s.m k' ≠ none ∧ ∀ k0, k = some k0 → k0 < k') ∧
    (∀ k1 ∈ listed l, ∀ k2, s.m k2 ≠ none → k2 < k1 → (∀ k0, k = some k0 → k0 < k2) → k2 ∈ listed l) ∧
    ((∃ o, (o, .err .outOfRange) ∈ l) → ∀ k2, s.m k2 ≠ none → (∀ k0, k = some k0 → k0 < k2) → k2 ∈ listed l) := by
  intro n
  induction n with
  | zero =>
    intro k l hm ht
    cases hm
    cases ht
    exact ⟨rfl, List.Pairwise.nil, (by intro _ h; cases h), (by intro _ h; cases h), (by rintro ⟨_, h⟩; cases h)⟩
  | succ n ih =>
    intro k l hm ht
    obtain ⟨r, l', rfl, hm⟩ := hm
    cases ht with
    | cons h1 ht =>
      obtain ⟨rfl, (⟨k', v, e, h2⟩ | ⟨e, h2⟩)⟩ := h1
      · change r = _ at e
        subst e
        obtain ⟨rfl, j1, j2, j3, j4⟩ := ih (some k') hm ht
        have hv : s'.m k' = some v := by cases k <;> exact h2.1
        have habove : ∀ k0, k = some k0 → k0 < k' := by
          rintro k0 rfl
          exact h2.2.2.1
        have hleast : ∀ k2, s'.m k2 ≠ none → (∀ k0, k = some k0 → k0 < k2) → k2 = k' ∨ k' < k2 := by
          intro k2 hk2 hab
          have hnl : ¬ k2 < k' := by
            cases k with
            | none => exact List.not_lt.2 (h2.2.2 k2 hk2)
            | some k0 => exact List.not_lt.2 (h2.2.2.2 k2 hk2 (hab k0 rfl))
          by_cases e : k2 = k'
          · exact Or.inl e
          · exact Or.inr (Classical.byContradiction fun h8 => e (List.le_antisymm (List.not_lt.1 h8) (List.not_lt.1 hnl)))
        have hl : listed ((Op.nextKey k, Out.ok (Ret.key k')) :: l') = k' :: listed l' := rfl
        rw [hl]
        refine ⟨rfl, List.pairwise_cons.2 ⟨fun x hx => (j2 x hx).2 k' rfl, j1⟩, ?_, ?_, ?_⟩
        · intro x hx
          rcases List.mem_cons.1 hx with rfl | hx
          · exact ⟨by rw [hv]; simp, habove⟩
          · exact ⟨(j2 x hx).1, fun k0 e => List.lt_trans (habove k0 e) ((j2 x hx).2 k' rfl)⟩
        · intro k1 hk1 k2 hk2 hlt hab
          rcases hleast k2 hk2 hab with rfl | h5
          · simp
          · rcases List.mem_cons.1 hk1 with rfl | hk1
            · exact absurd hlt (fun h => List.lt_irrefl _ (List.lt_trans h h5))
            · exact List.mem_cons_of_mem _ (j3 k1 hk1 k2 hk2 hlt (by rintro k0 e; injection e with e; subst e; exact h5))
        · rintro ⟨o, ho⟩ k2 hk2 hab
          rcases hleast k2 hk2 hab with rfl | h5
          · simp
          · refine List.mem_cons_of_mem _ (j4 ⟨o, ?_⟩ k2 hk2 (by rintro k0 e; injection e with e; subst e; exact h5))
            rcases List.mem_cons.1 ho with ho | ho
            · cases ho
            · exact ho
      · change r = _ at e
        subst e
        cases hm
        cases ht
        refine ⟨rfl, List.Pairwise.nil, (by intro _ h; cases h), (by intro _ h; cases h), fun _ k2 hk2 hab => ?_⟩
        refine absurd hk2 ?_
        cases k with
        | none => exact fun hne => hne (h2 k2)
        | some k0 => exact fun hne => h2 k2 hne (hab k0 rfl)

end PTClient

namespace HTClient
open HT HashTable

/-- **C34, C37 for programs.** Every client of a new hash table that chooses each call by the outcomes of the calls before gets answers as `Spec` says, as long as each call meets `Op.ok` when it is made (erase and incr only in
slots where they are correct); no call touches the bytes of blocks that other clients hold.  Missing: calls that do not meet `Op.ok`. -/
theorem C34_clients_partial (hash : Bytes → Nat) (F : Fp) (bits : Nat) (hb : 2 ≤ bits) (hb2 : bits < 31)
    {p0 p : Pool} {live lk : List (Nat × Nat)} {ex : Bool} (h : Hist p0 p live lk ex) :
    (∃ p1, run (compile (HashTable.create bits)) p = (.err .noMem, p1)) ∨
    ∃ b p1, run (compile (HashTable.create bits)) p = (.ok b, p1) ∧ ∀ c : Client Op Ret, c.Careful (Spec F) (Op.ok hash bits) [] →
      ∃ l p2 m, run (compile (c.play (HashTable.call hash F b))) p1 = (.ok l, p2) ∧ c.Made l ∧ Trace (Spec F) [] (l.map Prod.fst) (l.map Prod.snd) m ∧
        ∀ o n, (o, n) ∈ live → ∀ i, i < n → p2.mem (o + i) = p.mem (o + i) := by
  obtain ⟨hp, hs, hl⟩ := h.sim
  obtain ⟨out, p1, h1, hr, hq, hs1⟩ := sim_run (HashTable.create_spec (hash := hash) hp hb hb2) hs
  rcases hq with ⟨rfl, -⟩ | ⟨b, sl, rfl, -, ht⟩
  · exact Or.inl ⟨p1, hr⟩
  · refine Or.inr ⟨b, p1, hr, ?_⟩
    intro c hok
    obtain ⟨l, p2, m, h2, e1, e2, e3, ⟨lk', bk, r, hrest⟩, hs2⟩ := Client.play_run (f := HashTable.call hash F b) (Spec := Spec F) (Inv := fun m h => ∃ lk, Table hash b sl bits hp.blk m lk h)
      (ok := Op.ok hash bits) (fun m o h hk hi => by
        obtain ⟨lk, hi⟩ := hi
        refine wp_mono ?_ (HashTable.step o (m, lk) h hk hi)
        rintro out h' ⟨s', h3, h4⟩
        exact ⟨s'.1, h3.1, s'.2, h4⟩) c hok ⟨_, ht⟩ hs1
    refine ⟨l, p2, m, e1, e2, e3, ?_⟩
    intro o n hm i hi
    obtain ⟨B, hB, rfl, hd⟩ := hl o n hm
    have hfr := r.frame o
    rw [hB] at hfr
    split at hfr
    · cases hfr
    · obtain ⟨L2, hS2, hh2⟩ := hs2
      rw [(hh2.blk o B hfr.symm).2.2 i hi, hd i]

/-- a client that erases a key only when it is alone: it inserts [0] and, if this succeeded, erases it -/
def careful : Client Op Ret := .call (.insert [0] [10] none) fun r => match r with
  | .ok _ => .call (.erase [0] none) fun _ => .done
  | .err _ => .done

example : careful.Careful (Spec noFp) (Op.ok fnv1a64 2) [] := by
  refine ⟨by show ([0] : Bytes).length + ([10] : Bytes).length ≤ 2 ^ 62; decide, ?_⟩
  intro r s' h
  cases r with
  | err e => trivial
  | ok x =>
    refine ⟨fun _ => ?_, fun _ _ _ => trivial⟩
    rcases h with ⟨-, -, rfl⟩ | ⟨-, h1, -⟩ | ⟨h1, -⟩
    · exact Or.inr (Or.inl (by decide +kernel))
    · cases h1
    · exact absurd trivial h1

end HTClient
end Verif
