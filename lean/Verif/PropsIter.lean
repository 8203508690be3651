import Verif.IterWeakHT
import Verif.IterWeakPT
import Verif.PropsHashTable
import Verif.PropsPrefixTree
/-
C58, C59: iteration while other processes change the structure (README, "Mapping iteration semantics").
Each call an iterator makes is atomic (C19); call number i finds the heap `W i`, and nothing is assumed about how `W i` and `W (i+1)` are related beyond what each theorem says.
-/
namespace Verif
open Verif

/-! ### C58 -/
section
open HashTable

/-- **C58.** Call number i of an iteration finds a table with the pairs `M i`, where M is any sequence whatever of contents.  The iteration ends, without an exception or undefined behaviour (for every bound on the loop
above the greatest possible number of pairs); it returns no key twice; it returns every key that is there at all of its calls; and each pair it returns is in the table at one of its calls. -/
theorem C58_iteration_concurrent {hash : Bytes → Nat} {base bits : Nat} {M : Nat → Pairs} {W : Nat → Heap}
    (hW : ∀ i, ∃ slots G lk, HashTable.Table hash base slots bits G (M i) lk (W i)) {fuel : Nat} (hf : (2 ^ bits + 1) * (2 ^ 63 + 1) < fuel) :
    iwp (simpl base) W (itemsC fuel) (fun out n => ∃ l : Pairs, out = .ok l ∧ (l.map Prod.fst).Nodup ∧
      (∀ k, (∀ i, i < n → get (M i) k ≠ none) → k ∈ l.map Prod.fst) ∧ ∀ k v, (k, v) ∈ l → ∃ i, i < n ∧ get (M i) k = some v) 0 := by
  refine iwp_mono ?_ (itemsC_spec hW hf)
  rintro out n ⟨l, rfl, h⟩
  refine ⟨l, rfl, h.nd, fun k hk => h.all k (Nat.zero_le _) (fun j _ h1 => hk j h1), ?_⟩
  intro k v hm
  obtain ⟨j, -, h1, h2⟩ := h.was _ hm
  exact ⟨j, h1, h2⟩

/-- the loop, with the bodies of the calls in place, is the loop of C38 -/
theorem C58_same_loop (base : Nat) : inline (simpl base) (itemsC maxNodes) = HashTable.items base := inline_items base

/-- a table with one pair, and the same table before -/
theorem ht_two : ∃ h0 h1 G sl lk, HashTable.Table HashTable.fnv1a64 344 sl 2 G [] [] h0 ∧ HashTable.Table HashTable.fnv1a64 344 sl 2 G [([7], [1])] lk h1 := by
  obtain ⟨h, G, sl, h1, h2⟩ := htPool_ready
  have hs := sim_run (HashTable.step (F := noFp) (.insert [7] [1] none) ([], []) h (show ([7] : Bytes).length + ([1] : Bytes).length ≤ 2 ^ 62 by decide) h1) h2
  obtain ⟨out, p1, h3, hr, ⟨s', ⟨hq, -⟩, ht⟩, -⟩ := hs
  have e : (run (compile (HashTable.call HashTable.fnv1a64 noFp 344 (.insert [7] [1] none))) (htPool 0)).1 = .ok (.bool true) := by decide +kernel
  rw [hr] at e
  refine ⟨h, h3, G, sl, s'.2, h1, ?_⟩
  rcases hq with ⟨-, -, h4⟩ | ⟨-, rfl, -⟩ | ⟨h4, -⟩
  · rw [h4] at ht; exact ht
  · cases e
  · exact absurd trivial h4

/-- the hypothesis of C58 is met: a pair is inserted and removed between any two calls of the iteration -/
example : ∃ (M : Nat → Pairs) (W : Nat → Heap), (∀ i, ∃ slots G lk, HashTable.Table HashTable.fnv1a64 344 slots 2 G (M i) lk (W i)) ∧ M 0 ≠ M 1 := by
  obtain ⟨h0, h1, G, sl, lk, a, b⟩ := ht_two
  refine ⟨fun i => if i % 2 = 0 then [] else [([7], [1])], fun i => if i % 2 = 0 then h0 else h1, ?_, by decide⟩
  intro i
  show ∃ slots G lk, HashTable.Table HashTable.fnv1a64 344 slots 2 G (if i % 2 = 0 then [] else [([7], [1])]) lk (if i % 2 = 0 then h0 else h1)
  by_cases e : i % 2 = 0
  · rw [if_pos e, if_pos e]; exact ⟨sl, G, [], a⟩
  · rw [if_neg e, if_neg e]; exact ⟨sl, G, lk, b⟩
end

/-! ### C59 -/
section
open PrefixTree PT

/-- **C59, the true part.** Call number i of an iteration finds a tree in state `S i`, and `cur i` is the key the iterator stands on at that moment (`none` before the first call).  If that key is still a prefix of a key, or otherwise as
in `Start`, when ++ is called (for instance: if no other process erases the key the iterator stands on), then the iteration has no exception and no undefined behaviour; every call returns the least key above the current one in the tree
as it is then, with its value; so the keys are returned in strictly increasing order; and if the iteration has reached the end, every key that was there at all calls has been returned (if it is stopped after n pairs: every such key up to the
last one returned).  Changes at or before the current key are never seen, and the iteration need not end, as there may always be a new key ahead.
Missing: iterations whose current key is erased; then it is false (`C59_false`). -/
theorem C59_iteration_concurrent_partial {base : Nat} {F : Nat → Option Block} {S : Nat → State} {W : Nat → Heap} (hW : ∀ i, PrefixTree.Holds base F (S i) (W i)) {cur : Nat → Option Bytes} (h0 : cur 0 = none)
    (hc : ∀ i x, Succ (S i).m (cur i) (some x) → cur (i + 1) = some x.1 ∧ Start (S (i + 1)) x.1) (n : Nat) :
    iwp (nimpl base) W (walkC n none) (fun out calls => ∃ l fin, out = .ok (l, fin) ∧ (fin = false → l.length = n) ∧ calls = l.length + (if fin then 1 else 0) ∧
      (∀ t x, l[t]? = some x → Succ (S t).m (if t = 0 then none else (l[t - 1]?).map Prod.fst) (some x)) ∧
      (l.map Prod.fst).Pairwise (· < ·) ∧
      (∀ k, (∀ i, i < calls → (S i).m k ≠ none) → (fin = true ∨ ∃ x ∈ l, k ≤ x.1) → k ∈ l.map Prod.fst)) 0 := by
  refine iwp_mono ?_ (walkC_spec hW hc n none 0 h0.symm (fun k' e => by cases e))
  rintro out i' ⟨l, f, rfl, w, rfl, h2⟩
  refine ⟨l, f, rfl, h2, by rw [Nat.zero_add], w.steps, w.sorted, ?_⟩
  intro k hk hf
  exact w.all (k := none) trivial (fun j _ hj => hk j hj) hf

/-- **C59, if nobody erases.** If keys, once inserted, stay, then the same holds without any condition on where the iterator stands; in particular a finished iteration returns every key that was there at the start. -/
theorem C59_no_erase_partial {base : Nat} {F : Nat → Option Block} {S : Nat → State} {W : Nat → Heap} (hW : ∀ i, PrefixTree.Holds base F (S i) (W i)) (hm : ∀ i k, (S i).m k ≠ none → (S (i + 1)).m k ≠ none) (n : Nat) :
    iwp (nimpl base) W (walkC n none) (fun out calls => ∃ l fin, out = .ok (l, fin) ∧ (l.map Prod.fst).Pairwise (· < ·) ∧
      (∀ k v, (k, v) ∈ l → ∃ i, i < calls ∧ (S i).m k = some v) ∧ (fin = true → ∀ k, (S 0).m k ≠ none → k ∈ l.map Prod.fst)) 0 := by
  have hstep : ∀ i (k : Option Bytes), ∃ k' : Option Bytes, ∀ x, Succ (S i).m k (some x) → k' = some x.1 := by
    intro i k
    by_cases e : ∃ x, Succ (S i).m k (some x)
    · obtain ⟨x, hx⟩ := e
      refine ⟨some x.1, fun y hy => ?_⟩
      rw [succ_unique hx hy]
    · exact ⟨none, fun x hx => absurd ⟨x, hx⟩ e⟩
  let cur : Nat → Option Bytes := fun i => Nat.rec none (fun i k => Classical.choose (hstep i k)) i
  have hcur : ∀ i x, Succ (S i).m (cur i) (some x) → cur (i + 1) = some x.1 ∧ Start (S (i + 1)) x.1 := by
    intro i x hx
    refine ⟨Classical.choose_spec (hstep i (cur i)) x hx, Or.inl (Or.inr ⟨[], ?_⟩)⟩
    rw [List.append_nil]
    exact hm i _ (by rw [succ_mem hx]; exact fun h => by cases h)
  refine iwp_mono ?_ (C59_iteration_concurrent_partial hW (cur := cur) rfl hcur n)
  rintro out calls ⟨l, f, rfl, h1, h2, h3, h4, h5⟩
  refine ⟨l, f, rfl, h4, ?_, ?_⟩
  · intro k v hkv
    obtain ⟨t, ht⟩ := List.mem_iff_getElem?.1 hkv
    have hlt : t < l.length := (List.getElem?_eq_some_iff.1 ht).1
    exact ⟨t, by omega, succ_mem (h3 t _ ht)⟩
  · intro hf k hk
    refine h5 k ?_ (Or.inl hf)
    intro i _
    induction i with
    | zero => exact hk
    | succ i ih => exact hm i k (ih (by omega))

/-- a tree with the key "a", and the same tree before -/
theorem pt_two : ∃ h0 h1 F s, PrefixTree.Holds 344 F new h0 ∧ PrefixTree.Holds 344 F s h1 ∧ s.m [97] ≠ none := by
  obtain ⟨h, hp, h1, h2⟩ := ptPool_ready
  have hs := sim_run (PrefixTree.step (add := noAdd) (.insert [97] .null none) new h (show ∀ d, Val.null = .str d → d.length ≤ 2 ^ 62 from fun d hd => by cases hd) h1) h2
  obtain ⟨out, p1, h3, hr, ⟨s', hq, ht⟩, -⟩ := hs
  have e : (run (compile (PrefixTree.call noAdd 344 (.insert [97] .null none))) (ptPool 0)).1 = .ok (.bool true) := by decide +kernel
  rw [hr] at e
  refine ⟨h, h3, hp, s', h1, ht, ?_⟩
  rcases hq with ⟨h4, -⟩ | ⟨-, -, rfl⟩ | ⟨-, rfl, -⟩
  · exact absurd trivial h4
  · have e2 : PT.put new.m [97] (some (kept Val.null)) [97] = some (kept Val.null) := if_pos rfl
    exact fun h4 => by cases e2.symm.trans h4
  · cases e

/-- the hypotheses of C59 are met: a key is inserted after the first call -/
example : ∃ (F : Nat → Option Block) (S : Nat → State) (W : Nat → Heap), (∀ i, PrefixTree.Holds 344 F (S i) (W i)) ∧ (∀ i k, (S i).m k ≠ none → (S (i + 1)).m k ≠ none) ∧ (S 0).m [97] = none ∧ (S 1).m [97] ≠ none := by
  obtain ⟨h0, h1, F, s, a, b, c⟩ := pt_two
  refine ⟨F, fun i => if i = 0 then new else s, fun i => if i = 0 then h0 else h1, ?_, ?_, rfl, c⟩
  · intro i
    show PrefixTree.Holds 344 F (if i = 0 then new else s) (if i = 0 then h0 else h1)
    by_cases e : i = 0
    · rw [if_pos e, if_pos e]; exact a
    · rw [if_neg e, if_neg e]; exact b
  · intro i k hk
    by_cases e : i = 0
    · subst e; exact absurd rfl hk
    · have : (if i = 0 then new else s) = s := if_neg e
      have h2 : (if i + 1 = 0 then new else s) = s := if_neg (by omega)
      show (if i + 1 = 0 then new else s).m k ≠ none
      rw [h2]
      have hk : (if i = 0 then new else s).m k ≠ none := hk
      rwa [this] at hk

/-- **C59 is false.** The tree has the key "a"; begin() returns it; another process erases "a"; ++ (a reader, whose token 1 is in the lock word) then follows the lock word as if it were a slot of a node: undefined behaviour. -/
theorem C59_false : ∃ p1 p2 : Pool, (run (compile (PrefixTree.call noAdd 344 (.insert [97] .null none))) (ptPool 0)) = (.ok (.bool true), p1) ∧
    (run (compile (iterNext 344 none)) p1).1 = .ok (some ([97], .null)) ∧
    run (compile (PrefixTree.call noAdd 344 (.erase [97] none))) p1 = (.ok (.bool true), p2) ∧
    (run (compile (iterNext 344 (some [97]))) (Simple.put p2 16 (1 <<< 32))).1 = .ub := by
  refine ⟨_, _, run_eta ?_, ?_, run_eta ?_, ?_⟩ <;> decide +kernel

end
end Verif
