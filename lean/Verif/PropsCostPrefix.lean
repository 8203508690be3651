import Verif.CostPrefixNext
/-
**C71**: README, "Time complexity", PrefixTree.
-/
namespace Verif
open PrefixTree (Val CVal Check RType isZero isNaN)

namespace PT
/-- the length of the key where a search starts -/
def fromLen : Option Bytes → Nat
  | none => 0
  | some k => k.length

/-- the length of the key that a search or an iterator returns -/
def keyLen : Out Ret → Nat
  | .ok (.key k) => k.length
  | .ok (.pair (k, _)) => k.length
  | .ok (.iter (some (k, _))) => k.length
  | _ => 0

/-- the bytes of the string that a call returns -/
def valLen : Out Ret → Nat
  | .ok (.val v) => vlen (some v)
  | .ok (.pair (_, v)) => vlen (some v)
  | .ok (.iter (some (_, v))) => vlen (some v)
  | _ => 0

def BoundInsert (s : State) (k : Bytes) (v : Val) (ck : Option Check) (r : Out Ret) (c : Cost) : Prop :=
  c.allocs ≤ k.length + 1 ∧ c.frees ≤ 1 ∧ c.acc ≤ 13 * k.length + checkAcc ck + 788 ∧ c.bytes ≤ vlen (some v) + checkBytes s.m ck ∧
  (r = .ok (.bool false) → c.allocs = 0 ∧ c.frees = 0) ∧ (s.m k ≠ none → c.allocs ≤ 1 ∧ c.acc ≤ 3 * k.length + checkAcc ck + 9)

def BoundErase (s : State) (k : Bytes) (ck : Option Check) (r : Out Ret) (c : Cost) : Prop :=
  c.allocs = 0 ∧ c.frees ≤ k.length + 1 ∧ c.acc ≤ 267 * k.length + checkAcc ck + 4 ∧ c.bytes ≤ checkBytes s.m ck ∧ (r = .ok (.bool false) → c.frees = 0)

/-- What a call may cost on a tree in state `s`.
README: insert and incr O(key length) + up to (key length + 1) allocations + 0-1 frees; erase O(key length) + up to (key length + 1) frees; clear O(node count) + (node count)
frees + up to (key count) frees; exists and type O(key length); at and find O(key length) + O(value length); size and node_size O(1); nodes_for_prefix O(prefix length) +
O(nodes in subtree); next_key, next_key_value, lower_bound, upper_bound O(key length) + O(returned value length), where both the given and the returned key count.
The bounds for searches and for clear's frees are for `clean` trees (no insert or incr has failed for lack of memory since the last clear). -/
def Bound (s : State) (op : Op) (r : Out Ret) (c : Cost) : Prop :=
  match op with
  | .insert k v ck => BoundInsert s k v ck r c
  | .insertResult k .missing ck => BoundErase s k ck r c
  | .insertResult k (.val v) ck => BoundInsert s k v ck r c
  | .insertResult k (.ref d) ck => BoundInsert s k (.str d) ck r c
  | .erase k ck => BoundErase s k ck r c
  | .incr k _ | .incrDouble k _ =>
    c.allocs ≤ k.length + 1 ∧ c.frees ≤ 1 ∧ c.acc ≤ 13 * k.length + 785 ∧ c.bytes = 0 ∧ (s.m k ≠ none → c.allocs ≤ 1 ∧ c.acc ≤ 3 * k.length + 6)
  | .at k | .find k => c.allocs = 0 ∧ c.frees = 0 ∧ c.acc ≤ 3 * k.length + 3 ∧ c.bytes ≤ vlen (s.m k)
  | .type k => c.allocs = 0 ∧ c.frees = 0 ∧ c.acc ≤ 3 * k.length + 1 ∧ c.bytes = 0
  | .exists k => c.allocs = 0 ∧ c.frees = 0 ∧ c.acc ≤ 3 * k.length ∧ c.bytes = 0
  | .size | .nodeSize => c = { acc := 1 }
  | .nodesForPrefix k => c.allocs = 0 ∧ c.frees = 0 ∧ c.bytes = 0 ∧ ∀ n, r = .ok (.num n) → c.acc ≤ 3 * k.length + 2 + 258 * n
  | .clear => c.allocs = 0 ∧ c.bytes = 0 ∧ c.acc ≤ 1030 * (c.frees + 1) ∧
    (s.clean = true → ∀ nodes keys, Count (Inner s.m) nodes → Count (fun k => s.m k ≠ none) keys → c.frees + 1 ≤ nodes + keys)
  | .nextKey k => c.allocs = 0 ∧ c.frees = 0 ∧ (s.clean = true → c.acc ≤ 778 * (fromLen k + keyLen r + 3) ∧ c.bytes = 0)
  | .nextKeyValue k => c.allocs = 0 ∧ c.frees = 0 ∧ (s.clean = true → c.acc ≤ 778 * (fromLen k + keyLen r + 3) ∧ c.bytes ≤ valLen r)
  | .upperBound k => c.allocs = 0 ∧ c.frees = 0 ∧ (s.clean = true → c.acc ≤ 778 * (k.length + keyLen r + 3) ∧ c.bytes ≤ valLen r)
  | .lowerBound k => c.allocs = 0 ∧ c.frees = 0 ∧ (s.clean = true → c.acc ≤ 781 * (k.length + keyLen r + 3) ∧ c.bytes ≤ valLen r)
  | .items => c.allocs = 0 ∧ c.frees = 0
end PT

open PT
namespace PrefixTree
theorem ar1 (x l : Nat) : 1547 + 778 * x + 776 * (l + 1) ≤ 778 * (x + l + 3) := by omega
theorem ar2 (x l : Nat) : 1549 + 778 * x + 776 * (l + 1) ≤ 778 * (x + l + 3) := by omega
theorem ar3 (x l : Nat) : 1552 + 781 * x + 776 * (l + 1) ≤ 781 * (x + l + 3) := by omega
theorem ar4 (x : Nat) : 1547 + 778 * x + 776 * 0 ≤ 778 * (x + 0 + 3) := by omega
theorem ar5 (x : Nat) : 1549 + 778 * x + 776 * 0 ≤ 778 * (x + 0 + 3) := by omega
theorem ar6 (x : Nat) : 1552 + 781 * x + 776 * 0 ≤ 781 * (x + 0 + 3) := by omega
variable {base : Nat} {F : Nat → Option Block} {add : BitVec 64 → BitVec 64 → BitVec 64}

theorem insert_bound {s : State} {g : G} {k : Bytes} {v : Val} {ck : Option Check} {c : Cost} (hm : g.kv = s.m) {o : Out Bool} {r : Out Ret} (u : InsertCost g k v ck o {} c)
    (hr : r = .ok (.bool false) → o = .ok false) : BoundInsert s k v ck r c := by
  obtain ⟨⟨u1, u2, u3, u4⟩, v1, v2⟩ := u
  rw [hm] at u4
  simp only [Nat.zero_add] at u1 u2 u3 u4 v1 v2
  exact ⟨u1, u2, u3, u4, fun h => v1 (hr h), fun h => v2 (fun h' => h (by rw [← hm]; exact kv_none.2 h'))⟩

attribute [local irreducible] cev in
theorem call_cost {s : State} {op : Op} {h : Heap} (hgo : op.ok s) (hi : Holds base F s h) :
    cev (call add base op) (fun r c _ => Bound s op r c) {} h := by
  obtain ⟨⟨g, ni, nn, t, hm, hcn, hcv, htt⟩, -, -⟩ := hi
  have num : ∀ {x : Nat}, 0 + x = x := Nat.zero_add _
  have hsafe : ∀ k', (∀ k, k' = some k → Start s k) → ∀ k, k' = some k → Safe g k := fun k' hk k e => t.start hm htt (hk k e)
  have bd : ∀ {α : Type} {p : HProg α} {f : α → Ret} {op : Op} {P : Out α → Cost → Heap → Prop}, cev p P {} h → (∀ a c h', P (.ok a) c h' → Bound s op (.ok (f a)) c) →
      (∀ e c h', P (.err e) c h' → Bound s op (.err e) c) → cev (p.bind fun a => .ret (f a)) (fun r c _ => Bound s op r c) {} h := by
    intro α p f op P hc h1 h2
    refine cev_bind ?_ ?_ hc
    · intro a c' h' hP; exact cev_ret (h1 a c' h' hP)
    · intro e c' h' hP; exact h2 e c' h' hP
  have bro : ∀ {α : Type} {p : HProg α} {f : α → Ret} {op : Op} {P : Out α → Cost → Prop}, HRo p → (s.clean = true → cev p (fun o c _ => P o c) {} h) →
      (∀ a c, c.allocs = 0 → c.frees = 0 → (s.clean = true → P (.ok a) c) → Bound s op (.ok (f a)) c) →
      (∀ e c, c.allocs = 0 → c.frees = 0 → (s.clean = true → P (.err e) c) → Bound s op (.err e) c) → cev (p.bind fun a => .ret (f a)) (fun r c _ => Bound s op r c) {} h := by
    intro α p f op P hro hc h1 h2
    have hf := cev_every (c := {}) (h := h) (HashTable.HRo.free_of_charge hro)
    by_cases hcl : s.clean = true
    · refine bd (cev_both hf (hc hcl)) ?_ ?_
      · rintro a c h' ⟨⟨u1, u2⟩, u⟩; exact h1 a c u1 u2 fun _ => u
      · rintro a c h' ⟨⟨u1, u2⟩, u⟩; exact h2 a c u1 u2 fun _ => u
    · refine bd hf ?_ ?_
      · rintro a c h' ⟨u1, u2⟩; exact h1 a c u1 u2 fun h => absurd h hcl
      · rintro a c h' ⟨u1, u2⟩; exact h2 a c u1 u2 fun h => absurd h hcl
  cases op with
  | insert k v ck =>
    refine bd (insert_cost t k v ck) ?_ ?_
    · intro a c h' u; exact insert_bound hm u (by rintro ⟨⟩; rfl)
    · intro a c h' u; exact insert_bound hm u (by rintro ⟨⟩)
  | erase k ck =>
    refine bd (erase_cost t k ck) ?_ ?_
    · rintro a c h' ⟨⟨u1, u2, u3, u4⟩, u5⟩
      simp only [num, hm] at u1 u2 u3 u4 u5
      exact ⟨Nat.le_zero.1 u1, u2, u3, u4, by rintro ⟨⟩; exact u5 rfl⟩
    · rintro a c h' ⟨⟨u1, u2, u3, u4⟩, u5⟩
      simp only [num, hm] at u1 u2 u3 u4 u5
      exact ⟨Nat.le_zero.1 u1, u2, u3, u4, by rintro ⟨⟩⟩
  | insertResult k v ck =>
    cases v with
    | missing =>
      refine bd (erase_cost t k ck) ?_ ?_
      · rintro a c h' ⟨⟨u1, u2, u3, u4⟩, u5⟩
        simp only [num, hm] at u1 u2 u3 u4 u5
        exact ⟨Nat.le_zero.1 u1, u2, u3, u4, by rintro ⟨⟩; exact u5 rfl⟩
      · rintro a c h' ⟨⟨u1, u2, u3, u4⟩, u5⟩
        simp only [num, hm] at u1 u2 u3 u4 u5
        exact ⟨Nat.le_zero.1 u1, u2, u3, u4, by rintro ⟨⟩⟩
    | val v =>
      refine bd (insert_cost t k v ck) ?_ ?_
      · intro a c h' u; exact insert_bound hm u (by rintro ⟨⟩; rfl)
      · intro a c h' u; exact insert_bound hm u (by rintro ⟨⟩)
    | ref d =>
      refine bd (insert_cost t k (.str d) ck) ?_ ?_
      · intro a c h' u; exact insert_bound hm u (by rintro ⟨⟩; rfl)
      · intro a c h' u; exact insert_bound hm u (by rintro ⟨⟩)
  | incr k d =>
    refine bd (incrInt_cost t k d) ?_ ?_ <;>
    · rintro a c h' ⟨⟨u1, u2, u3, u4⟩, u5⟩
      simp only [num] at u1 u2 u3 u4 u5
      exact ⟨u1, u2, u3, Nat.le_zero.1 u4, fun h => u5 (fun h' => h (by rw [← hm]; exact kv_none.2 h'))⟩
  | incrDouble k d =>
    refine bd (incrDbl_cost add t k d) ?_ ?_ <;>
    · rintro a c h' ⟨⟨u1, u2, u3, u4⟩, u5⟩
      simp only [num] at u1 u2 u3 u4 u5
      exact ⟨u1, u2, u3, Nat.le_zero.1 u4, fun h => u5 (fun h' => h (by rw [← hm]; exact kv_none.2 h'))⟩
  | «at» k =>
    refine bd (at_cost t k) ?_ ?_ <;>
    · rintro a c h' ⟨-, u1, u2, u3, u4⟩
      simp only [num, hm] at u1 u2 u3 u4
      exact ⟨u1, u2, u3, u4⟩
  | find k =>
    refine bd (find_cost t k) ?_ ?_ <;>
    · rintro a c h' ⟨-, u1, u2, u3, u4⟩
      simp only [num, hm] at u1 u2 u3 u4
      exact ⟨u1, u2, u3, u4⟩
  | type k =>
    refine bd (type_cost t k) ?_ ?_ <;>
    · rintro a c h' ⟨-, u1, u2, u3, u4⟩
      simp only [num] at u1 u2 u3 u4
      exact ⟨u1, u2, u3, Nat.le_zero.1 u4⟩
  | «exists» k =>
    refine bd (exists_cost t k) ?_ ?_ <;>
    · rintro a c h' ⟨-, u1, u2, u3, u4⟩
      simp only [num] at u1 u2 u3 u4
      exact ⟨u1, u2, u3, Nat.le_zero.1 u4⟩
  | size => refine cev_every ?_; intro _ _; rfl
  | nodeSize => refine cev_every ?_; intro _ _; rfl
  | nodesForPrefix k =>
    refine bd (cev_every (nodesForPrefix_every base k)) ?_ ?_
    · rintro a c h' ⟨⟨u1, u2, -, u4⟩, u5⟩
      simp only [num] at u1 u2 u4
      exact ⟨u1, u2, Nat.le_zero.1 u4, by rintro n ⟨⟩; exact u5 _ rfl⟩
    · rintro a c h' ⟨⟨u1, u2, -, u4⟩, u5⟩
      simp only [num] at u1 u2 u4
      exact ⟨u1, u2, Nat.le_zero.1 u4, by rintro n ⟨⟩⟩
  | clear =>
    have fin : ∀ c : Cost, c.allocs = 0 ∧ c.bytes = 0 ∧ c.acc + 1030 * 0 ≤ 0 + 1030 * (c.frees + 1) ∧ (∀ n m, Card g.nd n → Card g.vl m → c.frees + 1 ≤ 0 + n + m) → ∀ r, Bound s .clear r c := by
      rintro c ⟨u1, u2, u3, u4⟩ r
      refine ⟨u1, u2, by simpa using u3, fun hcl nodes keys hn hk => ?_⟩
      have := u4 nodes keys (by
        obtain ⟨l, l1, l2, l3⟩ := hn
        exact ⟨l, l1, fun p => by rw [l2, ← hm, ← t.tight_inner (htt hcl)], l3⟩) (card_kv.2 (by rw [hm]; exact hk))
      omega
    refine bd (clear_cost t) ?_ ?_
    · intro a c h' u; exact fin c u _
    · intro a c h' u; exact fin c u _
  | nextKey k =>
    refine bro (HRo.bind (ro_nextRaw k) fun _ => .ret) (fun hcl => nextKey_cost t (htt hcl) (hsafe k (by rintro k' rfl; exact hgo))) ?_ ?_
    · intro a c h1 h2 h3
      refine ⟨h1, h2, fun hcl => ?_⟩
      obtain ⟨u1, u2, u3, u4⟩ := h3 hcl
      have e : olen k = fromLen k := by cases k <;> rfl
      simp only [num, e] at u3 u4
      exact ⟨by simp only [keyLen]; exact Nat.le_trans u3 (ar1 _ _), Nat.le_zero.1 u4⟩
    · intro a c h1 h2 h3
      refine ⟨h1, h2, fun hcl => ?_⟩
      obtain ⟨u1, u2, u3, u4⟩ := h3 hcl
      have e : olen k = fromLen k := by cases k <;> rfl
      simp only [num, e] at u3 u4
      exact ⟨by simp only [keyLen]; exact Nat.le_trans u3 (ar4 _), Nat.le_zero.1 u4⟩
  | nextKeyValue k =>
    refine bro (ro_nextKV k) (fun hcl => nextKV_cost t (htt hcl) (hsafe k (by rintro k' rfl; exact hgo))) ?_ ?_
    · rintro ⟨k', v⟩ c h1 h2 h3
      refine ⟨h1, h2, fun hcl => ?_⟩
      obtain ⟨u1, u2, u3, u4⟩ := h3 hcl
      have e : olen k = fromLen k := by cases k <;> rfl
      simp only [num, e, klen, rlen] at u3 u4
      exact ⟨by simp only [keyLen]; exact Nat.le_trans u3 (ar2 _ _), u4⟩
    · intro a c h1 h2 h3
      refine ⟨h1, h2, fun hcl => ?_⟩
      obtain ⟨u1, u2, u3, u4⟩ := h3 hcl
      have e : olen k = fromLen k := by cases k <;> rfl
      simp only [num, e, klen, rlen] at u3 u4
      exact ⟨by simp only [keyLen]; exact Nat.le_trans u3 (ar5 _), u4⟩
  | upperBound k =>
    refine bro (ro_orEnd (ro_nextKV (some k))) (fun hcl => iterNext_cost t (htt hcl) (hsafe (some k) (by rintro k' ⟨⟩; exact hgo))) ?_ ?_
    · rintro (- | ⟨k', v⟩) c h1 h2 h3 <;>
      · refine ⟨h1, h2, fun hcl => ?_⟩
        obtain ⟨u1, u2, u3, u4⟩ := h3 hcl
        simp only [num, olen, ilen, iby] at u3 u4
        exact ⟨by simp only [keyLen]; exact Nat.le_trans u3 (by first | with_reducible exact ar2 _ _ | with_reducible exact ar5 _), u4⟩
    · intro a c h1 h2 h3
      refine ⟨h1, h2, fun hcl => ?_⟩
      obtain ⟨u1, u2, u3, u4⟩ := h3 hcl
      simp only [num, olen, ilen, iby] at u3 u4
      exact ⟨by simp only [keyLen]; exact Nat.le_trans u3 (ar5 _), u4⟩
  | lowerBound k =>
    have hs : Safe g k := by
      cases hk : s.m k with
      | none => exact t.start hm htt (hgo hk)
      | some v => exact Safe.of_kv t (by rw [hm, hk]; simp)
    refine bro (HRo.bind (ro_find k) fun r => by cases r with
      | none => exact ro_orEnd (ro_nextKV (some k))
      | some x => exact .ret) (fun hcl => lowerBound_cost t (htt hcl) hs) ?_ ?_
    · rintro (- | ⟨k', v⟩) c h1 h2 h3 <;>
      · refine ⟨h1, h2, fun hcl => ?_⟩
        obtain ⟨u1, u2, u3, u4⟩ := h3 hcl
        simp only [num, ilen, iby] at u3 u4
        exact ⟨by simp only [keyLen]; exact Nat.le_trans u3 (by first | with_reducible exact ar3 _ _ | with_reducible exact ar6 _), u4⟩
    · intro a c h1 h2 h3
      refine ⟨h1, h2, fun hcl => ?_⟩
      obtain ⟨u1, u2, u3, u4⟩ := h3 hcl
      simp only [num, ilen, iby] at u3 u4
      exact ⟨by simp only [keyLen]; exact Nat.le_trans u3 (ar6 _), u4⟩
  | items =>
    have ro : ∀ fuel k, HRo (iterate base fuel k) := by
      intro fuel
      induction fuel with
      | zero => intro k; exact .ub
      | succ fuel ih =>
        intro k
        refine HRo.bind (ro_orEnd (ro_nextKV k)) fun r => ?_
        cases r with
        | none => exact .ret
        | some x => exact HRo.bind (ih _) fun _ => .ret
    refine bro (P := fun _ _ => True) (ro _ _) (fun _ => cev_mono (fun _ _ _ _ => trivial) (cev_every (HashTable.HRo.free_of_charge (ro _ _)))) ?_ ?_
    · intro a c h1 h2 _; exact ⟨h1, h2⟩
    · intro a c h1 h2 _; exact ⟨h1, h2⟩

theorem cost_step (op : Op) (s : State) (h : Heap) (hok : op.ok s) (hi : Holds base F s h) :
    wp (counted (call add base op)) (fun out h' => ∃ s', CSpec (Spec add) Bound s op out s' ∧ Holds base F s' h') h :=
  cwp_step (cev_and (step op s h hok hi) (call_cost hok hi))
end PrefixTree

/-- **C71.** In a pool with any history of SimpleAllocator calls (including crashes), for any sequence of calls of a new prefix tree (those that C42 covers), every call
costs no more than `PT.Bound` says.  The results are those of C42. -/
theorem C71_prefixtree_cost (add : BitVec 64 → BitVec 64 → BitVec 64) {p0 p : Pool} {live lk : List (Nat × Nat)} {ex : Bool} (h : Hist p0 p live lk ex) {b : Nat} {p1 : Pool}
    (hc : run (compile PrefixTree.create) p = (.ok b, p1)) (ops : List Op) (hok : Guarded (Spec add) Op.ok new ops) :
    ∃ rs p2 s, run (compile (hist (fun o => counted (PrefixTree.call add b o)) ops)) p1 = (.ok rs, p2) ∧ Trace (CSpec (Spec add) Bound) new ops rs s := by
  rcases PrefixTree.create_pool h with ⟨p1', h1⟩ | ⟨b', p1', h1, hp, h2, h3, h4, -⟩
  · cases (Prod.mk.inj (hc.symm.trans h1)).1
  · obtain ⟨e1, e2⟩ := Prod.mk.inj (hc.symm.trans h2)
    cases e1; cases e2
    obtain ⟨rs, p2, s, h5, e1, e2, -⟩ :=
      hist_run_guarded (f := fun o => counted (PrefixTree.call add b o)) (Spec := CSpec (Spec add) Bound) (Inv := fun s h => PrefixTree.Holds b hp s h) (ok := fun s o => o.ok s)
        (fun s o h h1 h2 => PrefixTree.cost_step o s h h1 h2) ops (s := new) (h := h1) (p := p1) (Guarded.counted hok) h3 h4
    exact ⟨rs, p2, s, e1, e2⟩

/-- a concrete run and its costs -/
example : (run (compile PrefixTree.create) (run Simple.init (newPool 0)).2).1 = .ok 344 ∧
    (run (compile (hist (fun o => counted (PrefixTree.call noAdd 344 o)) [.insert [97, 98] (.int 5) none, .insert [97] (.str [1, 2, 3, 4, 5, 6, 7, 8, 9]) none, .insert [97, 100] .null none, .at [97],
      .erase [97, 98] none])) (ptPool 0)).1 =
      .ok [.ok (.ok (.bool true), ⟨1, 0, 20, 0, 0⟩), .ok (.ok (.bool true), ⟨1, 0, 8, 9, 0⟩), .ok (.ok (.bool true), ⟨1, 1, 24, 0, 0⟩),
        .ok (.ok (.val (.str [1, 2, 3, 4, 5, 6, 7, 8, 9])), ⟨0, 0, 6, 9, 0⟩), .ok (.ok (.bool true), ⟨0, 0, 15, 0, 0⟩)] := by
  decide +kernel

end Verif
