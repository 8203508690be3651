import Verif.PrefixTreeCrash
/-
C41-C52 and C19: PrefixTree (/repo/src/PrefixTree.{hh,cc}).  The specification is `PT.Spec` (PrefixTreeStep.lean).
-/
namespace Verif
open PrefixTree (Val CVal Check RType isZero isNaN)
open PT Lock

namespace PT
/-- the state of a new tree -/
def new : State := ⟨fun _ => none, true, true, true⟩
/-- a state after a process has died in a call: some map, and the counters need not be right -/
def torn (m : Map) : State := ⟨m, false, false, false⟩
end PT

namespace PrefixTree
variable {add : BitVec 64 → BitVec 64 → BitVec 64} {base : Nat} {F : Nat → Option Block}

theorem holds_new {b : Nat} {h' : Heap} {F : Nat → Option Block} (t : Tr b F (G.empty b) 0 1 h') (hok : HeapOk h') : Holds b F new h' :=
  ⟨⟨_, _, _, t, (card_empty b).2.2.2, fun _ => (card_empty b).2.1, fun _ => (card_empty b).1, fun _ => (card_empty b).2.2.1⟩, ⟨0, [], List.nodup_nil, by simp [new], rfl⟩, hok⟩

/-- a history, on the heap -/
theorem history (ops : List Op) {s : State} {h : Heap} (hok : Guarded (Spec add) Op.ok s ops) (hi : Holds base F s h) :
    wp (hist (call add base) ops) (fun out h' => ∃ rs s', out = .ok rs ∧ Trace (Spec add) s ops rs s' ∧ Holds base F s' h') h :=
  hist_guarded (fun s o h h1 h2 => step o s h h1 h2) ops s h hok hi

/-- blocks of other clients are untouched -/
theorem Holds.others {s : State} {h : Heap} (hi : Holds base F s h) {x : Nat} {B : Block} (hx : F x = some B) : h.blk x = some B := by
  obtain ⟨⟨g, ni, nn, t, -⟩, -⟩ := hi
  rw [t.frame x (fun w ho => by rw [t.excl x w ho] at hx; cases hx), hx]

/-- creating a tree in a pool -/
theorem create_pool {p0 p : Pool} {live lk : List (Nat × Nat)} {ex : Bool} (h : Hist p0 p live lk ex) :
    (∃ p1, run (compile create) p = (.err .noMem, p1)) ∨
    ∃ b p1 h1 hp, run (compile create) p = (.ok b, p1) ∧ Holds b hp new h1 ∧ Sim h1 p1 ∧
      ∀ o n, (o, n) ∈ live → ∃ B, hp o = some B ∧ B.size = n ∧ ∀ i, B.data i = p.mem (o + i) := by
  obtain ⟨hp, hs, hl⟩ := h.sim
  obtain ⟨out, p1, h1, hr, hq, hs1⟩ := sim_run (create_spec hp).wp hs
  rcases hq with ⟨rfl, -⟩ | ⟨b, rfl, -, t⟩
  · exact Or.inl ⟨p1, hr⟩
  · exact Or.inr ⟨b, p1, h1, _, hr, holds_new t hs1.heapOk, hs1, hl⟩

/-- what another client wrote is still in the pool -/
theorem untouched {s : State} {h : Heap} {p1 : Pool} (hi : Holds base F s h) (hs : Sim h p1) {o n : Nat} {p : Pool} (hB : ∃ B, F o = some B ∧ B.size = n ∧ ∀ i, B.data i = p.mem (o + i)) :
    ∀ i, i < n → p1.mem (o + i) = p.mem (o + i) := by
  obtain ⟨B, h1, rfl, h2⟩ := hB
  obtain ⟨L, -, hh⟩ := hs
  intro i hi'
  rw [(hh.blk o B (hi.others h1)).2.2 i hi', h2 i]
end PrefixTree

/-! ### C42 -/

/-- **C41-C49, C51 for every lawful allocator.** Whatever offsets the allocator returns and whichever allocations it refuses, a new prefix tree answers every sequence of
calls as `Spec` says, as long as each call meets `Op.ok` when it is made. -/
theorem C42_map_any_allocator (add : BitVec 64 → BitVec 64 → BitVec 64) {h : Heap} (hk : HeapOk h) (ops : List Op) (hok : Guarded (Spec add) Op.ok new ops) :
    wp (PrefixTree.create.bind fun b => hist (PrefixTree.call add b) ops)
      (fun out _ => out = .err .noMem ∨ ∃ rs s, out = .ok rs ∧ Trace (Spec add) new ops rs s) h := by
  refine wp_bind_of (wp_heapOk hk (PrefixTree.create_spec h).wp) ?_ ?_
  · rintro b h' ⟨(⟨h1, -⟩ | ⟨b', h1, -, t⟩), hk'⟩
    · cases h1
    · injection h1 with h1; subst h1
      refine wp_mono ?_ (PrefixTree.history ops hok (PrefixTree.holds_new t hk'))
      rintro out h'' ⟨rs, s', h1, h2, -⟩
      exact Or.inr ⟨rs, s', h1, h2⟩
  · rintro e h' ⟨(⟨h1, -⟩ | ⟨b', h1, -⟩), -⟩
    · injection h1 with h1; subst h1; exact Or.inl rfl
    · cases h1

/-- **C41-C49, C51 on bytes.** In a pool with any history of SimpleAllocator calls (including crashes), a new prefix tree answers every sequence of calls as `Spec` says, as
long as each call meets `Op.ok` when it is made; no call touches the bytes of blocks that other clients hold. -/
theorem C42_spec_on_pool (add : BitVec 64 → BitVec 64 → BitVec 64) {p0 p : Pool} {live lk : List (Nat × Nat)} {ex : Bool} (h : Hist p0 p live lk ex) :
    (∃ p1, run (compile PrefixTree.create) p = (.err .noMem, p1)) ∨
    ∃ b p1, run (compile PrefixTree.create) p = (.ok b, p1) ∧ ∀ ops : List Op, Guarded (Spec add) Op.ok new ops →
      ∃ rs p2 s, run (compile (hist (PrefixTree.call add b) ops)) p1 = (.ok rs, p2) ∧ Trace (Spec add) new ops rs s ∧
        ∀ o n, (o, n) ∈ live → ∀ i, i < n → p2.mem (o + i) = p.mem (o + i) := by
  rcases PrefixTree.create_pool h with h1 | ⟨b, p1, h1, hp, hr, hh, hs, hl⟩
  · exact Or.inl h1
  · refine Or.inr ⟨b, p1, hr, fun ops hok => ?_⟩
    obtain ⟨out, p2, h2, e1, ⟨rs, s, rfl, e2, hh2⟩, hs2⟩ := sim_run (PrefixTree.history ops hok hh) hs
    exact ⟨rs, p2, s, e1, e2, fun o n hm => PrefixTree.untouched hh2 hs2 (hl o n hm)⟩

/-- **C42.** A new prefix tree in any pool answers every history of insert (with or without check), erase, incr, clear, at, type, find, size and iterations over all pairs as the map `Spec` describes, for all keys
(empty, prefixes of each other, any bytes) and all values (strings up to 2^62 bytes); calls that fail for lack of memory are included. -/
theorem C42_map_on_pool (add : BitVec 64 → BitVec 64 → BitVec 64) {p0 p : Pool} {live lk : List (Nat × Nat)} {ex : Bool} (h : Hist p0 p live lk ex) :
    (∃ p1, run (compile PrefixTree.create) p = (.err .noMem, p1)) ∨
    ∃ b p1, run (compile PrefixTree.create) p = (.ok b, p1) ∧ ∀ ops : List Op, (∀ o ∈ ops, o.free) →
      ∃ rs p2 s, run (compile (hist (PrefixTree.call add b) ops)) p1 = (.ok rs, p2) ∧ Trace (Spec add) new ops rs s ∧
        ∀ o n, (o, n) ∈ live → ∀ i, i < n → p2.mem (o + i) = p.mem (o + i) := by
  rcases C42_spec_on_pool add h with h1 | ⟨b, p1, h1, h2⟩
  · exact Or.inl h1
  · exact Or.inr ⟨b, p1, h1, fun ops hok => h2 ops (Guarded.of_all (fun o ho s => (hok o ho).ok) _)⟩

/-- the pool of a prefix tree just created on a fresh pool that can grow to `max` bytes (0: no limit) -/
def ptPool (max : Nat) : Pool := (run (compile PrefixTree.create) (run Simple.init (newPool max)).2).2

/-- some addition of doubles, for concrete runs that use none -/
def noAdd : BitVec 64 → BitVec 64 → BitVec 64 := fun _ _ => 0#64

/-- run a list of calls on that tree -/
def ptRun (max : Nat) (ops : List Op) : Res (List (Out Ret)) := (run (compile (hist (PrefixTree.call noAdd 344) ops)) (ptPool max)).1

/-- a concrete run: keys that are prefixes of each other, the empty key, all types of values, inline and out of line, overwriting, checks that pass and fail, erase -/
example : (run (compile PrefixTree.create) (run Simple.init (newPool 0)).2).1 = .ok 344 ∧
    ptRun 0 [.insert [97, 98] (.int 5) none, .insert [97] (.str [1, 2, 3, 4, 5, 6, 7, 8, 9]) none, .insert [] .null none, .at [97], .type [97, 98], .type [], .size, .nodeSize,
      .insert [97, 98] (.dbl 4607182418800017408#64) (some ([97], .missing)), .insert [97, 98] (.dbl 4607182418800017408#64) (some ([], .val .null)), .at [97, 98],
      .erase [97, 98] none, .at [97, 98], .nodeSize, .nodesForPrefix [], .incr [1] 7#64, .incr [1] (-9#64), .find [97], .find [2]] =
    .ok [.ok (.bool true), .ok (.bool true), .ok (.bool true), .ok (.val (.str [1, 2, 3, 4, 5, 6, 7, 8, 9])), .ok (.type .int), .ok (.type .null), .ok (.num 3), .ok (.num 2),
      .ok (.bool false), .ok (.bool true), .ok (.val (.dbl 4607182418800017408#64)),
      .ok (.bool true), .err .outOfRange, .ok (.num 1), .ok (.num 1), .ok (.word 7#64), .ok (.word (-2#64)), .ok (.iter (some ([97], .str [1, 2, 3, 4, 5, 6, 7, 8, 9]))), .ok (.iter none)] := by
  decide +kernel

theorem ptPool_ready : ∃ h hp, PrefixTree.Holds 344 hp new h ∧ Sim h (ptPool 0) := by
  have hst : Hist (newPool 0) (run Simple.init (newPool 0)).2 [] [] true :=
    .start (newPool_geo 0) (by decide +kernel) (run_eta (by decide +kernel))
  have e : (run (compile PrefixTree.create) (run Simple.init (newPool 0)).2).1 = .ok 344 := by decide +kernel
  rcases PrefixTree.create_pool hst with ⟨p1, h1⟩ | ⟨b, p1, h1, hp, hr, hh, hs, -⟩
  · rw [h1] at e; cases e
  · rw [hr] at e
    injection e with e
    subst e
    have e2 : ptPool 0 = p1 := by unfold ptPool; rw [hr]
    exact ⟨h1, hp, hh, e2 ▸ hs⟩

/-! ### C41 -/

section
variable {add : BitVec 64 → BitVec 64 → BitVec 64} {base : Nat} {F : Nat → Option Block} {s : State} {h : Heap}

/-- **C41.** On any tree: after an insert of any value for any key that does not fail for lack of memory, `at` returns this value, with its type and all its bits
(for every string up to 2^62 bytes, every int64, every double but -0.0, both bools, null), and `type` its type. -/
theorem C41_round_trip (hi : PrefixTree.Holds base F s h) (k : Bytes) (v : Val) (hl : ∀ d, v = .str d → d.length ≤ 2 ^ 62) (hz : v ≠ .dbl 9223372036854775808#64) :
    wp (hist (PrefixTree.call add base) [.insert k v none, .at k, .type k]) (fun out _ => ∃ rs, out = .ok rs ∧
      (rs = [.ok (.bool true), .ok (.val v), .ok (.type (typeOf (some v)))] ∨ rs[0]? = some (.err .noMem))) h := by
  have hg : Guarded (Spec add) Op.ok s [.insert k v none, .at k, .type k] := ⟨hl, fun _ _ _ => ⟨trivial, fun _ _ _ => ⟨trivial, fun _ _ _ => trivial⟩⟩⟩
  refine wp_mono ?_ (PrefixTree.history _ hg hi)
  rintro out h' ⟨rs, s', rfl, tr, -⟩
  refine ⟨rs, rfl, ?_⟩
  have hkept : kept v = v := by
    cases v with
    | dbl d =>
      show (if isZero d = true then Val.dbl 0#64 else Val.dbl d) = Val.dbl d
      split
      · rename_i hd
        simp only [isZero, Bool.or_eq_true, decide_eq_true_eq] at hd
        rcases hd with rfl | rfl
        · rfl
        · exact absurd rfl hz
      · rfl
    | _ => rfl
  cases tr with
  | cons h1 tr =>
    rcases h1 with ⟨h1, -⟩ | ⟨-, rfl, rfl⟩ | ⟨-, rfl, -⟩
    · exact absurd trivial h1
    · cases tr with
      | cons h2 tr =>
        cases tr with
        | cons h3 tr =>
          cases tr
          obtain ⟨rfl, rfl⟩ := h2
          obtain ⟨rfl, rfl⟩ := h3
          left
          simp [put, hkept]
    · exact Or.inr rfl

/-- -0.0 is read back as 0.0 -/
example : ptRun 0 [.insert [0] (.dbl 9223372036854775808#64) none, .at [0]] = .ok [.ok (.bool true), .ok (.val (.dbl 0#64))] := by decide +kernel

/-! ### C43 -/

/-- **C43 is false.** After inserting the key "ab" only, exists("a") and exists("") are true. -/
theorem C43_false : ptRun 0 [.insert [97, 98] .null none, .exists [97], .exists [], .at [97], .at []] =
    .ok [.ok (.bool true), .ok (.bool true), .ok (.bool true), .err .outOfRange, .err .outOfRange] := by
  decide +kernel

/-- **C43, the true part.** On any tree, exists is true for every key with a value; and (unless an earlier call has failed for lack of memory or a process has died) it is true exactly for the
prefixes of such keys and the empty key.  No byte changes.  Missing: it is also true for proper prefixes of keys, see `C43_false`. -/
theorem C43_exists_partial (hi : PrefixTree.Holds base F s h) (k : Bytes) :
    wp (PrefixTree.call add base (.exists k)) (fun out _ => ∃ b, out = .ok (.bool b) ∧ (s.m k ≠ none → b = true) ∧
      (s.clean = true → b = true → k = [] ∨ ∃ r, s.m (k ++ r) ≠ none)) h := by
  refine wp_mono ?_ (PrefixTree.step (add := add) (.exists k) s h trivial hi)
  rintro out h' ⟨s', ⟨-, b, rfl, h1, h2⟩, -⟩
  exact ⟨b, rfl, h1, fun hc hb => (h2 hc).1 hb⟩

/-! ### C44 -/

/-- **C44 is false.** After inserting the key "ab" only, erase("a") and erase("") return true. -/
theorem C44_false : ptRun 0 [.insert [97, 98] .null none, .erase [97] none, .erase [] none, .size, .erase [98] none] =
    .ok [.ok (.bool true), .ok (.bool true), .ok (.bool true), .ok (.num 1), .ok (.bool false)] := by
  decide +kernel

/-- **C44, the true part.** On any tree, erase of a key removes exactly this key (every other key keeps its value) and returns true if it had a value; if the tree had no superfluous nodes it has none
afterwards (`s'.clean`: node_size is the number of proper prefixes of keys).  Missing: for a key without a value that is a proper prefix of another key it also returns true, see `C44_false`. -/
theorem C44_erase_partial (hi : PrefixTree.Holds base F s h) (k : Bytes) :
    wp (PrefixTree.call add base (.erase k none)) (fun out h' => ∃ b s', out = .ok (.bool b) ∧ PrefixTree.Holds base F s' h' ∧ s'.m k = none ∧ (∀ k', k' ≠ k → s'.m k' = s.m k') ∧
      (s.m k ≠ none → b = true) ∧ (s.clean = true → b = true → k = [] ∨ ∃ r, s.m (k ++ r) ≠ none) ∧ s'.clean = s.clean ∧ s'.exact = s.exact ∧ s'.counted = s.counted) h := by
  refine wp_mono ?_ (PrefixTree.step (add := add) (.erase k none) s h trivial hi)
  rintro out h' ⟨s', (⟨h0, -⟩ | ⟨-, b, rfl, rfl, h1, h2⟩), hh⟩
  · exact absurd trivial h0
  · exact ⟨b, _, rfl, hh, by simp [put], fun k' hk => by simp [put, hk], h1, fun hc hb => (h2 hc).1 hb, rfl, rfl, rfl⟩

/-! ### C45 -/

/-- **C45 is false.** incr of an absent key by the double 0.0 stores a word in the slot that is taken for the offset of a node, far outside the pool: the next call that uses the key is undefined behaviour. -/
theorem C45_false : ptRun 0 [.incrDouble [0] 0#64] = .ok [.ok (.word 0#64)] ∧ ptRun 0 [.incrDouble [0] 0#64, .at [0]] = .ub := by
  decide +kernel

/-- **C45, integers.** On any tree: incr of an absent key by an int64 stores it; of a key with an integer stores and returns the sum modulo 2^64; of a key with another value throws out_of_range
and changes no byte of the map.  If it fails for lack of memory the map is unchanged. -/
theorem C45_incr_int (hi : PrefixTree.Holds base F s h) (k : Bytes) (d : BitVec 64) :
    wp (PrefixTree.call add base (.incr k d)) (fun out h' => ∃ s', PrefixTree.Holds base F s' h' ∧ (∀ k', k' ≠ k → s'.m k' = s.m k') ∧
      ((s.m k = none ∧ out = .ok (.word d) ∧ s'.m k = some (.int d)) ∨
       (∃ x, s.m k = some (.int x) ∧ out = .ok (.word (x + d)) ∧ s'.m k = some (.int (x + d))) ∨
       ((∃ v, s.m k = some v ∧ ∀ x, v ≠ .int x) ∧ out = .err .outOfRange ∧ s' = s) ∨
       (out = .err .noMem ∧ s'.m = s.m))) h := by
  refine wp_mono ?_ (PrefixTree.step (add := add) (.incr k d) s h trivial hi)
  rintro out h' ⟨s', h1, hh⟩
  refine ⟨s', hh, ?_⟩
  simp only [Spec] at h1
  split at h1
  · rename_i hk
    rcases h1 with ⟨rfl, rfl⟩ | ⟨rfl, rfl⟩
    · exact ⟨fun k' hne => by simp [put, hne], Or.inl ⟨hk, rfl, by simp [put]⟩⟩
    · exact ⟨fun _ _ => rfl, Or.inr (Or.inr (Or.inr ⟨rfl, rfl⟩))⟩
  · rename_i x hk
    rcases h1 with ⟨rfl, rfl⟩ | ⟨rfl, rfl⟩
    · exact ⟨fun k' hne => by simp [put, hne], Or.inr (Or.inl ⟨x, hk, rfl, by simp [put]⟩)⟩
    · exact ⟨fun _ _ => rfl, Or.inr (Or.inr (Or.inr ⟨rfl, rfl⟩))⟩
  · rename_i v hv hk
    obtain ⟨rfl, rfl⟩ := h1
    exact ⟨fun _ _ => rfl, Or.inr (Or.inr (Or.inl ⟨⟨v, hk, fun x e => hv x e⟩, rfl, rfl⟩))⟩

/-- **C45, doubles, the true part.** The same for doubles (`add` is floating-point addition; -0.0 is kept as 0.0).  Missing: a delta of 0.0 or -0.0 on an absent key, see `C45_false`. -/
theorem C45_incr_double_partial (hi : PrefixTree.Holds base F s h) (k : Bytes) (d : BitVec 64) (hz : s.m k = none → d ≠ 0#64 ∧ d ≠ 9223372036854775808#64) :
    wp (PrefixTree.call add base (.incrDouble k d)) (fun out h' => ∃ s', PrefixTree.Holds base F s' h' ∧ (∀ k', k' ≠ k → s'.m k' = s.m k') ∧
      ((s.m k = none ∧ out = .ok (.word d) ∧ s'.m k = some (.dbl d)) ∨
       (∃ x, s.m k = some (.dbl x) ∧ out = .ok (.word (add x d)) ∧ s'.m k = some (kept (.dbl (add x d)))) ∨
       ((∃ v, s.m k = some v ∧ ∀ x, v ≠ .dbl x) ∧ out = .err .outOfRange ∧ s' = s) ∨
       (out = .err .noMem ∧ s'.m = s.m))) h := by
  refine wp_mono ?_ (PrefixTree.step (add := add) (.incrDouble k d) s h (fun hk => by have := hz hk; simp [isZero, this]) hi)
  rintro out h' ⟨s', h1, hh⟩
  refine ⟨s', hh, ?_⟩
  simp only [Spec] at h1
  split at h1
  · rename_i hk
    rcases h1 with ⟨rfl, rfl⟩ | ⟨rfl, rfl⟩
    · exact ⟨fun k' hne => by simp [put, hne], Or.inl ⟨hk, rfl, by simp [put]⟩⟩
    · exact ⟨fun _ _ => rfl, Or.inr (Or.inr (Or.inr ⟨rfl, rfl⟩))⟩
  · rename_i x hk
    rcases h1 with ⟨rfl, rfl⟩ | ⟨rfl, rfl⟩
    · exact ⟨fun k' hne => by simp [put, hne], Or.inr (Or.inl ⟨x, hk, rfl, by simp [put]⟩)⟩
    · exact ⟨fun _ _ => rfl, Or.inr (Or.inr (Or.inr ⟨rfl, rfl⟩))⟩
  · rename_i v hv hk
    obtain ⟨rfl, rfl⟩ := h1
    exact ⟨fun _ _ => rfl, Or.inr (Or.inr (Or.inl ⟨⟨v, hk, fun x e => hv x e⟩, rfl, rfl⟩))⟩

/-! ### C46 -/

/-- **C46, one step.** On any tree, next_key_value of a key with a value returns the least larger key (in lexicographic order of the bytes) and its value, and throws out_of_range if there is none.
No byte changes. -/
theorem C46_next (hi : PrefixTree.Holds base F s h) {k : Bytes} (hk : s.m k ≠ none) :
    wp (PrefixTree.call add base (.nextKeyValue (some k))) (fun out h' => PrefixTree.Holds base F s h' ∧
      ((∃ k' v, out = .ok (.pair (k', v)) ∧ s.m k' = some v ∧ k < k' ∧ ∀ k2, s.m k2 ≠ none → k < k2 → k' ≤ k2) ∨
       (out = .err .outOfRange ∧ ∀ k2, s.m k2 ≠ none → ¬ k < k2))) h := by
  refine wp_mono ?_ (PrefixTree.step (add := add) (.nextKeyValue (some k)) s h (Or.inl (Or.inr ⟨[], by simpa using hk⟩)) hi)
  rintro out h' ⟨s', ⟨rfl, (⟨⟨k', v⟩, rfl, h1, h2, h3, h4⟩ | ⟨rfl, h1⟩)⟩, hh⟩
  · exact ⟨hh, Or.inl ⟨k', v, rfl, h1, h3, h4⟩⟩
  · exact ⟨hh, Or.inr ⟨rfl, h1⟩⟩

/-- **C46, the whole iteration.** On any tree, iterating from begin() to end() yields exactly the pairs of the map, in strictly increasing order of the keys.  No byte changes. -/
theorem C46_iteration (hi : PrefixTree.Holds base F s h) :
    wp (PrefixTree.call add base .items) (fun out h' => PrefixTree.Holds base F s h' ∧
      ∃ l, out = .ok (.list l) ∧ (l.map Prod.fst).Pairwise (· < ·) ∧ ∀ k v, (k, v) ∈ l ↔ s.m k = some v) h := by
  refine wp_mono ?_ (PrefixTree.step (add := add) .items s h trivial hi)
  rintro out h' ⟨s', ⟨rfl, h1⟩, hh⟩
  exact ⟨hh, h1⟩

/-- a concrete iteration over keys of which one is a prefix of the other -/
example : ptRun 0 [.insert [97, 98] (.int 5) none, .insert [97] (.str [1, 2, 3, 4, 5, 6, 7, 8, 9]) none, .items] =
    .ok [.ok (.bool true), .ok (.bool true), .ok (.list [([97], .str [1, 2, 3, 4, 5, 6, 7, 8, 9]), ([97, 98], .int 5)])] := by
  decide +kernel

/-! ### C47 -/

theorem wp_ret_K {α β : Type} {a : α} {f : α → HProg β} {Q : Out β → Heap → Prop} {h : Heap} : wp (.ret a) (wpK f Q) h ↔ wp (f a) Q h := Iff.rfl

set_option linter.constructorNameAsVariable false in
set_option maxHeartbeats 2000000 in
/-- **C47 is false.** On every empty tree, upper_bound of any one-byte key uses address 0 of the pool as a node: undefined behaviour (no outcome can be guaranteed, not even `True`), if no block is at offset 0. -/
theorem C47_false (hi : PrefixTree.Holds base F new h) (h0 : h.blk 0 = none) (b : UInt8) : ¬ wp (PrefixTree.call add base (.upperBound [b])) (fun _ _ => True) h := by
  obtain ⟨⟨g, ni, nn, t, hm, -, -, ht⟩, -⟩ := hi
  obtain ⟨B, hB, hn⟩ := t.node [] _ t.root
  have hB' : h.blk base = some B := hB
  have hnd : g.nd [b] = none := Classical.byContradiction fun hne => by
    rcases (t.tight_inner (ht rfl) [b]).1 hne with h1 | ⟨r, -, h1⟩
    · cases h1
    · rw [hm] at h1; exact h1 rfl
  have hvl : g.vl [b] = none := PrefixTree.kv_none.1 (by rw [hm]; rfl)
  have hw : g.word ([] ++ [b]) = 0 := by unfold PrefixTree.G.word; rw [List.nil_append, hnd, hvl]; rfl
  have hlt : b.toNat < 256 := UInt8.toNat_lt b
  have hc := hn.ch b (Nat.zero_le _) (show b.toNat ≤ 255 by omega)
  rw [hw] at hc
  have hs := hn.s
  have he := hn.e
  intro hwp
  unfold PrefixTree.call PrefixTree.upperBound PrefixTree.iterNext PrefixTree.orEnd PrefixTree.nextKV PrefixTree.nextRaw PrefixTree.nextFrom at hwp
  simp only [Prog.bind_def, wp_bind, wp_tryCatch] at hwp
  simp only [PrefixTree.seek, Prog.bind_def, wp_bind] at hwp
  obtain ⟨B1, h1, -, hwp⟩ := hwp
  rw [show (PrefixTree.root base).1 = base from rfl, hB'] at h1
  injection h1 with h1; subst h1
  rw [show B.rd (PrefixTree.root base).2 1 = 0 from hs] at hwp
  simp only [wp] at hwp
  obtain ⟨B1, h1, -, hwp⟩ := hwp
  rw [show (PrefixTree.root base).1 = base from rfl, hB'] at h1
  injection h1 with h1; subst h1
  rw [show B.rd ((PrefixTree.root base).2 + 1) 1 = 255 from he] at hwp
  simp only [Prog.ret_bind] at hwp
  rw [if_neg (by omega)] at hwp
  simp only [Prog.bind_def, wp_bind] at hwp
  obtain ⟨B1, h1, -, hwp⟩ := hwp
  rw [show (PrefixTree.slotOf (PrefixTree.root base) 0 b.toNat).1 = base from rfl, hB'] at h1
  injection h1 with h1; subst h1
  rw [show B.rd (PrefixTree.slotOf (PrefixTree.root base) 0 b.toNat).2 8 = 0 from hc] at hwp
  rw [wp_ret_K] at hwp
  rw [if_neg (show ¬ PrefixTree.typeOf 0 ≠ 0 by decide), Prog.pure_def, wp_ret_K] at hwp
  rw [wp_bind] at hwp
  obtain ⟨n, hms⟩ : ∃ n, PrefixTree.maxSteps = n + 1 := ⟨340282366920938463463374607431768211455, PrefixTree.maxSteps_eq⟩
  rw [hms] at hwp
  unfold PrefixTree.scan at hwp
  simp only [Prog.bind_def, wp_bind] at hwp
  obtain ⟨B1, h1, -⟩ := hwp
  rw [h0] at h1; cases h1

/-- **C47 is false, on bytes.** The reader that calls next_key holds the lock: its token (here 1) is in the first reader slot of the pool's lock word.  The call takes this word for a slot of the "node" at address 0 and
follows it out of the pool. -/
theorem C47_false_bytes : (run (compile (PrefixTree.call noAdd 344 (.nextKey (some [97])))) (Simple.put (ptPool 0) 16 (1 <<< 32))).1 = .ub := by
  decide +kernel

/-- **C47, the true part.** On any tree, lower_bound, upper_bound and next_key_value of a key as in `Start` (a prefix of a key, or an extension of a key that is not a proper prefix of another key) return the least key
above it (for lower_bound: not below it), whether the key itself has a value or not.  Missing: other absent keys, for which it is false. -/
theorem C47_bounds_partial (hi : PrefixTree.Holds base F s h) {k : Bytes} (hk : Start s k) :
    wp (PrefixTree.call add base (.upperBound k)) (fun out h' => PrefixTree.Holds base F s h' ∧ ∃ i, out = .ok (.iter i) ∧ Succ s.m (some k) i) h ∧
    wp (PrefixTree.call add base (.nextKeyValue (some k))) (fun out h' => PrefixTree.Holds base F s h' ∧ ((∃ x, out = .ok (.pair x) ∧ Succ s.m (some k) (some x)) ∨ (out = .err .outOfRange ∧ Succ s.m (some k) none))) h ∧
    wp (PrefixTree.call add base (.lowerBound k)) (fun out h' => PrefixTree.Holds base F s h' ∧ ∃ i, out = .ok (.iter i) ∧
      ((∃ v, s.m k = some v ∧ i = some (k, v)) ∨ (s.m k = none ∧ Succ s.m (some k) i))) h := by
  refine ⟨wp_mono ?_ (PrefixTree.step (add := add) (.upperBound k) s h hk hi), wp_mono ?_ (PrefixTree.step (add := add) (.nextKeyValue (some k)) s h hk hi),
    wp_mono ?_ (PrefixTree.step (add := add) (.lowerBound k) s h (fun _ => hk) hi)⟩
  · rintro out h' ⟨s', ⟨rfl, h1⟩, hh⟩
    exact ⟨hh, h1⟩
  · rintro out h' ⟨s', ⟨rfl, h1⟩, hh⟩
    exact ⟨hh, h1⟩
  · rintro out h' ⟨s', ⟨rfl, i, h1, h2⟩, hh⟩
    refine ⟨hh, i, h1, ?_⟩
    split at h2
    · rename_i v hv; exact Or.inl ⟨v, hv, h2⟩
    · rename_i hv; exact Or.inr ⟨hv, h2⟩

/-- bounds of absent keys: a proper prefix of a key, and an extension of a key -/
example : ptRun 0 [.insert [3, 2] (.int 5) none, .insert [255] .null none, .lowerBound [3], .upperBound [3, 2, 7], .upperBound [255, 0], .nextKey (some [255])] =
    .ok [.ok (.bool true), .ok (.bool true), .ok (.iter (some ([3, 2], .int 5))), .ok (.iter (some ([255], .null))), .ok (.iter none), .err .outOfRange] := by
  decide +kernel

/-! ### C48 -/

/-- **C48 is false.** In a nearly full pool an incr of an absent key by a large number fails, but size counts the key; it is still counted after clear. -/
theorem C48_false : ptRun 4096 [.insert [1] (.str (List.replicate 1640 1)) none, .incr [0] 4611686018427387904#64, .type [0], .size, .clear, .size] =
    .ok [.ok (.bool true), .err .noMem, .ok (.type .missing), .ok (.num 2), .ok .unit, .ok (.num 1)] := by
  decide +kernel

/-- **C48, counts.** On any tree on which no incr has failed for lack of memory and in no call to which a process has died (`exact`), size is the number of keys; node_size and nodes_for_prefix("") agree; if no call has failed for lack of memory since the last clear
(`clean`), node_size is the number of proper prefixes of keys (the empty string, the root, included).  Missing: histories with failed incrs, see `C48_false`. -/
theorem C48_counts_partial (hi : PrefixTree.Holds base F s h) (he : s.exact = true) (hc : s.counted = true) :
    wp (hist (PrefixTree.call add base) [.size, .nodeSize, .nodesForPrefix []]) (fun out h' => h' = h ∧ ∃ n m, out = .ok [.ok (.num n), .ok (.num m), .ok (.num m)] ∧
      Count (fun k => s.m k ≠ none) n ∧ (s.clean = true → Count (fun p => p = [] ∨ ∃ r, r ≠ [] ∧ s.m (p ++ r) ≠ none) m)) h := by
  obtain ⟨⟨g, ni, nn, t, hm, hcn, hcv, htt⟩, -, hok⟩ := hi
  have hnn := hcn hc
  have hsz : ni % W64 = ni := Nat.mod_eq_of_lt (t.keys_lt hok (hcv he))
  have hnz : nn % W64 = nn := Nat.mod_eq_of_lt (t.nodes_lt hnn)
  simp only [hist]
  refine wp_bind_of (R := fun out h' => h' = h ∧ out = .ok (.ok (.num ni))) ?_ ?_ (by rintro e h' ⟨-, h1⟩; cases h1)
  · rw [wp_attempt]
    refine PrefixTree.wp_ret_of (PrefixTree.size_spec (I := fun _ => True) t).wp ?_ (by rintro e h' ⟨-, h1⟩; cases h1)
    rintro a h' ⟨rfl, h1⟩; injection h1 with h1; rw [h1, hsz]; exact ⟨rfl, rfl⟩
  rintro r h' ⟨rfl, h1⟩
  injection h1 with h1; subst h1
  refine wp_bind_of (R := fun out h'' => h'' = h' ∧ out = .ok [.ok (.num nn), .ok (.num nn)]) ?_ ?_ (by rintro e h' ⟨-, h1⟩; cases h1)
  · refine wp_bind_of (R := fun out h'' => h'' = h' ∧ out = .ok (.ok (.num nn))) ?_ ?_ (by rintro e h' ⟨-, h1⟩; cases h1)
    · rw [wp_attempt]
      refine PrefixTree.wp_ret_of (PrefixTree.nodeSize_spec (I := fun _ => True) t).wp ?_ (by rintro e h' ⟨-, h1⟩; cases h1)
      rintro a h' ⟨rfl, h1⟩; injection h1 with h1; rw [h1, hnz]; exact ⟨rfl, rfl⟩
    rintro r h' ⟨rfl, h1⟩
    injection h1 with h1; subst h1
    refine wp_bind_of (R := fun out h'' => h'' = h' ∧ out = .ok [.ok (.num nn)]) ?_ ?_ (by rintro e h' ⟨-, h1⟩; cases h1)
    · refine wp_bind_of (R := fun out h'' => h'' = h' ∧ out = .ok (.ok (.num nn))) ?_ ?_ (by rintro e h' ⟨-, h1⟩; cases h1)
      · rw [wp_attempt]
        refine PrefixTree.wp_ret_of (PrefixTree.nodesForPrefix_spec (I := fun _ => True) t []).wp ?_ (by rintro e h' ⟨-, n, h1, -⟩; cases h1)
        rintro a h' ⟨rfl, n, h1, h2⟩; injection h1 with h1; subst h1
        have : PrefixTree.CardP (PrefixTree.Below g []) nn := by
          obtain ⟨l, l1, l2, l3⟩ := hnn
          exact ⟨l, l1, fun p => by rw [l2]; simp [PrefixTree.Below], l3⟩
        rw [h2.unique this]; exact ⟨rfl, rfl⟩
      rintro r h' ⟨rfl, h1⟩
      injection h1 with h1; subst h1
      exact ⟨rfl, rfl⟩
    rintro r h' ⟨rfl, h1⟩
    injection h1 with h1; subst h1
    exact ⟨rfl, rfl⟩
  rintro r h' ⟨rfl, h1⟩
  injection h1 with h1; subst h1
  refine ⟨rfl, ni, nn, rfl, ?_, ?_⟩
  · rw [← hm]; exact PrefixTree.card_kv.1 (hcv he)
  · intro hcl
    obtain ⟨l, l1, l2, l3⟩ := hnn
    exact ⟨l, l1, fun p => by rw [l2, t.tight_inner (htt hcl), hm]; rfl, l3⟩

/-- **C48, clear.** On any tree, after clear() there is no key and (with `exact`, `counted` as above) size is 0 and node_size 1. -/
theorem C48_clear_partial (hi : PrefixTree.Holds base F s h) (he : s.exact = true) (hc : s.counted = true) :
    wp (hist (PrefixTree.call add base) [.clear, .size, .nodeSize]) (fun out h' => out = .ok [.ok .unit, .ok (.num 0), .ok (.num 1)] ∧
      PrefixTree.Holds base F ⟨fun _ => none, true, true, true⟩ h') h := by
  have hg : Guarded (Spec add) Op.ok s [.clear, .size, .nodeSize] := ⟨trivial, fun _ _ _ => ⟨trivial, fun _ _ _ => ⟨trivial, fun _ _ _ => trivial⟩⟩⟩
  refine wp_mono ?_ (PrefixTree.history _ hg hi)
  rintro out h' ⟨rs, s', rfl, tr, hh⟩
  cases tr with
  | cons h1 tr =>
    obtain ⟨rfl, rfl⟩ := h1
    cases tr with
    | cons h2 tr =>
      obtain ⟨rfl, n, rfl, h2⟩ := h2
      cases tr with
      | cons h3 tr =>
        obtain ⟨rfl, m, rfl, h3⟩ := h3
        cases tr
        have e1 : n = 0 := by
          obtain ⟨l, -, l2, rfl⟩ := h2 he
          rw [List.length_eq_zero_iff]
          exact List.eq_nil_iff_forall_not_mem.2 fun p hp => (l2 p).1 hp rfl
        have e2 : m = 1 := by
          obtain ⟨l, l1, l2, rfl⟩ := h3 rfl hc
          have : l = [[]] := by
            have hp : ∀ p, p ∈ l ↔ p = [] := fun p => by
              rw [l2]; simp [Inner]
            match l, l1, hp with
            | [], _, hp => exact absurd ((hp []).2 rfl) (by simp)
            | [a], _, hp => rw [(hp a).1 (by simp)]
            | a :: b :: l, l1, hp =>
              have ha := (hp a).1 (by simp)
              have hb := (hp b).1 (by simp)
              rw [List.nodup_cons] at l1
              exact absurd (by rw [ha, hb]; simp) l1.1
          rw [this]; rfl
        subst e1; subst e2
        rw [he, hc] at hh
        exact ⟨rfl, hh⟩

/-! ### C49 -/

/-- **C49 is false.** A check whose value is given as a pointer and a size (the form CheckRequest(key, key_size, value, value_size) makes) does not pass although the key has this value. -/
theorem C49_false : ptRun 0 [.insert [0] (.str [1, 2, 3]) none, .insert [0] .null (some ([0], .ref [1, 2, 3])), .at [0]] =
    .ok [.ok (.bool true), .ok (.bool false), .ok (.val (.str [1, 2, 3]))] := by
  decide +kernel

/-- **C49, the true part.** On any tree, insert and erase with a check for a missing key or for a value take effect exactly when the checked key has no value, or has a value that is == to the given one (in C++: NaN is not
equal to itself, and 0.0 == -0.0); otherwise they return false and no byte changes.  Missing: values given as a pointer and a size, see `C49_false`. -/
theorem C49_check_partial (hi : PrefixTree.Holds base F s h) (k ck : Bytes) (cv : Option Val) (v : Val) (hl : ∀ d, v = .str d → d.length ≤ 2 ^ 62) :
    let c : Check := (ck, match cv with | none => .missing | some w => .val w)
    let pass : Prop := match cv with | none => s.m ck = none | some w => ∃ w', s.m ck = some w' ∧ same w' w
    (¬ pass → wp (PrefixTree.call add base (.insert k v (some c))) (fun out h' => out = .ok (.bool false) ∧ h' = h) h ∧
      wp (PrefixTree.call add base (.erase k (some c))) (fun out h' => out = .ok (.bool false) ∧ h' = h) h) ∧
    (pass → wp (PrefixTree.call add base (.insert k v (some c))) (fun out h' => (out = .ok (.bool true) ∧ ∃ s', PrefixTree.Holds base F s' h' ∧ ∀ k', s'.m k' = if k' = k then some (kept v) else s.m k') ∨ out = .err .noMem) h ∧
      wp (PrefixTree.call add base (.erase k (some c))) (fun out h' => (s.m k ≠ none → out = .ok (.bool true)) ∧ ∃ s', PrefixTree.Holds base F s' h' ∧ ∀ k', s'.m k' = if k' = k then none else s.m k') h) := by
  intro c pass
  have hp : passes s.m (some c) ↔ pass := by cases cv <;> exact Iff.rfl
  constructor
  · intro hn
    rw [← hp, PrefixTree.passes_iff] at hn
    obtain ⟨⟨g, ni, nn, t, hm, hcn, hcv, htt⟩, -, hok⟩ := hi
    have hf : PrefixTree.checkVal g.kv (some c) = false := by rw [hm]; simpa using hn
    constructor
    · refine PrefixTree.wp_ret_of (PrefixTree.insert_spec (P := fun _ => True) (c := some c) (k := k) t (v := v) (fun d hd => by have := hl d hd; omega) trivial (fun _ => trivial) (fun _ => trivial) (fun _ _ _ _ _ _ => trivial)).wp ?_ ?_
      · rintro a h' (⟨-, h1, rfl⟩ | ⟨h1, -⟩)
        · injection h1 with h1; subst h1; exact ⟨rfl, rfl⟩
        · rw [hf] at h1; cases h1
      · rintro a h' (⟨-, h1, rfl⟩ | ⟨h1, -⟩)
        · cases h1
        · rw [hf] at h1; cases h1
    · refine PrefixTree.wp_ret_of (PrefixTree.erase_spec (P := fun _ => True) (c := some c) (k := k) t trivial (fun _ => trivial)).wp ?_ ?_
      · rintro a h' (⟨-, h1, rfl⟩ | ⟨h1, -⟩ | ⟨h1, -⟩)
        · injection h1 with h1; subst h1; exact ⟨rfl, rfl⟩
        · rw [hf] at h1; cases h1
        · rw [hf] at h1; cases h1
      · rintro a h' (⟨-, h1, rfl⟩ | ⟨h1, -⟩ | ⟨h1, -⟩)
        · cases h1
        · rw [hf] at h1; cases h1
        · rw [hf] at h1; cases h1
  · intro hy
    rw [← hp] at hy
    constructor
    · refine wp_mono ?_ (PrefixTree.step (add := add) (.insert k v (some c)) s h hl hi)
      rintro out h' ⟨s', (⟨h1, -⟩ | ⟨-, rfl, rfl⟩ | ⟨-, rfl, -⟩), hh⟩
      · exact absurd hy h1
      · exact Or.inl ⟨rfl, _, hh, fun k' => rfl⟩
      · exact Or.inr rfl
    · refine wp_mono ?_ (PrefixTree.step (add := add) (.erase k (some c)) s h trivial hi)
      rintro out h' ⟨s', (⟨h1, -⟩ | ⟨-, b, rfl, rfl, h2, -⟩), hh⟩
      · exact absurd hy h1
      · exact ⟨fun hk => by rw [h2 hk], _, hh, fun k' => rfl⟩

/-! ### C50 -/

/-- **C50 is false.** A tree holds the integer 2^62 for a key.  A process dies inside insert(key, 1.0), after the sixth access; the next lock holder runs repair.  The key then has the integer 0x3FF0000000000000, which
is neither the old nor the new value. -/
theorem C50_false : ∃ p : Pool, p = (run (compile (PrefixTree.call noAdd 344 (.insert [0] (.int 4611686018427387904#64) none))) (ptPool 0)).2 ∧
    (run (compile (hist (PrefixTree.call noAdd 344) [.at [0]]))
      (run Simple.repair (crashAt 5 (compile (PrefixTree.call noAdd 344 (.insert [0] (.dbl 4607182418800017408#64) none))) p)).2).1 =
      .ok [.ok (.val (.int 4607182418800017408#64))] := by
  refine ⟨_, rfl, ?_⟩
  decide +kernel

/-- **C50, the true part.** A process dies at any point in any call (also inside the allocator), on any tree on any pool; the next lock holder runs repair.  The tree is then well-formed again, with a map `m'` as `Cut` says: every key
but the one of the call has its old value, and this key has its old value, its new value or none (for clear: every key has its old value or none), except that a double inserted over an integer may show as
the integer with the same bits.  Every further history of calls is answered as `Spec` says, from that map on (but size and node_size may be wrong from then on, and there may be
superfluous nodes and lost blocks).  If the check of a conditional call fails the map is the old one.  Missing: the exception, see `C50_false`. -/
theorem C50_crash_partial {p : Pool} (hi : PrefixTree.Holds base F s h) (hs : Sim h p) (op : Op) (hok : op.ok s) (c : Nat) :
    ∃ p1 m', run Simple.repair (crashAt c (compile (PrefixTree.call add base op)) p) = (.ok (), p1) ∧ Cut add s.m op m' ∧
      ∀ ops : List Op, Guarded (Spec add) Op.ok (torn m') ops →
        ∃ rs p2 s2, run (compile (hist (PrefixTree.call add base) ops)) p1 = (.ok rs, p2) ∧ Trace (Spec add) (torn m') ops rs s2 := by
  have hcut := PrefixTree.cut (add := add) op s h hok hi
  have h0 : PrefixTree.Cr base (Cut add s.m op) h := by
    obtain ⟨⟨g, ni, nn, t, hm, -⟩, -⟩ := hi
    refine ⟨F, g, ni, nn, t, ?_⟩
    rw [hm]
    cases op with
    | insert => exact Or.inl rfl
    | insertResult k v c => cases v <;> exact Or.inl rfl
    | erase => exact Or.inl rfl
    | incr => exact Or.inl rfl
    | incrDouble => exact Or.inl rfl
    | clear => exact fun _ => Or.inl rfl
    | _ => exact rfl
  obtain ⟨h', ⟨F', g', ni', nn', t', hm'⟩, p1, hr, hs1⟩ := sim_crash hcut.wp (hcut.always h0) hs c
  refine ⟨p1, g'.kv, hr, hm', fun ops hg => ?_⟩
  obtain ⟨n, hn⟩ := hi.fin
  have hh : PrefixTree.Holds base F' (torn g'.kv) h' := ⟨⟨g', ni', nn', t', rfl, (fun h => by cases h), (fun h => by cases h), (fun h => by cases h)⟩, PrefixTree.cut_fin hm' hn, hs1.heapOk⟩
  obtain ⟨out, p2, h2, e1, ⟨rs, s2, rfl, e2, -⟩, -⟩ := sim_run (PrefixTree.history ops hg hh) hs1
  exact ⟨rs, p2, s2, e1, e2⟩

/-! ### C51 -/

/-- **C51 is false.** In a nearly full pool, an insert that fails to allocate the new string has already removed the old value. -/
theorem C51_false : ptRun 4096 [.insert [0] (.str [1, 2, 3, 4, 5, 6, 7, 8]) none, .insert [0] (.str (List.replicate 1700 1)) none, .type [0], .size] =
    .ok [.ok (.bool true), .err .noMem, .ok (.type .missing), .ok (.num 0)] := by
  decide +kernel

/-- **C51, the true part.** On any tree, if an insert throws it is for lack of memory, every other key keeps its value, and so does the key itself, unless it had a value and the new value is a string of 8 or more bytes or an
integer of more than 61 bits; then it may be gone.  Missing: that case, see `C51_false`. -/
theorem C51_failed_insert_partial (hi : PrefixTree.Holds base F s h) (k : Bytes) (v : Val) (c : Option Check) (hl : ∀ d, v = .str d → d.length ≤ 2 ^ 62) :
    wp (PrefixTree.call add base (.insert k v c)) (fun out h' => ∀ e, out = .err e → e = .noMem ∧ ∃ s', PrefixTree.Holds base F s' h' ∧ (∀ k', k' ≠ k → s'.m k' = s.m k') ∧
      (s'.m k = s.m k ∨ (s'.m k = none ∧ ((∃ d, v = .str d ∧ 8 ≤ d.length) ∨ ∃ x, v = .int x ∧ (x.toInt < -2 ^ 60 ∨ 2 ^ 60 ≤ x.toInt))))) h := by
  refine wp_mono ?_ (PrefixTree.step (add := add) (.insert k v c) s h hl hi)
  rintro out h' ⟨s', h1, hh⟩ e rfl
  rcases h1 with ⟨-, h2, -⟩ | ⟨-, h2, -⟩ | ⟨-, h2, m', rfl, h3⟩
  · cases h2
  · cases h2
  · injection h2 with h2; subst h2
    refine ⟨rfl, _, hh, ?_⟩
    rcases h3 with rfl | ⟨rfl, h3⟩
    · exact ⟨fun _ _ => rfl, Or.inl rfl⟩
    · exact ⟨fun k' hne => by simp [put, hne], Or.inr ⟨by simp [put], h3⟩⟩

/-! ### C52 -/

/-- the size of the buffer of a value -/
def bufSize : Val → Option Nat
  | .str d => some d.length
  | .int _ => some 8
  | .dbl _ => some 8
  | _ => none

/-- The heap has, besides the blocks `F`, exactly these: `node p`, the block of the node at path p (the root is in the base object), for all paths that need one (the proper prefixes of keys) and, if `clean`, for no others; and `buf k`, the buffer with the value of `k`, of exactly
its size, for keys with a value, in any case for strings of 8 or more bytes, integers of more than 61 bits and doubles other than zero.  No two are the same. -/
structure Blocks (base : Nat) (F : Nat → Option Block) (clean : Bool) (m : Map) (h : Heap) where
  node : Bytes → Option Nat
  buf : Bytes → Option Nat
  root : node [] = some base
  need : ∀ p, Inner m p → node p ≠ none
  only : clean = true → ∀ p, node p ≠ none → Inner m p
  closed : ∀ p b, node (p ++ [b]) ≠ none → node p ≠ none
  node_inj : ∀ p q x, node p = some x → node q = some x → p = q
  buf_inj : ∀ p q x, buf p = some x → buf q = some x → p = q
  disj : ∀ p q x, node p = some x → buf q ≠ some x
  node_live : ∀ p x, node p = some x → h.blk x ≠ none ∧ F x = none
  buf_live : ∀ k x, buf k = some x → F x = none ∧ ∃ v B, m k = some v ∧ h.blk x = some B ∧ bufSize v = some B.size
  long : ∀ k v, m k = some v → ((∃ d, v = .str d ∧ 8 ≤ d.length) ∨ (∃ x, v = .int x ∧ (x.toInt < -2 ^ 60 ∨ 2 ^ 60 ≤ x.toInt)) ∨ (∃ d, v = .dbl d ∧ d ≠ 0#64)) → buf k ≠ none
  rest : ∀ x, (∀ p, node p ≠ some x) → (∀ k, buf k ≠ some x) → h.blk x = F x

open scoped Classical in
theorem PrefixTree.Holds.blocks (hi : PrefixTree.Holds base F s h) : Nonempty (Blocks base F s.clean s.m h) := by
  obtain ⟨⟨g, ni, nn, t, hm, -, -, htt⟩, -⟩ := hi
  have hbuf : ∀ k x, (g.vl k).bind (fun cv => if PrefixTree.buf cv.1 = 0 then none else some (PrefixTree.buf cv.1)) = some x ↔ PrefixTree.Own g x (false, k) := by
    intro k x
    cases hk : g.vl k with
    | none => simp [PrefixTree.Own, hk]
    | some cv =>
      obtain ⟨c, v⟩ := cv
      simp only [PrefixTree.Own, hk, Option.bind_some, Option.some.injEq, Prod.mk.injEq]
      constructor
      · intro h1
        split at h1
        · cases h1
        · rename_i hz; injection h1 with h1; exact ⟨c, v, ⟨rfl, rfl⟩, h1, by rw [← h1]; exact hz⟩
      · rintro ⟨c', v', ⟨rfl, rfl⟩, h1, h2⟩
        rw [if_neg (by rw [h1]; exact h2), h1]
  have hnode : ∀ p x, (g.nd p).map PrefixTree.Hd.o = some x ↔ PrefixTree.Own g x (true, p) := by
    intro p x
    simp [PrefixTree.Own]
  refine ⟨⟨fun p => (g.nd p).map PrefixTree.Hd.o, fun k => (g.vl k).bind (fun cv => if PrefixTree.buf cv.1 = 0 then none else some (PrefixTree.buf cv.1)), ?_, ?_, ?_, ?_, ?_, ?_, ?_, ?_, ?_, ?_, ?_⟩⟩
  · rw [t.root]; rfl
  · intro p hp
    rw [← hm] at hp
    have := t.inner hp
    simpa using this
  · intro hc p hp
    rw [← hm, ← t.tight_inner (htt hc)]
    simpa using hp
  · intro p b hp
    have := t.parent (p := p) (r := [b]) (by simpa using hp)
    simpa using this
  · intro p q x h1 h2
    have := t.uniq x _ _ ((hnode p x).1 h1) ((hnode q x).1 h2)
    injection this
  · intro p q x h1 h2
    have := t.uniq x _ _ ((hbuf p x).1 h1) ((hbuf q x).1 h2)
    injection this
  · intro p q x h1 h2
    have := t.uniq x _ _ ((hnode p x).1 h1) ((hbuf q x).1 h2)
    injection this with h3; cases h3
  · intro p x h1
    have ho := (hnode p x).1 h1
    obtain ⟨B, hB⟩ := t.own_live ho
    exact ⟨by rw [hB]; simp, t.excl x _ ho⟩
  · intro k x h1
    have ho := (hbuf k x).1 h1
    refine ⟨t.excl x _ ho, ?_⟩
    obtain ⟨c, v, h2, h3, h4⟩ := ho
    obtain ⟨B, h5, h6⟩ := (t.val k c v h2).1.2.2.2 (by rw [h3]; exact h4)
    rw [h3] at h5
    refine ⟨v, B, by rw [← hm]; exact PrefixTree.kv_of h2, h5, ?_⟩
    cases v with
    | str d => exact congrArg some h6.1.symm
    | int d => exact congrArg some h6.1.symm
    | dbl d => exact congrArg some h6.1.symm
    | bool b => exact h6.elim
    | null => exact h6.elim
  · intro k v hk hlong
    rw [← hm] at hk
    obtain ⟨c, hc'⟩ := PrefixTree.kv_some hk
    have he := (t.val k c v hc').1
    have : PrefixTree.buf c ≠ 0 := by
      have hw := he.2.2.1
      unfold PrefixTree.buf PrefixTree.typeOf PrefixTree.valOf
      rcases hlong with ⟨d, rfl, hd⟩ | ⟨x, rfl, hd⟩ | ⟨d, rfl, hd⟩
      · rcases hw with ⟨-, h1⟩ | ⟨-, h1, -⟩ | ⟨h1, h2⟩
        · rw [h1] at hd; simp at hd
        · omega
        · rw [if_pos (Or.inl h1)]; omega
      · rcases hw with ⟨h1, -⟩ | ⟨h1, h2⟩
        · rw [(PrefixTree.fits_iff x).2 hd] at h1; cases h1
        · rw [if_pos (Or.inr (Or.inl h1))]; omega
      · rcases hw with ⟨-, h1⟩ | ⟨h1, h2⟩
        · exact absurd h1 hd
        · rw [if_pos (Or.inr (Or.inr h1))]; omega
    show (g.vl k).bind (fun cv => if PrefixTree.buf cv.1 = 0 then none else some (PrefixTree.buf cv.1)) ≠ none
    rw [hc']
    simp [this]
  · intro x h1 h2
    refine t.frame x ?_
    rintro ⟨b, p⟩ ho
    cases b with
    | true => exact h1 p ((hnode p x).2 ho)
    | false => exact h2 p ((hbuf p x).2 ho)

/-- **C52.** After any history of calls on a new tree, whatever the allocator does and whichever allocations it refuses: the allocator holds exactly the blocks it held before, the base object, one block per further node
(at least one for each nonempty proper prefix of a key) and at most one buffer per key, of exactly the size of its value.  If no call has failed for lack of memory since the last clear (`clean`), there are no nodes but
those for proper prefixes of keys; hence if the map is then empty (after clear, or when everything has been erased) only the base object is left. -/
theorem C52_blocks (add : BitVec 64 → BitVec 64 → BitVec 64) {h : Heap} (hk : HeapOk h) (ops : List Op) (hok : Guarded (Spec add) Op.ok new ops) :
    wp (PrefixTree.create.bind fun b => (hist (PrefixTree.call add b) ops).bind fun rs => .ret (b, rs))
      (fun out h' => out = .err .noMem ∨ ∃ b rs s, out = .ok (b, rs) ∧ Trace (Spec add) new ops rs s ∧ Nonempty (Blocks b h.blk s.clean s.m h') ∧
        (s.clean = true → (∀ k, s.m k = none) → ∀ x, x ≠ b → h'.blk x = h.blk x)) h := by
  refine wp_bind_of (wp_heapOk hk (PrefixTree.create_spec h).wp) ?_ ?_
  · rintro b h' ⟨(⟨h1, -⟩ | ⟨b', h1, -, t⟩), hk'⟩
    · cases h1
    · injection h1 with h1; subst h1
      refine wp_bind_of (PrefixTree.history ops hok (PrefixTree.holds_new t hk')) ?_ ?_
      · rintro rs h'' ⟨rs', s', h1, h2, h3⟩
        injection h1 with h1; subst h1
        have hb := h3.blocks
        refine Or.inr ⟨b, rs, s', rfl, h2, hb, fun hc he x hx => ?_⟩
        obtain ⟨B⟩ := hb
        refine B.rest x ?_ ?_
        · intro p hp
          rcases B.only hc p (by rw [hp]; simp) with rfl | ⟨r, -, h4⟩
          · rw [B.root] at hp; injection hp with hp; exact hx hp.symm
          · exact h4 (he _)
        · intro k hk2
          obtain ⟨-, v, -, h4, -⟩ := B.buf_live k x hk2
          rw [he k] at h4; cases h4
      · rintro e h'' ⟨rs', s', h1, -⟩; cases h1
  · rintro e h' ⟨(⟨h1, -⟩ | ⟨b', h1, -⟩), -⟩
    · injection h1 with h1; subst h1; exact Or.inl rfl
    · cases h1

/-- clear does leave nothing behind: the allocator's byte count is that of the new tree -/
example : (run Simple.bytesAllocated (run (compile (hist (PrefixTree.call noAdd 344)
      [.insert [0, 1, 2] (.str (List.replicate 9 7)) none, .insert [0] (.int 4611686018427387904#64) none, .insert [0] (.dbl 1#64) none, .clear])) (ptPool 0)).2).1 = .ok 2080 := by
  decide +kernel

end

/-! ### C19 -/

/-- **C19, PrefixTree.** Threads of any number of processes call the methods of one prefix tree on one pool at the same time, each call under the allocator's lock; their memory accesses interleave in any way, and no process dies.
The finished calls, in the order they finished, have the results of a sequential map.  Calls: insert (with or without check), erase, incr, clear, at, type, exists, size, node counts, find, and the first key; excluded are calls that are not covered in every
state (`Op.free`), and iterations (`_hit`), which are many calls, each under its own lock. -/
theorem C19_prefixtree_concurrent_partial {add : BitVec 64 → BitVec 64 → BitVec 64} {base : Nat} {F : Nat → Option Block} {st0 : State} {h0 : Heap} {p0 : Pool}
    {calls : Nat → List Op} (_hit : ∀ t, Op.items ∉ calls t) (hok : ∀ t, ∀ o ∈ calls t, o.free)
    (hi0 : PrefixTree.Holds base F st0 h0) (hs0 : Sim h0 p0) {pid : Nat → Nat} {fuel : Nat} (hp : PidsOk pid) {s0 s : St (poolMach (Out Ret))}
    (hi : Init pid fuel (fun t => (calls t).map (callSession (PrefixTree.call add base) Op.writes .unit)) p0 s0)
    (hr : Reach pid s0 s) (hal : ∀ t, s.alive (pid t) = true) :
    ∃ (ops : List Op) (rs : List (Out Ret)) (st : State), Trace (Spec add) st0 ops rs st ∧
      s.log.map (fun e => (e.2.2.1, e.2.2.2)) = (ops.zip rs).map (fun x => (methodBody (PrefixTree.call add base) x.1, Res.ok x.2)) ∧ ops.length = rs.length ∧
      ((∀ t n, s.st t ≠ some (.write n)) → ∃ h, PrefixTree.Holds base F st h ∧ Sim h s.mem) :=
  concurrent_calls (writes := Op.writes) (fun s o h h1 h2 => PrefixTree.step o s h h1.ok h2) (fun o ho => (PrefixTree.ro_call o ho).body) hok hi0 hs0 hp hi hr hal

/-- the hypotheses of `C19_prefixtree_concurrent_partial` (and, with any tree, of the single-call theorems above) are met by a tree created on a fresh pool and two processes -/
example : ∃ h hp, PrefixTree.Holds 344 hp new h ∧ Sim h (ptPool 0) ∧ PidsOk (fun t => t % 2 + 1) ∧
    ∃ s0, Init (fun t => t % 2 + 1) 10 (fun t => (if t = 0 then [Op.insert [0] .null none, .insert [0, 4] (.int 7) (some ([4], .missing))] else if t = 1 then [.at [4], .size] else []).map
      (callSession (PrefixTree.call noAdd 344) Op.writes .unit)) (ptPool 0) s0 := by
  obtain ⟨h, hp, h1, h2⟩ := ptPool_ready
  generalize ptPool 0 = P at h2 ⊢
  exact ⟨h, hp, h1, h2, fun t => ⟨Nat.succ_ne_zero _, by show t % 2 + 1 < 2 ^ 18; omega⟩,
    ⟨fun _ => 0, fun _ => true, P, [], fun t => thread 10 (t % 2 + 1) _, fun _ => none, fun _ => none, fun _ => 0⟩,
    ⟨fun _ => rfl, rfl, rfl, fun _ => rfl, fun _ => rfl, fun _ => rfl, fun _ => rfl⟩⟩

end Verif
