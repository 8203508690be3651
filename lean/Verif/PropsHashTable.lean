import Verif.HashTableFoot
import Verif.ReadOnly
/-
C34-C40 and C19: HashTable (/repo/src/HashTable.{hh,cc}).  The specification is `HT.Spec` (HashTableStep.lean).
-/
namespace Verif
open HashTable (Pairs get put del keys Check)
open HT Lock

namespace HashTable
theorem specL {F : Fp} : ∀ (s : Pairs × List Nat) (o : Op) r (s' : Pairs × List Nat), SpecL F s o r s' → Spec F s.1 o r s'.1 := fun _ _ _ _ h => h.1

/-- a history, on the heap -/
theorem history {hash : Bytes → Nat} {F : Fp} {base slots bits : Nat} {G : Nat → Option Block} (ops : List Op) {m : Pairs} {lk : List Nat} {h : Heap}
    (hok : Guarded (Spec F) (Op.ok hash bits) m ops) (hi : Table hash base slots bits G m lk h) :
    wp (hist (call hash F base) ops) (fun out h' => ∃ rs m' lk', out = .ok rs ∧ Trace (Spec F) m ops rs m' ∧ ((∀ r ∈ rs, r ≠ .err .noMem) → lk' = lk) ∧
      Table hash base slots bits G m' lk' h') h := by
  have key : ∀ {s s' : Pairs × List Nat} {ops rs}, Trace (SpecL F) s ops rs s' → (∀ r ∈ rs, r ≠ .err .noMem) → s'.2 = s.2 := by
    intro s s' ops rs t
    induction t with
    | nil => intro _; rfl
    | cons h1 _ ih => intro h; rw [ih (fun r hr => h r (by simp [hr])), h1.2 (h _ (by simp))]
  refine wp_mono ?_ (hist_guarded (f := call hash F base) (Spec := SpecL F) (Inv := fun s h => Table hash base slots bits G s.1 s.2 h)
    (ok := fun s o => o.ok hash bits s.1) (fun s o h h1 h2 => step o s h h1 h2) ops (m, lk) h (Guarded.map (f := Prod.fst) specL hok) hi)
  rintro out h' ⟨rs, s', h1, h2, h3⟩
  exact ⟨rs, s'.1, s'.2, h1, Trace.map (f := Prod.fst) specL h2, key h2, h3⟩

/-- no two of the keys `K` have the same slot -/
def Apart (hash : Bytes → Nat) (bits : Nat) (K : Bytes → Prop) : Prop := ∀ k k', K k → K k' → hash k % 2 ^ bits = hash k' % 2 ^ bits → k = k'
end HashTable

namespace HT
/-- the operation uses keys of `K` only, and not too long ones -/
def Op.within (K : Bytes → Prop) : Op → Prop
  | .insert k v _ => K k ∧ k.length + v.length ≤ 2 ^ 62
  | .erase k _ => K k
  | .incr k _ => K k ∧ k.length + 8 ≤ 2 ^ 62
  | .incrDouble k _ => K k ∧ k.length + 8 ≤ 2 ^ 62
  | _ => True

theorem slot_small {hash : Bytes → Nat} {bits : Nat} {K : Bytes → Prop} (ha : HashTable.Apart hash bits K) {m : Pairs} (hn : (keys m).Nodup)
    (hm : ∀ k ∈ keys m, K k) {k : Bytes} (hk : K k) : (slot hash bits m k).length ≤ 1 := by
  have hsub : keys (slot hash bits m k) ⊆ [k] := by
    intro x hx
    obtain ⟨e, he, rfl⟩ := List.mem_map.1 hx
    obtain ⟨h1, h2⟩ := List.mem_filter.1 he
    rw [List.mem_singleton]
    exact ha _ _ (hm _ (List.mem_map.2 ⟨e, h1, rfl⟩)) hk (by simpa using h2)
  have hnd : (keys (slot hash bits m k)).Nodup := hn.sublist (List.Sublist.map _ List.filter_sublist)
  have := (hnd.subperm hsub).length_le
  simpa [keys] using this

theorem Op.within.ok {hash : Bytes → Nat} {bits : Nat} {K : Bytes → Prop} (ha : HashTable.Apart hash bits K) {m : Pairs} (hn : (keys m).Nodup)
    (hm : ∀ k ∈ keys m, K k) {o : Op} (ho : o.within K) : o.ok hash bits m := by
  cases o with
  | insert k v c => exact ho.2
  | erase k c =>
    intro _
    have := slot_small ha hn hm ho
    rcases Nat.lt_or_ge 0 (slot hash bits m k).length with h | h
    · exact Or.inr (Or.inl (by omega))
    · refine Or.inl ?_
      rw [List.eq_nil_of_length_eq_zero (by omega : (slot hash bits m k).length = 0)]
      simp [keys]
  | incr k d => exact ⟨ho.2, slot_small ha hn hm ho.1⟩
  | incrDouble k d => exact ⟨ho.2, slot_small ha hn hm ho.1⟩
  | _ => trivial

theorem Spec.keys {F : Fp} {K : Bytes → Prop} {m m' : Pairs} {o : Op} {r : Out Ret} (h : Spec F m o r m') (ho : o.within K) (hm : (keys m).Nodup ∧ ∀ k ∈ keys m, K k) :
    (HashTable.keys m').Nodup ∧ ∀ k ∈ HashTable.keys m', K k := by
  have hput : ∀ k v, K k → (HashTable.keys (put m k v)).Nodup ∧ ∀ k' ∈ HashTable.keys (put m k v), K k' := by
    intro k v hk
    refine ⟨HashTable.nodup_put hm.1, ?_⟩
    intro k' hk'
    rw [HashTable.keys_put] at hk'
    split at hk'
    · exact hm.2 _ hk'
    · rcases List.mem_append.1 hk' with h | h
      · exact hm.2 _ h
      · rw [List.mem_singleton.1 h]; exact hk
  cases o with
  | insert k v c =>
    rcases h with ⟨-, -, rfl⟩ | ⟨-, -, rfl⟩ | ⟨-, -, rfl⟩
    · exact hput _ _ ho.1
    · exact hm
    · exact hm
  | erase k c =>
    rcases h with ⟨-, -, -, rfl⟩ | ⟨-, -, rfl⟩
    · refine ⟨HashTable.nodup_del hm.1, ?_⟩
      intro k' hk'
      obtain ⟨e, he, rfl⟩ := List.mem_map.1 hk'
      exact hm.2 _ (List.mem_map.2 ⟨e, (List.mem_filter.1 he).1, rfl⟩)
    · exact hm
  | incr k d =>
    simp only [Spec] at h
    split at h
    · rcases h with ⟨-, rfl⟩ | ⟨-, rfl⟩
      · exact hput _ _ ho.1
      · exact hm
    · split at h
      · rw [h.2]; exact hput _ _ ho.1
      · rw [h.2]; exact hm
  | incrDouble k d =>
    simp only [Spec] at h
    split at h
    · rcases h with ⟨-, rfl⟩ | ⟨-, rfl⟩
      · exact hput _ _ ho.1
      · exact hm
    · split at h
      · rw [h.2]; exact hput _ _ ho.1
      · rw [h.2]; exact hm
  | clear => rw [h.1]; exact ⟨List.nodup_nil, fun _ h => by cases h⟩
  | _ => rw [h.1]; exact hm

theorem guarded_apart {F : Fp} {hash : Bytes → Nat} {bits : Nat} {K : Bytes → Prop} (ha : HashTable.Apart hash bits K) {ops : List Op} (ho : ∀ o ∈ ops, o.within K) :
    ∀ {m : Pairs}, ((keys m).Nodup ∧ ∀ k ∈ keys m, K k) → Guarded (Spec F) (Op.ok hash bits) m ops := by
  induction ops with
  | nil => intro m _; trivial
  | cons o os ih =>
    intro m hm
    exact ⟨(ho o (by simp)).ok ha hm.1 hm.2, fun r m' hs => ih (fun o h => ho o (by simp [h])) (hs.keys (ho o (by simp)) hm)⟩
end HT

/-! ### C34 -/

/-- **C34, C38, C40 for every lawful allocator and every hash function.** Whatever offsets the allocator returns, whichever allocations it refuses and however keys
collide, a new hash table answers every sequence of insert (with or without check), at, exists, size, clear and iterations as a map that started empty; an insert
that fails for lack of memory leaves the map as it was. -/
theorem C34_map_any_allocator (hash : Bytes → Nat) (F : Fp) (bits : Nat) (hb : 2 ≤ bits) (hb2 : bits < 31) (h : Heap) (ops : List Op) (hok : ∀ o ∈ ops, o.free) :
    wp ((HashTable.create bits).bind fun b => hist (HashTable.call hash F b) ops)
      (fun out _ => out = .err .noMem ∨ ∃ rs m, out = .ok rs ∧ Trace (Spec F) [] ops rs m) h := by
  refine wp_bind_of (HashTable.create_spec (hash := hash) h hb hb2) ?_ ?_
  · rintro b h' (⟨h1, -⟩ | ⟨b', sl, h1, -, ht⟩)
    · cases h1
    · injection h1 with h1; subst h1
      refine wp_mono ?_ (HashTable.history ops (Guarded.of_all (fun o ho m => (hok o ho).ok) _) ht)
      rintro out h'' ⟨rs, m', lk', h1, h2, -⟩
      exact Or.inr ⟨rs, m', h1, h2⟩
  · rintro e h' (⟨h1, -⟩ | ⟨b', sl, h1, -⟩)
    · injection h1 with h1; subst h1; exact Or.inl rfl
    · cases h1

/-- a history of guarded calls in a pool, and what it does to the blocks of other clients -/
theorem HashTable.on_pool (hash : Bytes → Nat) (F : Fp) (bits : Nat) (hb : 2 ≤ bits) (hb2 : bits < 31)
    {p0 p : Pool} {live lk : List (Nat × Nat)} {ex : Bool} (h : Hist p0 p live lk ex) :
    (∃ p1, run (compile (HashTable.create bits)) p = (.err .noMem, p1)) ∨
    ∃ b p1, run (compile (HashTable.create bits)) p = (.ok b, p1) ∧ ∀ ops : List Op, Guarded (Spec F) (Op.ok hash bits) [] ops →
      ∃ rs p2 m, run (compile (hist (HashTable.call hash F b) ops)) p1 = (.ok rs, p2) ∧ Trace (Spec F) [] ops rs m ∧
        ∀ o n, (o, n) ∈ live → ∀ i, i < n → p2.mem (o + i) = p.mem (o + i) := by
  obtain ⟨hp, hs, hl⟩ := h.sim
  obtain ⟨out, p1, h1, hr, hq, hs1⟩ := sim_run (HashTable.create_spec (hash := hash) hp hb hb2) hs
  rcases hq with ⟨rfl, -⟩ | ⟨b, sl, rfl, -, ht⟩
  · exact Or.inl ⟨p1, hr⟩
  · refine Or.inr ⟨b, p1, hr, ?_⟩
    intro ops hok
    obtain ⟨out, p2, h2, e1, ⟨rs, m, lk', rfl, e2, -, bk, r, -⟩, hs2⟩ := sim_run (HashTable.history ops hok ht) hs1
    refine ⟨rs, p2, m, e1, e2, ?_⟩
    intro o n hm i hi
    obtain ⟨B, hB, rfl, hd⟩ := hl o n hm
    have hfr := r.frame o
    rw [hB] at hfr
    split at hfr
    · cases hfr
    · obtain ⟨L2, hS2, hh2⟩ := hs2
      rw [(hh2.blk o B hfr.symm).2.2 i hi, hd i]

/-- **C34, C38, C40 on bytes.** In a pool with any history of SimpleAllocator calls (including crashes), a new hash table with 2^bits slots answers every sequence
of insert (with or without check), at, exists, size, clear and iterations as a map that started empty, for every hash function; no call touches the
bytes of blocks that other clients hold. -/
theorem C34_map_on_pool (hash : Bytes → Nat) (F : Fp) (bits : Nat) (hb : 2 ≤ bits) (hb2 : bits < 31)
    {p0 p : Pool} {live lk : List (Nat × Nat)} {ex : Bool} (h : Hist p0 p live lk ex) :
    (∃ p1, run (compile (HashTable.create bits)) p = (.err .noMem, p1)) ∨
    ∃ b p1, run (compile (HashTable.create bits)) p = (.ok b, p1) ∧ ∀ ops : List Op, (∀ o ∈ ops, o.free) →
      ∃ rs p2 m, run (compile (hist (HashTable.call hash F b) ops)) p1 = (.ok rs, p2) ∧ Trace (Spec F) [] ops rs m ∧
        ∀ o n, (o, n) ∈ live → ∀ i, i < n → p2.mem (o + i) = p.mem (o + i) := by
  rcases HashTable.on_pool hash F bits hb hb2 h with h1 | ⟨b, p1, h1, h2⟩
  · exact Or.inl h1
  · exact Or.inr ⟨b, p1, h1, fun ops hok => h2 ops (Guarded.of_all (fun o ho m => (hok o ho).ok) _)⟩

/-- the pool of a hash table with 4 slots just created on a fresh pool that can grow to `max` bytes (0: no limit) -/
def htPool (max : Nat) : Pool := (run (compile (HashTable.create 2)) (run Simple.init (newPool max)).2).2

/-- some floating-point arithmetic, for concrete runs that use none -/
def noFp : Fp := ⟨fun _ _ _ => 0, fun _ _ => 0⟩

/-- run a list of calls on that table, with the real hash function (in which [0], [4], [8] have the same slot) -/
def htRun (max : Nat) (ops : List Op) : Res (List (Out Ret)) := (run (compile (hist (HashTable.call HashTable.fnv1a64 noFp 344) ops)) (htPool max)).1

/-- a concrete run with collisions, overwriting, checks that pass and fail, the empty key, and iteration -/
example : (run (compile (HashTable.create 2)) (run Simple.init (newPool 0)).2).1 = .ok 344 ∧
    htRun 0 [.insert [0] [10] none, .insert [4] [] none, .insert [8] [1, 2] none, .insert [4] [7] (some ([0], some [10])), .insert [0] [] (some ([9], some [])),
      .insert [] [5] (some ([], none)), .at [4], .at [5], .exists [], .exists [1], .size, .items, .clear, .size, .at [0]] =
    .ok [.ok (.bool true), .ok (.bool true), .ok (.bool true), .ok (.bool true), .ok (.bool false), .ok (.bool true), .ok (.str [7]), .err .outOfRange, .ok (.bool true),
      .ok (.bool false), .ok (.num 4), .ok (.list [([], [5]), ([0], [10]), ([4], [7]), ([8], [1, 2])]), .ok .unit, .ok (.num 0), .err .outOfRange] := by
  decide +kernel

/-! ### C35 -/

/-- **C35 is false.** After inserting three keys of one slot and erasing the first, neither of the other two is there any more, though size says 2. -/
theorem C35_false : htRun 0 [.insert [0] [10] none, .insert [4] [14] none, .insert [8] [18] none, .erase [0] none, .size, .exists [4], .at [8]] =
    .ok [.ok (.bool true), .ok (.bool true), .ok (.bool true), .ok (.bool true), .ok (.num 2), .ok (.bool false), .err .outOfRange] := by
  decide +kernel

/-- **C35 is false also for the younger of two keys**, when the block of the older one happens to lie at a multiple of 256: `erase` then looks for the end of the list one byte
past the list item, takes the low byte of the older key's address for it, and goes on with what it finds outside of its blocks (undefined behaviour).  At any other address this
erase leaves a list of one item, which is right as far as the map goes. -/
theorem C35_false_younger : htRun 0 [.insert [1] [] none, .insert [0] [10] none, .insert [4] [1] none, .erase [4] none] = .ub ∧
    htRun 0 [.insert [1] [1, 2, 3, 4, 5, 6, 7, 8] none, .insert [0] [10] none, .insert [4] [1] none, .erase [4] none, .exists [4], .at [0]] =
      .ok [.ok (.bool true), .ok (.bool true), .ok (.bool true), .ok (.bool true), .ok (.bool false), .ok (.str [10])] := by
  decide +kernel

/-- **C35, C36, C37, the true part.** A new hash table answers every sequence of calls, including erase and incr, as a map that started empty, provided that
each erase that passes its check and each incr is made when the slot of its key allows it (`Op.ok`: for erase, the key is absent, alone in its slot, the older of
two, or not the oldest of three or more; for incr, no other key is in the slot).  Missing: the other cases, which are false by `C35_false`, `C35_false_younger`
and `C37_false`. -/
theorem C35_erase_guarded_partial (hash : Bytes → Nat) (F : Fp) (bits : Nat) (hb : 2 ≤ bits) (hb2 : bits < 31)
    {p0 p : Pool} {live lk : List (Nat × Nat)} {ex : Bool} (h : Hist p0 p live lk ex) :
    (∃ p1, run (compile (HashTable.create bits)) p = (.err .noMem, p1)) ∨
    ∃ b p1, run (compile (HashTable.create bits)) p = (.ok b, p1) ∧ ∀ ops : List Op, Guarded (Spec F) (Op.ok hash bits) [] ops →
      ∃ rs p2 m, run (compile (hist (HashTable.call hash F b) ops)) p1 = (.ok rs, p2) ∧ Trace (Spec F) [] ops rs m ∧
        ∀ o n, (o, n) ∈ live → ∀ i, i < n → p2.mem (o + i) = p.mem (o + i) :=
  HashTable.on_pool hash F bits hb hb2 h

/-- **C35, one call.** On any hash table holding the pairs `m`, in the cases `eraseSafe`, erase returns whether the key was present and the check passed, and afterwards the
table holds `m` without the key: by `get_del`, every other key has its old value.  All other blocks (`G`) are as before. -/
theorem C35_erase_partial {hash : Bytes → Nat} {base slots bits : Nat} {G : Nat → Option Block} {m : Pairs} {lk : List Nat} {h : Heap} {k : Bytes} {c : Option Check}
    (t : HashTable.Table hash base slots bits G m lk h) (hsafe : HashTable.eraseSafe (slot hash bits m k) k) :
    wp (HashTable.erase hash base k c) (fun out h' => (out = .ok true ↔ passes m c ∧ ∃ v, get m k = some v) ∧ (out = .ok true ∨ out = .ok false) ∧
      ∃ m', HashTable.Table hash base slots bits G m' lk h' ∧ (out = .ok false → h' = h) ∧
        ∀ k', get m' k' = if out = .ok true ∧ k' = k then none else get m k') h := by
  refine wp_mono ?_ (HashTable.erase_spec t (k := k) (c := c) (fun _ => hsafe))
  rintro out h' (⟨h1, rfl, rfl⟩ | ⟨h1, h2, rfl, rfl⟩ | ⟨h1, h2, rfl, h4⟩)
  · refine ⟨⟨by simp, fun h => ?_⟩, Or.inr rfl, m, t, fun _ => rfl, by simp⟩
    rw [passes_iff, h1] at h; simp at h
  · refine ⟨⟨by simp, fun h => ?_⟩, Or.inr rfl, m, t, fun _ => rfl, by simp⟩
    rw [← HashTable.mem_keys_iff] at h; exact absurd h.2 h2
  · refine ⟨⟨fun _ => ⟨by rw [passes_iff, h1], (HashTable.mem_keys_iff _ _).1 h2⟩, fun _ => rfl⟩, Or.inl rfl, del m k, h4, (fun h => by cases h), ?_⟩
    intro k'
    rw [HashTable.get_del]; simp

/-- **C35, C36, C37 without collisions.** If no two of the keys that inserts, erases and incrs of a history use have the same slot, every history of all methods is right. -/
theorem C35_no_collisions_partial (hash : Bytes → Nat) (F : Fp) (bits : Nat) (hb : 2 ≤ bits) (hb2 : bits < 31) {K : Bytes → Prop} (ha : HashTable.Apart hash bits K)
    {p0 p : Pool} {live lk : List (Nat × Nat)} {ex : Bool} (h : Hist p0 p live lk ex) :
    (∃ p1, run (compile (HashTable.create bits)) p = (.err .noMem, p1)) ∨
    ∃ b p1, run (compile (HashTable.create bits)) p = (.ok b, p1) ∧ ∀ ops : List Op, (∀ o ∈ ops, o.within K) →
      ∃ rs p2 m, run (compile (hist (HashTable.call hash F b) ops)) p1 = (.ok rs, p2) ∧ Trace (Spec F) [] ops rs m ∧
        ∀ o n, (o, n) ∈ live → ∀ i, i < n → p2.mem (o + i) = p.mem (o + i) := by
  rcases HashTable.on_pool hash F bits hb hb2 h with h1 | ⟨b, p1, h1, h2⟩
  · exact Or.inl h1
  · exact Or.inr ⟨b, p1, h1, fun ops hok => h2 ops (guarded_apart ha hok ⟨List.nodup_nil, fun _ h => by cases h⟩)⟩

/-- the hypothesis of `C35_no_collisions_partial` is met by the keys [0], [1], [2], [3] with four slots -/
example : HashTable.Apart HashTable.fnv1a64 2 (fun k => k ∈ [[0], [1], [2], [3]]) := by
  intro k k' h h'
  have : ∀ k ∈ [[0], [1], [2], ([3] : Bytes)], ∀ k' ∈ [[0], [1], [2], ([3] : Bytes)],
      HashTable.fnv1a64 k % 2 ^ 2 = HashTable.fnv1a64 k' % 2 ^ 2 → k = k' := by decide +kernel
  exact this k h k' h'

/-- a concrete run: erasing where it works (alone, the second of three), failing checks, incr with wrap-around and wrong sizes -/
example : htRun 0 [.insert [0] [10] none, .insert [4] [14] none, .insert [8] [18] none, .erase [4] (some ([0], some [11])), .erase [4] none, .erase [4] none, .at [0], .at [8],
      .insert [1] [250] none, .incr [1] 10, .at [1], .incr [2] (-3), .at [2], .insert [3] [1, 2, 3] none, .incr [3] 1, .erase [1] (some ([9], none)), .exists [1]] =
    .ok [.ok (.bool true), .ok (.bool true), .ok (.bool true), .ok (.bool false), .ok (.bool true), .ok (.bool false), .ok (.str [10]), .ok (.str [18]),
      .ok (.bool true), .ok (.word 4), .ok (.str [4]), .ok (.word (-3)), .ok (.str [253, 255, 255, 255, 255, 255, 255, 255]), .ok (.bool true), .err .outOfRange,
      .ok (.bool true), .ok (.bool false)] := by
  decide +kernel

/-! ### C36 -/

/-- **C36, check-and-set.** On any hash table holding `m`, an insert with a check returns true exactly when the checked key has the requested value (or is absent, as
requested) and then stores the pair and changes no other; it returns false exactly when not, and then changes no byte of the heap; it throws only for lack of memory, and then the
table holds the same pairs. -/
theorem C36_check_and_set {hash : Bytes → Nat} {base slots bits : Nat} {G : Nat → Option Block} {m : Pairs} {lk : List Nat} {h : Heap} {k v : Bytes} {ck : Bytes} {cv : Option Bytes}
    (t : HashTable.Table hash base slots bits G m lk h) (hl : k.length + v.length ≤ 2 ^ 62) :
    wp (HashTable.insert hash base k v (some (ck, cv))) (fun out h' =>
      (get m ck ≠ cv ∧ out = .ok false ∧ h' = h) ∨
      (get m ck = cv ∧ out = .ok true ∧ ∃ m', HashTable.Table hash base slots bits G m' lk h' ∧ ∀ k', get m' k' = if k' = k then some v else get m k') ∨
      (get m ck = cv ∧ out = .err .noMem ∧ ∃ lk', HashTable.Table hash base slots bits G m lk' h')) h := by
  refine wp_mono ?_ (HashTable.insert_spec t (k := k) (v := v) (c := some (ck, cv)) (by omega))
  rintro out h' (⟨h1, rfl, rfl⟩ | ⟨h1, rfl, h3⟩ | ⟨h1, rfl, h3⟩)
  · exact Or.inl ⟨by simpa [HashTable.checkAll, HashTable.checkVal] using h1, rfl, rfl⟩
  · exact Or.inr (Or.inl ⟨by simpa [HashTable.checkAll, HashTable.checkVal] using h1, rfl, _, h3, HashTable.get_put m k v⟩)
  · exact Or.inr (Or.inr ⟨by simpa [HashTable.checkAll, HashTable.checkVal] using h1, rfl, h3⟩)

/-- **C36, check-and-delete.** An erase whose check fails returns false and changes no byte, on any table and without any condition on slots.  When the check passes it is an
erase without check (the part that can go wrong as in `C35_false`). -/
theorem C36_check_and_delete_partial {hash : Bytes → Nat} {base slots bits : Nat} {G : Nat → Option Block} {m : Pairs} {lk : List Nat} {h : Heap} {k ck : Bytes} {cv : Option Bytes}
    (t : HashTable.Table hash base slots bits G m lk h) :
    (get m ck ≠ cv → wp (HashTable.erase hash base k (some (ck, cv))) (fun out h' => out = .ok false ∧ h' = h) h) ∧
    (get m ck = cv → HashTable.eraseSafe (slot hash bits m k) k → wp (HashTable.erase hash base k (some (ck, cv)))
      (fun out h' => out = .ok (get m k).isSome ∧ ∃ m', HashTable.Table hash base slots bits G m' lk h' ∧ ∀ k', get m' k' = if k' = k then none else get m k') h) := by
  constructor
  · intro hne
    refine wp_mono ?_ (HashTable.erase_spec t (k := k) (c := some (ck, cv)) (fun hc => absurd (by simpa [HashTable.checkAll, HashTable.checkVal] using hc) hne))
    rintro out h' (⟨h1, rfl, rfl⟩ | ⟨h1, -⟩ | ⟨h1, -⟩)
    · exact ⟨rfl, rfl⟩
    · exact absurd (by simpa [HashTable.checkAll, HashTable.checkVal] using h1) hne
    · exact absurd (by simpa [HashTable.checkAll, HashTable.checkVal] using h1) hne
  · intro he hs
    refine wp_mono ?_ (HashTable.erase_spec t (k := k) (c := some (ck, cv)) (fun _ => hs))
    rintro out h' (⟨h1, rfl, rfl⟩ | ⟨h1, h2, rfl, rfl⟩ | ⟨h1, h2, rfl, h4⟩)
    · exfalso; simp [HashTable.checkAll, HashTable.checkVal] at h1; exact h1 he
    · have hn := HashTable.get_none.2 h2
      refine ⟨by rw [hn]; rfl, m, t, fun k' => ?_⟩
      split
      · rename_i e; rw [e, hn]
      · rfl
    · obtain ⟨v, hv⟩ := (HashTable.mem_keys_iff _ _).1 h2
      exact ⟨by rw [hv]; rfl, _, h4, HashTable.get_del m k⟩

/-! ### C37 -/

/-- **C37 is false.** incr of a key that shares its slot with another key returns a number that has nothing to do with its value, and does not change it
(instead it changes memory elsewhere). -/
theorem C37_false : htRun 0 [.insert [0] [10] none, .insert [4] [1] none, .incr [4] 5, .at [4]] =
    .ok [.ok (.bool true), .ok (.bool true), .ok (.word 5), .ok (.str [1])] := by
  decide +kernel

/-- **C37, the true part.** On any hash table holding `m`, for a key whose slot holds no other key: incr of an absent key stores the 8 bytes of `d` and returns d; of a key with a value of 1, 2, 4 or 8 bytes
stores the sum modulo 2^width in the same width and returns it sign-extended; with a value of another size throws and changes no byte; if it fails for lack of
memory, the table holds the same pairs.  All other keys keep their values.  Missing: keys that share a slot, for which it is false. -/
theorem C37_incr_partial {hash : Bytes → Nat} {base slots bits : Nat} {G : Nat → Option Block} {m : Pairs} {lk : List Nat} {h : Heap} {k : Bytes} {d : BitVec 64}
    (t : HashTable.Table hash base slots bits G m lk h) (hl : k.length + 8 ≤ 2 ^ 62) (hs : (slot hash bits m k).length ≤ 1) :
    wp (HashTable.call hash noFp base (.incr k d)) (fun out h' => ∃ m' lk', HashTable.Table hash base slots bits G m' lk' h' ∧ (∀ k', k' ≠ k → get m' k' = get m k') ∧
      ((get m k = none ∧ out = .ok (.word d) ∧ get m' k = some (natLe 8 d.toNat)) ∨
       (get m k = none ∧ out = .err .noMem ∧ get m' k = none) ∨
       (∃ v, get m k = some v ∧ v.length ∈ [1, 2, 4, 8] ∧ ∃ x : BitVec (8 * v.length), x = BitVec.ofNat _ (leNat v) + d.setWidth _ ∧
          out = .ok (.word (x.signExtend 64)) ∧ get m' k = some (natLe v.length x.toNat)) ∨
       (∃ v, get m k = some v ∧ v.length ∉ [1, 2, 4, 8] ∧ out = .err .outOfRange ∧ get m' k = some v))) h := by
  refine wp_mono ?_ (HashTable.step (F := noFp) (.incr k d) (m, lk) h ⟨hl, hs⟩ t)
  rintro out h' ⟨⟨m', lk'⟩, ⟨h1, -⟩, h2⟩
  refine ⟨m', lk', h2, ?_⟩
  simp only [Spec] at h1
  split at h1
  · rename_i hg
    rcases h1 with ⟨rfl, rfl⟩ | ⟨rfl, rfl⟩
    · exact ⟨fun k' hk => by rw [HashTable.get_put, if_neg hk], Or.inl ⟨hg, rfl, by rw [HashTable.get_put, if_pos rfl]⟩⟩
    · exact ⟨fun k' hk => rfl, Or.inr (Or.inl ⟨hg, rfl, hg⟩)⟩
  · rename_i v hg
    split at h1
    · rename_i hv
      obtain ⟨rfl, rfl⟩ := h1
      exact ⟨fun k' hk => by rw [HashTable.get_put, if_neg hk], Or.inr (Or.inr (Or.inl ⟨v, hg, hv, _, rfl, rfl, by rw [HashTable.get_put, if_pos rfl]; rfl⟩))⟩
    · rename_i hv
      obtain ⟨rfl, rfl⟩ := h1
      exact ⟨fun k' hk => rfl, Or.inr (Or.inr (Or.inr ⟨v, hg, hv, rfl, hg⟩))⟩

/-! ### C38 -/

/-- **C38.** Iterating over any hash table holding `m` visits every pair exactly once: the visited keys are distinct, and a pair is visited exactly if it is in the map.
No byte of the heap changes. -/
theorem C38_iteration {hash : Bytes → Nat} {base slots bits : Nat} {G : Nat → Option Block} {m : Pairs} {lk : List Nat} {h : Heap}
    (t : HashTable.Table hash base slots bits G m lk h) :
    wp (HashTable.items base) (fun out h' => h' = h ∧ ∃ l : List (Bytes × Bytes), out = .ok l ∧ l.length = m.length ∧ (l.map (·.1)).Nodup ∧
      ∀ k v, (k, v) ∈ l ↔ get m k = some v) h := by
  refine wp_mono ?_ (HashTable.items_spec t)
  rintro out h' ⟨l, h1, h2, h3⟩
  obtain ⟨bk, -, -, hn⟩ := t
  exact ⟨h3, l, h1, h2.length_eq, (h2.map _).nodup_iff.2 hn, fun k v => by rw [h2.mem_iff]; exact HashTable.mem_iff_get hn k v⟩

/-! ### C39 -/

/-- the pool with `n` bytes allocated by another client after the table was created -/
def htFull (n : Nat) : Pool := (run (compile (H.alloc n)) (htPool 4096)).2

/-- **C39 is false.** In a pool of 4096 bytes that is nearly full, an insert that fails when it allocates a chain link leaves its 88-byte pair allocated for ever: clearing
the table frees all but the 88 bytes of the base object and slot table, the 3500 bytes of another client, and these 88 bytes. -/
theorem C39_false :
    (run (compile (hist (HashTable.call HashTable.fnv1a64 noFp 344) [.insert [0] [1] none, .insert [4] (List.replicate 87 0) none, .clear])) (htFull 3460)).1 =
      .ok [.ok (.bool true), .err .noMem, .ok .unit] ∧
    (run Simple.bytesAllocated (run (compile (hist (HashTable.call HashTable.fnv1a64 noFp 344)
      [.insert [0] [1] none, .insert [4] (List.replicate 87 0) none, .clear])) (htFull 3460)).2).1 = .ok (24 + 64 + 3460 + 88) := by
  decide +kernel

/-- **C39, the true part.** After any history of guarded calls on a new table in which no call failed for lack of memory, the allocator holds exactly the blocks it held before, the base object, the slot
table, one block per pair of exactly the pair's size, and one 24-byte link per pair in a slot with several pairs.  Missing: histories with failed inserts,
which leak (`C39_false`). -/
theorem C39_blocks_partial (hash : Bytes → Nat) (F : Fp) (bits : Nat) (hb : 2 ≤ bits) (hb2 : bits < 31) (h : Heap) (ops : List Op)
    (hok : Guarded (Spec F) (Op.ok hash bits) [] ops) :
    wp ((HashTable.create bits).bind fun b => (hist (HashTable.call hash F b) ops).bind fun rs => .ret (b, rs))
      (fun out h' => out = .err .noMem ∨ ∃ b rs m, out = .ok (b, rs) ∧ Trace (Spec F) [] ops rs m ∧
        ((∀ r ∈ rs, r ≠ .err .noMem) → HashTable.Exact hash b bits h.blk m h')) h := by
  refine wp_bind_of (HashTable.create_spec (hash := hash) h hb hb2) ?_ ?_
  · rintro b h' (⟨h1, -⟩ | ⟨b', sl, h1, -, ht⟩)
    · cases h1
    · injection h1 with h1; subst h1
      refine wp_bind_of (HashTable.history ops hok ht) ?_ ?_
      · rintro rs h'' ⟨rs', m', lk', h1, h2, h3, h4⟩
        injection h1 with h1; subst h1
        refine Or.inr ⟨b, rs, m', rfl, h2, fun hn => ?_⟩
        rw [h3 hn] at h4
        exact h4.exact
      · rintro e h'' ⟨rs', m', lk', h1, -⟩; cases h1
  · rintro e h' (⟨h1, -⟩ | ⟨b', sl, h1, -⟩)
    · injection h1 with h1; subst h1; exact Or.inl rfl
    · cases h1

/-! ### C40 -/

/-- **C40.** If an insert throws, on any table, it is for lack of memory, and the table still holds exactly the pairs it held; other clients' blocks (`G`) are untouched. -/
theorem C40_failed_insert {hash : Bytes → Nat} {base slots bits : Nat} {G : Nat → Option Block} {m : Pairs} {lk : List Nat} {h : Heap} {k v : Bytes} {c : Option Check}
    (t : HashTable.Table hash base slots bits G m lk h) (hl : k.length + v.length ≤ 2 ^ 62) :
    wp (HashTable.insert hash base k v c) (fun out h' => ∀ e, out = .err e → e = .noMem ∧ ∃ lk', HashTable.Table hash base slots bits G m lk' h') h := by
  refine wp_mono ?_ (HashTable.insert_spec t (k := k) (v := v) (c := c) (by omega))
  rintro out h' (⟨-, rfl, -⟩ | ⟨-, rfl, -⟩ | ⟨-, rfl, h3⟩) e he
  · cases he
  · cases he
  · injection he with he; exact ⟨he.symm, h3⟩

/-- inserts do fail: all three allocations of an insert into an occupied slot, in turn -/
example : (run (compile (hist (HashTable.call HashTable.fnv1a64 noFp 344) [.insert [0] [1] none, .insert [4] (List.replicate 200 0) none, .insert [4] (List.replicate 87 0) none, .at [0], .exists [4], .size]))
    (htFull 3460)).1 = .ok [.ok (.bool true), .err .noMem, .err .noMem, .ok (.str [1]), .ok (.bool false), .ok (.num 1)] := by
  decide +kernel

/-! ### C19 -/

namespace HT
/-- the methods that take the lock for writing (HashTable.cc); an iteration is many calls and does not matter here -/
def Op.writes : Op → Bool
  | .at _ => false
  | .exists _ => false
  | .size => false
  | _ => true
end HT

theorem htStep {hash : Bytes → Nat} {F : Fp} {base slots bits : Nat} {G : Nat → Option Block} {ok : Op → Prop} {P : Pairs → Prop}
    (hok : ∀ m o, P m → ok o → o.ok hash bits m) (hP : ∀ m o r m', ok o → P m → Spec F m o r m' → P m') (m : Pairs) (o : Op) (h : Heap) (ho : ok o)
    (hi : P m ∧ ∃ lk, HashTable.Table hash base slots bits G m lk h) :
    wp (HashTable.call hash F base o) (fun out h' => ∃ m', Spec F m o out m' ∧ P m' ∧ ∃ lk, HashTable.Table hash base slots bits G m' lk h') h := by
  obtain ⟨hp, lk, ht⟩ := hi
  refine wp_mono ?_ (HashTable.step (F := F) o (m, lk) h (hok m o hp ho) ht)
  rintro out h' ⟨s', ⟨h1, -⟩, h2⟩
  exact ⟨s'.1, h1, hP _ _ _ _ ho hp h1, _, h2⟩

namespace HashTable
theorem ro_keyMatches {b o : Nat} {k : Bytes} : HRo (keyMatches b o k) :=
  HRo.bind .rd fun _ => .ite (HRo.bind .rd fun _ => HRo.bind .rdB fun _ => .ret) .ret

theorem ro_walkList {k : Bytes} (fuel : Nat) : ∀ p c, HRo (walkList k fuel p c) := by
  induction fuel with
  | zero => intro _ _; trivial
  | succ n ih =>
    intro p c
    exact .ite .ret (HRo.bind ro_keyMatches fun _ => .ite .ret (HRo.bind .rd fun _ => ih _ _))

theorem ro_locate {b o : Nat} : HRo (locate b o) := HRo.bind .rd fun _ => HRo.bind .rd fun _ => HRo.bind .bsize fun _ => .ret

theorem ro_walkTables {hash : Bytes → Nat} {b : Nat} {k : Bytes} : HRo (walkTables hash b k) :=
  HRo.bind .rd fun _ => .ite .ret (HRo.bind .rd fun _ => HRo.bind .rd fun _ => .ite .ret (.ite
    (HRo.bind ro_keyMatches fun _ => .ite (HRo.bind ro_locate fun _ => .ret) .ret)
    (HRo.bind (ro_walkList _ _ _) fun _ => .ite (HRo.bind ro_locate fun _ => .ret) .ret)))
end HashTable

theorem htRo {hash : Bytes → Nat} {F : Fp} {b : Nat} (o : Op) (h : o.writes = false) : Ro (methodBody (HashTable.call hash F b) o) := by
  refine HRo.body ?_
  cases o with
  | size => exact HRo.bind (HRo.bind .rd fun _ => .ret) fun _ => .ret
  | «at» k =>
    refine HRo.bind (HRo.bind HashTable.ro_walkTables fun r => ?_) fun _ => .ret
    cases r with
    | none => exact .err
    | some l => exact HRo.bind .rdB fun _ => .ret
  | «exists» k => exact HRo.bind (HRo.bind HashTable.ro_walkTables fun _ => .ret) fun _ => .ret
  | _ => cases h

/-- **C19, HashTable.** Threads of any number of processes call the methods of one hash table on one pool at the same time, each call under the allocator's lock;
their memory accesses interleave in any way, and no process dies.  The finished calls, in the order they finished, have the results of a sequential map.
Either only insert (with or without check), at, exists, size and clear are used, with any keys; or all methods, with keys of a set `K` in which no two have the same slot.
Iterations are excluded (`_hit`): in the code they are many calls, each under its own lock. -/
theorem C19_hashtable_concurrent_partial {hash : Bytes → Nat} {F : Fp} {base slots bits : Nat} {G : Nat → Option Block} {m0 : Pairs} {lk : List Nat} {h0 : Heap} {p0 : Pool}
    {calls : Nat → List Op} (_hit : ∀ t, Op.items ∉ calls t)
    (hok : (∀ t, ∀ o ∈ calls t, o.free) ∨ ∃ K, HashTable.Apart hash bits K ∧ (∀ k ∈ keys m0, K k) ∧ ∀ t, ∀ o ∈ calls t, o.within K)
    (hi0 : HashTable.Table hash base slots bits G m0 lk h0) (hs0 : Sim h0 p0) {pid : Nat → Nat} {fuel : Nat}
    (hp : PidsOk pid) {s0 s : St (poolMach (Out Ret))}
    (hi : Init pid fuel (fun t => (calls t).map (callSession (HashTable.call hash F base) Op.writes .unit)) p0 s0)
    (hr : Reach pid s0 s) (hal : ∀ t, s.alive (pid t) = true) :
    ∃ (ops : List Op) (rs : List (Out Ret)) (m : Pairs), Trace (Spec F) m0 ops rs m ∧
      s.log.map (fun e => (e.2.2.1, e.2.2.2)) = (ops.zip rs).map (fun x => (methodBody (HashTable.call hash F base) x.1, Res.ok x.2)) ∧ ops.length = rs.length ∧
      ((∀ t n, s.st t ≠ some (.write n)) → ∃ h lk, HashTable.Table hash base slots bits G m lk h ∧ Sim h s.mem) := by
  rcases hok with hok | ⟨K, ha, hm0, hok⟩
  · have hstep := htStep (hash := hash) (F := F) (base := base) (slots := slots) (bits := bits) (G := G) (ok := Op.free) (P := fun _ => True)
      (fun _ _ _ h => h.ok) (fun _ _ _ _ _ _ _ => trivial)
    obtain ⟨ops, rs, m, h1, h2, h3, h4⟩ := concurrent_calls (writes := Op.writes) hstep htRo hok ⟨trivial, lk, hi0⟩ hs0 hp hi hr hal
    refine ⟨ops, rs, m, h1, h2, h3, fun hw => ?_⟩
    obtain ⟨h, ⟨-, lk, h5⟩, h6⟩ := h4 hw
    exact ⟨h, lk, h5, h6⟩
  · have hstep := htStep (hash := hash) (F := F) (base := base) (slots := slots) (bits := bits) (G := G) (ok := fun o => o.within K)
      (P := fun m => (keys m).Nodup ∧ ∀ k ∈ keys m, K k) (fun _ _ hm h => h.ok ha hm.1 hm.2) (fun _ _ _ _ ho hm hs => hs.keys ho hm)
    have hn : (keys m0).Nodup := by obtain ⟨bk, -, -, hn⟩ := hi0; exact hn
    obtain ⟨ops, rs, m, h1, h2, h3, h4⟩ := concurrent_calls (writes := Op.writes) hstep htRo hok ⟨⟨hn, hm0⟩, lk, hi0⟩ hs0 hp hi hr hal
    refine ⟨ops, rs, m, h1, h2, h3, fun hw => ?_⟩
    obtain ⟨h, ⟨-, lk, h5⟩, h6⟩ := h4 hw
    exact ⟨h, lk, h5, h6⟩

theorem htPool_ready : ∃ h G sl, HashTable.Table HashTable.fnv1a64 344 sl 2 G [] [] h ∧ Sim h (htPool 0) := by
  have hst : Hist (newPool 0) (run Simple.init (newPool 0)).2 [] [] true :=
    .start (newPool_geo 0) (by decide +kernel) (run_eta (by decide +kernel))
  obtain ⟨hp, hs, -⟩ := hst.sim
  obtain ⟨out, p1, h1, hr, hq, hs1⟩ := sim_run (HashTable.create_spec (hash := HashTable.fnv1a64) (bits := 2) hp (by decide) (by decide)) hs
  have e : (run (compile (HashTable.create 2)) (run Simple.init (newPool 0)).2).1 = .ok 344 := by decide +kernel
  rw [hr] at e
  have e2 : htPool 0 = p1 := by unfold htPool; rw [hr]
  rcases hq with ⟨rfl, -⟩ | ⟨b, sl, rfl, -, ht⟩
  · cases e
  · injection e with e
    subst e
    exact ⟨h1, hp.blk, sl, ht, e2 ▸ hs1⟩

/-- the hypotheses of `C19_hashtable_concurrent_partial` (and, with any table, of the single-call theorems above) are met by a table created on a fresh pool and two processes that use colliding keys -/
example : ∃ h G sl, HashTable.Table HashTable.fnv1a64 344 sl 2 G [] [] h ∧ Sim h (htPool 0) ∧ PidsOk (fun t => t % 2 + 1) ∧
    ∃ s0, Init (fun t => t % 2 + 1) 10 (fun t => (if t = 0 then [Op.insert [0] [1] none, .insert [4] [] (some ([4], none))] else if t = 1 then [.at [4], .size] else []).map
      (callSession (HashTable.call HashTable.fnv1a64 noFp 344) Op.writes .unit)) (htPool 0) s0 := by
  obtain ⟨h, G, sl, h1, h2⟩ := htPool_ready
  exact ⟨h, G, sl, h1, h2, fun t => ⟨Nat.succ_ne_zero _, by show t % 2 + 1 < 2 ^ 18; omega⟩,
    ⟨fun _ => 0, fun _ => true, htPool 0, [], fun t => thread 10 (t % 2 + 1) _, fun _ => none, fun _ => none, fun _ => 0⟩,
    ⟨fun _ => rfl, rfl, rfl, fun _ => rfl, fun _ => rfl, fun _ => rfl, fun _ => rfl⟩⟩

end Verif
