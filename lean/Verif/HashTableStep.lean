import Verif.HashTableIncr
import Verif.Guarded
import Verif.PropsQueue
import Verif.Conc
/-
Specification of HashTable as a map, and one call.
-/
namespace Verif

/-! ### Specification: a map from byte strings to byte strings

`HashTable.get`, `put`, `del`, `keys` are the usual functions on association lists; the next lemmas say so. -/

namespace HashTable

theorem get_put (m : Pairs) (k v k' : Bytes) : get (put m k v) k' = if k' = k then some v else get m k' := by
  induction m with
  | nil => simp only [put, get]; by_cases h : k = k' <;> simp [h, eq_comm]
  | cons e t ih =>
    obtain ⟨a, b⟩ := e
    by_cases h : a = k
    · subst h
      rw [put, if_pos rfl, get, get]
      by_cases h : a = k'
      · subst h; simp
      · rw [if_neg h, if_neg h, if_neg (fun e => h e.symm)]
    · simp only [put, if_neg h, get]
      by_cases h2 : a = k'
      · subst h2; rw [if_pos rfl, if_pos rfl, if_neg h]
      · rw [if_neg h2, if_neg h2, ih]

theorem get_del (m : Pairs) (k k' : Bytes) : get (del m k) k' = if k' = k then none else get m k' := by
  unfold del
  induction m with
  | nil => simp [get]
  | cons e t ih =>
    obtain ⟨a, b⟩ := e
    rw [List.filter_cons]
    by_cases h : a = k
    · subst h
      simp only [ne_eq, not_true_eq_false, decide_false, Bool.false_eq_true, if_false]
      simp only [ne_eq] at ih
      rw [ih]
      simp only [get]
      by_cases h : k' = a
      · rw [if_pos h, if_pos h]
      · rw [if_neg h, if_neg h, if_neg (fun e => h e.symm)]
    · simp only [ne_eq, h, not_false_eq_true, decide_true, if_true, get]
      simp only [ne_eq] at ih
      by_cases h2 : a = k'
      · subst h2; rw [if_pos rfl, if_pos rfl, if_neg h]
      · rw [if_neg h2, if_neg h2, ih]

theorem mem_keys_iff (m : Pairs) (k : Bytes) : k ∈ keys m ↔ ∃ v, get m k = some v := by
  rw [← Option.ne_none_iff_exists']
  rw [ne_eq, get_none, Classical.not_not]

/-- with distinct keys, the pairs in the list are exactly the keys and their values -/
theorem mem_iff_get {m : Pairs} (hn : (keys m).Nodup) (k v : Bytes) : (k, v) ∈ m ↔ get m k = some v := by
  induction m with
  | nil => simp [get]
  | cons e t ih =>
    obtain ⟨a, b⟩ := e
    have hn' : a ∉ keys t ∧ (keys t).Nodup := List.nodup_cons.1 hn
    rw [List.mem_cons, get]
    by_cases h : a = k
    · subst h
      rw [if_pos rfl]
      constructor
      · rintro (h | h)
        · injection h with h1 h2; rw [h2]
        · exact absurd (List.mem_map.2 ⟨_, h, rfl⟩) hn'.1
      · intro h; injection h with h; exact Or.inl (by rw [h])
    · rw [if_neg h, ← ih hn'.2]
      constructor
      · rintro (h1 | h1)
        · injection h1 with h1 h2; exact absurd h1.symm h
        · exact h1
      · exact Or.inr
end HashTable

open HashTable (Pairs get put del keys Check)

namespace HT

/-- the methods of HashTable (HashTable.hh 62-135); `check` of an insert or erase is a key and the value it must have, `none` for a key that must be absent -/
inductive Op
  | insert (k v : Bytes) (check : Option Check)
  | erase (k : Bytes) (check : Option Check)
  | incr (k : Bytes) (d : BitVec 64)
  | incrDouble (k : Bytes) (d : BitVec 64)
  | «at» (k : Bytes)
  | «exists» (k : Bytes)
  | size
  | clear
  | items
  deriving DecidableEq

/-- what a method returns -/
inductive Ret
  | unit
  | bool (b : Bool)
  | str (d : Bytes)
  | num (n : Nat)
  | word (x : BitVec 64)
  | list (l : List (Bytes × Bytes))
  deriving DecidableEq

/-- floating-point arithmetic on `n`-byte numbers (n = 4, 8), given by their bits: the bits of x + d, and the conversion to double -/
structure Fp where
  add : Nat → Nat → BitVec 64 → Nat
  widen : Nat → Nat → BitVec 64

/-- does the check pass? -/
def passes (m : Pairs) : Option Check → Prop
  | none => True
  | some (k, v) => get m k = v

/-- the little-endian integer of a string, as a machine integer of that width -/
def int (v : Bytes) : BitVec (8 * v.length) := BitVec.ofNat _ (leNat v)

/-- `Spec m op r m'`: on a table that holds the pairs `m`, the call `op` may have outcome `r` and leave the pairs `m'`.
A call that must allocate may fail for lack of memory, and then changes nothing. -/
def Spec (F : Fp) (m : Pairs) (op : Op) (r : Out Ret) (m' : Pairs) : Prop :=
  match op with
  | .insert k v c =>
    (passes m c ∧ r = .ok (.bool true) ∧ m' = put m k v) ∨ (passes m c ∧ r = .err .noMem ∧ m' = m) ∨ (¬ passes m c ∧ r = .ok (.bool false) ∧ m' = m)
  | .erase k c =>
    (passes m c ∧ k ∈ keys m ∧ r = .ok (.bool true) ∧ m' = del m k) ∨ (¬ (passes m c ∧ k ∈ keys m) ∧ r = .ok (.bool false) ∧ m' = m)
  | .incr k d =>
    match get m k with
    | none => (r = .ok (.word d) ∧ m' = put m k (natLe 8 d.toNat)) ∨ (r = .err .noMem ∧ m' = m)
    | some v =>
      if v.length ∈ [1, 2, 4, 8] then
        r = .ok (.word ((int v + d.setWidth _).signExtend 64)) ∧ m' = put m k (natLe v.length (int v + d.setWidth _).toNat)
      else r = .err .outOfRange ∧ m' = m
  | .incrDouble k d =>
    match get m k with
    | none => (r = .ok (.word d) ∧ m' = put m k (natLe 8 d.toNat)) ∨ (r = .err .noMem ∧ m' = m)
    | some v =>
      if v.length ∈ [4, 8] then
        r = .ok (.word (F.widen v.length (F.add v.length (leNat v) d % 256 ^ v.length))) ∧ m' = put m k (natLe v.length (F.add v.length (leNat v) d))
      else r = .err .outOfRange ∧ m' = m
  | .at k => m' = m ∧ r = (match get m k with
    | some v => .ok (.str v)
    | none => .err .outOfRange)
  | .exists k => m' = m ∧ r = .ok (.bool (decide (k ∈ keys m)))
  | .size => m' = m ∧ r = .ok (.num m.length)
  | .clear => m' = [] ∧ r = .ok .unit
  | .items => m' = m ∧ ∃ l, r = .ok (.list l) ∧ l.Perm m

/-- the pairs whose keys have the same slot as `k`, oldest first -/
def slot (hash : Bytes → Nat) (bits : Nat) (m : Pairs) (k : Bytes) : Pairs := m.filter fun e => decide (hash e.1 % 2 ^ bits = hash k % 2 ^ bits)

/-- The condition under which the theorems cover a call.  Keys and values are together at most 2^62 bytes.  incr needs a slot with no other key (and erase one where
the key is alone, the older of two, or not the oldest of three or more), because of the defects shown by `C35_false` and `C37_false`. -/
def Op.ok (hash : Bytes → Nat) (bits : Nat) (m : Pairs) : Op → Prop
  | .insert k v _ => k.length + v.length ≤ 2 ^ 62
  | .erase k c => passes m c → HashTable.eraseSafe (slot hash bits m k) k
  | .incr k _ => k.length + 8 ≤ 2 ^ 62 ∧ (slot hash bits m k).length ≤ 1
  | .incrDouble k _ => k.length + 8 ≤ 2 ^ 62 ∧ (slot hash bits m k).length ≤ 1
  | _ => True

/-- the operations whose condition does not depend on the state -/
def Op.free : Op → Prop
  | .insert k v _ => k.length + v.length ≤ 2 ^ 62
  | .erase _ _ => False
  | .incr _ _ => False
  | .incrDouble _ _ => False
  | _ => True

theorem Op.free.ok {hash : Bytes → Nat} {bits : Nat} {m : Pairs} {o : Op} (h : o.free) : o.ok hash bits m := by
  cases o <;> first | exact h | exact h.elim

/-- the keys a call is given: its own and that of its check -/
def Op.args : Op → List Bytes
  | .insert k _ c => k :: c.toList.map (·.1)
  | .erase k c => k :: c.toList.map (·.1)
  | .incr k _ => [k]
  | .incrDouble k _ => [k]
  | .at k => [k]
  | .exists k => [k]
  | _ => []

/-- the methods that are given a key -/
def Op.keyed : Op → Prop
  | .size => False
  | .clear => False
  | .items => False
  | _ => True

/-- Spec together with the list of blocks that failed calls abandoned -/
def SpecL (F : Fp) (s : Pairs × List Nat) (op : Op) (r : Out Ret) (s' : Pairs × List Nat) : Prop :=
  Spec F s.1 op r s'.1 ∧ (r ≠ .err .noMem → s'.2 = s.2)

theorem passes_iff (m : Pairs) (c : Option Check) : passes m c ↔ HashTable.checkAll m c = true := by
  cases c with
  | none => simp [passes, HashTable.checkAll]
  | some c => simp [passes, HashTable.checkAll, HashTable.checkVal]

theorem int_add (v : Bytes) (d : BitVec 64) : (int v + d.setWidth _).toNat = (leNat v + d.toNat) % 256 ^ v.length := by
  rw [BitVec.toNat_add, int, BitVec.toNat_ofNat, BitVec.toNat_setWidth, Nat.pow_mul, ← Nat.add_mod]
end HT

open HT
namespace HashTable

/-- the call of a method on the table whose base object is at `b` -/
def call (hash : Bytes → Nat) (F : Fp) (b : Nat) : Op → HProg Ret
  | .insert k v c => (insert hash b k v c).bind fun r => .ret (.bool r)
  | .erase k c => (erase hash b k c).bind fun r => .ret (.bool r)
  | .incr k d => (incr hash b k (intNum d)).bind fun r => .ret (.word r)
  | .incrDouble k d => (incr hash b k (dblNum F.add F.widen d)).bind fun r => .ret (.word r)
  | .at k => («at» hash b k).bind fun r => .ret (.str r)
  | .exists k => (exist hash b k).bind fun r => .ret (.bool r)
  | .size => (size b).bind fun r => .ret (.num r)
  | .clear => (clear b).bind fun _ => .ret .unit
  | .items => (items b).bind fun r => .ret (.list r)

variable {hash : Bytes → Nat} {F : Fp} {base slots bits : Nat} {G : Nat → Option Block}

theorem natLe_mod (n x : Nat) : natLe n (x % 256 ^ n) = natLe n x := by
  induction n generalizing x with
  | zero => rfl
  | succ n ih =>
    show UInt8.ofNat (x % 256 ^ (n + 1)) :: natLe n (x % 256 ^ (n + 1) / 256) = UInt8.ofNat x :: natLe n (x / 256)
    have h1 : x % 256 ^ (n + 1) / 256 = x / 256 % 256 ^ n := by
      rw [Nat.pow_succ, Nat.mul_comm, Nat.mod_mul_right_div_self]
    have h2 : UInt8.ofNat (x % 256 ^ (n + 1)) = UInt8.ofNat x := by
      apply UInt8.toNat_inj.1
      have e1 : (UInt8.ofNat (x % 256 ^ (n + 1))).toNat = x % 256 ^ (n + 1) % 256 := UInt8.toNat_ofNat'
      have e2 : (UInt8.ofNat x).toNat = x % 256 := UInt8.toNat_ofNat'
      rw [e1, e2, Nat.pow_succ, Nat.mod_mul_left_mod]
    rw [h1, h2, ih]

/-- a call on a key, on a table of which some slots are damaged, but not that of the key -/
theorem stepD {dm : Nat → Prop} {off : Nat} (op : Op) (s : Pairs × List Nat) (h : Heap) (hkey : op.keyed) (hdm : ∀ k ∈ op.args, ¬ dm (hash k % 2 ^ bits)) (hok : op.ok hash bits s.1)
    (hi : TableD dm off hash base slots bits G s.1 s.2 h) :
    wp (call hash F base op) (fun out h' => ∃ s', SpecL F s op out s' ∧ TableD dm off hash base slots bits G s'.1 s'.2 h') h := by
  obtain ⟨m, lk⟩ := s
  simp only at hok hi
  cases op with
  | insert k v c =>
    refine wp_bind_of (insert_specD hi (fun c' hc => hdm c'.1 (by rw [hc]; simp [Op.args])) (hdm k (by simp [Op.args])) (k := k) (v := v) (c := c) (by simp only [Op.ok] at hok; omega)) ?_ ?_
    · rintro r h' (⟨h1, h2, rfl⟩ | ⟨h1, h2, h3⟩ | ⟨-, h2, -⟩)
      · injection h2 with h2; subst h2
        exact ⟨(m, lk), ⟨Or.inr (Or.inr ⟨by rw [passes_iff, h1]; simp, rfl, rfl⟩), fun _ => rfl⟩, hi⟩
      · injection h2 with h2; subst h2
        exact ⟨(put m k v, lk), ⟨Or.inl ⟨by rw [passes_iff, h1], rfl, rfl⟩, fun _ => rfl⟩, h3⟩
      · cases h2
    · rintro e h' (⟨h1, h2, rfl⟩ | ⟨h1, h2, h3⟩ | ⟨h1, h2, lk', h3⟩)
      · cases h2
      · cases h2
      · injection h2 with h2; subst h2
        exact ⟨(m, lk'), ⟨Or.inr (Or.inl ⟨by rw [passes_iff, h1], rfl, rfl⟩), fun h => absurd rfl h⟩, h3⟩
  | erase k c =>
    refine wp_bind_of (erase_specD hi (fun c' hc => hdm c'.1 (by rw [hc]; simp [Op.args])) (hdm k (by simp [Op.args])) (k := k) (c := c) (fun hc => hok ((passes_iff _ _).2 hc))) ?_ ?_
    · rintro r h' (⟨h1, h2, rfl⟩ | ⟨h1, h2, h3, rfl⟩ | ⟨h1, h2, h3, h4⟩)
      · injection h2 with h2; subst h2
        exact ⟨(m, lk), ⟨Or.inr ⟨by rw [passes_iff, h1]; simp, rfl, rfl⟩, fun _ => rfl⟩, hi⟩
      · injection h3 with h3; subst h3
        exact ⟨(m, lk), ⟨Or.inr ⟨fun h => h2 h.2, rfl, rfl⟩, fun _ => rfl⟩, hi⟩
      · injection h3 with h3; subst h3
        exact ⟨(del m k, lk), ⟨Or.inl ⟨by rw [passes_iff, h1], h2, rfl, rfl⟩, fun _ => rfl⟩, h4⟩
    · rintro e h' (⟨h1, h2, rfl⟩ | ⟨h1, h2, h3, rfl⟩ | ⟨h1, h2, h3, h4⟩)
      · cases h2
      · cases h3
      · cases h3
  | incr k d =>
    have hsafe : k ∈ keys m → (slot hash bits m k).length = 1 := by
      intro hk
      have := hok.2
      obtain ⟨e, he, rfl⟩ := List.mem_map.1 hk
      have : 0 < (slot hash bits m e.1).length := List.length_pos_of_mem (List.mem_filter.2 ⟨he, by simp⟩)
      omega
    refine wp_bind_of (incr_specD hi (intNum d) (hdm k (by simp [Op.args])) (k := k) (by have := hok.1; omega) hsafe) ?_ ?_
    · rintro r h' (⟨v, h1, h2, h3, h4⟩ | ⟨v, h1, h2, h3, h4⟩ | ⟨h1, h3, h4⟩ | ⟨h1, h3, h4⟩)
      · injection h3 with h3
        have h2' : v.length ∈ [1, 2, 4, 8] := h2
        refine ⟨(put m k (natLe v.length (int v + d.setWidth _).toNat), lk), ⟨?_, fun _ => rfl⟩, ?_⟩
        · show match get m k with
            | none => _
            | some v => _
          rw [h1]
          dsimp only
          rw [if_pos h2']
          refine ⟨?_, rfl⟩
          rw [h3]
          congr 2
          show (BitVec.ofNat (8 * v.length) ((leNat v + d.toNat) % 256 ^ v.length % 256 ^ v.length)).signExtend 64 = _
          rw [Nat.mod_mod]
          congr 1
          rw [← int_add]
          rw [BitVec.ofNat_toNat, BitVec.setWidth_eq]
        · rw [int_add]; exact h4
      · cases h3
      · injection h3 with h3
        refine ⟨(put m k (natLe 8 d.toNat), lk), ⟨?_, fun _ => rfl⟩, h4⟩
        show match get m k with
            | none => _
            | some v => _
        rw [h1]
        exact Or.inl ⟨by rw [h3]; rfl, rfl⟩
      · cases h3
    · rintro e h' (⟨v, h1, h2, h3, h4⟩ | ⟨v, h1, h2, h3, rfl⟩ | ⟨h1, h3, h4⟩ | ⟨h1, h3, h4⟩)
      · cases h3
      · injection h3 with h3; subst h3
        have h2' : v.length ∉ [1, 2, 4, 8] := h2
        refine ⟨(m, lk), ⟨?_, fun _ => rfl⟩, hi⟩
        show match get m k with
            | none => _
            | some v => _
        rw [h1]
        dsimp only
        rw [if_neg h2']
        exact ⟨rfl, rfl⟩
      · cases h3
      · injection h3 with h3; subst h3
        obtain ⟨lk', h5⟩ := h4 hok.2
        refine ⟨(m, lk'), ⟨?_, fun h => absurd rfl h⟩, h5⟩
        show match get m k with
            | none => _
            | some v => _
        rw [h1]
        exact Or.inr ⟨rfl, rfl⟩
  | incrDouble k d =>
    have hsafe : k ∈ keys m → (slot hash bits m k).length = 1 := by
      intro hk
      have := hok.2
      obtain ⟨e, he, rfl⟩ := List.mem_map.1 hk
      have : 0 < (slot hash bits m e.1).length := List.length_pos_of_mem (List.mem_filter.2 ⟨he, by simp⟩)
      omega
    refine wp_bind_of (incr_specD hi (dblNum F.add F.widen d) (hdm k (by simp [Op.args])) (k := k) (by have := hok.1; omega) hsafe) ?_ ?_
    · rintro r h' (⟨v, h1, h2, h3, h4⟩ | ⟨v, h1, h2, h3, h4⟩ | ⟨h1, h3, h4⟩ | ⟨h1, h3, h4⟩)
      · injection h3 with h3
        have h2' : v.length ∈ [4, 8] := h2
        refine ⟨(put m k (natLe v.length (F.add v.length (leNat v) d)), lk), ⟨?_, fun _ => rfl⟩, h4⟩
        show match get m k with
            | none => _
            | some v => _
        rw [h1]
        dsimp only
        rw [if_pos h2']
        exact ⟨by rw [h3]; rfl, rfl⟩
      · cases h3
      · injection h3 with h3
        refine ⟨(put m k (natLe 8 d.toNat), lk), ⟨?_, fun _ => rfl⟩, h4⟩
        show match get m k with
            | none => _
            | some v => _
        rw [h1]
        exact Or.inl ⟨by rw [h3]; rfl, rfl⟩
      · cases h3
    · rintro e h' (⟨v, h1, h2, h3, h4⟩ | ⟨v, h1, h2, h3, rfl⟩ | ⟨h1, h3, h4⟩ | ⟨h1, h3, h4⟩)
      · cases h3
      · injection h3 with h3; subst h3
        have h2' : v.length ∉ [4, 8] := h2
        refine ⟨(m, lk), ⟨?_, fun _ => rfl⟩, hi⟩
        show match get m k with
            | none => _
            | some v => _
        rw [h1]
        dsimp only
        rw [if_neg h2']
        exact ⟨rfl, rfl⟩
      · cases h3
      · injection h3 with h3; subst h3
        obtain ⟨lk', h5⟩ := h4 hok.2
        refine ⟨(m, lk'), ⟨?_, fun h => absurd rfl h⟩, h5⟩
        show match get m k with
            | none => _
            | some v => _
        rw [h1]
        exact Or.inr ⟨rfl, rfl⟩
  | «at» k =>
    obtain ⟨bk, r, hp, hn⟩ := id hi
    refine wp_bind_of (at_spec (hash := hash) (k := k) r (hdm k (by simp [Op.args]))) ?_ ?_
    · rintro d h' ⟨rfl, h1⟩
      rw [← bucket_get hp] at h1
      refine ⟨(m, lk), ⟨⟨rfl, ?_⟩, fun _ => rfl⟩, hi⟩
      show _ = match get m k with
        | some v => _
        | none => _
      cases hg : get m k with
      | some v => rw [hg] at h1; injection h1 with h1; rw [h1]
      | none => rw [hg] at h1; cases h1
    · rintro d h' ⟨rfl, h1⟩
      rw [← bucket_get hp] at h1
      refine ⟨(m, lk), ⟨⟨rfl, ?_⟩, fun _ => rfl⟩, hi⟩
      show _ = match get m k with
        | some v => _
        | none => _
      cases hg : get m k with
      | some v => rw [hg] at h1; cases h1
      | none => rw [hg] at h1; injection h1 with h1; rw [h1]
  | «exists» k =>
    obtain ⟨bk, r, hp, hn⟩ := id hi
    refine wp_bind_of (exist_spec (hash := hash) (k := k) r (hdm k (by simp [Op.args]))) ?_ ?_
    · rintro d h' ⟨rfl, h1⟩
      injection h1 with h1
      rw [← bucket_get hp] at h1
      refine ⟨(m, lk), ⟨⟨rfl, ?_⟩, fun _ => rfl⟩, hi⟩
      rw [h1]
      congr 2
      rw [Bool.eq_iff_iff, decide_eq_true_iff, mem_keys_iff, Option.isSome_iff_exists]
    · rintro d h' ⟨rfl, h1⟩; cases h1
  | size | clear | items => exact hkey.elim

theorem step (op : Op) (s : Pairs × List Nat) (h : Heap) (hok : op.ok hash bits s.1) (hi : Table hash base slots bits G s.1 s.2 h) :
    wp (call hash F base op) (fun out h' => ∃ s', SpecL F s op out s' ∧ Table hash base slots bits G s'.1 s'.2 h') h := by
  by_cases hkey : op.keyed
  · exact stepD op s h hkey (fun _ _ h => h) hok (tableD_iff.2 hi)
  obtain ⟨m, lk⟩ := s
  simp only at hok hi
  cases op with
  | insert | erase | incr | incrDouble | «at» | «exists» => exact absurd trivial hkey
  | size =>
    refine wp_bind_of (size_spec hi) ?_ ?_
    · rintro n h' ⟨hn, rfl⟩
      injection hn with hn; subst hn
      exact ⟨(m, lk), ⟨⟨rfl, rfl⟩, fun _ => rfl⟩, hi⟩
    · rintro e h' ⟨he, -⟩; cases he
  | clear =>
    refine wp_bind_of (clear_spec hi) ?_ ?_
    · rintro _ h' ⟨-, h1⟩
      exact ⟨([], lk), ⟨⟨rfl, rfl⟩, fun _ => rfl⟩, h1⟩
    · rintro e h' ⟨he, -⟩; cases he
  | items =>
    refine wp_bind_of (items_spec hi) ?_ ?_
    · rintro l h' ⟨l', hl, hp, rfl⟩
      injection hl with hl; subst hl
      exact ⟨(m, lk), ⟨⟨rfl, l, rfl, hp⟩, fun _ => rfl⟩, hi⟩
    · rintro e h' ⟨l', he, -⟩; cases he

end HashTable
end Verif
