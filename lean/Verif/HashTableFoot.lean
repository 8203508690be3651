import Verif.HashTableStep
import Mathlib.Data.List.Perm.Basic
import Mathlib.Data.List.Nodup
/-
The blocks a hash table holds.
-/
namespace Verif
open HT
namespace HashTable

/-- the pairs of `m` whose slot holds at least two pairs: each has a chain link -/
def chained (hash : Bytes → Nat) (bits : Nat) (m : Pairs) : Pairs := m.filter fun e => decide (2 ≤ (slot hash bits m e.1).length)

/-- The heap `h` holds, besides the blocks of `g`: the 24-byte base object `base`, the slot table, one block per pair of exactly the pair's size, one 24-byte
link per pair in a slot with several pairs, and nothing else. -/
def Exact (hash : Bytes → Nat) (base bits : Nat) (g : Nat → Option Block) (m : Pairs) (h : Heap) : Prop :=
  ∃ (slots : Nat) (kv iv : List Nat) (t : Pairs), (base :: slots :: (kv ++ iv)).Nodup ∧
    (∀ x ∈ base :: slots :: (kv ++ iv), g x = none) ∧ (∀ x, x ∉ base :: slots :: (kv ++ iv) → h.blk x = g x) ∧
    (∃ B, h.blk base = some B ∧ B.size = 24) ∧ (∃ B, h.blk slots = some B ∧ B.size = 16 * 2 ^ bits) ∧
    t.Perm m ∧ kv.length = t.length ∧ (∀ i (h1 : i < kv.length) (h2 : i < t.length), ∃ B, h.blk kv[i] = some B ∧ B.size = t[i].1.length + t[i].2.length) ∧
    iv.length = (chained hash bits m).length ∧ (∀ x ∈ iv, ∃ B, h.blk x = some B ∧ B.size = 24)

theorem Table.exact {hash : Bytes → Nat} {base slots bits : Nat} {G : Nat → Option Block} {m : Pairs} {h : Heap}
    (t : Table hash base slots bits G m [] h) : Exact hash base bits G m h := by
  obtain ⟨bk, r, hp, hn⟩ := t
  have hpos := Nat.two_pow_pos bits
  have hout : ∀ i x, x ∈ (bk i).foot → i < 2 ^ bits := by
    intro i x hx
    rcases Nat.lt_or_ge i (2 ^ bits) with h1 | h1
    · exact h1
    · have := r.out i h1
      rw [Bk.foot, this] at hx
      simp at hx
  let kv := (List.range (2 ^ bits)).flatMap fun i => (bk i).c.map Ent.kv
  let iv := (List.range (2 ^ bits)).flatMap fun i => if (bk i).dir then [] else (bk i).c.map Ent.iv
  let t := (List.range (2 ^ bits)).flatMap fun i => (bk i).pairs
  have hperm : (kv ++ iv).Perm ((List.range (2 ^ bits)).flatMap fun i => (bk i).foot) := List.flatMap_append_perm _ _ _
  have hmem : ∀ x, x ∈ kv ++ iv ↔ ∃ i, x ∈ (bk i).foot := by
    intro x
    rw [hperm.mem_iff, List.mem_flatMap]
    constructor
    · rintro ⟨i, -, h⟩; exact ⟨i, h⟩
    · rintro ⟨i, h⟩; exact ⟨i, List.mem_range.2 (hout i x h), h⟩
  have hb : ∀ x, (∃ i, x ∈ (bk i).foot) → x ≠ base ∧ x ≠ slots := fun x ⟨i, hx⟩ => ((r.ok i).off x hx).2
  have ht : t.Perm m := by
    have h1 := partition_perm m (fun e => hash e.1 % 2 ^ bits) (2 ^ bits)
    refine List.Perm.trans (.of_eq ?_) (h1.trans (.of_eq ?_))
    · show (List.range (2 ^ bits)).flatMap (fun i => (bk i).pairs) = _
      congr 1; funext i; exact hp i
    · rw [List.filter_eq_self]
      intro e _
      simpa using Nat.mod_lt _ hpos
  refine ⟨slots, kv, iv, t, ?_, ?_, ?_, ?_, ?_, ht, ?_, ?_, ?_, ?_⟩
  · rw [List.nodup_cons, List.nodup_cons, hperm.nodup_iff]
    refine ⟨?_, ?_, ?_⟩
    · rw [List.mem_cons, hmem]
      rintro (h1 | h1)
      · exact r.sl.2.2 h1
      · exact (hb _ h1).1 rfl
    · rw [hmem]
      intro h1
      exact (hb _ h1).2 rfl
    · rw [List.nodup_flatMap]
      refine ⟨fun i _ => (r.ok i).nodup, ?_⟩
      refine List.nodup_range.imp_of_mem ?_
      intro i j _ _ hij
      exact fun x hx hy => r.disj i j hij x hx hy
  · intro x hx
    rw [r.frame x, if_pos]
    rw [List.mem_cons, List.mem_cons, hmem] at hx
    rcases hx with h1 | h1 | h1
    · exact Or.inl h1
    · exact Or.inr (Or.inl h1)
    · exact Or.inr (Or.inr (Or.inl h1))
  · intro x hx
    rw [List.mem_cons, List.mem_cons, hmem] at hx
    rw [r.frame x, if_neg]
    rintro (h1 | h1 | h1 | h1)
    · exact hx (Or.inl h1)
    · exact hx (Or.inr (Or.inl h1))
    · exact hx (Or.inr (Or.inr h1))
    · cases h1
  · obtain ⟨B, h1, h2, -⟩ := r.b0; exact ⟨B, h1, h2⟩
  · obtain ⟨B, h1, h2, -⟩ := r.bs; exact ⟨B, h1, h2⟩
  · show (List.flatMap _ _).length = (List.flatMap _ _).length
    rw [List.length_flatMap, List.length_flatMap]
    congr 2
    funext i
    simp [Bk.pairs]
  · have key : ∀ l : List Nat, ∀ i (h1 : i < (l.flatMap fun i => (bk i).c.map Ent.kv).length) (h2 : i < (l.flatMap fun i => (bk i).pairs).length),
        ∃ e j, e ∈ (bk j).c ∧ (l.flatMap fun i => (bk i).c.map Ent.kv)[i] = e.kv ∧ (l.flatMap fun i => (bk i).pairs)[i] = (e.key, e.val) := by
      intro l i h1 h2
      have e1 : (l.flatMap fun i => (bk i).c.map Ent.kv) = (l.flatMap fun i => (bk i).c).map Ent.kv := by rw [List.map_flatMap]
      have e2 : (l.flatMap fun i => (bk i).pairs) = (l.flatMap fun i => (bk i).c).map fun e => (e.key, e.val) := by rw [List.map_flatMap]; rfl
      simp only [e1, e2] at h1 h2 ⊢
      rw [List.length_map] at h1
      obtain ⟨j, -, hj⟩ := List.mem_flatMap.1 (List.getElem_mem h1)
      exact ⟨_, j, hj, by rw [List.getElem_map], by rw [List.getElem_map]⟩
    intro i h1 h2
    obtain ⟨e, j, hj, e1, e2⟩ := key _ i h1 h2
    obtain ⟨K, k1, k2, -⟩ := (r.ok j).kvs e hj
    refine ⟨K, ?_, ?_⟩
    · show h.blk (List.flatMap _ _)[i] = _
      rw [e1]; exact k1
    · have e3 : t[i] = (e.key, e.val) := e2
      rw [e3]; exact k2
  · have h1 := (partition_perm (chained hash bits m) (fun e => hash e.1 % 2 ^ bits) (2 ^ bits)).length_eq
    rw [List.filter_eq_self.2 (by intro e _; simpa using Nat.mod_lt _ hpos)] at h1
    rw [← h1]
    show (List.flatMap _ _).length = (List.flatMap _ _).length
    rw [List.length_flatMap, List.length_flatMap]
    congr 1
    refine List.map_congr_left ?_
    intro i hi
    rw [List.mem_range] at hi
    have h2 : (chained hash bits m).filter (fun e => decide (hash e.1 % 2 ^ bits = i)) = if 2 ≤ (bk i).pairs.length then (bk i).pairs else [] := by
      rw [hp i]
      unfold chained slot
      rw [List.filter_filter]
      split
      · rename_i h3
        refine List.filter_congr ?_
        intro e _
        by_cases h4 : hash e.1 % 2 ^ bits = i
        · simp only [h4, decide_true, Bool.true_and, decide_eq_true_eq]; exact h3
        · simp [h4]
      · rename_i h3
        rw [List.filter_eq_nil_iff]
        intro e _
        by_cases h4 : hash e.1 % 2 ^ bits = i
        · simp only [h4, decide_true, Bool.true_and, decide_eq_true_eq]; exact h3
        · simp [h4]
    rw [h2]
    obtain ⟨BS, -, -, hsl⟩ := r.slot hi
    rcases hsl with ⟨h3, -⟩ | ⟨h3, e, h4, -⟩ | ⟨h3, e, t, h4, h5, -⟩
    · simp [Bk.pairs, h3]
    · simp [Bk.pairs, h3, h4]
    · have := List.length_pos_iff.2 h5
      have h6 : 2 ≤ (bk i).pairs.length := by unfold Bk.pairs; rw [h4, List.length_map, List.length_cons]; omega
      rw [if_pos h6]
      simp [Bk.pairs, h3]
  · intro x hx
    obtain ⟨i, -, hx⟩ := List.mem_flatMap.1 hx
    cases hd : (bk i).dir with
    | true => rw [hd] at hx; simp at hx
    | false =>
      rw [hd] at hx
      simp only [Bool.false_eq_true, if_false] at hx
      obtain ⟨e, he, rfl⟩ := List.mem_map.1 hx
      obtain ⟨nx, E, h1, h2, -⟩ := Seg_mem ((r.ok i).seg hd) he
      exact ⟨E, h1, h2⟩

end HashTable
end Verif
