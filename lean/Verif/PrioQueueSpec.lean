import Verif.PrioQueueProof
import Mathlib.Tactic.Tauto
/-
Representation invariant of PriorityQueue and wp-specifications of its methods.
-/
namespace Verif.PrioQueue
open Verif

/-- The heap holds a priority queue at `base`: heap array `arr` with room for `cap` entries, entries `A` (item offsets), items `D`, and the earlier arrays `lk`, which
push has abandoned without freeing them.  Everything else in the heap is `G`.
`ex`: no process has died in a push, so that the recorded capacity is that of the array; a death between the two stores of PriorityQueue.cc 78-79 leaves a larger array with the old capacity. -/
structure RepX (ex : Prop) (h : Heap) (base arr cap : Nat) (A : List Nat) (D : Nat → Bytes) (lk : List Nat) (G : Nat → Option Block) : Prop where
  blt : base < W64
  b0 : ∃ B0, h.blk base = some B0 ∧ B0.size = 24 ∧ B0.rd 0 8 = A.length ∧ B0.rd 8 8 = cap ∧ B0.rd 16 8 = arr
  array : (cap = 0 ∧ ((ex → arr = 0) ∧ (arr = 0 ∨ ∃ B, h.blk arr = some B)) ∧ A = [] ∧ lk = []) ∨
    (cap = 32 * 2 ^ lk.length ∧ arr ≠ base ∧ arr ≠ 0 ∧ arr % 8 = 0 ∧ arr < W64 ∧ arr ∉ lk ∧ ∃ BA, h.blk arr = some BA ∧ (8 * cap ≤ BA.size ∧ A.length ≤ cap ∧ (ex → BA.size = 8 * cap)) ∧ Ents BA A)
  items : Items h arr D A
  al : ∀ a ∈ A, a % 8 = 0 ∧ a ≠ 0 ∧ a ≠ base ∧ a ∉ lk
  nodup : A.Nodup
  heap : IsHeap (ltD D) A
  lks : ∀ i (hi : i < lk.length), ∃ B, h.blk lk[i] = some B ∧ (ex → B.size = 256 * 2 ^ i)
  lknd : lk.Nodup
  lkb : base ∉ lk
  frame : ∀ x, G x = if x = base ∨ (cap ≠ 0 ∧ x = arr) ∨ x ∈ A ∨ x ∈ lk then none else h.blk x

/-- as `RepX`, and no process has died -/
abbrev Rep (h : Heap) (base arr cap : Nat) (A : List Nat) (D : Nat → Bytes) (lk : List Nat) (G : Nat → Option Block) : Prop := RepX True h base arr cap A D lk G

variable {ex : Prop}

/-- items and array together cannot exceed the address space -/
theorem RepX.cap_small {h : Heap} (hk : HeapOk h) {base arr cap : Nat} {A : List Nat} {D : Nat → Bytes} {lk : List Nat} {G : Nat → Option Block}
    (r : RepX ex h base arr cap A D lk G) (hc : cap = A.length) : cap * 2 * 8 ≤ maxAlloc := by
  rcases r.array with ⟨h1, -⟩ | ⟨h1, -, h3, h4, h5, -, BA, hBA, hs, -⟩
  · rw [h1]; decide
  · let S : Finset Nat := Finset.Ico (arr / 8) (arr / 8 + cap)
    let T : Finset Nat := (A.map (· / 8)).toFinset
    have hT : T.card = A.length := by
      rw [List.toFinset_card_of_nodup, List.length_map]
      rw [List.nodup_map_iff_inj_on r.nodup]
      intro x hx y hy e
      have := (r.al x hx).1
      have := (r.al y hy).1
      omega
    have hd : Disjoint S T := by
      rw [Finset.disjoint_left]
      intro i hi hj
      simp only [S, Finset.mem_Ico] at hi
      simp only [T, List.mem_toFinset, List.mem_map] at hj
      obtain ⟨a, ha, rfl⟩ := hj
      obtain ⟨hne, -, B, hB, -⟩ := r.items a ha
      have := hk.disj _ _ _ _ hBA hB hne.symm
      have := (r.al a ha).1
      omega
    have hsub : S ∪ T ⊆ Finset.Ico 1 (2 ^ 60) := by
      intro i hi
      rw [Finset.mem_union] at hi
      rw [Finset.mem_Ico]
      have hlt := hk.lt _ _ hBA
      rcases hi with hi | hi
      · simp only [S, Finset.mem_Ico] at hi
        omega
      · simp only [T, List.mem_toFinset, List.mem_map] at hi
        obtain ⟨a, ha, rfl⟩ := hi
        obtain ⟨hne, -, B, hB, -⟩ := r.items a ha
        have := hk.lt _ _ hB
        have := r.al a ha
        omega
    have hcard := Finset.card_le_card hsub
    rw [Finset.card_union_of_disjoint hd, hT, Nat.card_Ico, Nat.card_Ico] at hcard
    have h6 : 2 ^ (lk.length + 6) < 2 ^ 60 := by
      have : 2 ^ (lk.length + 6) = 2 * (32 * 2 ^ lk.length) := by rw [Nat.pow_add]; omega
      omega
    have h7 : lk.length + 6 < 60 := (Nat.pow_lt_pow_iff_right (by decide)).1 h6
    have h8 : 2 ^ lk.length ≤ 2 ^ 53 := Nat.pow_le_pow_right (by decide) (by omega)
    omega

theorem copyLoop_spec {base old new : Nat} {B0 : Block} {A : List Nat} (hs0 : 24 ≤ B0.size) (hn : B0.rd 0 8 = A.length) (hnb : new ≠ base) (hno : new ≠ old)
    (hA : ∀ a ∈ A, a < W64) (fuel : Nat) : ∀ {h : Heap} {BN : Block} {x : Nat}, h.blk base = some B0 → (0 < A.length → ∃ BA, h.blk old = some BA ∧ Ents BA A) →
    h.blk new = some BN → 8 * A.length ≤ BN.size → (∀ i, i < x → BN.rd (8 * i) 8 = A.getD i 0) → x ≤ A.length → A.length < x + fuel →
    wp (copyLoop base old new fuel x) (fun out h' => out = .ok () ∧ ∃ BN', h' = h.set new BN' ∧ BN'.size = BN.size ∧ Ents BN' A) h := by
  induction fuel with
  | zero => intro h BN x _ _ _ _ _ _ hf; omega
  | succ f ih =>
    intro h BN x h0 ho hN hs hx hxl hf
    unfold copyLoop
    refine wp_rd h0 (by omega) ?_
    rw [hn]
    by_cases hlt : x < A.length
    · rw [if_pos hlt]
      obtain ⟨BA, hBA, he⟩ := ho (by omega)
      have := he.1
      refine wp_rd hBA (by omega) ?_
      rw [he.2 x hlt]
      refine wp_wr hN (by omega) ?_
      refine wp_mono ?_ (ih (BN := BN.wr (8 * x) 8 (A.getD x 0)) (x := x + 1) (by rw [Heap.set_ne _ _ _ _ hnb.symm]; exact h0)
        (fun _ => ⟨BA, by rw [Heap.set_ne _ _ _ _ hno.symm]; exact hBA, he⟩) (Heap.set_same _ _ _) hs ?_ (by omega) (by omega))
      · rintro o h'' ⟨rfl, BN', rfl, hs', hE⟩
        exact ⟨rfl, BN', by rw [Heap.set_set], hs', hE⟩
      · intro i hi
        by_cases e : i = x
        · subst e; exact Block.rd_wr_same8 _ _ _ (hA _ (mem_getD hlt))
        · rw [Block.rd_wr_disj _ _ _ _ _ _ (by omega)]; exact hx i (by omega)
    · rw [if_neg hlt]
      refine ⟨rfl, BN, ?_, rfl, hs, fun i hi => hx i (by omega)⟩
      cases h with
      | mk blk base =>
        simp only [Heap.set, Heap.mk.injEq, and_true]
        funext y
        split
        · rename_i e; subst e; exact hN
        · rfl

variable {h : Heap} {base arr cap : Nat} {A : List Nat} {D : Nat → Bytes} {lk : List Nat} {G : Nat → Option Block}

theorem live_set {h : Heap} {x y : Nat} {B C : Block} (hx : h.blk x = some B) : ∃ B', (h.set y C).blk x = some B' := by
  by_cases e : x = y
  · exact ⟨C, by rw [e, Heap.set_same]⟩
  · exact ⟨B, by rw [Heap.set_ne _ _ _ _ e]; exact hx⟩

theorem create_spec (h : Heap) : wp create (fun out h' => match out with
    | .ok b => Rep h' b 0 0 [] (fun _ => []) [] h.blk
    | .err e => e = .noMem ∧ h' = h) h := by
  unfold create allocBase
  refine wp_alloc (by decide) ?_ ⟨rfl, rfl⟩
  intro o d hf
  refine wp_wr (Heap.set_same _ _ _) (by show _ ≤ 24; omega) ?_
  refine wp_wr (Heap.set_same _ _ _) (by show _ ≤ 24; omega) ?_
  refine wp_wr (Heap.set_same _ _ _) (by show _ ≤ 24; omega) ?_
  simp only [Heap.set_set]
  refine ⟨by have := hf.lt; omega, ⟨_, Heap.set_same _ _ _, rfl, ?_, ?_, ?_⟩, Or.inl ⟨rfl, ⟨fun _ => rfl, Or.inl rfl⟩, rfl, rfl⟩, ?_, ?_, .nil, ?_, ?_, .nil, by simp, ?_⟩
  · rw [Block.rd_wr_disj _ _ _ _ _ _ (by omega), Block.rd_wr_disj _ _ _ _ _ _ (by omega)]; exact Block.rd_wr_same8 _ _ _ (by decide)
  · rw [Block.rd_wr_disj _ _ _ _ _ _ (by omega)]; exact Block.rd_wr_same8 _ _ _ (by decide)
  · exact Block.rd_wr_same8 _ _ _ (by decide)
  · intro a ha; cases ha
  · intro a ha; cases ha
  · intro i _ hi; simp at hi
  · intro i hi; simp at hi
  · intro x
    by_cases e : x = o
    · subst e; simp [hf.none]
    · simp [e, Heap.set_ne]

/-- the new array made current -/
theorem swap_array (r : RepX ex h base arr cap A D lk G) {B0 : Block} (h0 : h.blk base = some B0) {new n : Nat} {BN : Block}
    (hf : Fresh h new (8 * n)) (hn : n = 32 * 2 ^ (if cap = 0 then 0 else lk.length + 1)) (hs : BN.size = 8 * n) (hE : Ents BN A) (hW : n < W64) :
    RepX ex (((h.set new BN).set base (B0.wr 16 8 new)).set base ((B0.wr 16 8 new).wr 8 8 n)) base new n A D (if cap = 0 then [] else lk ++ [arr]) G := by
  obtain ⟨B0', h0', hs0, hb1, hb2, hb3⟩ := r.b0
  rw [h0] at h0'; cases h0'
  have hlt := hf.lt
  have hne : ∀ x B, h.blk x = some B → x ≠ new := by
    intro x B hx e; rw [e, hf.none] at hx; cases hx
  have hnb : new ≠ base := fun e => hne base B0 h0 e.symm
  have hother : ∀ x, x ≠ base → x ≠ new → (((h.set new BN).set base (B0.wr 16 8 new)).set base ((B0.wr 16 8 new).wr 8 8 n)).blk x = h.blk x := by
    intro x h1 h2; rw [Heap.set_ne _ _ _ _ h1, Heap.set_ne _ _ _ _ h1, Heap.set_ne _ _ _ _ h2]
  have hlk : ∀ x ∈ lk, ∃ B, h.blk x = some B := by
    intro x hx
    obtain ⟨i, hi, rfl⟩ := List.getElem_of_mem hx
    obtain ⟨B, hB, -⟩ := r.lks i hi
    exact ⟨B, hB⟩
  have hAb : ∀ x ∈ A, ∃ B, h.blk x = some B := by
    intro x hx; obtain ⟨-, -, B, hB, -⟩ := r.items x hx; exact ⟨B, hB⟩
  refine ⟨r.blt, ⟨_, Heap.set_same _ _ _, hs0, ?_, ?_, ?_⟩, Or.inr ⟨?_, hnb, hf.pos, hf.align, by omega, ?_, BN, ?_, ⟨by omega, by have := hE.1; omega, fun _ => hs⟩, hE⟩, ?_, ?_, r.nodup, r.heap, ?_, ?_, ?_, ?_⟩
  · rw [Block.rd_wr_disj _ _ _ _ _ _ (by omega), Block.rd_wr_disj _ _ _ _ _ _ (by omega)]; exact hb1
  · exact Block.rd_wr_same8 _ _ _ hW
  · rw [Block.rd_wr_disj _ _ _ _ _ _ (by omega)]; exact Block.rd_wr_same8 _ _ _ (by omega)
  · rw [hn]; split <;> simp
  · split
    · simp
    · rename_i hc
      rcases r.array with ⟨h1, -⟩ | ⟨-, -, -, -, -, -, BA, hBA, -⟩
      · exact absurd h1 hc
      · intro hm
        rcases List.mem_append.1 hm with hm | hm
        · obtain ⟨B, hB⟩ := hlk new hm; exact hne new B hB rfl
        · rw [List.mem_singleton] at hm; exact hne arr BA hBA hm.symm
  · rw [Heap.set_ne _ _ _ _ hnb, Heap.set_ne _ _ _ _ hnb, Heap.set_same]
  · intro a ha
    obtain ⟨h1, h2, B, hB, hd⟩ := r.items a ha
    exact ⟨hne a B hB, h2, B, by rw [hother a (r.al a ha).2.2.1 (hne a B hB)]; exact hB, hd⟩
  · intro a ha
    obtain ⟨h1, h2, h3, h4⟩ := r.al a ha
    refine ⟨h1, h2, h3, ?_⟩
    split
    · simp
    · intro hm
      rcases List.mem_append.1 hm with hm | hm
      · exact h4 hm
      · rw [List.mem_singleton] at hm; exact (r.items a ha).1 hm
  · split
    · intro i hi; simp at hi
    · rename_i hc
      intro i hi
      rcases r.array with ⟨h1, -⟩ | ⟨e1, e2, -, -, -, -, BA, hBA, e5, -⟩
      · exact absurd h1 hc
      by_cases hi2 : i < lk.length
      · obtain ⟨B, hB, hBs⟩ := r.lks i hi2
        refine ⟨B, ?_, hBs⟩
        rw [List.getElem_append_left hi2]
        have : lk[i] ∈ lk := List.getElem_mem hi2
        rw [hother _ (fun e => r.lkb (e ▸ this)) (hne _ B hB)]
        exact hB
      · simp only [List.length_append, List.length_singleton] at hi
        have : i = lk.length := by omega
        subst this
        refine ⟨BA, ?_, fun hx => by rw [e5.2.2 hx, e1]; omega⟩
        rw [List.getElem_append_right (Nat.le_refl _)]
        simp only [Nat.sub_self, List.getElem_cons_zero]
        rw [hother _ e2 (hne _ BA hBA)]
        exact hBA
  · split
    · exact .nil
    · rename_i hc
      rcases r.array with ⟨h1, -⟩ | ⟨e1, e2, -, -, -, e6, BA, hBA, e5, -⟩
      · exact absurd h1 hc
      rw [List.nodup_append]
      refine ⟨r.lknd, by simp, ?_⟩
      intro a ha b hb e
      rw [List.mem_singleton] at hb
      rw [e, hb] at ha
      exact e6 ha
  · split
    · simp
    · rename_i hc
      rcases r.array with ⟨h1, -⟩ | ⟨e1, e2, -, -, -, e6, BA, hBA, e5, -⟩
      · exact absurd h1 hc
      intro hm
      rcases List.mem_append.1 hm with hm | hm
      · exact r.lkb hm
      · rw [List.mem_singleton] at hm; exact e2 hm.symm
  · intro x
    rw [r.frame x]
    have hn0 : n ≠ 0 := by
      rw [hn]; have := Nat.two_pow_pos (if cap = 0 then 0 else lk.length + 1); omega
    by_cases h1 : x = base
    · simp [h1]
    · by_cases h2 : x = new
      · subst h2
        have e1 : x ∉ A := fun hm => by obtain ⟨B, hB⟩ := hAb x hm; exact hne x B hB rfl
        have e2 : x ∉ lk := fun hm => by obtain ⟨B, hB⟩ := hlk x hm; exact hne x B hB rfl
        have e3 : ¬ (cap ≠ 0 ∧ x = arr) := by
          rintro ⟨hc, e⟩
          rcases r.array with ⟨h1, -⟩ | ⟨-, -, -, -, -, -, BA, hBA, -⟩
          · exact hc h1
          · exact hne arr BA hBA e.symm
        rw [if_neg (by rintro (h | h | h | h); exacts [h1 h, e3 h, e1 h, e2 h]), if_pos (Or.inr (Or.inl ⟨hn0, rfl⟩)), hf.none]
      · by_cases h3 : cap = 0
        · have h4 : lk = [] := by
            rcases r.array with ⟨-, -, -, h4⟩ | ⟨e1, -⟩
            · exact h4
            · rw [h3] at e1; have := Nat.two_pow_pos lk.length; omega
          simp only [h1, h2, h3, h4, hother x h1 h2]
          simp
        · simp only [h1, h2, h3, false_or, and_false, ne_eq, not_false_eq_true, true_and, if_false, List.mem_append, List.mem_singleton, hother x h1 h2]
          by_cases h5 : x ∈ A <;> by_cases h6 : x ∈ lk <;> by_cases h7 : x = arr <;> simp [h5, h6, h7]

theorem growArray_spec (hk : HeapOk h) (r : RepX ex h base arr cap A D lk G) :
    wp (growArray base) (fun out h' => (out = .err .noMem ∧ h' = h) ∨
      (out = .ok () ∧ ∃ arr' cap' lk', RepX ex h' base arr' cap' A D lk' G ∧ A.length < cap')) h := by
  obtain ⟨B0, h0, hs0, hb1, hb2, hb3⟩ := r.b0
  have hA : ∀ a ∈ A, a < W64 := fun a ha => (r.items a ha).2.1
  have grow : ∀ n, n = 32 * 2 ^ (if cap = 0 then 0 else lk.length + 1) → n * 8 ≤ maxAlloc → A.length < n → ∀ new d, Fresh h new (n * 8) →
      wp ((H.rd64 base 16).bind fun old => if new ≠ old then
          (H.rd64 base 0).bind fun m => (copyLoop base old new (m + 1) 0).bind fun _ => (H.wr64 base 16 new).bind fun _ => H.wr64 base 8 n
        else Prog.ret ())
        (fun out h' => (out = .err .noMem ∧ h' = h) ∨ (out = .ok () ∧ ∃ arr' cap' lk', RepX ex h' base arr' cap' A D lk' G ∧ A.length < cap'))
        (h.set new ⟨n * 8, d⟩) := by
    intro n hn hmax hlt new d hf
    have hnb : new ≠ base := by
      intro e; have := hf.none; rw [e, h0] at this; cases this
    have hna : new ≠ arr := by
      rcases r.array with ⟨-, h2, -⟩ | ⟨-, -, -, -, -, -, BA, hBA, -⟩
      · rcases h2.2 with h2 | ⟨B, hB⟩
        · rw [h2]; exact hf.pos
        · intro e; have := hf.none; rw [e, hB] at this; cases this
      · intro e; have := hf.none; rw [e, hBA] at this; cases this
    refine wp_rd (B := B0) (by rw [Heap.set_ne _ _ _ _ hnb.symm]; exact h0) (by omega) ?_
    rw [hb3, if_pos hna]
    refine wp_rd (B := B0) (by rw [Heap.set_ne _ _ _ _ hnb.symm]; exact h0) (by omega) ?_
    rw [hb1]
    refine wp_bind_of (copyLoop_spec (B0 := B0) (A := A) (by omega) hb1 hnb hna hA (A.length + 1) (by rw [Heap.set_ne _ _ _ _ hnb.symm]; exact h0) ?_
      (Heap.set_same _ _ _) (by show _ ≤ n * 8; omega) (by intro i hi; omega) (by omega) (by omega)) ?_ ?_
    · intro hpos
      rcases r.array with ⟨-, -, h3, -⟩ | ⟨-, -, -, -, -, -, BA, hBA, -, hE⟩
      · rw [h3] at hpos; simp at hpos
      · exact ⟨BA, by rw [Heap.set_ne _ _ _ _ hna.symm]; exact hBA, hE⟩
    · rintro _ h' ⟨-, BN, rfl, hs, hE⟩
      simp only [Heap.set_set]
      refine wp_wr (B := B0) (by rw [Heap.set_ne _ _ _ _ hnb.symm]; exact h0) (by omega) ?_
      refine ⟨_, Heap.set_same _ _ _, by show _ ≤ B0.size; omega, ?_⟩
      right
      refine ⟨rfl, new, n, _, swap_array r h0 (by rw [Nat.mul_comm]; exact hf) hn (by rw [hs, Nat.mul_comm]) hE (by omega), hlt⟩
    · rintro e h' ⟨he, -⟩; cases he
  unfold growArray pickArray
  simp only [Prog.bind_def, Prog.bind_assoc, Prog.pure_def]
  refine wp_rd h0 (by omega) ?_
  rw [hb2]
  by_cases hc : cap = 0
  · rw [if_pos hc]
    simp only [Prog.bind_assoc, Prog.ret_bind]
    have hA0 : A = [] := by
      rcases r.array with ⟨-, -, h3, -⟩ | ⟨h1, -⟩
      · exact h3
      · rw [hc] at h1; have := Nat.two_pow_pos lk.length; omega
    refine wp_alloc (by decide) ?_ (Or.inl ⟨rfl, rfl⟩)
    intro o d hf
    exact grow 32 (by simp [hc]) (by decide) (by rw [hA0]; decide) o d hf
  · rw [if_neg hc]
    simp only [Prog.bind_assoc, Prog.ret_bind]
    refine wp_rd h0 (by omega) ?_
    rw [hb1]
    obtain ⟨e1, e2, -, -, -, -, BA, hBA, e5, hE⟩ :=
      r.array.resolve_left (fun h => hc h.1)
    by_cases hcn : cap = A.length
    · rw [if_pos hcn]
      simp only [Prog.bind_assoc, Prog.ret_bind]
      refine wp_alloc (r.cap_small hk hcn) ?_ (Or.inl ⟨rfl, rfl⟩)
      intro o d hf
      refine grow (cap * 2) ?_ (r.cap_small hk hcn) (by omega) o d hf
      rw [if_neg hc, Nat.pow_succ, e1]; omega
    · rw [if_neg hcn]
      simp only [Prog.bind_assoc, Prog.ret_bind]
      refine wp_rd h0 (by omega) ?_
      refine wp_rd h0 (by omega) ?_
      rw [if_neg (by simp)]
      refine Or.inr ⟨rfl, arr, cap, lk, r, ?_⟩
      have := e5.2.1
      omega

/-- new contents with the same array -/
theorem RepX.update (r : RepX ex h base arr cap A D lk G) (hc : cap ≠ 0) {h' : Heap} {A' : List Nat} {D' : Nat → Bytes}
    (hb : ∃ B0, h'.blk base = some B0 ∧ B0.size = 24 ∧ B0.rd 0 8 = A'.length ∧ B0.rd 8 8 = cap ∧ B0.rd 16 8 = arr)
    (ha : ∃ BA, h'.blk arr = some BA ∧ (8 * cap ≤ BA.size ∧ A'.length ≤ cap ∧ (ex → BA.size = 8 * cap)) ∧ Ents BA A')
    (hi : Items h' arr D' A') (hal : ∀ a ∈ A', a % 8 = 0 ∧ a ≠ 0 ∧ a ≠ base ∧ a ∉ lk) (hnd : A'.Nodup) (hh : IsHeap (ltD D') A')
    (ho : ∀ x, x ≠ base → x ≠ arr → x ∉ A → x ∉ A' → h'.blk x = h.blk x)
    (hnew : ∀ x ∈ A', x ∉ A → h.blk x = none) (hold : ∀ x ∈ A, x ∉ A' → h'.blk x = none) : RepX ex h' base arr cap A' D' lk G := by
  obtain ⟨e1, e2, e3, e4, e5, e6, -⟩ := r.array.resolve_left (fun h => hc h.1)
  refine ⟨r.blt, hb, Or.inr ⟨e1, e2, e3, e4, e5, e6, ha⟩, hi, hal, hnd, hh, ?_, r.lknd, r.lkb, ?_⟩
  · intro i hi'
    obtain ⟨B, hB, hs⟩ := r.lks i hi'
    have hm : lk[i] ∈ lk := List.getElem_mem hi'
    refine ⟨B, ?_, hs⟩
    rw [ho _ (fun e => r.lkb (e ▸ hm)) (fun e => e6 (e ▸ hm)) (fun e => (r.al _ e).2.2.2 hm) (fun e => (hal _ e).2.2.2 hm)]
    exact hB
  · intro x
    rw [r.frame x]
    by_cases h1 : x = base
    · simp [h1]
    · by_cases h2 : x = arr
      · simp [h2, hc]
      · by_cases h3 : x ∈ lk
        · simp [h3]
        · by_cases h4 : x ∈ A <;> by_cases h5 : x ∈ A'
          · simp [h4, h5]
          · simp [h1, h2, h3, h4, h5, hold x h4 h5]
          · simp [h1, h2, h3, h4, h5, hnew x h5 h4]
          · simp [h1, h2, h3, h4, h5, ho x h1 h2 h4 h5]

theorem getD_append_right (A : List Nat) (x : Nat) : (A ++ [x]).getD A.length 0 = x := by
  simp [List.getD_eq_getElem?_getD]

theorem push_spec (hk : HeapOk h) (r : RepX ex h base arr cap A D lk G) {data : Bytes} (hd : data.length ≤ maxAlloc) :
    wp (push base data) (fun out h' =>
      (out = .err .noMem ∧ ∃ arr' cap' lk', RepX ex h' base arr' cap' A D lk' G) ∨
      (out = .ok () ∧ ∃ arr' cap' lk' A' item, RepX ex h' base arr' cap' A' (fun x => if x = item then data else D x) lk' G ∧ A'.Perm (A ++ [item]) ∧ item ∉ A)) h := by
  unfold push
  refine wp_bind_of (growArray_spec hk r) ?_ ?_
  rotate_left
  · rintro e h' (⟨he, rfl⟩ | ⟨he, -⟩)
    · injection he with he; subst he; exact Or.inl ⟨rfl, _, _, _, r⟩
    · cases he
  rintro _ h1 (⟨he, -⟩ | ⟨-, arr1, cap1, lk1, r1, hroom⟩)
  · cases he
  have hc : cap1 ≠ 0 := by omega
  obtain ⟨B0, h0, hs0, hb1, hb2, hb3⟩ := r1.b0
  obtain ⟨e1, e2, e3, e4, e5, e6, BA, hBA, e7, hE⟩ := r1.array.resolve_left (fun h => hc h.1)
  refine wp_alloc hd ?_ (Or.inl ⟨rfl, _, _, _, r1⟩)
  intro item d hf
  have hne : ∀ x B, h1.blk x = some B → x ≠ item := by
    intro x B hx e; rw [e, hf.none] at hx; cases hx
  have hib : base ≠ item := hne _ _ h0
  have hia : arr1 ≠ item := hne _ _ hBA
  have hiA : item ∉ A := by
    intro hm; obtain ⟨-, -, B, hB, -⟩ := r1.items _ hm; exact hne _ _ hB rfl
  have hiL : item ∉ lk1 := by
    intro hm
    obtain ⟨i, hi, e⟩ := List.getElem_of_mem hm
    obtain ⟨B, hB, -⟩ := r1.lks i hi
    rw [e] at hB
    exact hne _ _ hB rfl
  have hilt := hf.lt
  refine wp_wrB (Heap.set_same _ _ _) (by show _ ≤ data.length; omega) ?_
  rw [Heap.set_set]
  generalize hIB : Block.wrB ⟨data.length, d⟩ 0 data = IB
  have hIBs : IB.size = data.length := by rw [← hIB]; rfl
  have hIBb : IB.bytes = data := by
    unfold Block.bytes; rw [hIBs, ← hIB]; exact Block.rdB_wrB_same' _ _ _ _ rfl
  refine wp_rd (B := B0) (by rw [Heap.set_ne _ _ _ _ hib]; exact h0) (by omega) ?_
  refine wp_rd (B := B0) (by rw [Heap.set_ne _ _ _ _ hib]; exact h0) (by omega) ?_
  rw [hb3, hb1]
  refine wp_wr (B := BA) (by rw [Heap.set_ne _ _ _ _ hia]; exact hBA) (by omega) ?_
  refine wp_rd (B := B0) (by rw [Heap.set_ne _ _ _ _ e2.symm, Heap.set_ne _ _ _ _ hib]; exact h0) (by omega) ?_
  rw [hb1]
  refine wp_wr (B := B0) (by rw [Heap.set_ne _ _ _ _ e2.symm, Heap.set_ne _ _ _ _ hib]; exact h0) (by omega) ?_
  refine wp_rd (Heap.set_same _ _ _) (by show _ ≤ B0.size; omega) ?_
  have hlen : A.length + 1 < W64 := by
    have := hk
    have h2 := hE.1
    have h3 := B0.rd8_lt 8
    rw [hb2] at h3
    omega
  rw [Block.rd_wr_same8 _ _ _ hlen, Nat.add_sub_cancel]
  generalize hBA1 : BA.wr (8 * A.length) 8 item = BA1
  generalize hB1 : B0.wr 0 8 (A.length + 1) = B1
  have hE1 : Ents BA1 (A ++ [item]) := by
    have h2 : Ents BA1 ((A ++ [0]).set A.length item) := by
      rw [← hBA1]
      refine ⟨by simp; omega, ?_⟩
      intro i hi
      simp only [List.length_set, List.length_append, List.length_singleton] at hi
      rw [getD_set]
      by_cases e : i = A.length
      · subst e; simp only [true_and, List.length_append, List.length_singleton, Nat.lt_succ_self, if_true]
        exact Block.rd_wr_same8 _ _ _ (by omega)
      · simp only [e, false_and, if_false]
        rw [Block.rd_wr_disj _ _ _ _ _ _ (by omega), hE.2 i (by omega)]
        simp only [List.getD_eq_getElem?_getD, List.getElem?_append_left (show i < A.length by omega)]
    have e : List.set (A ++ [0]) A.length item = A ++ [item] := by rw [List.set_append_right _ _ (Nat.le_refl _)]; simp
    rwa [e] at h2
  let D' : Nat → Bytes := fun x => if x = item then data else D x
  have hlt : ∀ a ∈ A, a ≠ item := fun a ha e => hiA (e ▸ ha)
  have hI : Items (((h1.set item IB).set arr1 BA1).set base B1) arr1 D' (A ++ [item]) := by
    intro a ha
    rcases List.mem_append.1 ha with ha | ha
    · obtain ⟨k1, k2, B, hB, hd⟩ := r1.items a ha
      refine ⟨k1, k2, B, ?_, by simp only [D', if_neg (hlt a ha)]; exact hd⟩
      rw [Heap.set_ne _ _ _ _ (r1.al a ha).2.2.1, Heap.set_ne _ _ _ _ k1, Heap.set_ne _ _ _ _ (hlt a ha)]; exact hB
    · rw [List.mem_singleton] at ha
      subst ha
      refine ⟨hia.symm, by omega, IB, ?_, by simp only [D', if_true]; exact hIBb⟩
      rw [Heap.set_ne _ _ _ _ hib.symm, Heap.set_ne _ _ _ _ hia.symm, Heap.set_same]
  have hb1' : B1.rd 0 8 = A.length + 1 ∧ B1.rd 8 8 = cap1 ∧ B1.rd 16 8 = arr1 ∧ B1.size = 24 := by
    rw [← hB1]
    refine ⟨Block.rd_wr_same8 _ _ _ hlen, ?_, ?_, hs0⟩
    · rw [Block.rd_wr_disj _ _ _ _ _ _ (by omega)]; exact hb2
    · rw [Block.rd_wr_disj _ _ _ _ _ _ (by omega)]; exact hb3
  have hheap : IsHeap (ltD D') A := by
    intro i hi0 hi
    have := r1.heap i hi0 hi
    unfold ltD at this ⊢
    simp only [D', if_neg (hlt _ (mem_getD hi)), if_neg (hlt _ (mem_getD (show (i - 1) / 2 < A.length by omega)))]
    exact this
  obtain ⟨p1, p2⟩ := push_heap (ltD_ord D') hheap item
  refine wp_mono ?_ (siftDown_spec (D := D') (A := A ++ [item]) (t := A.length) (Heap.set_same _ _ _) (by omega) hb1'.2.2.1
    (by rw [Heap.set_ne _ _ _ _ e2, Heap.set_same]) hE1 hI (by simp))
  rintro o h' ⟨rfl, BA', rfl, hs', hE'⟩
  rw [getD_append_right] at hE'
  refine Or.inr ⟨rfl, arr1, cap1, lk1, _, item, r1.update hc (A' := sdL (ltD D') item (A.length + 1) (A ++ [item]) A.length) ⟨B1, ?_, hb1'.2.2.2, ?_, hb1'.2.1, hb1'.2.2.1⟩
    ⟨BA', Heap.set_same _ _ _, ?_, hE'⟩ ?_ ?_ ?_ p1 ?_ ?_ ?_, p2, hiA⟩
  · rw [Heap.set_ne _ _ _ _ e2.symm, Heap.set_same]
  · rw [hb1'.1, p2.length_eq]; simp
  · rw [hs', ← hBA1]; exact ⟨e7.1, by rw [p2.length_eq, List.length_append]; exact hroom, e7.2.2⟩
  · exact (hI.set _).mono (fun a ha => p2.mem_iff.1 ha)
  · intro a ha
    rcases List.mem_append.1 (p2.mem_iff.1 ha) with ha | ha
    · exact r1.al a ha
    · rw [List.mem_singleton] at ha; subst ha
      exact ⟨hf.align, hf.pos, hib.symm, hiL⟩
  · refine p2.nodup_iff.2 (List.nodup_append.2 ⟨r1.nodup, by simp, ?_⟩)
    intro a ha b hb e
    rw [List.mem_singleton] at hb
    exact hlt a ha (e.trans hb)
  · intro x h1x h2x h3x h4x
    have : x ≠ item := fun e => h4x (p2.mem_iff.2 (by simp [e]))
    rw [Heap.set_ne _ _ _ _ h2x, Heap.set_ne _ _ _ _ h1x, Heap.set_ne _ _ _ _ h2x, Heap.set_ne _ _ _ _ this]
  · intro x hx hx2
    rcases List.mem_append.1 (p2.mem_iff.1 hx) with ha | ha
    · exact absurd ha hx2
    · rw [List.mem_singleton] at ha; rw [ha]; exact hf.none
  · intro x hx hx2
    exact absurd (p2.mem_iff.2 (List.mem_append_left _ hx)) hx2

theorem size_spec (r : RepX ex h base arr cap A D lk G) : wp (size base) (fun out h' => out = .ok A.length ∧ h' = h) h := by
  obtain ⟨B0, h0, hs0, hb1, hb2, hb3⟩ := r.b0
  exact ⟨B0, h0, by omega, by rw [hb1]; exact ⟨rfl, rfl⟩⟩

theorem clearLoop_spec {arr : Nat} {BA : Block} {A : List Nat} (hE : Ents BA A) (n : Nat) : ∀ {h : Heap}, h.blk arr = some BA ∨ n = 0 → n ≤ A.length →
    (∀ a ∈ A.take n, a ≠ arr ∧ ∃ B, h.blk a = some B) → A.Nodup →
    wp (clearLoop arr n) (fun out h' => out = .ok () ∧ h'.base = h.base ∧ ∀ x, h'.blk x = if x ∈ A.take n then none else h.blk x) h := by
  induction n with
  | zero => intro h _ _ _ _; exact ⟨rfl, rfl, by simp⟩
  | succ n ih =>
    intro h hb hn hi hnd
    replace hb := hb.resolve_right (by omega)
    have hE1 := hE.1
    unfold clearLoop
    refine wp_rd hb (by omega) ?_
    rw [hE.2 n (by omega)]
    have ht : A.take (n + 1) = A.take n ++ [A.getD n 0] := by
      rw [List.take_succ, List.getD_eq_getElem?_getD, List.getElem?_eq_getElem (by omega)]; rfl
    have hnot : A.getD n 0 ∉ A.take n := by
      have : (A.take (n + 1)).Nodup := hnd.sublist (List.take_sublist _ _)
      rw [ht, List.nodup_append] at this
      intro hm
      exact this.2.2 _ hm _ (by simp) rfl
    obtain ⟨hne, B, hB⟩ := hi (A.getD n 0) (by rw [ht]; simp)
    refine wp_free hB ?_
    refine wp_mono ?_ (ih (h := h.del (A.getD n 0)) (Or.inl (by rw [Heap.del_ne _ _ _ hne.symm]; exact hb)) (by omega) ?_ hnd)
    · rintro o h' ⟨rfl, e1, e2⟩
      refine ⟨rfl, by rw [e1]; rfl, ?_⟩
      intro x
      rw [e2 x, ht]
      simp only [List.mem_append, List.mem_singleton]
      by_cases h1 : x ∈ A.take n
      · rw [if_pos h1, if_pos (Or.inl h1)]
      · by_cases h2 : x = A.getD n 0
        · rw [if_neg h1, if_pos (Or.inr h2), h2, Heap.del_same]
        · rw [if_neg h1, if_neg (by rintro (h | h); exacts [h1 h, h2 h]), Heap.del_ne _ _ _ h2]
    · intro a ha
      obtain ⟨k1, B', hB'⟩ := hi a (by rw [ht]; exact List.mem_append_left _ ha)
      exact ⟨k1, B', by rw [Heap.del_ne _ _ _ (show a ≠ A.getD n 0 from fun e => hnot (e ▸ ha))]; exact hB'⟩

theorem clear_spec (r : RepX ex h base arr cap A D lk G) :
    wp (clear base) (fun out h' => out = .ok () ∧ RepX ex h' base arr cap [] D lk G) h := by
  obtain ⟨B0, h0, hs0, hb1, hb2, hb3⟩ := r.b0
  unfold clear
  refine wp_rd h0 (by omega) ?_
  refine wp_rd h0 (by omega) ?_
  refine wp_wr h0 (by omega) ?_
  rw [hb1, hb3]
  generalize hB1 : B0.wr 0 8 0 = B1
  have hb1' : B1.rd 0 8 = 0 ∧ B1.rd 8 8 = cap ∧ B1.rd 16 8 = arr ∧ B1.size = 24 := by
    rw [← hB1]
    refine ⟨Block.rd_wr_same8 _ _ _ (by decide), ?_, ?_, hs0⟩
    · rw [Block.rd_wr_disj _ _ _ _ _ _ (by omega)]; exact hb2
    · rw [Block.rd_wr_disj _ _ _ _ _ _ (by omega)]; exact hb3
  by_cases hc : cap = 0
  · obtain ⟨e1, e2, rfl, rfl⟩ : cap = 0 ∧ ((ex → arr = 0) ∧ (arr = 0 ∨ ∃ B, h.blk arr = some B)) ∧ A = [] ∧ lk = [] := by
      rcases r.array with h | ⟨h, -⟩
      · exact h
      · have := Nat.two_pow_pos lk.length; omega
    refine ⟨rfl, r.blt, ⟨B1, Heap.set_same _ _ _, hb1'.2.2.2, hb1'.1, hb1'.2.1, hb1'.2.2.1⟩, Or.inl ⟨e1, ⟨e2.1, e2.2.imp id fun ⟨_, hB⟩ => live_set hB⟩, rfl, rfl⟩, ?_, ?_, .nil, ?_, ?_, .nil, by simp, ?_⟩
    · intro a ha; cases ha
    · intro a ha; cases ha
    · intro i _ hi; simp at hi
    · intro i hi; simp at hi
    · intro x
      rw [r.frame x]
      by_cases h1 : x = base
      · simp [h1]
      · simp [h1, hc, Heap.set_ne]
  · obtain ⟨e1, e2, e3, e4, e5, e6, BA, hBA, e7, hE⟩ := r.array.resolve_left (fun h => hc h.1)
    have hset : ∀ x, x ≠ base → (h.set base B1).blk x = h.blk x := fun x hx => Heap.set_ne _ _ _ _ hx
    refine wp_mono ?_ (clearLoop_spec (A := A) hE A.length (h := h.set base B1) (Or.inl (by rw [hset _ e2]; exact hBA)) (Nat.le_refl _) ?_ r.nodup)
    · rintro o h' ⟨rfl, -, e8⟩
      rw [List.take_length] at e8
      have hnb : base ∉ A := fun hm => (r.al _ hm).2.2.1 rfl
      have hna : arr ∉ A := fun hm => (r.items _ hm).1 rfl
      refine ⟨rfl, r.update hc ⟨B1, by rw [e8, if_neg hnb, Heap.set_same], hb1'.2.2.2, hb1'.1, hb1'.2.1, hb1'.2.2.1⟩
        ⟨BA, by rw [e8, if_neg hna, hset _ e2]; exact hBA, ⟨e7.1, Nat.zero_le _, e7.2.2⟩, by simp [Ents]⟩ (by intro a ha; cases ha) (by intro a ha; cases ha) .nil (by intro i _ hi; simp at hi) ?_ ?_ ?_⟩
      · intro x h1 h2 h3 _
        rw [e8, if_neg h3, hset _ h1]
      · intro x hx; cases hx
      · intro x hx _; rw [e8, if_pos hx]
    · intro a ha
      rw [List.take_length] at ha
      obtain ⟨k1, -, B, hB, -⟩ := r.items a ha
      exact ⟨k1, B, by rw [hset _ (r.al a ha).2.2.1]; exact hB⟩

/-- the entries after the last one has replaced the first -/
theorem replace_perm {A : List Nat} (h : 2 ≤ A.length) : A.Perm (A.getD 0 0 :: (A.set 0 (A.getD (A.length - 1) 0)).take (A.length - 1)) ∧
    ∀ i, 0 < i → i < A.length - 1 → ((A.set 0 (A.getD (A.length - 1) 0)).take (A.length - 1)).getD i 0 = A.getD i 0 := by
  constructor
  · match A, h with
    | a :: b :: l, _ =>
      obtain ⟨m, z, e⟩ : ∃ m z, b :: l = m ++ [z] := ⟨(b :: l).dropLast, (b :: l).getLast (by simp), (List.dropLast_append_getLast (by simp)).symm⟩
      rw [e]
      have hl : (a :: (m ++ [z])).length - 1 = m.length + 1 := by simp
      have hz : (a :: (m ++ [z])).getD (m.length + 1) 0 = z := by simp [List.getD_eq_getElem?_getD]
      have h0 : (a :: (m ++ [z])).getD 0 0 = a := rfl
      rw [hl, hz, h0]
      simp only [List.set_cons_zero, List.take_succ_cons, List.take_left]
      exact (List.perm_append_singleton z m).cons a
  · intro i hi0 hi
    rw [List.getD_eq_getElem?_getD, List.getElem?_take_of_lt hi, ← List.getD_eq_getElem?_getD, getD_set]
    simp only [show ¬ i = 0 by omega, false_and, if_false]

theorem takeItem_spec {o : Nat} {B : Block} (hB : h.blk o = some B) :
    wp (takeItem o) (fun out h' => out = .ok B.bytes ∧ h' = h.del o) h := by
  unfold takeItem
  refine wp_bsize hB ?_
  refine wp_rdB hB (by omega) ?_
  refine wp_free hB ?_
  exact ⟨rfl, rfl⟩

theorem pop_spec (r : RepX ex h base arr cap A D lk G) :
    wp (pop base) (fun out h' => (A = [] ∧ out = .err .outOfRange ∧ h' = h) ∨
      ∃ o A', A.Perm (o :: A') ∧ (∀ a ∈ A, ltD D a o = false) ∧ out = .ok (D o) ∧ RepX ex h' base arr cap A' D lk G) h := by
  obtain ⟨B0, h0, hs0, hb1, hb2, hb3⟩ := r.b0
  unfold pop
  refine wp_rd h0 (by omega) ?_
  rw [hb1]
  by_cases hA0 : A.length = 0
  · rw [if_pos hA0]
    exact Or.inl ⟨List.length_eq_zero_iff.1 hA0, rfl, rfl⟩
  rw [if_neg hA0]
  have hc : cap ≠ 0 := by
    intro hc
    rcases r.array with ⟨-, -, h, -⟩ | ⟨h, -⟩
    · rw [h] at hA0; simp at hA0
    · have := Nat.two_pow_pos lk.length; omega
  obtain ⟨e1, e2, e3, e4, e5, e6, BA, hBA, e7, hE⟩ := r.array.resolve_left (fun h => hc h.1)
  have hE1 := hE.1
  have hom : A.getD 0 0 ∈ A := mem_getD (by omega)
  have hmin : ∀ a ∈ A, ltD D a (A.getD 0 0) = false := by
    intro a ha
    obtain ⟨i, hi, rfl⟩ := List.getElem_of_mem ha
    have := heap_min (ltD_ord D) r.heap i hi
    rwa [List.getD_eq_getElem?_getD, List.getElem?_eq_getElem hi] at this
  have hr0 := hE.2 0 (by omega)
  generalize A.getD 0 0 = o at hom hmin hr0
  obtain ⟨hoa, -, OB, hOB, hOD⟩ := r.items o hom
  obtain ⟨-, -, hob, -⟩ := r.al o hom
  by_cases hA1 : A.length = 1
  · rw [if_pos hA1]
    have hA : A = [o] := by
      match A, hA1, hom with
      | [a], _, hm => rw [List.mem_singleton] at hm; rw [hm]
    refine wp_rd h0 (by omega) ?_
    rw [hb3]
    refine wp_rd hBA (by omega) ?_
    have hr0' : BA.rd 0 8 = o := hr0
    rw [hr0']
    refine wp_wr h0 (by omega) ?_
    generalize hB1 : B0.wr 0 8 0 = B1
    have hb1' : B1.rd 0 8 = 0 ∧ B1.rd 8 8 = cap ∧ B1.rd 16 8 = arr ∧ B1.size = 24 := by
      rw [← hB1]
      refine ⟨Block.rd_wr_same8 _ _ _ (by decide), ?_, ?_, hs0⟩
      · rw [Block.rd_wr_disj _ _ _ _ _ _ (by omega)]; exact hb2
      · rw [Block.rd_wr_disj _ _ _ _ _ _ (by omega)]; exact hb3
    refine wp_mono ?_ (takeItem_spec (h := h.set base B1) (by rw [Heap.set_ne _ _ _ _ hob]; exact hOB))
    rintro out h' ⟨rfl, rfl⟩
    refine Or.inr ⟨o, [], by rw [hA], hmin, by rw [hOD], r.update hc ⟨B1, by rw [Heap.del_ne _ _ _ hob.symm, Heap.set_same], hb1'.2.2.2, hb1'.1, hb1'.2.1, hb1'.2.2.1⟩
        ⟨BA, by rw [Heap.del_ne _ _ _ hoa.symm, Heap.set_ne _ _ _ _ e2]; exact hBA, ⟨e7.1, Nat.zero_le _, e7.2.2⟩, by simp [Ents]⟩ (by intro a ha; cases ha) (by intro a ha; cases ha) .nil
        (by intro i _ hi; simp at hi) ?_ ?_ ?_⟩
    · intro x h1 h2 h3 _
      rw [hA, List.mem_singleton] at h3
      rw [Heap.del_ne _ _ _ h3, Heap.set_ne _ _ _ _ h1]
    · intro x hx; cases hx
    · intro x hx _
      rw [hA, List.mem_singleton] at hx
      rw [hx, Heap.del_same]
  · rw [if_neg hA1]
    have h2 : 2 ≤ A.length := by omega
    obtain ⟨q1, q2⟩ := replace_perm h2
    refine wp_rd h0 (by omega) ?_
    rw [hb3]
    refine wp_rd hBA (by omega) ?_
    have hr0' : BA.rd 0 8 = o := hr0
    rw [hr0']
    refine wp_rd h0 (by omega) ?_
    rw [hb1]
    refine wp_rd hBA (by omega) ?_
    rw [hE.2 _ (by omega)]
    have hlm : A.getD (A.length - 1) 0 ∈ A := mem_getD (by omega)
    have ho : A.getD 0 0 = o := by rw [← hE.2 0 (by omega)]; exact hr0
    rw [ho] at q1
    have hEl := (hE.set (t := 0) (r.items _ hlm).2.1).take (A.length - 1)
    generalize hA1' : (A.set 0 (A.getD (A.length - 1) 0)).take (A.length - 1) = A1 at q1 q2 hEl
    have hl1 : A1.length = A.length - 1 := by have := q1.length_eq; simp at this; omega
    refine wp_wr hBA (by omega) ?_
    refine wp_rd (B := B0) (by rw [Heap.set_ne _ _ _ _ e2.symm]; exact h0) (by omega) ?_
    rw [hb1]
    refine wp_wr (B := B0) (by rw [Heap.set_ne _ _ _ _ e2.symm]; exact h0) (by omega) ?_
    generalize hlast : A.getD (A.length - 1) 0 = last at hlm hEl hA1'
    rw [← hl1]
    have hlW : A1.length < W64 := by have := B0.rd8_lt 0; omega
    generalize hBA1 : BA.wr 0 8 last = BA1
    generalize hB1 : B0.wr 0 8 A1.length = B1
    have hb1' : B1.rd 0 8 = A1.length ∧ B1.rd 8 8 = cap ∧ B1.rd 16 8 = arr ∧ B1.size = 24 := by
      rw [← hB1]
      refine ⟨Block.rd_wr_same8 _ _ _ hlW, ?_, ?_, hs0⟩
      · rw [Block.rd_wr_disj _ _ _ _ _ _ (by omega)]; exact hb2
      · rw [Block.rd_wr_disj _ _ _ _ _ _ (by omega)]; exact hb3
    have hE2 : Ents BA1 A1 := by
      rw [← hBA1]; exact hEl
    have hmA : ∀ a ∈ A1, a ∈ A := fun a ha => q1.mem_iff.2 (List.mem_cons_of_mem _ ha)
    have hnd1 : (o :: A1).Nodup := q1.nodup_iff.1 r.nodup
    have hoA1 : o ∉ A1 := (List.nodup_cons.1 hnd1).1
    have hI : Items ((h.set arr BA1).set base B1) arr D A := by
      intro a ha
      obtain ⟨k1, k2, B, hB, hd⟩ := r.items a ha
      exact ⟨k1, k2, B, by rw [Heap.set_ne _ _ _ _ (r.al a ha).2.2.1, Heap.set_ne _ _ _ _ k1]; exact hB, hd⟩
    refine wp_bind_of (siftUp_spec (D := D) (A := A1) e2 (Heap.set_same _ _ _) (by omega) hb1'.2.2.1 hb1'.1 (by rw [Heap.set_ne _ _ _ _ e2, Heap.set_same]) hE2
      (hI.mono hmA) (by omega) ?_) ?_ ?_
    · intro i hi0 hi hp
      rw [hl1] at hi
      rw [q2 i hi0 hi, q2 _ (by omega) (by omega)]
      exact r.heap i hi0 (by omega)
    · rintro _ h' ⟨-, BA', A', rfl, hs', hE', hh', hp'⟩
      have hmA' : ∀ a ∈ A', a ∈ A := fun a ha => hmA a (hp'.mem_iff.1 ha)
      have hoA' : o ∉ A' := fun hm => hoA1 (hp'.mem_iff.1 hm)
      refine wp_mono ?_ (takeItem_spec (o := o) (B := OB) (by rw [Heap.set_ne _ _ _ _ hoa, Heap.set_ne _ _ _ _ hob, Heap.set_ne _ _ _ _ hoa]; exact hOB))
      rintro out h' ⟨rfl, rfl⟩
      refine Or.inr ⟨o, A', q1.trans (hp'.symm.cons o), hmin, by rw [hOD], r.update hc
          ⟨B1, by rw [Heap.del_ne _ _ _ hob.symm, Heap.set_ne _ _ _ _ e2.symm, Heap.set_same], hb1'.2.2.2, by rw [hb1'.1, hp'.length_eq], hb1'.2.1, hb1'.2.2.1⟩
          ⟨BA', by rw [Heap.del_ne _ _ _ hoa.symm, Heap.set_same], by rw [hs', ← hBA1]; exact ⟨e7.1, by rw [hp'.length_eq]; omega, e7.2.2⟩, hE'⟩ ?_ ?_ ?_ hh' ?_ ?_ ?_⟩
      · intro a ha
        obtain ⟨k1, k2, B, hB, hd⟩ := (hI.set BA').mono hmA' a ha
        exact ⟨k1, k2, B, by rw [Heap.del_ne _ _ _ (show a ≠ o from fun e => hoA' (e ▸ ha))]; exact hB, hd⟩
      · intro a ha; exact r.al a (hmA' a ha)
      · exact hp'.nodup_iff.2 (List.nodup_cons.1 hnd1).2
      · intro x k1 k2 k3 k4
        rw [Heap.del_ne _ _ _ (show x ≠ o from fun e => k3 (e ▸ hom)), Heap.set_ne _ _ _ _ k2, Heap.set_ne _ _ _ _ k1, Heap.set_ne _ _ _ _ k2]
      · intro x hx hx2; exact absurd (hmA' x hx) hx2
      · intro x hx hx2
        rcases List.mem_cons.1 (q1.mem_iff.1 hx) with rfl | hx
        · exact Heap.del_same _ _
        · exact absurd (hp'.mem_iff.2 hx) hx2
    · rintro e h' ⟨he, -⟩; cases he

end Verif.PrioQueue
