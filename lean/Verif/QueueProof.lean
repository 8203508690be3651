import Verif.Queue
import Verif.WpI
import Verif.Links
/-
Representation invariant of Queue and wp-specifications of its methods.
-/
namespace Verif.Queue
open Verif

/-- field `o` (0 = prev, 8 = next) of the node at `x` -/
def fld (h : Heap) (base o x : Nat) : Nat :=
  ((h.blk (loc base x).1).map fun B => B.rd ((loc base x).2 + o) 8).getD 0
/-- 8-byte field of the base block -/
def bfld (h : Heap) (base o : Nat) : Nat := ((h.blk base).map fun B => B.rd o 8).getD 0
def sz (h : Heap) (x : Nat) : Option Nat := (h.blk x).map Block.size
def dat (h : Heap) (x : Nat) : Option Bytes := (h.blk x).map fun B => B.rdB 16 (B.size - 16)

/-- total bytes of the items -/
def total (L : List (Nat × Bytes)) : Nat := (L.map (·.2.length)).sum

/-- sentinel-delimited sequence of node offsets -/
def seq (base : Nat) (L : List (Nat × Bytes)) : List Nat :=
  (base + 16) :: (L.map (·.1) ++ [base + 32])

/-- The heap holds a queue at `base` with nodes/items `L`; everything else in the heap is `G`. `dc` and `dt` say by how much the two counters are off (modulo 2^64); they are 0
except after crashes. -/
structure RepD (h : Heap) (base : Nat) (L : List (Nat × Bytes)) (G : Nat → Option Block) (dc dt : Nat) : Prop where
  bpos : base ≠ 0
  blt : base + 48 < W64
  bsz : sz h base = some 48
  cnt : bfld h base 0 = (L.length + dc) % W64
  tot : bfld h base 8 = (total L + dt) % W64
  node : ∀ p ∈ L, sz h p.1 = some (16 + p.2.length) ∧ dat h p.1 = some p.2 ∧
    p.1 ≠ 0 ∧ p.1 ≠ base ∧ p.1 ≠ base + 16 ∧ p.1 ≠ base + 32 ∧ p.1 < W64
  nodup : (L.map (·.1)).Nodup
  links : Links (fld h base 8) (fld h base 0) (seq base L)
  fprev : fld h base 0 (base + 16) = 0
  bnext : fld h base 8 (base + 32) = 0
  len : ∀ p ∈ L, 16 + p.2.length ≤ maxAlloc
  frame : ∀ x, G x = if x = base ∨ x ∈ L.map (·.1) then none else h.blk x

/-- a queue with exact counters -/
abbrev Rep (h : Heap) (base : Nat) (L : List (Nat × Bytes)) (G : Nat → Option Block) : Prop := RepD h base L G 0 0

/-! ### views under updates -/

/-- store to a node field -/
def wrF (h : Heap) (base o x v : Nat) : Heap :=
  match h.blk (loc base x).1 with
  | some B => h.set (loc base x).1 (B.wr ((loc base x).2 + o) 8 v)
  | none => h

def IsNode (h : Heap) (base x : Nat) : Prop :=
  ∃ B, h.blk (loc base x).1 = some B ∧ (loc base x).2 + 16 ≤ B.size

theorem loc_front (base : Nat) : loc base (base + 16) = (base, 16) := by simp [loc]
theorem loc_back (base : Nat) : loc base (base + 32) = (base, 32) := by simp [loc]
theorem loc_node {base x : Nat} (h1 : x ≠ base + 16) (h2 : x ≠ base + 32) : loc base x = (x, 0) := by
  simp [loc, h1, h2]

theorem wrF_base (h : Heap) (base o x v : Nat) : (wrF h base o x v).base = h.base := by
  unfold wrF; split <;> rfl

theorem wrF_fld {h : Heap} {base o x v o' y : Nat} (hx : IsNode h base x) (hxb : x ≠ base)
    (hyb : y ≠ base) (hv : v < W64) (ho : o = 0 ∨ o = 8) (ho' : o' = 0 ∨ o' = 8) :
    fld (wrF h base o x v) base o' y = if y = x ∧ o = o' then v else fld h base o' y := by
  obtain ⟨B, hB, hs⟩ := hx
  unfold fld wrF
  simp only [hB, Heap.set_blk]
  by_cases hxy : y = x
  · subst hxy
    simp only [if_pos, Option.map_some, Option.getD_some, hB, true_and]
    by_cases hoo : o = o'
    · subst hoo; simp only [if_pos]; exact Block.rd_wr_same8 _ _ _ hv
    · simp only [if_neg hoo]; exact Block.rd_wr_disj _ _ _ _ _ _ (by omega)
  · simp only [hxy, false_and, if_false]
    split
    · rename_i heq
      rw [heq, hB]
      simp only [Option.map_some, Option.getD_some]
      apply Block.rd_wr_disj
      unfold loc at heq ⊢
      by_cases c1 : x = base + 16 ∨ x = base + 32 <;> by_cases c2 : y = base + 16 ∨ y = base + 32 <;>
        simp only [c1, c2, if_true, if_false] at heq ⊢ <;> omega
    · rfl

theorem wrF_bfld {h : Heap} {base o x v o' : Nat} (hx : IsNode h base x) (hxb : x ≠ base)
    (ho' : o' + 8 ≤ 16) :
    bfld (wrF h base o x v) base o' = bfld h base o' := by
  obtain ⟨B, hB, hs⟩ := hx
  unfold bfld wrF
  simp only [hB, Heap.set_blk]
  split
  · rename_i heq
    rw [heq, hB]
    simp only [Option.map_some, Option.getD_some]
    apply Block.rd_wr_disj
    unfold loc at heq ⊢
    by_cases c1 : x = base + 16 ∨ x = base + 32 <;> simp only [c1, if_true, if_false] at heq ⊢ <;> omega
  · rfl

theorem wrF_sz {h : Heap} {base o x v y : Nat} : sz (wrF h base o x v) y = sz h y := by
  unfold sz wrF
  split
  · rename_i B hB
    simp only [Heap.set_blk]
    split
    · rename_i heq; subst heq; simp [hB]
    · rfl
  · rfl

theorem wrF_dat {h : Heap} {base o x v y : Nat} (hyb : y ≠ base) (hxb : x ≠ base)
    (ho : o = 0 ∨ o = 8) : dat (wrF h base o x v) y = dat h y := by
  unfold dat wrF
  split
  · rename_i B hB
    simp only [Heap.set_blk]
    split
    · rename_i heq; subst heq
      simp only [hB, Option.map_some, Block.size_wr, Option.some.injEq]
      apply Block.rdB_wr_disj
      unfold loc at hyb ⊢
      by_cases c1 : x = base + 16 ∨ x = base + 32 <;> simp only [c1, if_true, if_false] at hyb ⊢ <;> omega
    · rfl
  · rfl

theorem wrF_blk {h : Heap} {base o x v y : Nat} (hy : y ≠ (loc base x).1) :
    (wrF h base o x v).blk y = h.blk y := by
  unfold wrF; split
  · exact Heap.set_ne _ _ _ _ hy
  · rfl

theorem wrF_isNode {h : Heap} {base o x v y : Nat} (hy : IsNode h base y) :
    IsNode (wrF h base o x v) base y := by
  obtain ⟨B, hB, hs⟩ := hy
  have := @wrF_sz h base o x v (loc base y).1
  unfold sz at this
  rw [hB] at this
  simp only [Option.map_some, Option.map_eq_some_iff] at this
  obtain ⟨C, hC, hCs⟩ := this
  exact ⟨C, hC, by rw [hCs]; exact hs⟩

variable {α : Type} {Q : Out α → Heap → Prop} {h : Heap} {base x v : Nat}

theorem wp_rdF {k : Nat → HProg α} (o : Nat) (ho : o = 0 ∨ o = 8) (hx : IsNode h base x)
    (hk : wp (k (fld h base o x)) Q h) :
    wp ((H.rd64 (loc base x).1 ((loc base x).2 + o)).bind k) Q h := by
  obtain ⟨B, hB, hs⟩ := hx
  refine wp_rd hB (by omega) ?_
  unfold fld at hk; simpa only [hB, Option.map_some, Option.getD_some] using hk

theorem wp_wrF {k : Unit → HProg α} (o : Nat) (ho : o = 0 ∨ o = 8) (hx : IsNode h base x)
    (hk : wp (k ()) Q (wrF h base o x v)) :
    wp ((H.wr64 (loc base x).1 ((loc base x).2 + o) v).bind k) Q h := by
  obtain ⟨B, hB, hs⟩ := hx
  refine wp_wr hB (by omega) ?_
  unfold wrF at hk; simpa only [hB] using hk

/-- store to a counter in the base block -/
def wrC (h : Heap) (base o v : Nat) : Heap :=
  match h.blk base with
  | some B => h.set base (B.wr o 8 v)
  | none => h

theorem wrC_base (h : Heap) (base o v : Nat) : (wrC h base o v).base = h.base := by
  unfold wrC; split <;> rfl

theorem wrC_sz {o y : Nat} : sz (wrC h base o v) y = sz h y := by
  unfold sz wrC
  split
  · rename_i B hB
    simp only [Heap.set_blk]
    split
    · rename_i heq; subst heq; simp [hB]
    · rfl
  · rfl

theorem wrC_blk {o y : Nat} (hy : y ≠ base) : (wrC h base o v).blk y = h.blk y := by
  unfold wrC; split
  · exact Heap.set_ne _ _ _ _ hy
  · rfl

theorem wrC_dat {o y : Nat} (hy : y ≠ base) : dat (wrC h base o v) y = dat h y := by
  unfold dat; rw [wrC_blk hy]

theorem wrC_fld {o o' y : Nat} (hy : y ≠ base) (ho : o + 8 ≤ 16) :
    fld (wrC h base o v) base o' y = fld h base o' y := by
  unfold fld wrC
  split
  · rename_i B hB
    simp only [Heap.set_blk]
    split
    · rename_i heq
      rw [heq, hB]
      simp only [Option.map_some, Option.getD_some]
      apply Block.rd_wr_disj
      unfold loc at heq ⊢
      by_cases c1 : y = base + 16 ∨ y = base + 32 <;> simp only [c1, if_true, if_false] at heq ⊢ <;> omega
    · rfl
  · rfl

theorem wrC_bfld {o o' : Nat} (hb : (sz h base).isSome) (ho : o = 0 ∨ o = 8) (ho' : o' = 0 ∨ o' = 8) :
    bfld (wrC h base o v) base o' = if o = o' then v % W64 else bfld h base o' := by
  unfold bfld wrC
  unfold sz at hb
  simp only [Option.isSome_map, Option.isSome_iff_exists] at hb
  obtain ⟨B, hB⟩ := hb
  simp only [hB, Heap.set_same, Option.map_some, Option.getD_some]
  split
  · rename_i e; subst e; exact Block.rd_wr_same _ _ _ _
  · exact Block.rd_wr_disj _ _ _ _ _ _ (by omega)

theorem wp_rdC {k : Nat → HProg α} {o n : Nat} (hb : sz h base = some n) (ho : o + 8 ≤ n)
    (hk : wp (k (bfld h base o)) Q h) : wp ((H.rd64 base o).bind k) Q h := by
  unfold sz at hb
  simp only [Option.map_eq_some_iff] at hb
  obtain ⟨B, hB, hs⟩ := hb
  refine wp_rd hB (by omega) ?_
  unfold bfld at hk; simpa only [hB, Option.map_some, Option.getD_some] using hk

theorem wp_wrC {k : Unit → HProg α} {o n : Nat} (hb : sz h base = some n) (ho : o + 8 ≤ n)
    (hk : wp (k ()) Q (wrC h base o v)) : wp ((H.wr64 base o v).bind k) Q h := by
  unfold sz at hb
  simp only [Option.map_eq_some_iff] at hb
  obtain ⟨B, hB, hs⟩ := hb
  refine wp_wr hB (by omega) ?_
  unfold wrC at hk; simpa only [hB] using hk

theorem wp_bsizeS {k : Nat → HProg α} {n : Nat} (hb : sz h x = some n)
    (hk : wp (k n) Q h) : wp ((H.bsize x).bind k) Q h := by
  unfold sz at hb
  simp only [Option.map_eq_some_iff] at hb
  obtain ⟨B, hB, hs⟩ := hb
  refine wp_bsize hB ?_
  rw [hs]; exact hk

/-! ### facts from the representation -/
section
variable {L : List (Nat × Bytes)} {G : Nat → Option Block} {dc dt : Nat}

theorem RepD.isNode_base (r : RepD h base L G dc dt) (hx : x = base + 16 ∨ x = base + 32) :
    IsNode h base x := by
  have := r.bsz
  unfold sz at this
  simp only [Option.map_eq_some_iff] at this
  obtain ⟨B, hB, hs⟩ := this
  unfold IsNode loc
  rw [if_pos hx]
  exact ⟨B, hB, by simp only; omega⟩

theorem RepD.isNode_node (r : RepD h base L G dc dt) (hx : x ∈ L.map (·.1)) : IsNode h base x := by
  simp only [List.mem_map] at hx
  obtain ⟨p, hp, rfl⟩ := hx
  obtain ⟨h1, -, -, -, h2, h3, -⟩ := r.node p hp
  unfold sz at h1
  simp only [Option.map_eq_some_iff] at h1
  obtain ⟨B, hB, hs⟩ := h1
  unfold IsNode
  rw [loc_node h2 h3]
  exact ⟨B, hB, by simp only; omega⟩

theorem mem_seq {z : Nat} : z ∈ seq base L ↔ z = base + 16 ∨ z ∈ L.map (·.1) ∨ z = base + 32 := by
  simp [seq]

theorem RepD.isNode_seq (r : RepD h base L G dc dt) (hx : x ∈ seq base L) : IsNode h base x := by
  rw [mem_seq] at hx
  rcases hx with hx | hx | hx
  · exact r.isNode_base (Or.inl hx)
  · exact r.isNode_node hx
  · exact r.isNode_base (Or.inr hx)

theorem RepD.node_ne (r : RepD h base L G dc dt) (hx : x ∈ L.map (·.1)) :
    x ≠ 0 ∧ x ≠ base ∧ x ≠ base + 16 ∧ x ≠ base + 32 ∧ x < W64 := by
  simp only [List.mem_map] at hx
  obtain ⟨p, hp, rfl⟩ := hx
  exact (r.node p hp).2.2

theorem RepD.seq_ne (r : RepD h base L G dc dt) (hx : x ∈ seq base L) : x ≠ 0 ∧ x ≠ base ∧ x < W64 := by
  rw [mem_seq] at hx
  have := r.blt
  have := r.bpos
  rcases hx with hx | hx | hx
  · omega
  · have := r.node_ne hx; omega
  · omega

theorem RepD.seq_nodup (r : RepD h base L G dc dt) : (seq base L).Nodup := by
  unfold seq
  rw [List.nodup_cons, List.nodup_append]
  refine ⟨?_, r.nodup, by simp, ?_⟩
  · simp only [List.mem_append, List.mem_singleton, not_or]
    exact ⟨fun hx => (r.node_ne hx).2.2.1 rfl, by omega⟩
  · intro a ha b hb e
    simp only [List.mem_singleton] at hb
    subst hb; subst e
    exact (r.node_ne ha).2.2.2.1 rfl

theorem RepD.loc_foot (r : RepD h base L G dc dt) (hx : x ∈ seq base L) :
    (loc base x).1 = base ∨ (loc base x).1 ∈ L.map (·.1) := by
  rw [mem_seq] at hx
  rcases hx with rfl | hx | rfl
  · left; rw [loc_front]
  · right; have := r.node_ne hx; rw [loc_node this.2.2.1 this.2.2.2.1]; exact hx
  · left; rw [loc_back]
end

/-! ### method specifications -/
section
variable {L : List (Nat × Bytes)} {G : Nat → Option Block} {dc dt : Nat}

/-- after the four link stores the new node is in the list; the counters lag -/
theorem link_rep {L1 L2 : List (Nat × Bytes)} {l1 l2 : List Nat} {x y o : Nat} {d : Bytes}
    {B : Block} {h : Heap}
    (r : RepD h base (L1 ++ L2) G dc dt)
    (hS : seq base (L1 ++ L2) = l1 ++ x :: y :: l2)
    (hS' : seq base (L1 ++ (o, d) :: L2) = l1 ++ x :: o :: y :: l2)
    (hf : Fresh h o (16 + d.length)) (hBs : B.size = 16 + d.length) (hBd : B.rdB 16 d.length = d)
    (hd : 16 + d.length ≤ maxAlloc) :
    RepD (wrF (wrF (wrF (wrF (h.set o B) base 0 o x) base 8 o y) base 8 x o) base 0 y o) base (L1 ++ (o, d) :: L2) G (dc + (W64 - 1)) (dt + (W64 - d.length)) := by
  have hbs := r.bsz
  -- o is outside the structure
  have hob : o ≠ base := by
    intro e; have := hf.none; rw [e] at this; unfold sz at hbs; simp [this] at hbs
  have hos : o ≠ base + 16 ∧ o ≠ base + 32 := by
    unfold sz at hbs
    simp only [Option.map_eq_some_iff] at hbs
    obtain ⟨B0, hB0, hs0⟩ := hbs
    have := hf.disj base B0 hB0
    omega
  have hoL : o ∉ (L1 ++ L2).map (·.1) := by
    intro hm
    simp only [List.mem_map] at hm
    obtain ⟨p, hp, e⟩ := hm
    have h1 := (r.node p hp).1
    rw [e] at h1; unfold sz at h1; rw [hf.none] at h1; simp at h1
  have hoS : o ∉ seq base (L1 ++ L2) := by
    rw [mem_seq]; intro hc; rcases hc with hc | hc | hc
    · exact hos.1 hc
    · exact hoL hc
    · exact hos.2 hc
  have hxS : x ∈ seq base (L1 ++ L2) := by rw [hS]; simp
  have hyS : y ∈ seq base (L1 ++ L2) := by rw [hS]; simp
  have hox : o ≠ x := fun e => hoS (e ▸ hxS)
  have hoy : o ≠ y := fun e => hoS (e ▸ hyS)
  have hxb := (r.seq_ne hxS)
  have hyb := (r.seq_ne hyS)
  have holt := hf.lt
  have hblt := r.blt
  -- the heap after allocation
  have nO : IsNode (h.set o B) base o := by
    unfold IsNode; rw [loc_node hos.1 hos.2]; exact ⟨B, by simp, by simp only; omega⟩
  have locS : ∀ z ∈ seq base (L1 ++ L2), (loc base z).1 ≠ o := by
    intro z hz e
    rcases r.loc_foot hz with e' | e'
    · exact hob (e ▸ e')
    · exact hoL (e ▸ e')
  have nS : ∀ z ∈ seq base (L1 ++ L2), IsNode (h.set o B) base z := by
    intro z hz
    obtain ⟨C, hC, hs⟩ := r.isNode_seq hz
    exact ⟨C, by rw [Heap.set_ne _ _ _ _ (locS z hz)]; exact hC, hs⟩
  have fS : ∀ z ∈ seq base (L1 ++ L2), ∀ f, fld (h.set o B) base f z = fld h base f z := by
    intro z hz f; unfold fld; rw [Heap.set_ne _ _ _ _ (locS z hz)]
  have bS : ∀ f, bfld (h.set o B) base f = bfld h base f := by
    intro f; unfold bfld; rw [Heap.set_ne _ _ _ _ (Ne.symm hob)]
  have szB : sz (h.set o B) base = some 48 := by
    unfold sz; rw [Heap.set_ne _ _ _ _ (Ne.symm hob)]; exact hbs
  have szO : sz (h.set o B) o = some (16 + d.length) := by simp [sz, hBs]
  -- final views
  have hfld : ∀ z, z ∈ o :: seq base (L1 ++ L2) → ∀ f, (f = 0 ∨ f = 8) →
      fld (wrF (wrF (wrF (wrF (h.set o B) base 0 o x) base 8 o y) base 8 x o) base 0 y o) base f z =
      if z = y ∧ 0 = f then o else if z = x ∧ 8 = f then o else if z = o ∧ 8 = f then y else
        if z = o ∧ 0 = f then x else fld (h.set o B) base f z := by
    intro z hz f hf'
    have hzb : z ≠ base := by
      rcases List.mem_cons.1 hz with rfl | hz
      · exact hob
      · exact (r.seq_ne hz).2.1
    rw [wrF_fld (wrF_isNode (wrF_isNode (wrF_isNode (nS y hyS)))) hyb.2.1 hzb (by omega) (Or.inl rfl) hf',
      wrF_fld (wrF_isNode (wrF_isNode (nS x hxS))) hxb.2.1 hzb (by omega) (Or.inr rfl) hf',
      wrF_fld (wrF_isNode nO) hob hzb (by omega) (Or.inr rfl) hf',
      wrF_fld nO hob hzb (by omega) (Or.inl rfl) hf']
  generalize hh : wrF (wrF (wrF (wrF (h.set o B) base 0 o x) base 8 o y) base 8 x o) base 0 y o = h' at hfld ⊢
  have hsz : ∀ z, sz h' z = sz (h.set o B) z := by
    intro z; rw [← hh]; simp only [wrF_sz]
  have hdat : ∀ z, z ≠ base → dat h' z = dat (h.set o B) z := by
    intro z hz; rw [← hh]
    rw [wrF_dat hz hyb.2.1 (Or.inl rfl), wrF_dat hz hxb.2.1 (Or.inr rfl),
      wrF_dat hz hob (Or.inr rfl), wrF_dat hz hob (Or.inl rfl)]
  have hbf : ∀ f, f + 8 ≤ 16 → bfld h' base f = bfld h base f := by
    intro f hf'
    rw [← hh, wrF_bfld (wrF_isNode (wrF_isNode (wrF_isNode (nS y hyS)))) hyb.2.1 (by omega),
      wrF_bfld (wrF_isNode (wrF_isNode (nS x hxS))) hxb.2.1 (by omega),
      wrF_bfld (wrF_isNode nO) hob (by omega), wrF_bfld nO hob (by omega), bS]
  have hblk : ∀ z, z ≠ base → z ∉ (L1 ++ L2).map (·.1) → z ≠ o → h'.blk z = h.blk z := by
    intro z h1 h2 h3
    have hl : ∀ w ∈ seq base (L1 ++ L2), z ≠ (loc base w).1 := by
      intro w hw e
      rcases r.loc_foot hw with e' | e'
      · exact h1 (e.trans e')
      · exact h2 (e ▸ e')
    have hlo : z ≠ (loc base o).1 := by rw [loc_node hos.1 hos.2]; exact h3
    rw [← hh, wrF_blk (hl y hyS), wrF_blk (hl x hxS), wrF_blk hlo, wrF_blk hlo,
      Heap.set_ne _ _ _ _ h3]
  have hsz_old : ∀ z, z ≠ o → sz h' z = sz h z := by
    intro z hz; rw [hsz]; unfold sz; rw [Heap.set_ne _ _ _ _ hz]
  have hdat_old : ∀ z, z ≠ base → z ≠ o → dat h' z = dat h z := by
    intro z h1 hz; rw [hdat z h1]; unfold dat; rw [Heap.set_ne _ _ _ _ hz]
  refine ⟨r.bpos, r.blt, by rw [hsz]; exact szB, ?_, ?_, ?_, ?_, ?_, ?_, ?_, ?_, ?_⟩
  · rw [hbf 0 (by omega), r.cnt]; simp only [List.length_append, List.length_cons]
    omega
  · rw [hbf 8 (by omega), r.tot]; simp only [total, List.map_append, List.map_cons, List.sum_append, List.sum_cons]
    omega
  · intro p hp
    simp only [List.mem_append, List.mem_cons] at hp
    by_cases hpo : p = (o, d)
    · subst hpo
      refine ⟨by rw [hsz]; exact szO, ?_, hf.pos, hob, hos.1, hos.2, by simp only; omega⟩
      rw [hdat o hob]; simp [dat, hBs, hBd]
    · have hp' : p ∈ L1 ++ L2 := by simp only [List.mem_append]; tauto
      have hr := r.node p hp'
      have hpo' : p.1 ≠ o := fun e => hoL (e ▸ List.mem_map_of_mem hp')
      exact ⟨by rw [hsz_old _ hpo']; exact hr.1, by rw [hdat_old _ hr.2.2.2.1 hpo']; exact hr.2.1, hr.2.2⟩
  · have := r.nodup
    simp only [List.map_append, List.map_cons, List.mem_append] at this hoL ⊢
    rw [List.nodup_append] at this ⊢
    simp only [List.nodup_cons, List.mem_cons]
    refine ⟨this.1, ⟨by tauto, this.2.1⟩, ?_⟩
    intro a ha b hb
    rcases hb with rfl | hb
    · rintro rfl; tauto
    · exact this.2.2 a ha b hb
  · rw [hS']
    refine Links.insert (nx := fld h base 8) (pv := fld h base 0) (hS ▸ r.seq_nodup) (hS ▸ hoS)
      (hS ▸ r.links) ?_ ?_
    · rw [← hS]; intro z hz; rw [hfld z hz 8 (Or.inr rfl)]
      unfold upd
      simp only [show ¬ (0:Nat) = 8 by decide, and_false, if_false, and_true]
      split
      · rfl
      · split
        · rfl
        · rename_i hzo; exact fS z (by simpa [hzo] using hz) 8
    · rw [← hS]; intro z hz; rw [hfld z hz 0 (Or.inl rfl)]
      unfold upd
      simp only [show ¬ (8:Nat) = 0 by decide, and_false, if_false, and_true]
      split
      · rfl
      · split
        · rfl
        · rename_i hzo; exact fS z (by simpa [hzo] using hz) 0
  · have hfs : base + 16 ∈ seq base (L1 ++ L2) := by simp [seq]
    rw [hfld _ (List.mem_cons_of_mem _ hfs) 0 (Or.inl rfl)]
    have : base + 16 ≠ y := by
      intro e
      have hnd := r.seq_nodup
      rw [hS] at hnd
      have h0 : (seq base (L1 ++ L2))[0]? = some (base + 16) := rfl
      rw [hS] at h0
      cases l1 with
      | nil => simp only [List.nil_append, List.getElem?_cons_zero, Option.some.injEq] at h0
               simp only [List.nil_append, List.nodup_cons, List.mem_cons, not_or] at hnd
               exact hnd.1.1 (h0.trans e)
      | cons a l1 =>
        simp only [List.cons_append, List.getElem?_cons_zero, Option.some.injEq] at h0
        simp only [List.cons_append, List.nodup_cons] at hnd
        exact hnd.1 (by rw [h0, e]; simp)
    simp only [this, false_and, if_false, show ¬ (8:Nat) = 0 by decide, and_false, Ne.symm hos.1]
    rw [fS _ hfs]; exact r.fprev
  · have hfs : base + 32 ∈ seq base (L1 ++ L2) := by simp [seq]
    rw [hfld _ (List.mem_cons_of_mem _ hfs) 8 (Or.inr rfl)]
    have : base + 32 ≠ x := by
      intro e
      have hnd := r.seq_nodup
      have hl : (seq base (L1 ++ L2)).getLast? = some (base + 32) := by
        simp [seq, List.getLast?_cons]
      rw [hS] at hnd hl
      rw [List.getLast?_append, List.getLast?_cons_cons] at hl
      have hl' : base + 32 ∈ y :: l2 := by
        rw [Option.or_eq_some_iff] at hl
        rcases hl with hl | hl
        · exact List.mem_of_getLast? hl
        · simp at hl
      rw [List.nodup_append] at hnd
      rw [e] at hl'
      exact (List.nodup_cons.1 hnd.2.1).1 hl'
    simp only [this, false_and, if_false, show ¬ (0:Nat) = 8 by decide, and_false, Ne.symm hos.2]
    rw [fS _ hfs]; exact r.bnext
  · intro p hp
    by_cases hpo : p = (o, d)
    · subst hpo; exact hd
    · exact r.len p (by simp only [List.mem_append, List.mem_cons] at hp ⊢; tauto)
  · intro z
    rw [r.frame z]
    by_cases h1 : z = base
    · simp [h1]
    by_cases h2 : z ∈ (L1 ++ L2).map (·.1)
    · rw [if_pos (Or.inr h2), if_pos]
      right; simp only [List.map_append, List.map_cons, List.mem_append, List.mem_cons] at h2 ⊢; tauto
    by_cases h3 : z = o
    · subst h3
      rw [if_neg (by tauto), if_pos (by right; simp), hf.none]
    · rw [if_neg (by tauto), if_neg, hblk z h1 h2 h3]
      simp only [List.map_append, List.map_cons, List.mem_append, List.mem_cons] at h2 ⊢; tauto

/-- after the two link stores the node is out of the list (and its block belongs to nobody); the counters lag -/
theorem unlink_rep {L1 L2 : List (Nat × Bytes)} {l1 l2 : List Nat} {x y o : Nat} {d : Bytes} {h : Heap}
    (r : RepD h base (L1 ++ (o, d) :: L2) G dc dt) (hlx : (base + 16) :: L1.map (·.1) = l1 ++ [x]) (hly : L2.map (·.1) ++ [base + 32] = y :: l2)
    (hS : seq base (L1 ++ (o, d) :: L2) = l1 ++ x :: o :: y :: l2)
    (hS' : seq base (L1 ++ L2) = l1 ++ x :: y :: l2) :
    RepD (wrF (wrF h base 8 x y) base 0 y x) base (L1 ++ L2) (fun z => if z = o then h.blk o else G z) (dc + 1) (dt + d.length) := by
  have hmem : (o, d) ∈ L1 ++ (o, d) :: L2 := by simp
  have hoN := r.node _ hmem
  simp only at hoN
  obtain ⟨hosz, hodat, ho0, hob, hof, hobk, holt⟩ := hoN
  have hxS : x ∈ seq base (L1 ++ (o, d) :: L2) := by rw [hS]; simp
  have hyS : y ∈ seq base (L1 ++ (o, d) :: L2) := by rw [hS]; simp
  have hoS : o ∈ seq base (L1 ++ (o, d) :: L2) := by rw [hS]; simp
  have hnd := r.seq_nodup
  rw [hS] at hnd
  have hnd' := hnd
  simp only [List.nodup_append, List.nodup_cons, List.mem_cons, not_or] at hnd'
  have hox : o ≠ x := fun e => hnd'.2.1.1.1 e.symm
  have hoy : o ≠ y := hnd'.2.1.2.1.1
  have hxb := r.seq_ne hxS
  have hyb := r.seq_ne hyS
  have hblt := r.blt
  have hl := r.links
  rw [hS, Links.append_iff] at hl
  have hpv : fld h base 0 o = x := hl.2.2.1
  have hnx : fld h base 8 o = y := hl.2.2.2.1
  have hbs := r.bsz
  have hfld : ∀ z, z ≠ base → ∀ f, (f = 0 ∨ f = 8) →
      fld (wrF (wrF h base 8 x y) base 0 y x) base f z =
      if z = y ∧ 0 = f then x else if z = x ∧ 8 = f then y else fld h base f z := by
    intro z hzb f hf'
    rw [wrF_fld (wrF_isNode (r.isNode_seq hyS)) hyb.2.1 hzb (by omega) (Or.inl rfl) hf',
      wrF_fld (r.isNode_seq hxS) hxb.2.1 hzb (by omega) (Or.inr rfl) hf']
  have hbf : ∀ f, f + 8 ≤ 16 → bfld (wrF (wrF h base 8 x y) base 0 y x) base f = bfld h base f := by
    intro f hf'
    rw [wrF_bfld (wrF_isNode (r.isNode_seq hyS)) hyb.2.1 (by omega),
      wrF_bfld (r.isNode_seq hxS) hxb.2.1 (by omega)]
  have hblko : (wrF (wrF h base 8 x y) base 0 y x).blk o = h.blk o := by
    have hl : ∀ w ∈ seq base (L1 ++ (o, d) :: L2), w ≠ o → o ≠ (loc base w).1 := by
      intro w hw hwo e
      unfold loc at e
      split at e
      · exact hob e
      · exact hwo e.symm
    rw [wrF_blk (hl y hyS (Ne.symm hoy)), wrF_blk (hl x hxS (Ne.symm hox))]
  generalize hh : wrF (wrF h base 8 x y) base 0 y x = h1 at hfld hbf hblko ⊢
  have hsz : ∀ z, sz h1 z = sz h z := by
    intro z; rw [← hh]; simp only [wrF_sz]
  have hdat : ∀ z, z ≠ base → dat h1 z = dat h z := by
    intro z hz; rw [← hh]
    rw [wrF_dat hz hyb.2.1 (Or.inl rfl), wrF_dat hz hxb.2.1 (Or.inr rfl)]
  have hblk : ∀ z, z ≠ base → z ∉ (L1 ++ (o, d) :: L2).map (·.1) → h1.blk z = h.blk z := by
    intro z h1 h2
    have hl : ∀ w ∈ seq base (L1 ++ (o, d) :: L2), z ≠ (loc base w).1 := by
      intro w hw e
      rcases r.loc_foot hw with e' | e'
      · exact h1 (e.trans e')
      · exact h2 (e ▸ e')
    rw [← hh, wrF_blk (hl y hyS), wrF_blk (hl x hxS)]
  have hoL : o ∉ (L1 ++ L2).map (·.1) := by
    have := r.nodup
    simp only [List.map_append, List.map_cons, List.nodup_append, List.nodup_cons, List.mem_cons] at this
    simp only [List.map_append, List.mem_append, not_or]
    exact ⟨fun hm => this.2.2 o hm o (Or.inl rfl) rfl, this.2.1.1⟩
  have hmemL : ∀ z, z ∈ (L1 ++ (o, d) :: L2).map (·.1) ↔ z = o ∨ z ∈ (L1 ++ L2).map (·.1) := by
    intro z; simp only [List.map_append, List.map_cons, List.mem_append, List.mem_cons]; tauto
  refine ⟨r.bpos, r.blt, ?_, ?_, ?_, ?_, ?_, ?_, ?_, ?_, ?_, ?_⟩
  · exact (hsz base).trans hbs
  · rw [hbf 0 (by omega), r.cnt]; simp only [List.length_append, List.length_cons]
    omega
  · rw [hbf 8 (by omega), r.tot]; simp only [total, List.map_append, List.map_cons, List.sum_append, List.sum_cons]
    omega
  · intro p hp
    have hp' : p ∈ L1 ++ (o, d) :: L2 := by
      simp only [List.mem_append, List.mem_cons] at hp ⊢; tauto
    have hr := r.node p hp'
    have hpo' : p.1 ≠ o := fun e => hoL (e ▸ List.mem_map_of_mem hp)
    refine ⟨?_, ?_, hr.2.2⟩
    · exact (hsz _).trans hr.1
    · exact (hdat _ hr.2.2.2.1).trans hr.2.1
  · have := r.nodup
    simp only [List.map_append, List.map_cons, List.nodup_append, List.nodup_cons, List.mem_cons] at this ⊢
    exact ⟨this.1, this.2.1.2, fun a ha b hb => this.2.2 a ha b (Or.inr hb)⟩
  · rw [hS']
    have hzs : ∀ z, z ∈ l1 ++ x :: y :: l2 → z ≠ o ∧ z ≠ base := by
      intro z hz
      rw [← hS', mem_seq] at hz
      rcases hz with rfl | hz | rfl
      · exact ⟨Ne.symm hof, by omega⟩
      · exact ⟨fun e => hoL (e ▸ hz), (r.node_ne ((hmemL z).2 (Or.inr hz))).2.1⟩
      · exact ⟨Ne.symm hobk, by omega⟩
    refine Links.remove (nx := fld h base 8) (pv := fld h base 0) hnd (hS ▸ r.links) ?_ ?_
    · intro z hz
      rw [hfld z (hzs z hz).2 8 (Or.inr rfl)]
      unfold upd
      simp only [show ¬ (0:Nat) = 8 by decide, and_false, if_false, and_true]
    · intro z hz
      rw [hfld z (hzs z hz).2 0 (Or.inl rfl)]
      unfold upd
      simp only [show ¬ (8:Nat) = 0 by decide, and_false, if_false, and_true]
  · rw [hfld _ (by omega) 0 (Or.inl rfl), if_neg, if_neg (by omega)]
    · exact r.fprev
    · rintro ⟨e, -⟩
      have : base + 16 ∈ l1 ++ [x] := by rw [← hlx]; simp
      rw [List.append_cons, List.nodup_append] at hnd
      exact hnd.2.2 _ this y (by simp) e
  · rw [hfld _ (by omega) 8 (Or.inr rfl), if_neg (by omega), if_neg]
    · exact r.bnext
    · rintro ⟨e, -⟩
      have : base + 32 ∈ y :: l2 := by rw [← hly]; simp
      rw [List.nodup_append] at hnd
      have h3 := hnd.2.1
      rw [← e] at h3
      simp only [List.nodup_cons] at h3
      exact h3.1 (List.mem_cons_of_mem _ this)
  · intro p hp
    exact r.len p (by simp only [List.mem_append, List.mem_cons] at hp ⊢; tauto)
  · intro z
    show (if z = o then h.blk o else G z) = _
    by_cases h3 : z = o
    · subst h3
      rw [if_pos rfl, if_neg (by simp only [not_or]; exact ⟨hob, hoL⟩), hblko]
    rw [if_neg h3, r.frame z]
    by_cases h1' : z = base
    · simp [h1']
    by_cases h2 : z ∈ (L1 ++ L2).map (·.1)
    · rw [if_pos (Or.inr ((hmemL z).2 (Or.inr h2))), if_pos (Or.inr h2)]
    · have : z ∉ (L1 ++ (o, d) :: L2).map (·.1) := by rw [hmemL]; tauto
      rw [if_neg (by tauto), if_neg (by tauto), hblk z h1' this]

/-! ### stores outside the list and to the counters -/

theorem RepD.set_out {h : Heap} {o : Nat} {B : Block} (r : RepD h base L G dc dt) (hob : o ≠ base) (hoL : o ∉ L.map (·.1)) :
    RepD (h.set o B) base L (fun z => if z = o then some B else G z) dc dt := by
  have hn : ∀ z, z ∈ seq base L → (loc base z).1 ≠ o := by
    intro z hz e
    rcases r.loc_foot hz with e' | e'
    · exact hob (e ▸ e')
    · exact hoL (e ▸ e')
  have hf : ∀ z ∈ seq base L, ∀ f, fld (h.set o B) base f z = fld h base f z := by
    intro z hz f; unfold fld; rw [Heap.set_ne _ _ _ _ (hn z hz)]
  have hs : ∀ z, z ≠ o → sz (h.set o B) z = sz h z := by intro z hz; unfold sz; rw [Heap.set_ne _ _ _ _ hz]
  have hb : ∀ f, bfld (h.set o B) base f = bfld h base f := by intro f; unfold bfld; rw [Heap.set_ne _ _ _ _ (Ne.symm hob)]
  refine ⟨r.bpos, r.blt, (hs _ (Ne.symm hob)).trans r.bsz, (hb _).trans r.cnt, (hb _).trans r.tot, ?_, r.nodup, ?_, ?_, ?_, r.len, ?_⟩
  · intro p hp
    have hpo : p.1 ≠ o := fun e => hoL (e ▸ List.mem_map_of_mem hp)
    have hr := r.node p hp
    refine ⟨(hs _ hpo).trans hr.1, ?_, hr.2.2⟩
    unfold dat; rw [Heap.set_ne _ _ _ _ hpo]; exact hr.2.1
  · exact Links.congr (fun z hz => (hf z (List.dropLast_subset _ hz) 8).symm) (fun z hz => (hf z (List.mem_of_mem_tail hz) 0).symm) r.links
  · exact (hf _ (by simp [seq]) 0).trans r.fprev
  · exact (hf _ (by simp [seq]) 8).trans r.bnext
  · intro z
    show (if z = o then some B else G z) = _
    by_cases e : z = o
    · subst e
      rw [if_pos rfl, if_neg (by simp only [not_or]; exact ⟨hob, hoL⟩), Heap.set_same]
    · rw [if_neg e, r.frame z, Heap.set_ne _ _ _ _ e]

theorem RepD.del_out {h : Heap} {o : Nat} (r : RepD h base L G dc dt) (hob : o ≠ base) (hoL : o ∉ L.map (·.1)) :
    RepD (h.del o) base L (fun z => if z = o then none else G z) dc dt := by
  have hn : ∀ z, z ∈ seq base L → (loc base z).1 ≠ o := by
    intro z hz e
    rcases r.loc_foot hz with e' | e'
    · exact hob (e ▸ e')
    · exact hoL (e ▸ e')
  have hf : ∀ z ∈ seq base L, ∀ f, fld (h.del o) base f z = fld h base f z := by
    intro z hz f; unfold fld; rw [Heap.del_ne _ _ _ (hn z hz)]
  have hs : ∀ z, z ≠ o → sz (h.del o) z = sz h z := by intro z hz; unfold sz; rw [Heap.del_ne _ _ _ hz]
  have hb : ∀ f, bfld (h.del o) base f = bfld h base f := by intro f; unfold bfld; rw [Heap.del_ne _ _ _ (Ne.symm hob)]
  refine ⟨r.bpos, r.blt, (hs _ (Ne.symm hob)).trans r.bsz, (hb _).trans r.cnt, (hb _).trans r.tot, ?_, r.nodup, ?_, ?_, ?_, r.len, ?_⟩
  · intro p hp
    have hpo : p.1 ≠ o := fun e => hoL (e ▸ List.mem_map_of_mem hp)
    have hr := r.node p hp
    refine ⟨(hs _ hpo).trans hr.1, ?_, hr.2.2⟩
    unfold dat; rw [Heap.del_ne _ _ _ hpo]; exact hr.2.1
  · exact Links.congr (fun z hz => (hf z (List.dropLast_subset _ hz) 8).symm) (fun z hz => (hf z (List.mem_of_mem_tail hz) 0).symm) r.links
  · exact (hf _ (by simp [seq]) 0).trans r.fprev
  · exact (hf _ (by simp [seq]) 8).trans r.bnext
  · intro z
    show (if z = o then none else G z) = _
    by_cases e : z = o
    · subst e
      rw [if_pos rfl, if_neg (by simp only [not_or]; exact ⟨hob, hoL⟩), Heap.del_same]
    · rw [if_neg e, r.frame z, Heap.del_ne _ _ _ e]

theorem RepD.wrC {h : Heap} {o v c t : Nat} (r : RepD h base L G dc dt) (ho : o = 0 ∨ o = 8)
    (hc : (if o = 0 then v % W64 else (L.length + dc) % W64) = (L.length + c) % W64) (ht : (if o = 8 then v % W64 else (total L + dt) % W64) = (total L + t) % W64) :
    RepD (wrC h base o v) base L G c t := by
  have hbs : (sz h base).isSome := by rw [r.bsz]; rfl
  have hf : ∀ z ∈ seq base L, ∀ f, fld (Queue.wrC h base o v) base f z = fld h base f z := by
    intro z hz f; exact wrC_fld (r.seq_ne hz).2.1 (by omega)
  refine ⟨r.bpos, r.blt, wrC_sz.trans r.bsz, ?_, ?_, ?_, r.nodup, ?_, ?_, ?_, r.len, ?_⟩
  · rw [wrC_bfld hbs ho (Or.inl rfl), r.cnt, hc]
  · rw [wrC_bfld hbs ho (Or.inr rfl), r.tot, ht]
  · intro p hp
    have hr := r.node p hp
    exact ⟨wrC_sz.trans hr.1, (wrC_dat hr.2.2.2.1).trans hr.2.1, hr.2.2⟩
  · exact Links.congr (fun z hz => (hf z (List.dropLast_subset _ hz) 8).symm) (fun z hz => (hf z (List.mem_of_mem_tail hz) 0).symm) r.links
  · exact (hf _ (by simp [seq]) 0).trans r.fprev
  · exact (hf _ (by simp [seq]) 8).trans r.bnext
  · intro z
    rw [r.frame z]
    by_cases e : z = base
    · simp [e]
    · rw [wrC_blk e]

/-! ### what a process that dies in a call leaves behind -/

/-- following the next links from the front sentinel gives `Ln`, following the prev links from the back sentinel gives `Lo` -/
structure Split (h : Heap) (base : Nat) (Ln Lo : List (Nat × Bytes)) : Prop where
  fwd : ∃ pv, Links (fld h base 8) pv (seq base Ln)
  bwd : ∃ nx, Links nx (fld h base 0) (seq base Lo)
  node : ∀ p, p ∈ Ln ∨ p ∈ Lo → dat h p.1 = some p.2
  nodes : ∀ p, p ∈ Ln ∨ p ∈ Lo → sz h p.1 = some (16 + p.2.length) ∧ p.1 ≠ 0 ∧ p.1 ≠ base ∧ p.1 ≠ base + 16 ∧ p.1 ≠ base + 32
  bpos : base ≠ 0
  bsz : sz h base = some 48
  fprev : fld h base 0 (base + 16) = 0
  bnext : fld h base 8 (base + 32) = 0
  len : Ln.length ≠ Lo.length

/-- A call that turns the items `so` into `sn` has died.  Either the queue is well-formed and holds one of these, its counters are each the old or the new ones, and at most one
block is lost; or the process has died between its two link stores, and the next links give `sn`, the prev links `so`.  In both cases the other blocks `G` are as they were. -/
def Cr (base : Nat) (G : Nat → Option Block) (dc dt : Nat) (so sn : List Bytes) (h : Heap) : Prop :=
  (∃ L G' dc' dt' lost, RepD h base L G' dc' dt' ∧ (L.map (·.2) = so ∨ L.map (·.2) = sn) ∧
    ((L.length + dc') % W64 = (so.length + dc) % W64 ∨ (L.length + dc') % W64 = (sn.length + dc) % W64) ∧
    ((total L + dt') % W64 = ((so.map List.length).sum + dt) % W64 ∨ (total L + dt') % W64 = ((sn.map List.length).sum + dt) % W64) ∧
    G lost = none ∧ ∀ x, x ≠ lost → G' x = G x) ∨
  (∃ Ln Lo, Ln.map (·.2) = sn ∧ Lo.map (·.2) = so ∧ Split h base Ln Lo ∧ ∀ x B, G x = some B → h.blk x = some B)

theorem total_eq (L : List (Nat × Bytes)) : ((L.map (·.2)).map List.length).sum = total L := by
  unfold total; rw [List.map_map]; rfl

section rules
variable {I : Heap → Prop}
theorem wpI_rdF {k : Nat → HProg α} (o : Nat) (ho : o = 0 ∨ o = 8) (hx : IsNode h base x)
    (hk : wpI I (k (fld h base o x)) Q h) : wpI I ((H.rd64 (loc base x).1 ((loc base x).2 + o)).bind k) Q h := by
  obtain ⟨B, hB, hs⟩ := hx
  refine wpI_rd hB (by omega) ?_
  unfold fld at hk; simpa only [hB, Option.map_some, Option.getD_some] using hk

theorem wpI_wrF {k : Unit → HProg α} (o : Nat) (ho : o = 0 ∨ o = 8) (hx : IsNode h base x) (hi : I (wrF h base o x v))
    (hk : wpI I (k ()) Q (wrF h base o x v)) : wpI I ((H.wr64 (loc base x).1 ((loc base x).2 + o) v).bind k) Q h := by
  obtain ⟨B, hB, hs⟩ := hx
  have e : wrF h base o x v = h.set (loc base x).1 (B.wr ((loc base x).2 + o) 8 v) := by unfold wrF; rw [hB]
  rw [e] at hi hk
  exact wpI_wr hB (by omega) hi hk

theorem wpI_rdC {k : Nat → HProg α} {o n : Nat} (hb : sz h base = some n) (ho : o + 8 ≤ n)
    (hk : wpI I (k (bfld h base o)) Q h) : wpI I ((H.rd64 base o).bind k) Q h := by
  unfold sz at hb
  simp only [Option.map_eq_some_iff] at hb
  obtain ⟨B, hB, hs⟩ := hb
  refine wpI_rd hB (by omega) ?_
  unfold bfld at hk; simpa only [hB, Option.map_some, Option.getD_some] using hk

theorem wpI_wrC {k : Unit → HProg α} {o n : Nat} (hb : sz h base = some n) (ho : o + 8 ≤ n) (hi : I (wrC h base o v))
    (hk : wpI I (k ()) Q (wrC h base o v)) : wpI I ((H.wr64 base o v).bind k) Q h := by
  unfold sz at hb
  simp only [Option.map_eq_some_iff] at hb
  obtain ⟨B, hB, hs⟩ := hb
  have e : wrC h base o v = h.set base (B.wr o 8 v) := by unfold wrC; rw [hB]
  rw [e] at hi hk
  exact wpI_wr hB (by omega) hi hk

theorem wpI_bsizeS {k : Nat → HProg α} {n : Nat} (hb : sz h x = some n)
    (hk : wpI I (k n) Q h) : wpI I ((H.bsize x).bind k) Q h := by
  unfold sz at hb
  simp only [Option.map_eq_some_iff] at hb
  obtain ⟨B, hB, hs⟩ := hb
  refine wpI_bsize hB ?_
  rw [hs]; exact hk
end rules

/-- the old list, whatever is in the block outside the list -/
theorem Cr.old {h : Heap} {o : Nat} {B : Block} {sn : List Bytes} (r : RepD h base L G dc dt) (hob : o ≠ base) (hoL : o ∉ L.map (·.1)) (hn : h.blk o = none) :
    Cr base G dc dt (L.map (·.2)) sn (h.set o B) := by
  refine Or.inl ⟨L, _, dc, dt, o, r.set_out (B := B) hob hoL, Or.inl rfl, Or.inl (by rw [List.length_map]), Or.inl (by rw [total_eq]), ?_, ?_⟩
  · rw [r.frame, if_neg (by simp only [not_or]; exact ⟨hob, hoL⟩), hn]
  · intro x hx; exact if_neg hx

theorem Cr.start {sn : List Bytes} (r : RepD h base L G dc dt) : Cr base G dc dt (L.map (·.2)) sn h := by
  refine Or.inl ⟨L, G, dc, dt, base, r, Or.inl rfl, Or.inl (by rw [List.length_map]), Or.inl (by rw [total_eq]), ?_, fun _ _ => rfl⟩
  rw [r.frame, if_pos (Or.inl rfl)]

/-- the new list, with one of the old or new counters each -/
theorem Cr.new {so : List Bytes} {G' : Nat → Option Block} {dc' dt' lost : Nat} (r : RepD h base L G' dc' dt')
    (hc : (L.length + dc') % W64 = (so.length + dc) % W64 ∨ (L.length + dc') % W64 = (L.length + dc) % W64)
    (ht : (total L + dt') % W64 = ((so.map List.length).sum + dt) % W64 ∨ (total L + dt') % W64 = (total L + dt) % W64)
    (hl : G lost = none) (hG : ∀ x, x ≠ lost → G' x = G x) : Cr base G dc dt so (L.map (·.2)) h := by
  refine Or.inl ⟨L, G', dc', dt', lost, r, Or.inr rfl, ?_, ?_, hl, hG⟩
  · rw [List.length_map]; exact hc
  · rw [total_eq]; exact ht

theorem wrF_out {h : Heap} {o f v : Nat} {B : Block} (h1 : o ≠ base + 16) (h2 : o ≠ base + 32) : wrF (h.set o B) base f o v = h.set o (B.wr f 8 v) := by
  unfold wrF
  rw [loc_node h1 h2]
  simp only [Heap.set_same, Heap.set_set, Nat.zero_add]

/-- between the two link stores -/
theorem Split.mk' {h2 : Heap} {x y u v : Nat} {Ln Lo : List (Nat × Bytes)} {G0 G1 : Nat → Option Block} {c0 c1 t0 t1 : Nat} (hu : u < W64) (hv : v < W64)
    (r0 : RepD h2 base Lo G0 c0 t0) (hx : x ∈ seq base Lo) (hy : y ∈ seq base Lo) (r1 : RepD (wrF (wrF h2 base 8 x v) base 0 y u) base Ln G1 c1 t1) (hlen : Ln.length ≠ Lo.length) :
    Split (wrF h2 base 8 x v) base Ln Lo := by
  have nx := r0.isNode_seq hx
  have ny : IsNode (wrF h2 base 8 x v) base y := wrF_isNode (r0.isNode_seq hy)
  have hxb := (r0.seq_ne hx).2.1
  have hyb := (r0.seq_ne hy).2.1
  refine ⟨⟨_, Links.congr (fun z hz => ?_) (fun _ _ => rfl) r1.links⟩, ⟨_, Links.congr (fun _ _ => rfl) (fun z hz => ?_) r0.links⟩, ?_, ?_, r0.bpos, by rw [wrF_sz]; exact r0.bsz, ?_, ?_, hlen⟩
  · have hzb := (r1.seq_ne (List.dropLast_subset _ hz)).2.1
    rw [wrF_fld ny hyb hzb hu (Or.inl rfl) (Or.inr rfl), if_neg (by omega)]
  · have hzb := (r0.seq_ne (List.mem_of_mem_tail hz)).2.1
    rw [wrF_fld nx hxb hzb hv (Or.inr rfl) (Or.inl rfl), if_neg (by omega)]
  · rintro p (hp | hp)
    · have h1 := r1.node p hp
      rw [wrF_dat h1.2.2.2.1 hyb (Or.inl rfl)] at h1
      exact h1.2.1
    · have h1 := r0.node p hp
      rw [wrF_dat h1.2.2.2.1 hxb (Or.inr rfl)]
      exact h1.2.1
  · rintro p (hp | hp)
    · have h1 := r1.node p hp
      rw [wrF_sz] at h1
      exact ⟨h1.1, h1.2.2.1, h1.2.2.2.1, h1.2.2.2.2.1, h1.2.2.2.2.2.1⟩
    · have h1 := r0.node p hp
      rw [wrF_sz]
      exact ⟨h1.1, h1.2.2.1, h1.2.2.2.1, h1.2.2.2.2.1, h1.2.2.2.2.2.1⟩
  · rw [wrF_fld nx hxb (by omega) hv (Or.inr rfl) (Or.inl rfl), if_neg (by omega)]
    exact r0.fprev
  · have := r1.bnext
    rw [wrF_fld ny hyb (by omega) hu (Or.inl rfl) (Or.inr rfl), if_neg (by omega)] at this
    exact this

theorem Cr.window {h2 : Heap} {x y u v : Nat} {Ln Lo : List (Nat × Bytes)} {G0 G1 : Nat → Option Block} {c0 c1 t0 t1 : Nat} (hu : u < W64) (hv : v < W64)
    (r0 : RepD h2 base Lo G0 c0 t0) (hx : x ∈ seq base Lo) (hy : y ∈ seq base Lo) (r1 : RepD (wrF (wrF h2 base 8 x v) base 0 y u) base Ln G1 c1 t1)
    (hlen : Ln.length ≠ Lo.length) (hG : ∀ z B, G z = some B → G0 z = some B) : Cr base G dc dt (Lo.map (·.2)) (Ln.map (·.2)) (wrF h2 base 8 x v) := by
  refine Or.inr ⟨Ln, Lo, rfl, rfl, Split.mk' hu hv r0 hx hy r1 hlen, ?_⟩
  intro z B hz
  have h1 := hG z B hz
  rw [r0.frame] at h1
  split at h1
  · cases h1
  · rename_i hn
    rw [wrF_blk, h1]
    intro e
    rw [not_or] at hn
    rcases r0.loc_foot hx with e' | e'
    · exact hn.1 (e.trans e')
    · exact hn.2 (e ▸ e')

theorem linkNode_specI {L1 L2 : List (Nat × Bytes)} {l1 l2 : List Nat} {x y o : Nat} {d : Bytes}
    {B : Block} {h : Heap}
    (r : RepD h base (L1 ++ L2) G dc dt)
    (hS : seq base (L1 ++ L2) = l1 ++ x :: y :: l2)
    (hS' : seq base (L1 ++ (o, d) :: L2) = l1 ++ x :: o :: y :: l2)
    (hf : Fresh h o (16 + d.length)) (hBs : B.size = 16 + d.length) (hBd : B.rdB 16 d.length = d)
    (hd : 16 + d.length ≤ maxAlloc) :
    wpI (Cr base G dc dt ((L1 ++ L2).map (·.2)) ((L1 ++ (o, d) :: L2).map (·.2))) (linkNode base o x y) (fun out h' => out = .ok () ∧ h'.base = h.base ∧
      RepD h' base (L1 ++ (o, d) :: L2) G dc dt) (h.set o B) := by
  have hbs := r.bsz
  have hob : o ≠ base := by
    intro e; have := hf.none; rw [e] at this; unfold sz at hbs; simp [this] at hbs
  have hos : o ≠ base + 16 ∧ o ≠ base + 32 := by
    unfold sz at hbs
    simp only [Option.map_eq_some_iff] at hbs
    obtain ⟨B0, hB0, hs0⟩ := hbs
    have := hf.disj base B0 hB0
    omega
  have hoL : o ∉ (L1 ++ L2).map (·.1) := by
    intro hm
    simp only [List.mem_map] at hm
    obtain ⟨p, hp, e⟩ := hm
    have h1 := (r.node p hp).1
    rw [e] at h1; unfold sz at h1; rw [hf.none] at h1; simp at h1
  have hoS : o ∉ seq base (L1 ++ L2) := by
    rw [mem_seq]; intro hc; rcases hc with hc | hc | hc
    · exact hos.1 hc
    · exact hoL hc
    · exact hos.2 hc
  have hxS : x ∈ seq base (L1 ++ L2) := by rw [hS]; simp
  have hyS : y ∈ seq base (L1 ++ L2) := by rw [hS]; simp
  have hxb := (r.seq_ne hxS)
  have hyb := (r.seq_ne hyS)
  have holt := hf.lt
  have hblt := r.blt
  have hGo : G o = none := by rw [r.frame, if_neg (by simp only [not_or]; exact ⟨hob, hoL⟩), hf.none]
  have nO : ∀ B' : Block, B'.size = B.size → IsNode (h.set o B') base o := by
    intro B' hB'
    unfold IsNode; rw [loc_node hos.1 hos.2]; exact ⟨B', by simp, by simp only; omega⟩
  have r4 := link_rep r hS hS' hf hBs hBd hd
  have rw0 := r.set_out (B := (B.wr 0 8 x).wr 8 8 y) hob hoL
  have e1 : wrF (wrF (h.set o B) base 0 o x) base 8 o y = h.set o ((B.wr 0 8 x).wr 8 8 y) := by rw [wrF_out hos.1 hos.2, wrF_out hos.1 hos.2]
  unfold linkNode
  simp only [Prog.bind_def]
  refine wpI_wrF 0 (Or.inl rfl) (nO B rfl) ?_ ?_
  · rw [wrF_out hos.1 hos.2]; exact Cr.old r hob hoL hf.none
  refine wpI_wrF 8 (Or.inr rfl) (wrF_isNode (nO B rfl)) ?_ ?_
  · rw [e1]; exact Cr.old r hob hoL hf.none
  rw [e1] at r4 ⊢
  have hbase : (h.set o ((B.wr 0 8 x).wr 8 8 y)).base = h.base := Heap.set_base ..
  generalize h.set o ((B.wr 0 8 x).wr 8 8 y) = h2 at r4 rw0 hbase ⊢
  have hG : ∀ z C, G z = some C → (fun z => if z = o then some ((B.wr 0 8 x).wr 8 8 y) else G z) z = some C := by
    intro z C hz
    show (if z = o then some ((B.wr 0 8 x).wr 8 8 y) else G z) = some C
    rw [if_neg (fun e => by rw [e, hGo] at hz; cases hz), hz]
  have hw : Cr base G dc dt ((L1 ++ L2).map (·.2)) ((L1 ++ (o, d) :: L2).map (·.2)) (wrF h2 base 8 x o) :=
    Cr.window (by omega) (by omega) rw0 hxS hyS r4 (by simp) hG
  have nx := rw0.isNode_seq hxS
  have ny : IsNode (wrF h2 base 8 x o) base y := wrF_isNode (rw0.isNode_seq hyS)
  have hlen : (L1 ++ (o, d) :: L2).length = (L1 ++ L2).length + 1 := by simp only [List.length_append, List.length_cons]; omega
  have htot : total (L1 ++ (o, d) :: L2) = total (L1 ++ L2) + d.length := by
    simp only [total, List.map_append, List.map_cons, List.sum_append, List.sum_cons]; omega
  refine wpI_wrF 8 (Or.inr rfl) nx hw ?_
  have hc4 : Cr base G dc dt ((L1 ++ L2).map (·.2)) ((L1 ++ (o, d) :: L2).map (·.2)) (wrF (wrF h2 base 8 x o) base 0 y o) :=
    Cr.new r4 (Or.inl (by rw [List.length_map]; omega)) (Or.inl (by rw [total_eq]; omega)) hGo (fun _ _ => rfl)
  refine wpI_wrF 0 (Or.inl rfl) ny hc4 ?_
  have hb4 : (wrF (wrF h2 base 8 x o) base 0 y o).base = h.base := by simp only [wrF_base]; exact hbase
  generalize wrF (wrF h2 base 8 x o) base 0 y o = h4 at r4 hb4 ⊢
  refine wpI_rdC (n := 48) r4.bsz (by omega) ?_
  rw [r4.cnt]
  have r5 := r4.wrC (o := 0) (v := ((L1 ++ (o, d) :: L2).length + (dc + (W64 - 1))) % W64 + 1) (c := dc) (t := dt + (W64 - d.length)) (Or.inl rfl) (by rw [if_pos rfl]; omega) (by rw [if_neg (by omega)])
  refine wpI_wrC (n := 48) r4.bsz (by omega) ?_ ?_
  · exact Cr.new r5 (Or.inr rfl) (Or.inl (by rw [total_eq]; omega)) hGo (fun _ _ => rfl)
  have hb5 : (wrC h4 base 0 (((L1 ++ (o, d) :: L2).length + (dc + (W64 - 1))) % W64 + 1)).base = h.base := by rw [wrC_base]; exact hb4
  generalize wrC h4 base 0 (((L1 ++ (o, d) :: L2).length + (dc + (W64 - 1))) % W64 + 1) = h5 at r5 hb5 ⊢
  refine wpI_bsizeS (n := 16 + d.length) (r5.node (o, d) (by simp)).1 ?_
  refine wpI_rdC (n := 48) r5.bsz (by omega) ?_
  rw [r5.tot]
  have r6 := r5.wrC (o := 8) (v := (total (L1 ++ (o, d) :: L2) + (dt + (W64 - d.length))) % W64 + (16 + d.length - 16)) (c := dc) (t := dt) (Or.inr rfl) (by rw [if_neg (by omega)]) (by rw [if_pos rfl]; omega)
  refine wpI_wrC (k := .ret) (n := 48) r5.bsz (by omega) ?_ ?_
  · exact Cr.new r6 (Or.inr rfl) (Or.inr rfl) hGo (fun _ _ => rfl)
  exact ⟨rfl, by rw [wrC_base]; exact hb5, r6⟩

theorem takeNode_specI {L1 L2 : List (Nat × Bytes)} {o : Nat} {d : Bytes} {h : Heap}
    (r : RepD h base (L1 ++ (o, d) :: L2) G dc dt) :
    wpI (Cr base G dc dt ((L1 ++ (o, d) :: L2).map (·.2)) ((L1 ++ L2).map (·.2))) (takeNode base o) (fun out h' => out = .ok d ∧ h'.base = h.base ∧
      RepD h' base (L1 ++ L2) G dc dt) h := by
  obtain ⟨l1, x, hlx⟩ : ∃ l1 x, (base + 16) :: L1.map (·.1) = l1 ++ [x] :=
    ⟨_, _, (List.dropLast_concat_getLast (l := (base + 16) :: L1.map (·.1)) (by simp)).symm⟩
  obtain ⟨y, l2, hly⟩ : ∃ y l2, L2.map (·.1) ++ [base + 32] = y :: l2 := by
    cases L2 with
    | nil => exact ⟨_, _, rfl⟩
    | cons a L => exact ⟨_, _, rfl⟩
  have hS : seq base (L1 ++ (o, d) :: L2) = l1 ++ x :: o :: y :: l2 := by
    unfold seq
    simp only [List.map_append, List.map_cons, List.append_assoc, List.cons_append, hly]
    rw [← List.cons_append, hlx]; simp
  have hS' : seq base (L1 ++ L2) = l1 ++ x :: y :: l2 := by
    unfold seq
    simp only [List.map_append, List.append_assoc, hly]
    rw [← List.cons_append, hlx]; simp
  have hmem : (o, d) ∈ L1 ++ (o, d) :: L2 := by simp
  have hoN := r.node _ hmem
  simp only at hoN
  obtain ⟨hosz, hodat, ho0, hob, hof, hobk, holt⟩ := hoN
  have hxS : x ∈ seq base (L1 ++ (o, d) :: L2) := by rw [hS]; simp
  have hyS : y ∈ seq base (L1 ++ (o, d) :: L2) := by rw [hS]; simp
  have hoS : o ∈ seq base (L1 ++ (o, d) :: L2) := by rw [hS]; simp
  have hxb := r.seq_ne hxS
  have hyb := r.seq_ne hyS
  have hblt := r.blt
  have hl := r.links
  rw [hS, Links.append_iff] at hl
  have hpv : fld h base 0 o = x := hl.2.2.1
  have hnx : fld h base 8 o = y := hl.2.2.2.1
  have hdl : 16 + d.length ≤ maxAlloc := r.len _ hmem
  have r4 := unlink_rep r hlx hly hS hS'
  have hGo : G o = none := by rw [r.frame, if_pos (Or.inr (List.mem_map_of_mem hmem))]
  have hG' : ∀ z, z ≠ o → (fun z => if z = o then h.blk o else G z) z = G z := fun z hz => if_neg hz
  have hoL : o ∉ (L1 ++ L2).map (·.1) := by
    have := r.nodup
    simp only [List.map_append, List.map_cons, List.nodup_append, List.nodup_cons, List.mem_cons] at this
    simp only [List.map_append, List.mem_append, not_or]
    exact ⟨fun hm => this.2.2 o hm o (Or.inl rfl) rfl, this.2.1.1⟩
  have hlen : (L1 ++ (o, d) :: L2).length = (L1 ++ L2).length + 1 := by simp only [List.length_append, List.length_cons]; omega
  have htot : total (L1 ++ (o, d) :: L2) = total (L1 ++ L2) + d.length := by
    simp only [total, List.map_append, List.map_cons, List.sum_append, List.sum_cons]; omega
  unfold takeNode unlinkNode
  simp only [Prog.bind_def, Prog.bind_assoc]
  refine wpI_rdF 0 (Or.inl rfl) (r.isNode_seq hoS) ?_
  rw [hpv]
  refine wpI_rdF 8 (Or.inr rfl) (r.isNode_seq hoS) ?_
  rw [hnx]
  refine wpI_rdF 8 (Or.inr rfl) (r.isNode_seq hoS) ?_
  rw [hnx]
  refine wpI_wrF 8 (Or.inr rfl) (r.isNode_seq hxS) ?_ ?_
  · exact Cr.window hxb.2.2 hyb.2.2 r hxS hyS r4 (by simp) (fun _ _ h => h)
  refine wpI_rdF 0 (Or.inl rfl) (wrF_isNode (r.isNode_seq hoS)) ?_
  rw [wrF_fld (r.isNode_seq hxS) hxb.2.1 hob (by omega) (Or.inr rfl) (Or.inl rfl), if_neg (by omega), hpv]
  refine wpI_wrF 0 (Or.inl rfl) (wrF_isNode (r.isNode_seq hyS)) ?_ ?_
  · exact Cr.new r4 (Or.inl (by rw [List.length_map]; omega)) (Or.inl (by rw [total_eq]; omega)) hGo hG'
  have hb4 : (wrF (wrF h base 8 x y) base 0 y x).base = h.base := by simp only [wrF_base]
  have hd4 : dat (wrF (wrF h base 8 x y) base 0 y x) o = some d := by
    rw [wrF_dat hob hyb.2.1 (Or.inl rfl), wrF_dat hob hxb.2.1 (Or.inr rfl)]; exact hodat
  have hs4 : sz (wrF (wrF h base 8 x y) base 0 y x) o = some (16 + d.length) := by rw [wrF_sz, wrF_sz]; exact hosz
  generalize wrF (wrF h base 8 x y) base 0 y x = h4 at r4 hb4 hd4 hs4 ⊢
  generalize (fun z => if z = o then h.blk o else G z) = G4 at r4 hG'
  refine wpI_rdC (n := 48) r4.bsz (by omega) ?_
  rw [r4.cnt]
  have r5 := r4.wrC (o := 0) (v := ((L1 ++ L2).length + (dc + 1)) % W64 + (W64 - 1)) (c := dc) (t := dt + d.length) (Or.inl rfl) (by rw [if_pos rfl]; omega) (by rw [if_neg (by omega)])
  refine wpI_wrC (n := 48) r4.bsz (by omega) ?_ ?_
  · exact Cr.new r5 (Or.inr rfl) (Or.inl (by rw [total_eq]; omega)) hGo hG'
  have hb5 : (wrC h4 base 0 (((L1 ++ L2).length + (dc + 1)) % W64 + (W64 - 1))).base = h.base := by rw [wrC_base]; exact hb4
  have hd5 : dat (wrC h4 base 0 (((L1 ++ L2).length + (dc + 1)) % W64 + (W64 - 1))) o = some d := by rw [wrC_dat hob]; exact hd4
  have hs5 : sz (wrC h4 base 0 (((L1 ++ L2).length + (dc + 1)) % W64 + (W64 - 1))) o = some (16 + d.length) := by rw [wrC_sz]; exact hs4
  generalize wrC h4 base 0 (((L1 ++ L2).length + (dc + 1)) % W64 + (W64 - 1)) = h5 at r5 hb5 hd5 hs5 ⊢
  refine wpI_bsizeS (n := 16 + d.length) hs5 ?_
  refine wpI_rdC (n := 48) r5.bsz (by omega) ?_
  rw [r5.tot]
  have r6 := r5.wrC (o := 8) (v := (total (L1 ++ L2) + (dt + d.length)) % W64 + (W64 - (16 + d.length - 16))) (c := dc) (t := dt) (Or.inr rfl) (by rw [if_neg (by omega)]) (by rw [if_pos rfl]; omega)
  refine wpI_wrC (n := 48) r5.bsz (by omega) ?_ ?_
  · exact Cr.new r6 (Or.inr rfl) (Or.inr rfl) hGo hG'
  have hb6 : (wrC h5 base 8 ((total (L1 ++ L2) + (dt + d.length)) % W64 + (W64 - (16 + d.length - 16)))).base = h.base := by rw [wrC_base]; exact hb5
  have hd6 : dat (wrC h5 base 8 ((total (L1 ++ L2) + (dt + d.length)) % W64 + (W64 - (16 + d.length - 16)))) o = some d := by rw [wrC_dat hob]; exact hd5
  have hs6 : sz (wrC h5 base 8 ((total (L1 ++ L2) + (dt + d.length)) % W64 + (W64 - (16 + d.length - 16)))) o = some (16 + d.length) := by rw [wrC_sz]; exact hs5
  generalize wrC h5 base 8 ((total (L1 ++ L2) + (dt + d.length)) % W64 + (W64 - (16 + d.length - 16))) = h6 at r6 hb6 hd6 hs6 ⊢
  refine wpI_bsizeS (n := 16 + d.length) hs6 ?_
  obtain ⟨B, hB, hBs⟩ : ∃ B, h6.blk o = some B ∧ B.size = 16 + d.length := by
    unfold sz at hs6
    simpa only [Option.map_eq_some_iff] using hs6
  have r7 := r6.del_out hob hoL
  have hG7 : (fun z => if z = o then none else G4 z) = G := by
    funext z
    show (if z = o then none else G4 z) = G z
    by_cases e : z = o
    · subst e; rw [if_pos rfl, hGo]
    · rw [if_neg e]; exact hG' z e
  rw [hG7] at r7
  refine wpI_rdB hB (by omega) ?_
  refine wpI_free hB ?_ ?_
  · exact Cr.new r7 (Or.inr rfl) (Or.inr rfl) hGo (fun _ _ => rfl)
  have hBd : B.rdB 16 (16 + d.length - 16) = d := by
    unfold dat at hd6
    rw [hB] at hd6; simp only [Option.map_some, Option.some.injEq, hBs] at hd6; exact hd6
  rw [hBd]
  exact ⟨rfl, hb6, r7⟩

theorem createNode_wpI {d : Bytes} {k : Nat → HProg α} {I : Heap → Prop} (hd : 16 + d.length ≤ maxAlloc) (hI : ∀ o (B : Block), Fresh h o (16 + d.length) → I (h.set o B))
    (hk : ∀ o B, Fresh h o (16 + d.length) → B.size = 16 + d.length → B.rdB 16 d.length = d →
      wpI I (k o) Q (h.set o B))
    (he : Q (.err .noMem) h) : wpI I ((createNode d).bind k) Q h := by
  unfold createNode
  simp only [Prog.bind_def, Prog.bind_assoc, Prog.pure_def, Prog.ret_bind]
  refine wpI_alloc hd ?_ he
  intro o dd hf
  refine ⟨hI o _ hf, ?_⟩
  refine wpI_wr (Heap.set_same ..) (by simp only; omega) (by rw [Heap.set_set]; exact hI o _ hf) ?_
  refine wpI_wr (Heap.set_same ..) (by simp only [Block.size_wr]; omega) (by simp only [Heap.set_set]; exact hI o _ hf) ?_
  refine wpI_wrB (Heap.set_same ..) (by simp only [Block.size_wr]; omega) (by simp only [Heap.set_set]; exact hI o _ hf) ?_
  simp only [Heap.set_set]
  refine hk o _ hf (by simp) ?_
  exact Block.rdB_wrB_same _ _ _

theorem RepD.fresh_out {n o : Nat} (r : RepD h base L G dc dt) (hf : Fresh h o n) : o ≠ base ∧ o ∉ L.map (·.1) := by
  have hbs := r.bsz
  refine ⟨?_, ?_⟩
  · intro e; have := hf.none; rw [e] at this; unfold sz at hbs; simp [this] at hbs
  · intro hm
    simp only [List.mem_map] at hm
    obtain ⟨p, hp, e⟩ := hm
    have h1 := (r.node p hp).1
    rw [e] at h1; unfold sz at h1; rw [hf.none] at h1; simp at h1

theorem pushBack_specI {d : Bytes} (r : RepD h base L G dc dt) (hd : 16 + d.length ≤ maxAlloc) :
    wpI (Cr base G dc dt (L.map (·.2)) (L.map (·.2) ++ [d])) (pushBack base d) (fun out h' => h'.base = h.base ∧
      match out with
      | .ok _ => ∃ n, RepD h' base (L ++ [(n, d)]) G dc dt
      | .err e => e = .noMem ∧ h' = h) h := by
  unfold pushBack
  simp only [Prog.bind_def]
  refine createNode_wpI hd (fun o B hf => Cr.old r (r.fresh_out hf).1 (r.fresh_out hf).2 hf.none) ?_ ⟨rfl, rfl, rfl⟩
  intro o B hf hBs hBd
  obtain ⟨l1, x, hlx⟩ : ∃ l1 x, (base + 16) :: L.map (·.1) = l1 ++ [x] :=
    ⟨_, _, (List.dropLast_concat_getLast (l := (base + 16) :: L.map (·.1)) (by simp)).symm⟩
  have hS : seq base (L ++ []) = l1 ++ x :: (base + 32) :: [] := by
    unfold seq; rw [List.append_nil, ← List.cons_append, hlx]; simp
  have hob : base ≠ o := by
    intro e; have := hf.none; have h2 := r.bsz; rw [← e] at this; unfold sz at h2; simp [this] at h2
  have hprev : fld (h.set o B) base 0 (base + 32) = x := by
    have hl := r.links
    rw [List.append_nil] at hS
    rw [hS, Links.append_iff] at hl
    unfold fld; rw [loc_back, Heap.set_ne _ _ _ _ hob]
    have := hl.2.2.1
    unfold fld at this; rw [loc_back] at this; exact this
  refine wpI_rdF 0 (Or.inl rfl) ?_ ?_
  · obtain ⟨C, hC, hs⟩ := r.isNode_base (x := base + 32) (Or.inr rfl)
    refine ⟨C, ?_, hs⟩
    rw [loc_back] at hC ⊢; rw [Heap.set_ne _ _ _ _ hob]; exact hC
  rw [hprev]
  refine wpI_mono (fun h' hh => by simpa using hh) ?_ (linkNode_specI (L1 := L) (L2 := []) (d := d) (by simpa using r) hS ?_ hf hBs hBd hd)
  · rintro out h' ⟨rfl, hb, hr⟩
    exact ⟨hb, o, hr⟩
  · unfold seq
    simp only [List.map_append, List.map_cons, List.map_nil]
    rw [← List.cons_append, ← List.cons_append, hlx]; simp

theorem pushFront_specI {d : Bytes} (r : RepD h base L G dc dt) (hd : 16 + d.length ≤ maxAlloc) :
    wpI (Cr base G dc dt (L.map (·.2)) (d :: L.map (·.2))) (pushFront base d) (fun out h' => h'.base = h.base ∧
      match out with
      | .ok _ => ∃ n, RepD h' base ((n, d) :: L) G dc dt
      | .err e => e = .noMem ∧ h' = h) h := by
  unfold pushFront
  simp only [Prog.bind_def]
  refine createNode_wpI hd (fun o B hf => Cr.old r (r.fresh_out hf).1 (r.fresh_out hf).2 hf.none) ?_ ⟨rfl, rfl, rfl⟩
  intro o B hf hBs hBd
  obtain ⟨y, l2, hlx⟩ : ∃ y l2, L.map (·.1) ++ [base + 32] = y :: l2 := by
    cases L with
    | nil => exact ⟨_, _, rfl⟩
    | cons a L => exact ⟨_, _, rfl⟩
  have hS : seq base ([] ++ L) = [] ++ (base + 16) :: y :: l2 := by
    unfold seq; rw [List.nil_append, hlx]; rfl
  have hob : base ≠ o := by
    intro e; have := hf.none; have h2 := r.bsz; rw [← e] at this; unfold sz at h2; simp [this] at h2
  have hnext : fld (h.set o B) base 8 (base + 16) = y := by
    have hl := r.links
    rw [List.nil_append] at hS
    rw [hS] at hl
    unfold fld; rw [loc_front, Heap.set_ne _ _ _ _ hob]
    have := hl.1
    unfold fld at this; rw [loc_front] at this; exact this
  refine wpI_rdF 8 (Or.inr rfl) ?_ ?_
  · obtain ⟨C, hC, hs⟩ := r.isNode_base (x := base + 16) (Or.inl rfl)
    refine ⟨C, ?_, hs⟩
    rw [loc_front] at hC ⊢; rw [Heap.set_ne _ _ _ _ hob]; exact hC
  rw [hnext]
  refine wpI_mono (fun h' hh => by simpa using hh) ?_ (linkNode_specI (L1 := []) (L2 := L) (d := d) (by simpa using r) hS ?_ hf hBs hBd hd)
  · rintro out h' ⟨rfl, hb, hr⟩
    exact ⟨hb, o, hr⟩
  · unfold seq
    simp only [List.nil_append, List.map_cons, List.cons_append, hlx]

theorem popBack_specI {h : Heap} (r : RepD h base L G dc dt) :
    wpI (Cr base G dc dt (L.map (·.2)) ((L.map (·.2)).dropLast)) (popBack base) (fun out h' => h'.base = h.base ∧
      match out with
      | .ok d => ∃ L' n, L = L' ++ [(n, d)] ∧ RepD h' base L' G dc dt
      | .err e => e = .outOfRange ∧ L = [] ∧ h' = h) h := by
  have hblt := r.blt
  unfold popBack
  simp only [Prog.bind_def]
  refine wpI_rdF 0 (Or.inl rfl) (r.isNode_base (Or.inr rfl)) ?_
  rcases List.eq_nil_or_concat L with hL | ⟨L', p, hL⟩
  · subst hL
    have hl : fld h base 0 (base + 32) = base + 16 := r.links.2.1
    rw [hl]
    refine wpI_rdF 0 (Or.inl rfl) (r.isNode_base (Or.inl rfl)) ?_
    rw [r.fprev, if_pos rfl]
    exact ⟨rfl, rfl, rfl, rfl⟩
  · obtain ⟨n, d⟩ := p
    rw [List.concat_eq_append] at hL
    subst hL
    have hl := r.links
    have hS : seq base (L' ++ [(n, d)]) = ((base + 16) :: L'.map (·.1)) ++ n :: [base + 32] := by
      simp [seq]
    rw [hS, Links.append_iff] at hl
    have hn : fld h base 0 (base + 32) = n := hl.2.2.1
    rw [hn]
    refine wpI_rdF 0 (Or.inl rfl) (r.isNode_seq (by rw [hS]; simp)) ?_
    have hp0 : fld h base 0 n ≠ 0 := by
      obtain ⟨l1, x, hlx⟩ : ∃ l1 x, (base + 16) :: L'.map (·.1) = l1 ++ [x] :=
        ⟨_, _, (List.dropLast_concat_getLast (l := (base + 16) :: L'.map (·.1)) (by simp)).symm⟩
      have h1 := hl.1
      rw [hlx, List.append_assoc, List.singleton_append, Links.append_iff] at h1
      have : fld h base 0 n = x := h1.2.2.1
      rw [this]
      exact (r.seq_ne (x := x) (by rw [hS, hlx]; simp)).1
    rw [if_neg hp0]
    refine wpI_mono (fun h' hh => by simpa using hh) ?_ (takeNode_specI (L1 := L') (L2 := []) r)
    rintro out h' ⟨rfl, hb, hr⟩
    exact ⟨hb, L', n, rfl, by simpa using hr⟩

theorem popFront_specI {h : Heap} (r : RepD h base L G dc dt) :
    wpI (Cr base G dc dt (L.map (·.2)) ((L.map (·.2)).tail)) (popFront base) (fun out h' => h'.base = h.base ∧
      match out with
      | .ok d => ∃ L' n, L = (n, d) :: L' ∧ RepD h' base L' G dc dt
      | .err e => e = .outOfRange ∧ L = [] ∧ h' = h) h := by
  have hblt := r.blt
  unfold popFront
  simp only [Prog.bind_def]
  refine wpI_rdF 8 (Or.inr rfl) (r.isNode_base (Or.inl rfl)) ?_
  cases L with
  | nil =>
    have hl : fld h base 8 (base + 16) = base + 32 := r.links.1
    rw [hl]
    refine wpI_rdF 8 (Or.inr rfl) (r.isNode_base (Or.inr rfl)) ?_
    rw [r.bnext, if_pos rfl]
    exact ⟨rfl, rfl, rfl, rfl⟩
  | cons p L' =>
    obtain ⟨n, d⟩ := p
    have hl := r.links
    obtain ⟨y, l2, hly⟩ : ∃ y l2, L'.map (·.1) ++ [base + 32] = y :: l2 := by
      cases L' with
      | nil => exact ⟨_, _, rfl⟩
      | cons a L => exact ⟨_, _, rfl⟩
    have hS : seq base ((n, d) :: L') = (base + 16) :: n :: y :: l2 := by
      simp [seq, hly]
    rw [hS] at hl
    have hn : fld h base 8 (base + 16) = n := hl.1
    rw [hn]
    refine wpI_rdF 8 (Or.inr rfl) (r.isNode_seq (by rw [hS]; simp)) ?_
    have hp0 : fld h base 8 n ≠ 0 := by
      have : fld h base 8 n = y := hl.2.2.1
      rw [this]
      exact (r.seq_ne (x := y) (by rw [hS]; simp)).1
    rw [if_neg hp0]
    refine wpI_mono (fun h' hh => by simpa using hh) ?_ (takeNode_specI (L1 := []) (L2 := L') r)
    rintro out h' ⟨rfl, hb, hr⟩
    exact ⟨hb, L', n, rfl, by simpa using hr⟩

theorem pushBack_spec {d : Bytes} (r : RepD h base L G dc dt) (hd : 16 + d.length ≤ maxAlloc) :
    wp (pushBack base d) (fun out h' => h'.base = h.base ∧
      match out with
      | .ok _ => ∃ n, RepD h' base (L ++ [(n, d)]) G dc dt
      | .err e => e = .noMem ∧ h' = h) h := (pushBack_specI r hd).wp

theorem pushFront_spec {d : Bytes} (r : RepD h base L G dc dt) (hd : 16 + d.length ≤ maxAlloc) :
    wp (pushFront base d) (fun out h' => h'.base = h.base ∧
      match out with
      | .ok _ => ∃ n, RepD h' base ((n, d) :: L) G dc dt
      | .err e => e = .noMem ∧ h' = h) h := (pushFront_specI r hd).wp

theorem popBack_spec {h : Heap} (r : RepD h base L G dc dt) :
    wp (popBack base) (fun out h' => h'.base = h.base ∧
      match out with
      | .ok d => ∃ L' n, L = L' ++ [(n, d)] ∧ RepD h' base L' G dc dt
      | .err e => e = .outOfRange ∧ L = [] ∧ h' = h) h := (popBack_specI r).wp

theorem popFront_spec {h : Heap} (r : RepD h base L G dc dt) :
    wp (popFront base) (fun out h' => h'.base = h.base ∧
      match out with
      | .ok d => ∃ L' n, L = (n, d) :: L' ∧ RepD h' base L' G dc dt
      | .err e => e = .outOfRange ∧ L = [] ∧ h' = h) h := (popFront_specI r).wp

theorem size_spec {h : Heap} (r : RepD h base L G dc dt) :
    wp (size base) (fun out h' => out = .ok ((L.length + dc) % W64) ∧ h' = h) h := by
  unfold size
  refine wp_rdC (k := .ret) r.bsz (by omega) ?_
  rw [r.cnt]; exact ⟨rfl, rfl⟩

theorem bytes_spec {h : Heap} (r : RepD h base L G dc dt) :
    wp (bytes base) (fun out h' => out = .ok ((total L + dt) % W64) ∧ h' = h) h := by
  unfold bytes
  refine wp_rdC (k := .ret) r.bsz (by omega) ?_
  rw [r.tot]; exact ⟨rfl, rfl⟩

/-- heap without the structure's blocks -/
def rest (h : Heap) (base : Nat) (L : List (Nat × Bytes)) : Nat → Option Block :=
  fun x => if x = base ∨ x ∈ L.map (·.1) then none else h.blk x

theorem setup_spec {h : Heap} {o : Nat} {B : Block} {k : Unit → HProg α}
    (hf : Fresh h o 48) (hB : B.size = 48) (h0 : B.rd 0 8 = 0) (h8 : B.rd 8 8 = 0) {hb : Nat}
    (hk : ∀ h', h'.base = hb → Rep h' o [] h.blk → wp (k ()) Q h') :
    wp ((setupBase o).bind k) Q { h.set o B with base := hb } := by
  unfold setupBase
  simp only [Prog.bind_def, Prog.bind_assoc]
  generalize hh : ({ h.set o B with base := hb } : Heap) = h1
  have hb1 : h1.blk o = some B := by rw [← hh]; simp [Heap.set]
  have nd : ∀ x, x = o + 16 ∨ x = o + 32 → IsNode h1 o x := by
    intro x hx; unfold IsNode loc; rw [if_pos hx]; exact ⟨B, hb1, by simp only; omega⟩
  have holt := hf.lt
  have hpos := hf.pos
  refine wp_wrF 0 (Or.inl rfl) (nd _ (Or.inl rfl)) ?_
  refine wp_wrF 8 (Or.inr rfl) (wrF_isNode (nd _ (Or.inl rfl))) ?_
  refine wp_wrF 0 (Or.inl rfl) (wrF_isNode (wrF_isNode (nd _ (Or.inr rfl)))) ?_
  refine wp_wrF 8 (Or.inr rfl) (wrF_isNode (wrF_isNode (wrF_isNode (nd _ (Or.inr rfl))))) ?_
  have hfl : ∀ z f, z ≠ o → (f = 0 ∨ f = 8) → fld (wrF (wrF (wrF (wrF h1 o 0 (o + 16) 0) o 8 (o + 16) (o + 32)) o 0
      (o + 32) (o + 16)) o 8 (o + 32) 0) o f z = if z = o + 32 ∧ 8 = f then 0 else
      if z = o + 32 ∧ 0 = f then o + 16 else if z = o + 16 ∧ 8 = f then o + 32 else
      if z = o + 16 ∧ 0 = f then 0 else fld h1 o f z := by
    intro z f hz hf
    rw [wrF_fld (wrF_isNode (wrF_isNode (wrF_isNode (nd _ (Or.inr rfl))))) (by omega) hz (by omega) (Or.inr rfl) hf,
      wrF_fld (wrF_isNode (wrF_isNode (nd _ (Or.inr rfl)))) (by omega) hz (by omega) (Or.inl rfl) hf,
      wrF_fld (wrF_isNode (nd _ (Or.inl rfl))) (by omega) hz (by omega) (Or.inr rfl) hf,
      wrF_fld (nd _ (Or.inl rfl)) (by omega) hz (by omega) (Or.inl rfl) hf]
  have hbf : ∀ f, (f = 0 ∨ f = 8) → bfld (wrF (wrF (wrF (wrF h1 o 0 (o + 16) 0) o 8 (o + 16) (o + 32)) o 0
      (o + 32) (o + 16)) o 8 (o + 32) 0) o f = 0 := by
    intro f hf
    rw [wrF_bfld (wrF_isNode (wrF_isNode (wrF_isNode (nd _ (Or.inr rfl))))) (by omega) (by omega),
      wrF_bfld (wrF_isNode (wrF_isNode (nd _ (Or.inr rfl)))) (by omega) (by omega),
      wrF_bfld (wrF_isNode (nd _ (Or.inl rfl))) (by omega) (by omega),
      wrF_bfld (nd _ (Or.inl rfl)) (by omega) (by omega)]
    unfold bfld; rw [hb1]
    rcases hf with rfl | rfl <;> simp [h0, h8]
  refine hk _ (by simp only [wrF_base]; rw [← hh]) ⟨hpos, by omega, ?_, ?_, ?_, ?_, ?_, ?_, ?_, ?_, ?_, ?_⟩
  · simp only [wrF_sz]; unfold sz; rw [hb1]; simp [hB]
  · rw [hbf 0 (Or.inl rfl)]; rfl
  · rw [hbf 8 (Or.inr rfl)]; rfl
  · simp
  · simp
  · simp only [seq, List.map_nil, List.nil_append, Links, and_true]
    rw [hfl _ _ (by omega) (Or.inr rfl), hfl _ _ (by omega) (Or.inl rfl)]; simp
  · rw [hfl _ _ (by omega) (Or.inl rfl)]; simp
  · rw [hfl _ _ (by omega) (Or.inr rfl)]; simp
  · simp
  · intro x
    by_cases hx : x = o
    · subst hx; simp [hf.none]
    · have hl : ∀ y, y = o + 16 ∨ y = o + 32 → x ≠ (loc o y).1 := by
        intro y hy; unfold loc; rw [if_pos hy]; exact hx
      rw [if_neg (by simp [hx]), wrF_blk (hl _ (Or.inr rfl)), wrF_blk (hl _ (Or.inr rfl)),
        wrF_blk (hl _ (Or.inl rfl)), wrF_blk (hl _ (Or.inl rfl)), ← hh]
      exact (Heap.set_ne _ _ _ _ hx).symm

theorem allocBase_wp {h : Heap} {k : Nat → HProg α}
    (hk : ∀ o B, Fresh h o 48 → B.size = 48 → B.rd 0 8 = 0 → B.rd 8 8 = 0 → wp (k o) Q (h.set o B))
    (he : Q (.err .noMem) h) : wp (allocBase.bind k) Q h := by
  unfold allocBase
  simp only [Prog.bind_def, Prog.bind_assoc, Prog.pure_def, Prog.ret_bind]
  refine wp_alloc (by omega) ?_ he
  intro o dd hf
  refine wp_wr (Heap.set_same ..) (by simp only; omega) ?_
  refine wp_wr (Heap.set_same ..) (by simp only [Block.size_wr]; omega) ?_
  simp only [Heap.set_set]
  refine hk o _ hf (by simp) ?_ ?_
  · rw [Block.rd_wr_disj _ _ _ _ _ _ (by omega), Block.rd_wr_same8 _ _ _ (by omega)]
  · rw [Block.rd_wr_same8 _ _ _ (by omega)]

theorem create_spec (h : Heap) :
    wp create (fun out h' => h'.base = h.base ∧
      match out with
      | .ok b => Rep h' b [] h.blk
      | .err e => e = .noMem ∧ h' = h) h := by
  unfold create
  simp only [Prog.bind_def]
  refine allocBase_wp ?_ ⟨rfl, rfl, rfl⟩
  intro o B hf hB h0 h8
  refine setup_spec hf hB h0 h8 ?_
  intro h' hb hr
  exact ⟨hb, hr⟩

/-- opening base 0 in a pool without a base object creates an empty queue and records it -/
theorem openAt_new_spec (h : Heap) (hb0 : h.base = 0) :
    wp (openAt 0) (fun out h' =>
      match out with
      | .ok b => Rep h' b [] h.blk ∧ h'.base = b
      | .err e => e = .noMem ∧ h' = h) h := by
  unfold openAt
  simp only [Prog.bind_def, if_true]
  refine wp_getBase ?_
  rw [if_pos hb0]
  refine wp_getBase ?_
  rw [if_pos hb0]
  refine allocBase_wp ?_ ⟨rfl, rfl⟩
  intro o B hf hB h0 h8
  refine wp_setBase (by have := hf.lt; omega) ?_
  refine setup_spec hf hB h0 h8 ?_
  intro h' hb hr
  exact ⟨hr, hb⟩

/-- opening base 0 in a pool that has a base object finds it and changes nothing -/
theorem openAt_existing_spec (h : Heap) (hb0 : h.base ≠ 0) :
    wp (openAt 0) (fun out h' => out = .ok h.base ∧ h' = h) h := by
  unfold openAt
  simp only [Prog.bind_def, if_true]
  refine wp_getBase ?_
  rw [if_neg hb0]
  exact ⟨rfl, rfl⟩

end

end Verif.Queue
