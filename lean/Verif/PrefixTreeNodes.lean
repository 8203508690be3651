import Verif.PrefixTreeMore
/-
Construction of a tree, and nodes_for_prefix.
-/
namespace Verif.PrefixTree
open Verif
attribute [local irreducible] Block.rd Block.rdB

/-- the empty tree -/
def G.empty (base : Nat) : G := ⟨fun p => if p = [] then some (rootHd base) else none, fun _ => none⟩

theorem create_spec (h : Heap) : wpI (fun _ => True) create (fun out h' => (out = .err .noMem ∧ h' = h) ∨ ∃ b, out = .ok b ∧ Fresh h b 2080 ∧ Tr b h.blk (G.empty b) 0 1 h') h := by
  unfold create createBase
  simp only [Prog.bind_def]
  refine wpI_alloc (by omega) ?_ (Or.inl ⟨rfl, rfl⟩)
  intro o d hf
  refine ⟨trivial, ?_⟩
  refine wpI_wr (Heap.set_same _ _ _) (by simp) trivial ?_
  rw [Heap.set_set]
  refine wpI_wr (Heap.set_same _ _ _) (by simp) trivial ?_
  rw [Heap.set_set]
  refine wpI_wr (Heap.set_same _ _ _) (by simp) trivial ?_
  rw [Heap.set_set]
  refine wpI_wr (Heap.set_same _ _ _) (by simp) trivial ?_
  rw [Heap.set_set]
  refine wpI_wr (Heap.set_same _ _ _) (by simp) trivial ?_
  rw [Heap.set_set]
  refine wpI_wr (Heap.set_same _ _ _) (by simp) trivial ?_
  rw [Heap.set_set]
  refine wpI_bind_of (zeroSlots_spec 256 0 _ _ (Heap.set_same _ _ _) (by simp) (fun _ => trivial)) ?_ (by rintro e h' ⟨h1, -⟩; cases h1)
  rintro _ h' ⟨-, B, rfl, hs, hz, hr⟩
  rw [Heap.set_set]
  have hr' : ∀ a m, a + m ≤ 32 → B.rd a m = _ := fun a m hm => hr a m (Or.inl (by omega))
  have hnd : ∀ p hd, (G.empty o).nd p = some hd → p = [] ∧ hd = rootHd o := by
    intro p hd hp
    simp only [G.empty] at hp
    split at hp
    · rename_i e; injection hp with hp; exact ⟨e, hp.symm⟩
    · cases hp
  refine Or.inr ⟨o, rfl, hf, hf.pos, by simp [G.empty], ?_, ?_, ?_, ?_, ?_, ?_, ?_⟩
  · refine ⟨B, Heap.set_same _ _ _, ?_, ?_⟩
    · rw [hr' _ _ (by omega)]
      rw [Block.rd_wr_disj _ _ _ _ _ _ (by simp), Block.rd_wr_disj _ _ _ _ _ _ (by simp), Block.rd_wr_disj _ _ _ _ _ _ (by simp),
        Block.rd_wr_disj _ _ _ _ _ _ (by simp), Block.rd_wr_disj _ _ _ _ _ _ (by simp)]
      exact Block.rd_wr_same8 _ _ _ (by omega)
    · rw [hr' _ _ (by omega)]
      rw [Block.rd_wr_disj _ _ _ _ _ _ (by simp), Block.rd_wr_disj _ _ _ _ _ _ (by simp), Block.rd_wr_disj _ _ _ _ _ _ (by simp),
        Block.rd_wr_disj _ _ _ _ _ _ (by simp)]
      exact Block.rd_wr_same8 _ _ _ (by omega)
  · intro p hd hp
    obtain ⟨rfl, rfl⟩ := hnd p hd hp
    refine ⟨B, Heap.set_same _ _ _, ?_, ?_, ?_, ?_, ?_, ?_, ?_, ?_⟩
    · rw [hs]; rfl
    · show 0 ≤ 255; omega
    · show 255 < 256; omega
    · show B.rd 16 1 = 0
      rw [hr' _ _ (by omega)]
      rw [Block.rd_wr_disj _ _ _ _ _ _ (by simp), Block.rd_wr_disj _ _ _ _ _ _ (by simp), Block.rd_wr_disj _ _ _ _ _ _ (by simp)]
      exact Block.rd_wr_same1 _ _ _ (by omega)
    · show B.rd 17 1 = 255
      rw [hr' _ _ (by omega)]
      rw [Block.rd_wr_disj _ _ _ _ _ _ (by simp), Block.rd_wr_disj _ _ _ _ _ _ (by simp)]
      exact Block.rd_wr_same1 _ _ _ (by omega)
    · show B.rd 18 1 = 0
      rw [hr' _ _ (by omega)]
      rw [Block.rd_wr_disj _ _ _ _ _ _ (by simp)]
      exact Block.rd_wr_same1 _ _ _ (by omega)
    · show B.rd 24 8 = 0
      rw [hr' _ _ (by omega)]
      exact Block.rd_wr_same8 _ _ _ (by omega)
    · intro b _ _
      show B.rd (32 + 8 * (b.toNat - 0)) 8 = (G.empty o).word ([] ++ [b])
      have := b.toNat_lt
      rw [hz (b.toNat - 0) (by omega) (by omega)]
      rfl
  · intro p b hd hp
    obtain ⟨h1, -⟩ := hnd _ hd hp
    exact absurd h1 snoc_ne_nil
  · intro q c v hq; cases hq
  · rintro x ⟨b, p⟩ ⟨b', p'⟩ ho ho'
    cases b with
    | false => obtain ⟨c, v, h1, -⟩ := ho; cases h1
    | true =>
      cases b' with
      | false => obtain ⟨c, v, h1, -⟩ := ho'; cases h1
      | true =>
        obtain ⟨hd, h1, -⟩ := ho
        obtain ⟨hd', h2, -⟩ := ho'
        rw [(hnd _ _ h1).1, (hnd _ _ h2).1]
  · intro x hx
    refine Heap.set_ne _ _ _ _ (fun e => hx (true, []) ⟨rootHd o, by simp [G.empty], e.symm⟩)
  · rintro x ⟨b, p⟩ ho
    cases b with
    | false => obtain ⟨c, v, h1, -⟩ := ho; cases h1
    | true =>
      obtain ⟨hd, h1, rfl⟩ := ho
      rw [(hnd _ _ h1).2]; exact hf.none

theorem card_empty (b : Nat) : Card (G.empty b).vl 0 ∧ Card (G.empty b).nd 1 ∧ Tight (G.empty b) ∧ (G.empty b).kv = fun _ => none := by
  refine ⟨⟨[], List.nodup_nil, by simp [G.empty], rfl⟩, ⟨[[]], by simp, ?_, rfl⟩, ?_, rfl⟩
  · intro p; simp only [G.empty, List.mem_singleton]; by_cases h : p = [] <;> simp [h]
  · intro p hp h; simp [G.empty, hp] at h

/-! ### nodes_for_prefix -/

/-- the number of paths in a set -/
def CardP (S : Bytes → Prop) (n : Nat) : Prop := ∃ l : List Bytes, l.Nodup ∧ (∀ p, p ∈ l ↔ S p) ∧ l.length = n

theorem CardP.none {S : Bytes → Prop} (h : ∀ p, ¬ S p) : CardP S 0 := ⟨[], List.nodup_nil, fun p => by simp [h p], rfl⟩
theorem CardP.one {S : Bytes → Prop} {q : Bytes} (h : ∀ p, S p ↔ p = q) : CardP S 1 := ⟨[q], by simp, fun p => by simp [h p], rfl⟩
theorem CardP.union {S S1 S2 : Bytes → Prop} {n m : Nat} (h1 : CardP S1 n) (h2 : CardP S2 m) (hd : ∀ p, S1 p → S2 p → False) (h : ∀ p, S p ↔ (S1 p ∨ S2 p)) : CardP S (n + m) := by
  obtain ⟨l, a1, a2, rfl⟩ := h1
  obtain ⟨l', b1, b2, rfl⟩ := h2
  refine ⟨l ++ l', ?_, ?_, by simp⟩
  · rw [List.nodup_append]
    refine ⟨a1, b1, ?_⟩
    rintro x hx y hy rfl
    exact hd x ((a2 x).1 hx) ((b2 x).1 hy)
  · intro p; rw [List.mem_append, a2, b2, h]

theorem CardP.unique {S : Bytes → Prop} {n m : Nat} (c : CardP S n) (c' : CardP S m) : n = m := by
  obtain ⟨l, a1, a2, rfl⟩ := c
  obtain ⟨l', b1, b2, rfl⟩ := c'
  exact (List.perm_of_nodup_nodup_toFinset_eq a1 b1 (by ext x; simp [a2, b2])).length_eq

section
variable {base : Nat} {F : Nat → Option Block} {g : G} {ni nn : Nat} {h : Heap} {I : Heap → Prop}

/-- nodes at or below q -/
def Below (g : G) (q r : Bytes) : Prop := q <+: r ∧ g.nd r ≠ none

theorem sumSlots_spec (t : Tr base F g ni nn h) {f : Nat → HProg Nat} {q : Bytes} {hd : Hd} (hq : g.nd q = some hd)
    (hf : ∀ b : UInt8, wpI I (f (g.word (q ++ [b]))) (fun out h' => h' = h ∧ ∃ n, out = .ok n ∧ CardP (Below g (q ++ [b])) n) h) :
    ∀ n x, x + n = hd.e + 1 - hd.s → wpI I (sumSlots f (hd.o, hd.off) n x) (fun out h' => h' = h ∧ ∃ m, out = .ok m ∧
      CardP (fun r => ∃ b : UInt8, hd.s + x ≤ b.toNat ∧ Below g (q ++ [b]) r) m) h := by
  obtain ⟨B, hB, hn⟩ := t.node q hd hq
  have hle := hn.le
  have hlt := hn.lt
  intro n
  induction n with
  | zero =>
    intro x hx
    refine ⟨rfl, 0, rfl, CardP.none ?_⟩
    rintro r ⟨b, h1, ⟨s, rfl⟩, h3⟩
    obtain ⟨h4, -⟩ := t.outside (b := b) hq (Or.inr (by omega))
    exact (t.parent (r := s) h3) h4
  | succ n ih =>
    intro x hx
    have hb : (UInt8.ofNat (hd.s + x)).toNat = hd.s + x := by
      have : (UInt8.ofNat (hd.s + x)).toNat = (hd.s + x) % 256 := UInt8.toNat_ofNat'
      omega
    have hsz := hn.size
    unfold sumSlots
    simp only [Prog.bind_def]
    refine wpI_rd (B := B) hB (by show hd.off + 16 + 8 * x + 8 ≤ _; omega) ?_
    have hch := hn.ch (UInt8.ofNat (hd.s + x)) (by omega) (by omega)
    rw [hb, Nat.add_sub_cancel_left] at hch
    rw [hch]
    refine wpI_bind_of (hf _) ?_ (by rintro e h' ⟨-, _, h1, -⟩; cases h1)
    rintro a h' ⟨rfl, a', h1, h2⟩
    injection h1 with h1; subst h1
    refine wpI_bind_of (ih (x + 1) (by omega)) ?_ (by rintro e h' ⟨-, _, h1, -⟩; cases h1)
    rintro m h' ⟨rfl, m', h3, h4⟩
    injection h3 with h3; subst h3
    refine ⟨rfl, _, rfl, h2.union h4 ?_ ?_⟩
    · rintro p ⟨h5, -⟩ ⟨b, h6, h7, -⟩
      have := snoc_prefix h5 h7
      subst this; omega
    · intro p
      constructor
      · rintro ⟨b, h5, h6⟩
        by_cases e : b.toNat = hd.s + x
        · have : b = UInt8.ofNat (hd.s + x) := toNat_inj (by omega)
          subst this; exact Or.inl h6
        · exact Or.inr ⟨b, by omega, h6⟩
      · rintro (h5 | ⟨b, h5, h6⟩)
        · exact ⟨_, by omega, h5⟩
        · exact ⟨b, by omega, h6⟩

theorem sumNode_spec (t : Tr base F g ni nn h) {f : Nat → HProg Nat} {q : Bytes} {hd : Hd} (hq : g.nd q = some hd)
    (hf : ∀ b : UInt8, wpI I (f (g.word (q ++ [b]))) (fun out h' => h' = h ∧ ∃ n, out = .ok n ∧ CardP (Below g (q ++ [b])) n) h) :
    wpI I ((sumNode f (hd.o, hd.off)).bind fun r => pure (1 + r)) (fun out h' => h' = h ∧ ∃ m, out = .ok m ∧ CardP (Below g q) m) h := by
  obtain ⟨B, hB, hn⟩ := t.node q hd hq
  have hsz := lt_size hn
  unfold sumNode
  simp only [Prog.bind_def, Prog.bind_assoc]
  refine wpI_rd (B := B) hB (by show hd.off + 1 ≤ _; omega) ?_
  rw [show B.rd hd.off 1 = hd.s from hn.s]
  refine wpI_rd (B := B) hB (by show hd.off + 1 + 1 ≤ _; omega) ?_
  rw [show B.rd (hd.off + 1) 1 = hd.e from hn.e]
  refine wpI_bind_of (sumSlots_spec t hq hf _ 0 (by omega)) ?_ (by rintro e h' ⟨-, _, h1, -⟩; cases h1)
  rintro m h' ⟨rfl, m', h3, h4⟩
  injection h3 with h3; subst h3
  refine ⟨rfl, _, rfl, (CardP.one (S := fun p => p = q) (fun _ => Iff.rfl)).union h4 ?_ ?_⟩
  · rintro p rfl ⟨b, -, h5, -⟩
    exact not_prefix_self h5
  · intro p
    constructor
    · rintro ⟨h5, h6⟩
      rcases prefix_cases h5 with h7 | ⟨b, h7⟩
      · exact Or.inl h7
      · refine Or.inr ⟨b, ?_, h7, h6⟩
        refine Classical.byContradiction fun h8 => ?_
        obtain ⟨s, rfl⟩ := h7
        exact (t.parent (r := s) h6) (t.outside (b := b) hq (Or.inl (by omega))).1
    · rintro (rfl | ⟨b, -, h5, h6⟩)
      · exact ⟨List.prefix_refl _, by rw [hq]; simp⟩
      · exact ⟨prefix_of_snoc h5, h6⟩

theorem nodesFor_spec (t : Tr base F g ni nn h) : ∀ (f : Nat) (p : Bytes) (b : UInt8), Deep g (p ++ [b]) f →
    wpI I (nodesFor f (g.word (p ++ [b]))) (fun out h' => h' = h ∧ ∃ n, out = .ok n ∧ CardP (Below g (p ++ [b])) n) h := by
  intro f
  induction f with
  | zero => intro p b hd; exact absurd hd.1 (by omega)
  | succ f ih =>
    intro p b hdeep
    unfold nodesFor
    cases hq : g.nd (p ++ [b]) with
    | none =>
      rw [if_pos]
      · refine ⟨rfl, 0, rfl, CardP.none ?_⟩
        rintro r ⟨⟨s, rfl⟩, h1⟩
        exact t.parent (r := s) h1 hq
      · cases hv : g.vl (p ++ [b]) with
        | none => exact Or.inl (t.word_zero.2 ⟨hq, hv⟩)
        | some cv => right; rw [ne_eq, t.word_node, hq, hv]; simp
    | some hd =>
      have hw : g.word (p ++ [b]) = hd.o := by unfold G.word; rw [hq]
      rw [if_neg (by rw [t.word_zero, ne_eq, t.word_node, hq]; simp), hw]
      obtain ⟨hoff, -⟩ := t.child p b hd hq
      rw [show ((hd.o, 0) : Addr) = (hd.o, hd.off) by rw [hoff]]
      refine sumNode_spec t hq (fun b' => ih _ b' ?_)
      have h1 := hdeep.2 [] (by rw [List.append_nil, hq]; simp)
      refine ⟨by simp at h1; omega, fun r hr => ?_⟩
      have := hdeep.2 ([b'] ++ r) (by rw [← List.append_assoc]; exact hr)
      simp at this ⊢; omega

theorem nodesForPrefix_spec (t : Tr base F g ni nn h) (k : Bytes) :
    wpI I (nodesForPrefix base k) (fun out h' => h' = h ∧ ∃ n, out = .ok n ∧ CardP (Below g k) n) h := by
  unfold nodesForPrefix
  split
  · rename_i hk
    obtain ⟨p, b, rfl⟩ := exists_snoc hk
    simp only [Prog.bind_def]
    unfold traverseSlot
    rw [show (p ++ [b]).getLast? = some b by simp]
    simp only [Prog.bind_def, Prog.bind_assoc]
    refine wpI_bind_of (follow_root t _) ?_ (by rintro e h' ⟨-, f, h1, -⟩; cases h1)
    rintro a h' ⟨rfl, f, h1, h2⟩
    injection h1 with h1; subst h1
    have key : ∀ hp, g.nd p = some hp → hp.s ≤ b.toNat → b.toNat ≤ hp.e →
        wpI I ((H.rd64 (slotOf (hp.o, hp.off) hp.s b.toNat).1 (slotOf (hp.o, hp.off) hp.s b.toNat).2).bind fun c => nodesFor maxSteps c)
          (fun out h'' => h'' = h' ∧ ∃ n, out = .ok n ∧ CardP (Below g (p ++ [b])) n) h' := by
      intro hp h3 h4 h5
      obtain ⟨B, hB, hn⟩ := t.node p hp h3
      refine wpI_rd (B := B) hB (ch_size hn h4 h5) ?_
      rw [show B.rd (slotOf (hp.o, hp.off) hp.s b.toNat).2 8 = g.word (p ++ [b]) from hn.ch b h4 h5]
      exact nodesFor_spec t _ _ _ (t.deep _ (by rw [maxSteps_eq]; omega))
    cases a with
    | val a ns =>
      obtain ⟨p', b', hp, h0, h3, h4, h5, rfl, -⟩ := h2
      obtain ⟨rfl, rfl⟩ := snoc_inj h0
      exact key hp h3 h4 h5
    | node par nd ns =>
      obtain ⟨hd, h3, rfl, h4, -⟩ := h2
      obtain ⟨hp, h5, rfl⟩ := h4 p b rfl
      obtain ⟨B, hB, hn⟩ := t.node p hp h5
      have hsz := lt_size hn
      obtain ⟨-, -, -, -, -, p', b', hp', h6, h7, h8, h9⟩ := t.child p b hd h3
      obtain ⟨rfl, rfl⟩ := snoc_inj h6
      rw [h5] at h7; cases h7
      simp only [Prog.bind_assoc]
      refine wpI_rd (B := B) hB (by show hp.off + 1 ≤ _; omega) ?_
      rw [show B.rd hp.off 1 = hp.s from hn.s]
      exact key hp h5 h8 h9
    | stuck par nd ns b' k' =>
      obtain ⟨p', hd, -, -, -, -, -, -, h3, h4, -⟩ := h2
      refine ⟨rfl, 0, rfl, CardP.none ?_⟩
      rintro r ⟨⟨s, rfl⟩, h1⟩
      exact t.parent (r := s) h1 h3
  · rename_i hk
    rw [ne_eq, Classical.not_not] at hk
    subst hk
    exact sumNode_spec t t.root (fun b => nodesFor_spec t _ _ _ (t.deep _ (by rw [maxSteps_eq]; omega)))

end
end Verif.PrefixTree
