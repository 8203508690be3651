import Verif.PrefixTreeTree
/-
Walking down a prefix tree: `follow` and `traverse`.
-/
namespace Verif.PrefixTree
open Verif
attribute [local irreducible] Block.rd Block.rdB

/-- the addresses of the nodes on the path p, last first -/
inductive Stack (g : G) : Bytes → List Addr → Prop
  | root (hd : Hd) : g.nd [] = some hd → Stack g [] [(hd.o, hd.off)]
  | snoc (p : Bytes) (b : UInt8) (ns : List Addr) (hd : Hd) : Stack g p ns → g.nd (p ++ [b]) = some hd → Stack g (p ++ [b]) ((hd.o, hd.off) :: ns)

/-- `par` is the address of the parent of the node at p -/
def ParOk (g : G) (p : Bytes) (par : Addr) : Prop := ∀ p' b, p = p' ++ [b] → ∃ hp, g.nd p' = some hp ∧ par = (hp.o, hp.off)

/-- what `follow` finds for the key `q` -/
def FolOk (g : G) (q : Bytes) : Fol → Prop
  | .val a ns => ∃ p b hp, q = p ++ [b] ∧ g.nd p = some hp ∧ hp.s ≤ b.toNat ∧ b.toNat ≤ hp.e ∧ a = slotOf (hp.o, hp.off) hp.s b.toNat ∧ Stack g p ns ∧
      g.nd q = none ∧ g.vl q ≠ none
  | .node par nd ns => ∃ hd, g.nd q = some hd ∧ nd = (hd.o, hd.off) ∧ ParOk g q par ∧ Stack g q ns
  | .stuck par nd ns b k => ∃ p hd, q = p ++ b :: k ∧ g.nd p = some hd ∧ nd = (hd.o, hd.off) ∧ ParOk g p par ∧ Stack g p ns ∧ g.nd (p ++ [b]) = none ∧
      g.nd q = none ∧ g.vl q = none ∧ ((hd.s ≤ b.toNat ∧ b.toNat ≤ hd.e) ∨ g.vl (p ++ [b]) = none)

section
variable {base : Nat} {F : Nat → Option Block} {g : G} {ni nn : Nat} {h : Heap} {I : Heap → Prop}

theorem Tr.word_lt (t : Tr base F g ni nn h) {p : Bytes} {b : UInt8} : g.word (p ++ [b]) < W64 := by
  unfold G.word
  cases hn : g.nd (p ++ [b]) with
  | none => exact t.cw_lt _
  | some hd => exact (t.child p b hd hn).2.2.2.2.1

theorem Tr.word_node (t : Tr base F g ni nn h) {p : Bytes} {b : UInt8} : typeOf (g.word (p ++ [b])) = 0 ↔ (g.nd (p ++ [b]) ≠ none ∨ g.vl (p ++ [b]) = none) := by
  unfold G.word typeOf
  cases hn : g.nd (p ++ [b]) with
  | none =>
    simp only [ne_eq, not_true_eq_false, false_or]
    cases hv : g.vl (p ++ [b]) with
    | none => simp
    | some cv => obtain ⟨c, v⟩ := cv; simpa using (t.val _ c v hv).1.2.1
  | some hd =>
    have := (t.child p b hd hn).2.2.1
    simp [this]

theorem Tr.word_zero (t : Tr base F g ni nn h) {p : Bytes} {b : UInt8} : g.word (p ++ [b]) = 0 ↔ (g.nd (p ++ [b]) = none ∧ g.vl (p ++ [b]) = none) := by
  unfold G.word
  cases hn : g.nd (p ++ [b]) with
  | none => simpa using t.cw_zero (p ++ [b])
  | some hd =>
    have := (t.child p b hd hn).2.2.2.1
    simp [this]

theorem lt_size {B : Block} {hd : Hd} {w : Nat} {ch : UInt8 → Nat} (n : NodeBlk B hd w ch) : hd.off + 24 ≤ B.size := by
  have := n.size; have := n.le; omega

theorem ch_size {B : Block} {hd : Hd} {w : Nat} {ch : UInt8 → Nat} (n : NodeBlk B hd w ch) {b : Nat} (h1 : hd.s ≤ b) (h2 : b ≤ hd.e) :
    hd.off + 16 + 8 * (b - hd.s) + 8 ≤ B.size := by
  have := n.size; have := n.le; omega

theorem follow_spec (t : Tr base F g ni nn h) : ∀ (k p : Bytes) (hd : Hd) (par : Addr) (ns : List Addr), g.nd p = some hd → ParOk g p par → Stack g p ns →
    wpI I (follow k par (hd.o, hd.off) ns) (fun o h' => h' = h ∧ ∃ f, o = .ok f ∧ FolOk g (p ++ k) f) h := by
  intro k
  induction k with
  | nil =>
    intro p hd par ns hp hpar hst
    exact ⟨rfl, _, rfl, hd, by simpa using hp, rfl, by simpa using hpar, by simpa using hst⟩
  | cons b k ih =>
    intro p hd par ns hp hpar hst
    obtain ⟨B, hB, hn⟩ := t.node p hd hp
    have hsz := lt_size hn
    have hle := hn.le
    have hq : p ++ b :: k = p ++ [b] ++ k := by simp
    unfold follow
    simp only [Prog.bind_def]
    refine wpI_rd hB (by omega) ?_
    rw [hn.s]
    refine wpI_rd hB (by omega) ?_
    rw [hn.e]
    split
    · rename_i hr
      obtain ⟨h1, h2⟩ := t.outside hp hr
      refine ⟨rfl, _, rfl, p, hd, rfl, hp, rfl, hpar, hst, h1, ?_, ?_, Or.inr h2⟩
      · by_cases hk : k = []
        · subst hk; exact h1
        · rw [hq]; exact (t.below h1 hk).1
      · by_cases hk : k = []
        · subst hk; exact h2
        · rw [hq]; exact (t.below h1 hk).2
    · rename_i hr
      have h1 : hd.s ≤ b.toNat := by omega
      have h2 : b.toNat ≤ hd.e := by omega
      refine wpI_rd (B := B) hB (by have := ch_size hn h1 h2; exact this) ?_
      rw [show B.rd (slotOf (hd.o, hd.off) hd.s b.toNat).2 8 = g.word (p ++ [b]) from hn.ch b h1 h2]
      split
      · rename_i hz
        obtain ⟨h3, h4⟩ := t.word_zero.1 hz
        refine ⟨rfl, _, rfl, p, hd, rfl, hp, rfl, hpar, hst, h3, ?_, ?_, Or.inr h4⟩
        · by_cases hk : k = []
          · subst hk; exact h3
          · rw [hq]; exact (t.below h3 hk).1
        · by_cases hk : k = []
          · subst hk; exact h4
          · rw [hq]; exact (t.below h3 hk).2
      · rename_i hz
        split
        · rename_i hty
          rw [ne_eq, t.word_node] at hty
          obtain ⟨h3, h4⟩ := not_or.1 hty
          rw [ne_eq, Classical.not_not] at h3
          split
          · rename_i hk
            subst hk
            exact ⟨rfl, _, rfl, p, b, hd, rfl, hp, h1, h2, rfl, hst, h3, h4⟩
          · rename_i hk
            exact ⟨rfl, _, rfl, p, hd, rfl, hp, rfl, hpar, hst, h3, by rw [hq]; exact (t.below h3 hk).1, by rw [hq]; exact (t.below h3 hk).2, Or.inl ⟨h1, h2⟩⟩
        · rename_i hty
          rw [ne_eq, Classical.not_not, t.word_node] at hty
          have h3 : g.nd (p ++ [b]) ≠ none := by
            rcases hty with h3 | h3
            · exact h3
            · intro h4; exact hz (t.word_zero.2 ⟨h4, h3⟩)
          obtain ⟨hd', h4⟩ := Option.ne_none_iff_exists'.1 h3
          have hw : g.word (p ++ [b]) = hd'.o := by unfold G.word; rw [h4]
          have hoff : hd'.off = 0 := (t.child p b hd' h4).1
          rw [hw, hq, show ((hd'.o, 0) : Addr) = (hd'.o, hd'.off) by rw [hoff]]
          refine ih (p ++ [b]) hd' _ _ h4 ?_ (.snoc p b ns hd' hst h4)
          intro p' b' e
          obtain ⟨rfl, rfl⟩ := snoc_inj e
          exact ⟨hd, hp, rfl⟩

theorem parOk_nil (par : Addr) : ParOk g [] par := fun _ _ e => absurd e.symm snoc_ne_nil

theorem follow_root (t : Tr base F g ni nn h) (k : Bytes) :
    wpI I (follow k (0, 0) (root base) [root base]) (fun o h' => h' = h ∧ ∃ f, o = .ok f ∧ FolOk g k f) h :=
  follow_spec t k [] (rootHd base) (0, 0) _ t.root (parOk_nil _) (.root _ t.root)

/-- the slot of a key holds its contents word -/
theorem Tr.slot_rd (t : Tr base F g ni nn h) {q : Bytes} {a : Addr} (hs : SlotAt g q a) :
    ∃ B, h.blk a.1 = some B ∧ a.2 + 8 ≤ B.size ∧ B.rd a.2 8 = cw (g.vl q) := by
  rcases hs with ⟨hd, h1, rfl⟩ | ⟨h0, p, b, hp, rfl, h1, h2, h3, rfl⟩
  · obtain ⟨B, hB, hn⟩ := t.node q hd h1
    exact ⟨B, hB, by have := lt_size hn; show hd.off + 8 + 8 ≤ _; omega, hn.v⟩
  · obtain ⟨B, hB, hn⟩ := t.node p hp h1
    refine ⟨B, hB, ch_size hn h2 h3, ?_⟩
    rw [show B.rd (slotOf (hp.o, hp.off) hp.s b.toNat).2 8 = g.word (p ++ [b]) from hn.ch b h2 h3]
    unfold G.word; rw [h0]

/-- the nodes on the path to a key's slot -/
def PathOk (g : G) (k : Bytes) (ns : List Addr) : Prop := Stack g k ns ∨ (g.nd k = none ∧ ∃ p b, k = p ++ [b] ∧ Stack g p ns)

theorem traverse_spec (t : Tr base F g ni nn h) (k : Bytes) :
    wpI I (traverse base k) (fun o h' => h' = h ∧ ((∃ a ns, o = .ok (some a, ns) ∧ SlotAt g k a ∧ PathOk g k ns ∧ (g.nd k ≠ none ∨ g.vl k ≠ none)) ∨
      (∃ ns, o = .ok (none, ns) ∧ g.nd k = none ∧ g.vl k = none))) h := by
  unfold traverse
  simp only [Prog.bind_def]
  refine wpI_bind_of (follow_root t k) ?_ (by rintro e h' ⟨-, f, h1, -⟩; cases h1)
  rintro a h' ⟨rfl, f, h1, h2⟩
  injection h1 with h1; subst h1
  cases a with
  | val a ns =>
    obtain ⟨p, b, hp, rfl, h3, h4, h5, rfl, h6, h7, h8⟩ := h2
    exact ⟨rfl, Or.inl ⟨_, _, rfl, Or.inr ⟨h7, p, b, hp, rfl, h3, h4, h5, rfl⟩, Or.inr ⟨h7, p, b, rfl, h6⟩, Or.inr h8⟩⟩
  | node par nd ns =>
    obtain ⟨hd, h3, rfl, h4, h5⟩ := h2
    exact ⟨rfl, Or.inl ⟨_, _, rfl, Or.inl ⟨hd, h3, rfl⟩, Or.inl h5, Or.inl (by rw [h3]; simp)⟩⟩
  | stuck par nd ns b k =>
    obtain ⟨p, hd, -, -, -, -, -, -, h3, h4, -⟩ := h2
    exact ⟨rfl, Or.inr ⟨_, rfl, h3, h4⟩⟩

end
end Verif.PrefixTree
