import Verif.PrefixTreeCodec
/-
Making room for a key: `extend`, `chain` and `traverseCreate`.
-/
namespace Verif.PrefixTree
open Verif
attribute [local irreducible] Block.rd Block.rdB

/-- the map that the tree represents -/
def G.kv (g : G) : Bytes → Option Val := fun k => (g.vl k).map Prod.snd

/-- what can be said of the heap between two stores: there is a well-formed tree whose map satisfies `P` -/
def Cr (base : Nat) (P : (Bytes → Option Val) → Prop) (h : Heap) : Prop := ∃ F g ni nn, Tr base F g ni nn h ∧ P g.kv

/-- `f` is defined at exactly `n` points -/
def Card {α : Type} (f : Bytes → Option α) (n : Nat) : Prop := ∃ l : List Bytes, l.Nodup ∧ (∀ p, p ∈ l ↔ f p ≠ none) ∧ l.length = n

theorem Card.congr {α β : Type} {f : Bytes → Option α} {f' : Bytes → Option β} {n : Nat} (c : Card f n) (h : ∀ p, f' p ≠ none ↔ f p ≠ none) : Card f' n := by
  obtain ⟨l, h1, h2, h3⟩ := c
  exact ⟨l, h1, fun p => (h2 p).trans (h p).symm, h3⟩

theorem Card.add {α β : Type} {f : Bytes → Option α} {f' : Bytes → Option β} {n : Nat} (c : Card f n) {q : Bytes} (hq : f q = none)
    (h : ∀ p, f' p ≠ none ↔ (p = q ∨ f p ≠ none)) : Card f' (n + 1) := by
  obtain ⟨l, h1, h2, h3⟩ := c
  refine ⟨q :: l, List.nodup_cons.2 ⟨fun hm => (h2 q).1 hm hq, h1⟩, ?_, by simp [h3]⟩
  intro p; rw [h, List.mem_cons, h2]

theorem Card.sub {α β : Type} {f : Bytes → Option α} {f' : Bytes → Option β} {n : Nat} (c : Card f n) {q : Bytes} (hq : f q ≠ none)
    (h : ∀ p, f' p ≠ none ↔ (p ≠ q ∧ f p ≠ none)) : Card f' (n - 1) ∧ 0 < n := by
  obtain ⟨l, h1, h2, h3⟩ := c
  have hm := (h2 q).2 hq
  refine ⟨⟨l.erase q, h1.erase q, ?_, by rw [List.length_erase_of_mem hm, h3]⟩, by rw [← h3]; exact List.length_pos_of_mem hm⟩
  intro p; rw [h1.mem_erase_iff, h, h2]

theorem Card.unique {α : Type} {f : Bytes → Option α} {n m : Nat} (c : Card f n) (c' : Card f m) : n = m := by
  obtain ⟨l, h1, h2, h3⟩ := c
  obtain ⟨l', h4, h5, h6⟩ := c'
  have := ((List.perm_ext_iff_of_nodup h1 h4).2 (fun p => (h2 p).trans (h5 p).symm)).length_eq
  omega

theorem Heap.set_self {h : Heap} {o : Nat} {B : Block} (hB : h.blk o = some B) : h.set o B = h := by
  unfold Heap.set
  cases h with
  | mk blk base =>
    congr
    funext x
    split
    · rename_i e; subst e; exact hB.symm
    · rfl

section
variable {base : Nat} {F : Nat → Option Block} {g : G} {ni nn : Nat} {h : Heap} {I : Heap → Prop} {P : (Bytes → Option Val) → Prop}

theorem Tr.nn_congr (t : Tr base F g ni nn h) {nn' : Nat} (e : nn % W64 = nn' % W64) : Tr base F g ni nn' h := by
  obtain ⟨B, h1, h2, h3⟩ := t.cnt
  exact ⟨t.bpos, t.root, ⟨B, h1, h2, by rw [h3, e]⟩, t.node, t.child, t.val, t.uniq, t.frame, t.excl⟩

theorem Tr.ni_congr (t : Tr base F g ni nn h) {ni' : Nat} (e : ni % W64 = ni' % W64) : Tr base F g ni' nn h := by
  obtain ⟨B, h1, h2, h3⟩ := t.cnt
  exact ⟨t.bpos, t.root, ⟨B, h1, by rw [h2, e], h3⟩, t.node, t.child, t.val, t.uniq, t.frame, t.excl⟩

theorem Tr.base_size (t : Tr base F g ni nn h) {B : Block} (hB : h.blk base = some B) : 16 ≤ B.size := by
  obtain ⟨B', h1, h2⟩ := t.node [] _ t.root
  rw [show (rootHd base).o = base from rfl, hB] at h1; cases h1
  have := lt_size h2
  omega

theorem addNodes_spec (t : Tr base F g ni nn h) (hP : P g.kv) (d nn' : Nat) (e : (nn + d) % W64 = nn' % W64) :
    wpI (Cr base P) (addNodes base d) (fun o h' => o = .ok () ∧ Tr base F g ni nn' h') h := by
  obtain ⟨B, h1, h2, h3⟩ := t.cnt
  have hsz := t.base_size h1
  unfold addNodes
  simp only [Prog.bind_def]
  refine wpI_rd h1 (by omega) ?_
  rw [h3, ← bind_ret (H.wr64 _ _ _)]
  have t' : Tr base F g ni nn' (h.set base (B.wr 8 8 (nn % W64 + d))) := (t.nodes h1 _).nn_congr (by omega)
  exact wpI_wr h1 (by omega) ⟨_, _, _, _, t', hP⟩ ⟨rfl, t'⟩

theorem addItems_spec (t : Tr base F g ni nn h) (hP : P g.kv) (d ni' : Nat) (e : (ni + d) % W64 = ni' % W64) :
    wpI (Cr base P) (addItems base d) (fun o h' => o = .ok () ∧ Tr base F g ni' nn h') h := by
  obtain ⟨B, h1, h2, h3⟩ := t.cnt
  have hsz := t.base_size h1
  unfold addItems
  simp only [Prog.bind_def]
  refine wpI_rd h1 (by omega) ?_
  rw [h2, ← bind_ret (H.wr64 _ _ _)]
  have t' : Tr base F g ni' nn (h.set base (B.wr 0 8 (ni % W64 + d))) := (t.items h1 _).ni_congr (by omega)
  exact wpI_wr h1 (by omega) ⟨_, _, _, _, t', hP⟩ ⟨rfl, t'⟩

/-- zeroing slots of a block -/
theorem zeroSlots_spec {b o : Nat} : ∀ (n x : Nat) (h : Heap) (B : Block), h.blk b = some B → o + 8 * (x + n) ≤ B.size → (∀ B', I (h.set b B')) →
    wpI I (zeroSlots b o n x) (fun out h' => out = .ok () ∧ ∃ B', h' = h.set b B' ∧ B'.size = B.size ∧ (∀ i, x ≤ i → i < x + n → B'.rd (o + 8 * i) 8 = 0) ∧
      (∀ a m, a + m ≤ o + 8 * x ∨ o + 8 * (x + n) ≤ a → B'.rd a m = B.rd a m)) h := by
  intro n
  induction n with
  | zero =>
    intro x h B hB _ _
    exact ⟨rfl, B, (Heap.set_self hB).symm, rfl, fun i _ _ => by omega, fun _ _ _ => rfl⟩
  | succ n ih =>
    intro x h B hB hsz hI
    unfold zeroSlots
    simp only [Prog.bind_def]
    refine wpI_wr hB (by omega) (hI _) ?_
    refine wpI_mono (fun _ h => h) ?_ (ih (x + 1) _ (B.wr (o + 8 * x) 8 0) (Heap.set_same _ _ _) (by simp only [Block.size_wr]; omega) (fun B' => by rw [Heap.set_set]; exact hI B'))
    rintro out h' ⟨h1, B', rfl, h2, h3, h4⟩
    refine ⟨h1, B', by rw [Heap.set_set], h2, ?_, ?_⟩
    · intro i h5 h6
      by_cases e : i = x
      · subst e
        rw [h4 _ _ (by omega)]; exact Block.rd_wr_same8 _ _ _ (by omega)
      · exact h3 i (by omega) (by omega)
    · intro a m h5
      rw [h4 a m (by omega), Block.rd_wr_disj _ _ _ _ _ _ (by omega)]

/-- copying slots from a block to another -/
theorem copySlots_spec {old new : Addr} {os ns : Nat} : ∀ (n x : Nat) (h : Heap) (A B : Block), old.1 ≠ new.1 → h.blk old.1 = some A → h.blk new.1 = some B →
    os ≤ x → ns ≤ x → old.2 + 16 + 8 * (x + n - os) ≤ A.size → new.2 + 16 + 8 * (x + n - ns) ≤ B.size → (∀ B', I (h.set new.1 B')) →
    wpI I (copySlots old new os ns n x) (fun out h' => out = .ok () ∧ ∃ B', h' = h.set new.1 B' ∧ B'.size = B.size ∧
      (∀ i, x ≤ i → i < x + n → B'.rd (new.2 + 16 + 8 * (i - ns)) 8 = A.rd (old.2 + 16 + 8 * (i - os)) 8) ∧
      (∀ a m, a + m ≤ new.2 + 16 + 8 * (x - ns) ∨ new.2 + 16 + 8 * (x + n - ns) ≤ a → B'.rd a m = B.rd a m)) h := by
  intro n
  induction n with
  | zero =>
    intro x h A B _ _ hB _ _ _ _ _
    exact ⟨rfl, B, (Heap.set_self hB).symm, rfl, fun i _ _ => by omega, fun _ _ _ => rfl⟩
  | succ n ih =>
    intro x h A B hne hA hB hos hns hsA hsB hI
    unfold copySlots
    simp only [Prog.bind_def]
    refine wpI_rd (B := A) hA (by show old.2 + 16 + 8 * (x - os) + 8 ≤ _; omega) ?_
    refine wpI_wr (B := B) hB (by show new.2 + 16 + 8 * (x - ns) + 8 ≤ _; omega) (hI _) ?_
    refine wpI_mono (fun _ h => h) ?_ (ih (x + 1) _ A (B.wr (slotOf new ns x).2 8 (A.rd (slotOf old os x).2 8)) hne
      (by rw [Heap.set_ne _ _ _ _ (show old.1 ≠ (slotOf new ns x).1 from hne)]; exact hA) (Heap.set_same _ _ _) (by omega) (by omega) (by omega)
      (by simp only [Block.size_wr]; omega) (fun B' => by rw [show (slotOf new ns x).1 = new.1 from rfl, Heap.set_set]; exact hI B'))
    rintro out h' ⟨h1, B', rfl, h2, h3, h4⟩
    refine ⟨h1, B', by rw [show (slotOf new ns x).1 = new.1 from rfl, Heap.set_set], h2, ?_, ?_⟩
    · intro i h5 h6
      by_cases e : i = x
      · subst e
        rw [h4 _ _ (by omega)]; exact Block.rd_wr_same8 _ _ _ (Block.rd8_lt _ _)
      · exact h3 i (by omega) (by omega)
    · intro a m h5
      rw [h4 a m (by omega), Block.rd_wr_disj _ _ _ _ _ _ (by show new.2 + 16 + 8 * (x - ns) + 8 ≤ a ∨ a + m ≤ new.2 + 16 + 8 * (x - ns); omega)]

/-- the children of the new node -/
theorem fillSlots_spec {nd : Addr} {o s e s' e' : Nat} {lo : Bool} {A B : Block} (hlo : if lo then s' ≤ s ∧ e' = e else s' = s ∧ e ≤ e') (hse : s ≤ e) (hne : nd.1 ≠ o)
    (hA : h.blk nd.1 = some A) (hB : h.blk o = some B) (hsA : nd.2 + 16 + 8 * (e + 1 - s) ≤ A.size) (hsB : 16 + 8 * (e' + 1 - s') ≤ B.size) (hI : ∀ B', I (h.set o B')) :
    wpI I (fillSlots nd o s e s' e' lo) (fun out h' => out = .ok () ∧ ∃ B', h' = h.set o B' ∧ B'.size = B.size ∧ (∀ a m, a + m ≤ 16 → B'.rd a m = B.rd a m) ∧
      ∀ i, s' ≤ i → i ≤ e' → B'.rd (16 + 8 * (i - s')) 8 = if s ≤ i ∧ i ≤ e then A.rd (nd.2 + 16 + 8 * (i - s)) 8 else 0) h := by
  unfold fillSlots
  cases lo with
  | true =>
    simp only [if_true] at hlo
    obtain ⟨h1, rfl⟩ := hlo
    simp only [Prog.bind_def, if_true]
    refine wpI_bind_of (zeroSlots_spec (s - s') 0 h B hB (by omega) hI) ?_ (by rintro e h' ⟨h1, -⟩; cases h1)
    rintro _ h' ⟨-, B1, rfl, h2, h3, h4⟩
    refine wpI_mono (fun _ h => h) ?_ (copySlots_spec (old := nd) (new := (o, 0)) (os := s) (ns := s') (e' + 1 - s) s _ A B1 hne
      (by rw [Heap.set_ne _ _ _ _ hne]; exact hA) (Heap.set_same _ _ _) (Nat.le_refl _) h1 (by omega) (by simp only; omega)
      (fun B' => by simp only [Heap.set_set]; exact hI B'))
    rintro out h' ⟨rfl, B2, rfl, h5, h6, h7⟩
    simp only at h6 h7
    refine ⟨rfl, B2, by simp only [Heap.set_set], by omega, ?_, ?_⟩
    · intro a m ham
      rw [h7 a m (by omega), h4 a m (by omega)]
    · intro i h8 h9
      by_cases hi : s ≤ i
      · rw [if_pos ⟨hi, h9⟩]
        have := h6 i hi (by omega)
        rw [Nat.zero_add] at this
        exact this
      · rw [if_neg (by omega), h7 _ _ (by omega)]
        exact h3 (i - s') (by omega) (by omega)
  | false =>
    simp only [Bool.false_eq_true, if_false] at hlo
    obtain ⟨rfl, h1⟩ := hlo
    simp only [Prog.bind_def, Bool.false_eq_true, if_false]
    refine wpI_bind_of (copySlots_spec (old := nd) (new := (o, 0)) (os := s') (ns := s') (e + 1 - s') s' h A B hne hA hB (Nat.le_refl _) (Nat.le_refl _) (by omega) (by simp only; omega) hI) ?_
      (by rintro e h' ⟨h1, -⟩; cases h1)
    rintro _ h' ⟨-, B1, rfl, h5, h6, h7⟩
    simp only at h6 h7
    refine wpI_mono (fun _ h => h) ?_ (zeroSlots_spec (b := o) (o := 16) (e' - e) (e + 1 - s') _ B1 (Heap.set_same _ _ _) (by omega)
      (fun B' => by simp only [Heap.set_set]; exact hI B'))
    rintro out h' ⟨rfl, B2, rfl, h2, h3, h4⟩
    refine ⟨rfl, B2, by simp only [Heap.set_set], by omega, ?_, ?_⟩
    · intro a m ham
      rw [h4 a m (by omega), h7 a m (by omega)]
    · intro i h8 h9
      by_cases hi : i ≤ e
      · rw [if_pos ⟨h8, hi⟩, h4 _ _ (by omega)]
        have := h6 i h8 (by omega)
        rw [Nat.zero_add] at this
        exact this
      · rw [if_neg (by omega)]
        exact h3 (i - s') (by omega) (by omega)

end
end Verif.PrefixTree
