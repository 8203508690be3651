import Verif.PrefixTreeGrow
/-
Making room for a key: `extend`, `chain` and `traverseCreate`.
-/
namespace Verif.PrefixTree
open Verif
attribute [local irreducible] Block.rd Block.rdB

section
variable {base : Nat} {F : Nat → Option Block} {g : G} {ni nn : Nat} {h : Heap} {I : Heap → Prop} {P : (Bytes → Option Val) → Prop}

@[simp] theorem kv_setN (g : G) (q : Bytes) (n : Option Hd) : (g.setN q n).kv = g.kv := rfl

theorem Tr.fresh_F (t : Tr base F g ni nn h) {o n : Nat} (hf : Fresh h o n) : F o = none := by
  rw [← t.frame o (t.fresh_not_own hf)]; exact hf.none

theorem Tr.ps_lt (t : Tr base F g ni nn h) {p : Bytes} {b : UInt8} {hd : Hd} (hq : g.nd (p ++ [b]) = some hd) : hd.ps < 256 := by
  rw [(t.child p b hd hq).2.1]; exact b.toNat_lt

set_option maxHeartbeats 1000000 in
theorem regrow_spec (t : Tr base F g ni nn h) (hP : P g.kv) {p : Bytes} {b0 : UInt8} {hp hd : Hd} (hpn : g.nd p = some hp) (hq : g.nd (p ++ [b0]) = some hd) {s' e' : Nat} {lo : Bool}
    (hlo : if lo then s' ≤ hd.s ∧ e' = hd.e else s' = hd.s ∧ hd.e ≤ e') (he : e' < 256) :
    wpI (Cr base P) (regrow (hp.o, hp.off) (hd.o, hd.off) hd.s hd.e s' e' lo) (fun out h' =>
      (∃ o, out = .ok (o, 0) ∧ Tr base F (g.setN (p ++ [b0]) (some ⟨o, 0, s', e', hd.ps⟩)) ni nn h') ∨ (out = .err .noMem ∧ h' = h)) h := by
  obtain ⟨A, hA, hn⟩ := t.node _ hd hq
  obtain ⟨hoff, hps, hal, hpos, hlt, -⟩ := t.child p b0 hd hq
  obtain ⟨Bp, hBp, hnp⟩ := t.node p hp hpn
  have hsz := lt_size hn
  have hszp := lt_size hnp
  have hnele := hn.le
  have hpslt := t.ps_lt hq
  have hrange : hp.s ≤ b0.toNat ∧ b0.toNat ≤ hp.e := by
    obtain ⟨-, -, -, -, -, p', b', hp', h2, h3, h4⟩ := t.child p b0 hd hq
    obtain ⟨rfl, rfl⟩ := snoc_inj h2
    rw [hpn] at h3; cases h3; exact h4
  have hse : s' ≤ hd.s ∧ hd.e ≤ e' := by
    cases lo with
    | true => simp only [if_true] at hlo; omega
    | false => simp only [Bool.false_eq_true, if_false] at hlo; omega
  unfold regrow
  simp only [Prog.bind_def]
  refine wpI_rd hA (by show hd.off + 2 + 1 ≤ _; omega) ?_
  rw [hn.ps]
  refine wpI_rd hA (by show hd.off + 8 + 8 ≤ _; omega) ?_
  rw [hn.v]
  refine wpI_alloc (by omega) ?_ (Or.inr ⟨rfl, rfl⟩)
  intro o d hf
  have hno := t.fresh_not_own hf
  have hI : ∀ B', Cr base P (h.set o B') := fun B' => ⟨_, _, _, _, t.foreign hno, hP⟩
  have hI' : ∀ B1 B', Cr base P ((h.set o B1).set o B') := fun B1 B' => by rw [Heap.set_set]; exact hI B'
  refine ⟨hI _, ?_⟩
  refine wpI_wr (Heap.set_same _ _ _) (by simp; omega) (hI' _ _) ?_
  rw [Heap.set_set]
  refine wpI_wr (Heap.set_same _ _ _) (by simp; omega) (hI' _ _) ?_
  rw [Heap.set_set]
  refine wpI_wr (Heap.set_same _ _ _) (by simp; omega) (hI' _ _) ?_
  rw [Heap.set_set]
  refine wpI_wr (Heap.set_same _ _ _) (by simp <;> omega) (hI' _ _) ?_
  rw [Heap.set_set]
  have hone : hd.o ≠ o := fun e => hno (true, p ++ [b0]) ⟨hd, hq, e⟩
  have hope : hp.o ≠ o := fun e => hno (true, p) ⟨hp, hpn, e⟩
  have hpq : hd.o ≠ hp.o := t.nd_ne hq hpn (by intro e; have := congrArg List.length e; simp at this)
  refine wpI_bind_of (fillSlots_spec (A := A) hlo hnele hone
    (by rw [Heap.set_ne _ _ _ _ hone]; exact hA) (Heap.set_same _ _ _) (by simp only; have := hn.size; omega) (by simp; omega) (fun B' => hI' _ _)) ?_
    (by rintro e h' ⟨h1, -⟩; cases h1)
  rintro _ h' ⟨-, B5, rfl, hB5s, hB5a, hB5c⟩
  rw [Heap.set_set]
  refine wpI_rd (B := Bp) (by rw [Heap.set_ne _ _ _ _ hope]; exact hBp) (by show hp.off + 1 ≤ _; omega) ?_
  rw [hnp.s]
  -- the new node
  have t5 : Tr base (fset F o (some B5)) g ni nn (h.set o B5) := t.foreign hno
  have hnb : NodeBlk B5 ⟨o, 0, s', e', hd.ps⟩ (cw (g.vl (p ++ [b0]))) (fun b' => g.word (p ++ [b0] ++ [b'])) := by
    refine ⟨by rw [hB5s]; simp; omega, by simp only; omega, he, ?_, ?_, ?_, ?_, ?_⟩
    · rw [hB5a _ _ (by simp)]
      rw [Block.rd_wr_disj _ _ _ _ _ _ (by simp), Block.rd_wr_disj _ _ _ _ _ _ (by simp), Block.rd_wr_disj _ _ _ _ _ _ (by simp)]
      exact Block.rd_wr_same1 _ _ _ (by omega)
    · rw [hB5a _ _ (by simp)]
      rw [Block.rd_wr_disj _ _ _ _ _ _ (by simp), Block.rd_wr_disj _ _ _ _ _ _ (by simp)]
      exact Block.rd_wr_same1 _ _ _ he
    · rw [hB5a _ _ (by simp)]
      rw [Block.rd_wr_disj _ _ _ _ _ _ (by simp)]
      exact Block.rd_wr_same1 _ _ _ hpslt
    · rw [hB5a _ _ (by simp)]
      exact Block.rd_wr_same8 _ _ _ (t.cw_lt _)
    · intro b h1 h2
      have h1' : s' ≤ b.toNat := h1
      have h2' : b.toNat ≤ e' := h2
      have := hB5c b.toNat h1' h2'
      rw [show 0 + 16 + 8 * (b.toNat - s') = 16 + 8 * (b.toNat - s') by omega]
      rw [this]
      split
      · rename_i hc; exact hn.ch b hc.1 hc.2
      · rename_i hc
        exact (t.word_zero.2 (t.outside hq (by omega))).symm
  obtain ⟨Bq, hBq, hBqs, t6⟩ := t5.setNode (b := b0) hpn hrange.1 hrange.2 (some ⟨o, 0, s', e', hd.ps⟩) (fun h => by cases h) (by
    intro hd' e; injection e with e; subst e
    refine ⟨rfl, hps, hf.align, hf.pos, by have := hf.lt; simp only; omega, ⟨B5, fset_same, hnb⟩, ?_⟩
    intro b' hb'
    by_cases hc : b'.toNat < hd.s ∨ hd.e < b'.toNat
    · have := t.outside hq hc
      rw [this.1, this.2] at hb'; simp at hb'
    · simp only; omega)
  rw [hq] at t6
  have hw : (g.setN (p ++ [b0]) (some ⟨o, 0, s', e', hd.ps⟩)).word (p ++ [b0]) = o := by unfold G.word; rw [setN_nd_same]
  rw [hw] at t6
  rw [hps]
  rw [hps] at t6
  have hBq' : (h.set o B5).blk (slotOf (hp.o, hp.off) hp.s b0.toNat).1 = some Bq := hBq
  refine wpI_wr (B := Bq) hBq' hBqs ⟨_, _, _, _, t6, hP⟩ ?_
  have hA6 : ((h.set o B5).set (slotOf (hp.o, hp.off) hp.s b0.toNat).1 (Bq.wr (slotOf (hp.o, hp.off) hp.s b0.toNat).2 8 o)).blk hd.o = some A := by
    rw [Heap.set_ne _ _ _ _ (show hd.o ≠ (slotOf (hp.o, hp.off) hp.s b0.toNat).1 from hpq), Heap.set_ne _ _ _ _ hone]; exact hA
  have hF6 : swapN (fset F o (some B5)) (h.set o B5) (some hd) (some ⟨o, 0, s', e', b0.toNat⟩) hd.o ≠ none := by
    unfold swapN
    rw [if_neg (by simpa using fun e => hone e.symm), if_pos (by simp), Heap.set_ne _ _ _ _ hone, hA]; simp
  have t7 := t6.unforeign (t6.foreign_not_own hF6)
  refine wpI_free hA6 ⟨_, _, _, _, t7, hP⟩ ?_
  refine Or.inl ⟨o, rfl, ?_⟩
  have hFF : fset (swapN (fset F o (some B5)) (h.set o B5) (some hd) (some ⟨o, 0, s', e', b0.toNat⟩)) hd.o none = F := by
    funext x
    by_cases e1 : x = hd.o
    · subst e1; rw [fset_same]; exact (t.excl hd.o (true, p ++ [b0]) ⟨hd, hq, rfl⟩).symm
    · rw [fset_ne e1]
      unfold swapN
      by_cases e2 : x = o
      · subst e2; rw [if_pos (by simp)]; exact (t.fresh_F hf).symm
      · rw [if_neg (by simpa using fun e => e2 e.symm), if_neg (by simpa using fun e => e1 e.symm), fset_ne e2]
  rw [hFF] at t7
  exact t7

/-- nodes are made on the way to `q` only -/
structure Grown (g g' : G) (q : Bytes) : Prop where
  vl : g'.vl = g.vl
  old : ∀ r, g.nd r ≠ none → g'.nd r ≠ none
  new : ∀ r, g'.nd r ≠ none → g.nd r ≠ none ∨ ∃ s, s ≠ [] ∧ q = r ++ s

theorem Grown.refl (g : G) (q : Bytes) : Grown g g q := ⟨rfl, fun _ h => h, fun _ h => Or.inl h⟩

theorem Grown.trans {g g' g'' : G} {q : Bytes} (a : Grown g g' q) (b : Grown g' g'' q) : Grown g g'' q := by
  refine ⟨b.vl.trans a.vl, fun r h => b.old r (a.old r h), fun r h => ?_⟩
  rcases b.new r h with h1 | h1
  · exact a.new r h1
  · exact Or.inr h1

theorem Grown.kv {g g' : G} {q : Bytes} (a : Grown g g' q) : g'.kv = g.kv := by unfold G.kv; rw [a.vl]

theorem extend_spec (t : Tr base F g ni nn h) (hP : P g.kv) {p : Bytes} {hd : Hd} {par : Addr} (hp : g.nd p = some hd) (hpar : ParOk g p par) (b : UInt8) :
    wpI (Cr base P) (extend par (hd.o, hd.off) b.toNat) (fun out h' =>
      (∃ g' hd', out = .ok (hd'.o, hd'.off) ∧ Tr base F g' ni nn h' ∧ g'.nd p = some hd' ∧ hd'.s ≤ b.toNat ∧ b.toNat ≤ hd'.e ∧ g'.vl = g.vl ∧ ∀ r, r ≠ p → g'.nd r = g.nd r) ∨
      (out = .err .noMem ∧ h' = h)) h := by
  obtain ⟨B, hB, hn⟩ := t.node p hd hp
  have hsz := lt_size hn
  have hle := hn.le
  have hlt := hn.lt
  have hb := b.toNat_lt
  unfold extend
  simp only [Prog.bind_def]
  refine wpI_rd hB (by show hd.off + 1 ≤ _; omega) ?_
  rw [hn.s]
  refine wpI_rd hB (by show hd.off + 1 + 1 ≤ _; omega) ?_
  rw [hn.e]
  have key : ∀ s' e' lo, (if lo then s' ≤ hd.s ∧ e' = hd.e else s' = hd.s ∧ hd.e ≤ e') → e' < 256 → s' ≤ b.toNat → b.toNat ≤ e' → (b.toNat < hd.s ∨ hd.e < b.toNat) →
      wpI (Cr base P) (regrow par (hd.o, hd.off) hd.s hd.e s' e' lo) (fun out h' =>
        (∃ g' hd', out = .ok (hd'.o, hd'.off) ∧ Tr base F g' ni nn h' ∧ g'.nd p = some hd' ∧ hd'.s ≤ b.toNat ∧ b.toNat ≤ hd'.e ∧ g'.vl = g.vl ∧ ∀ r, r ≠ p → g'.nd r = g.nd r) ∨
        (out = .err .noMem ∧ h' = h)) h := by
    intro s' e' lo h1 h2 h3 h4 h5
    have hne : p ≠ [] := by
      intro e; subst e
      rw [t.root] at hp; cases hp
      simp only [rootHd] at h5; omega
    obtain ⟨p', b0, rfl⟩ := exists_snoc hne
    obtain ⟨hp', h6, rfl⟩ := hpar p' b0 rfl
    refine wpI_mono (fun _ h => h) ?_ (regrow_spec t hP h6 hp h1 h2)
    rintro out h' (⟨o, rfl, t'⟩ | h7)
    · exact Or.inl ⟨_, ⟨o, 0, s', e', hd.ps⟩, rfl, t', setN_nd_same _ _ _, h3, h4, rfl, fun r hr => setN_nd_ne _ _ hr⟩
    · exact Or.inr h7
  split
  · rename_i h1
    exact key b.toNat hd.e true (by rw [if_pos rfl]; omega) (by omega) (by omega) (by omega) (Or.inl h1)
  · split
    · rename_i h1 h2
      exact key hd.s b.toNat false (by rw [if_neg (by simp)]; omega) (by omega) (by omega) (by omega) (Or.inr h2)
    · exact Or.inl ⟨g, hd, rfl, t, hp, by omega, by omega, rfl, fun _ _ => rfl⟩

set_option maxHeartbeats 1000000 in
theorem chain_spec : ∀ (k : Bytes) (b : UInt8) {g : G} {nn : Nat} {h : Heap} {p : Bytes} {hd : Hd}, Tr base F g ni nn h → P g.kv → g.nd p = some hd → hd.s ≤ b.toNat → b.toNat ≤ hd.e →
    g.nd (p ++ [b]) = none → wpI (Cr base P) (chain base (hd.o, hd.off) b k) (fun out h' => ∃ g' nn', Tr base F g' ni nn' h' ∧ Grown g g' (p ++ b :: k) ∧
      (Card g.nd nn → Card g'.nd nn') ∧ ((∃ a, out = .ok a ∧ SlotAt g' (p ++ b :: k) a) ∨ out = .err .noMem)) h := by
  intro k
  induction k with
  | nil =>
    intro b g nn h p hd t hP hp h1 h2 h3
    obtain ⟨B, hB, hn⟩ := t.node p hd hp
    have hsz := lt_size hn
    unfold chain
    simp only [Prog.bind_def]
    refine wpI_rd hB (by show hd.off + 1 ≤ _; omega) ?_
    rw [hn.s]
    exact ⟨g, nn, t, Grown.refl _ _, fun h => h, Or.inl ⟨_, rfl, Or.inr ⟨h3, p, b, hd, rfl, hp, h1, h2, rfl⟩⟩⟩
  | cons b' k ih =>
    intro b g nn h p hd t hP hp h1 h2 h3
    obtain ⟨B, hB, hn⟩ := t.node p hd hp
    have hsz := lt_size hn
    have hcs := ch_size hn h1 h2
    have hbl := b.toNat_lt
    have hbl' := b'.toNat_lt
    have hw0 : g.word (p ++ [b]) = cw (g.vl (p ++ [b])) := by unfold G.word; rw [h3]
    unfold chain
    simp only [Prog.bind_def]
    refine wpI_rd hB (by show hd.off + 1 ≤ _; omega) ?_
    rw [hn.s]
    refine wpI_rd (B := B) hB hcs ?_
    rw [show B.rd (slotOf (hd.o, hd.off) hd.s b.toNat).2 8 = g.word (p ++ [b]) from hn.ch b h1 h2, hw0]
    refine wpI_alloc (by omega) ?_ ⟨g, nn, t, Grown.refl _ _, fun h => h, Or.inr rfl⟩
    intro o d hf
    have hno := t.fresh_not_own hf
    have hI : ∀ B', Cr base P (h.set o B') := fun B' => ⟨_, _, _, _, t.foreign hno, hP⟩
    have hI' : ∀ B1 B', Cr base P ((h.set o B1).set o B') := fun B1 B' => by rw [Heap.set_set]; exact hI B'
    refine ⟨hI _, ?_⟩
    refine wpI_wr (Heap.set_same _ _ _) (by simp) (hI' _ _) ?_
    rw [Heap.set_set]
    refine wpI_wr (Heap.set_same _ _ _) (by simp) (hI' _ _) ?_
    rw [Heap.set_set]
    refine wpI_wr (Heap.set_same _ _ _) (by simp) (hI' _ _) ?_
    rw [Heap.set_set]
    refine wpI_wr (Heap.set_same _ _ _) (by simp) (hI' _ _) ?_
    rw [Heap.set_set]
    refine wpI_wr (Heap.set_same _ _ _) (by simp) (hI' _ _) ?_
    rw [Heap.set_set]
    generalize hB5 : (((((⟨24, d⟩ : Block).wr 0 1 b'.toNat).wr 1 1 b'.toNat).wr 2 1 b.toNat).wr 8 8 (cw (g.vl (p ++ [b])))).wr 16 8 0 = B5
    have hope : hd.o ≠ o := fun e => hno (true, p) ⟨hd, hp, e⟩
    have t5 : Tr base (fset F o (some B5)) g ni nn (h.set o B5) := t.foreign hno
    have hbelow : ∀ b'', g.nd (p ++ [b] ++ [b'']) = none ∧ g.vl (p ++ [b] ++ [b'']) = none := fun b'' => t.below h3 (by simp)
    have hnb : NodeBlk B5 ⟨o, 0, b'.toNat, b'.toNat, b.toNat⟩ (cw (g.vl (p ++ [b]))) (fun b'' => g.word (p ++ [b] ++ [b''])) := by
      refine ⟨by rw [← hB5]; simp, by simp, hbl', ?_, ?_, ?_, ?_, ?_⟩
      · rw [← hB5]
        rw [Block.rd_wr_disj _ _ _ _ _ _ (by simp), Block.rd_wr_disj _ _ _ _ _ _ (by simp), Block.rd_wr_disj _ _ _ _ _ _ (by simp), Block.rd_wr_disj _ _ _ _ _ _ (by simp)]
        exact Block.rd_wr_same1 _ _ _ (by omega)
      · rw [← hB5]
        rw [Block.rd_wr_disj _ _ _ _ _ _ (by simp), Block.rd_wr_disj _ _ _ _ _ _ (by simp), Block.rd_wr_disj _ _ _ _ _ _ (by simp)]
        exact Block.rd_wr_same1 _ _ _ (by omega)
      · rw [← hB5]
        rw [Block.rd_wr_disj _ _ _ _ _ _ (by simp), Block.rd_wr_disj _ _ _ _ _ _ (by simp)]
        exact Block.rd_wr_same1 _ _ _ (by omega)
      · rw [← hB5]
        rw [Block.rd_wr_disj _ _ _ _ _ _ (by simp)]
        exact Block.rd_wr_same8 _ _ _ (t.cw_lt _)
      · intro b'' h4 h5
        simp only at h4 h5 ⊢
        rw [t.word_zero.2 (hbelow b''), ← hB5, show 0 + 16 + 8 * (b''.toNat - b'.toNat) = 16 by omega]
        exact Block.rd_wr_same8 _ _ _ (by omega)
    obtain ⟨Bq, hBq, hBqs, t6⟩ := t5.setNode (b := b) hp h1 h2 (some ⟨o, 0, b'.toNat, b'.toNat, b.toNat⟩) (fun h => by cases h) (by
      intro hd' e; injection e with e; subst e
      refine ⟨rfl, rfl, hf.align, hf.pos, by have := hf.lt; simp only; omega, ⟨B5, fset_same, hnb⟩, ?_⟩
      intro b'' hb''
      rw [(hbelow b'').1, (hbelow b'').2] at hb''; simp at hb'')
    rw [h3] at t6
    have hw : (g.setN (p ++ [b]) (some ⟨o, 0, b'.toNat, b'.toNat, b.toNat⟩)).word (p ++ [b]) = o := by unfold G.word; rw [setN_nd_same]
    rw [hw] at t6
    have hFF : swapN (fset F o (some B5)) (h.set o B5) none (some ⟨o, 0, b'.toNat, b'.toNat, b.toNat⟩) = F := by
      funext x
      unfold swapN
      by_cases e2 : x = o
      · subst e2; rw [if_pos (by simp)]; exact (t.fresh_F hf).symm
      · rw [if_neg (by simpa using fun e => e2 e.symm), if_neg (by simp), fset_ne e2]
    rw [hFF] at t6
    refine wpI_wr (B := Bq) hBq hBqs ⟨_, _, _, _, t6, hP⟩ ?_
    refine wpI_bind_of (addNodes_spec t6 (P := P) hP 1 (nn + 1) rfl) ?_ (by rintro e h' ⟨h1, -⟩; cases h1)
    rintro _ h' ⟨-, t7⟩
    have hsame : (g.setN (p ++ [b]) (some ⟨o, 0, b'.toNat, b'.toNat, b.toNat⟩)).nd (p ++ [b]) = some ⟨o, 0, b'.toNat, b'.toNat, b.toNat⟩ := setN_nd_same _ _ _
    have hnone : (g.setN (p ++ [b]) (some ⟨o, 0, b'.toNat, b'.toNat, b.toNat⟩)).nd (p ++ [b] ++ [b']) = none := by
      rw [setN_nd_ne _ _ (by intro e; have := congrArg List.length e; simp at this)]; exact (hbelow b').1
    refine wpI_mono (fun _ h => h) ?_ (ih b' t7 hP hsame (Nat.le_refl _) (Nat.le_refl _) hnone)
    rintro out h'' ⟨g', nn', h4, h5, h6, h7⟩
    have hq : p ++ b :: b' :: k = p ++ [b] ++ b' :: k := by simp
    rw [hq]
    refine ⟨g', nn', h4, ?_, ?_, h7⟩
    · refine Grown.trans (g' := g.setN (p ++ [b]) (some ⟨o, 0, b'.toNat, b'.toNat, b.toNat⟩)) ⟨rfl, ?_, ?_⟩ h5
      · intro r hr
        rw [setN_nd_ne _ _ (fun e => hr (by rw [e]; exact h3))]; exact hr
      · intro r hr
        by_cases e : r = p ++ [b]
        · subst e; exact Or.inr ⟨b' :: k, by simp, rfl⟩
        · rw [setN_nd_ne _ _ e] at hr; exact Or.inl hr
    · intro hc
      refine h6 (hc.add h3 ?_)
      intro r
      by_cases e : r = p ++ [b]
      · subst e; rw [hsame]; simp
      · rw [setN_nd_ne _ _ e]; simp [e]

/-- **making the slot of a key** -/
theorem traverseCreate_spec (t : Tr base F g ni nn h) (hP : P g.kv) (k : Bytes) :
    wpI (Cr base P) (traverseCreate base k) (fun out h' => ∃ g' nn', Tr base F g' ni nn' h' ∧ Grown g g' k ∧ (Card g.nd nn → Card g'.nd nn') ∧
      ((∃ a, out = .ok a ∧ SlotAt g' k a) ∨ (out = .err .noMem ∧ g.vl k = none)) ∧ (g.vl k ≠ none → h' = h ∧ g' = g ∧ nn' = nn)) h := by
  unfold traverseCreate
  simp only [Prog.bind_def]
  refine wpI_bind_of (follow_root t k) ?_ (by rintro e h' ⟨-, f, h1, -⟩; cases h1)
  rintro f h' ⟨rfl, f', h1, h2⟩
  injection h1 with h1; subst h1
  cases f with
  | val a ns =>
    obtain ⟨p, b, hp, rfl, h3, h4, h5, rfl, h6, h7, h8⟩ := h2
    exact ⟨g, nn, t, Grown.refl _ _, fun h => h, Or.inl ⟨_, rfl, Or.inr ⟨h7, p, b, hp, rfl, h3, h4, h5, rfl⟩⟩, fun _ => ⟨rfl, rfl, rfl⟩⟩
  | node par nd ns =>
    obtain ⟨hd, h3, rfl, h4, h5⟩ := h2
    exact ⟨g, nn, t, Grown.refl _ _, fun h => h, Or.inl ⟨_, rfl, Or.inl ⟨hd, h3, rfl⟩⟩, fun _ => ⟨rfl, rfl, rfl⟩⟩
  | stuck par nd ns b k =>
    obtain ⟨p, hd, rfl, h3, rfl, h4, h5, h6, h7, h8, -⟩ := h2
    refine wpI_bind_of (extend_spec t hP h3 h4 b) ?_ ?_
    · rintro a h' (⟨g', hd', h9, t', h10, h11, h12, h13, h14⟩ | ⟨h9, -⟩)
      · injection h9 with h9; subst h9
        have hkv : g'.kv = g.kv := by unfold G.kv; rw [h13]
        refine wpI_mono (fun _ h => h) ?_ (chain_spec k b t' (P := P) (by rw [hkv]; exact hP) h10 h11 h12 (by
          rw [h14 _ (by intro e; have := congrArg List.length e; simp at this)]; exact h6))
        rintro out h'' ⟨g'', nn', h15, h16, h17, h18⟩
        have hdom : ∀ r, g'.nd r ≠ none ↔ g.nd r ≠ none := by
          intro r
          by_cases e : r = p
          · subst e; rw [h10, h3]; simp
          · rw [h14 r e]
        exact ⟨g'', nn', h15, Grown.trans ⟨h13, fun r h => (hdom r).2 h, fun r h => Or.inl ((hdom r).1 h)⟩ h16, fun hc => h17 (hc.congr hdom), h18.imp id (fun e => ⟨e, h8⟩), fun h => absurd h8 h⟩
      · cases h9
    · rintro e h' (⟨g', hd', h9, -⟩ | ⟨h9, rfl⟩)
      · cases h9
      · injection h9 with h9; subst h9
        exact ⟨g, nn, t, Grown.refl _ _, fun h => h, Or.inr ⟨rfl, h8⟩, fun h => absurd h8 h⟩

end
end Verif.PrefixTree
