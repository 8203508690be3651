import Verif.PrefixTreeErase
/-
clear: deletes the whole tree, recursively.
-/
namespace Verif.PrefixTree
open Verif
attribute [local irreducible] Block.rd Block.rdB

/-- `g'` is `g` without everything at or below `q` -/
def Cleared (g g' : G) (q : Bytes) : Prop :=
  (∀ r, ¬ q <+: r → g'.nd r = g.nd r ∧ g'.vl r = g.vl r) ∧ ∀ r, q <+: r → g'.nd r = none ∧ g'.vl r = none

/-- some keys of `m'` are missing in `m` -/
def Sub (m m' : Bytes → Option Val) : Prop := ∀ k, m k = m' k ∨ m k = none

theorem Sub.refl (m : Bytes → Option Val) : Sub m m := fun _ => Or.inl rfl
theorem Sub.trans {a b c : Bytes → Option Val} (h : Sub a b) (h' : Sub b c) : Sub a c := by
  intro k
  rcases h k with h1 | h1
  · rcases h' k with h2 | h2
    · exact Or.inl (h1.trans h2)
    · exact Or.inr (h1.trans h2)
  · exact Or.inr h1

theorem sub_upd (m : Bytes → Option Val) (q : Bytes) : Sub (upd m q none) m := by
  intro k; unfold upd; split
  · exact Or.inr rfl
  · exact Or.inl rfl

theorem Cleared.sub {g g' : G} {q : Bytes} (c : Cleared g g' q) : Sub g'.kv g.kv := by
  intro k
  by_cases h : q <+: k
  · exact Or.inr (kv_none.2 (c.2 k h).2)
  · left; unfold G.kv; rw [(c.1 k h).2]

theorem snoc_prefix {q : Bytes} {b b' : UInt8} {r : Bytes} (h1 : q ++ [b] <+: r) (h2 : q ++ [b'] <+: r) : b = b' := by
  obtain ⟨s, hs⟩ := h1
  obtain ⟨s', hs'⟩ := h2
  rw [← hs', List.append_assoc, List.append_assoc] at hs
  have := List.append_cancel_left hs
  simpa using (List.cons.inj this).1

/-- below `q` there is a first byte -/
theorem prefix_cases {q r : Bytes} (h : q <+: r) : r = q ∨ ∃ b, q ++ [b] <+: r := by
  obtain ⟨s, rfl⟩ := h
  cases s with
  | nil => left; simp
  | cons b s => right; exact ⟨b, s, by simp⟩

theorem not_prefix_self {q : Bytes} {b : UInt8} : ¬ q ++ [b] <+: q := by
  rintro ⟨s, hs⟩
  have := congrArg List.length hs
  simp at this

theorem prefix_of_snoc {q r : Bytes} {b : UInt8} (h : q ++ [b] <+: r) : q <+: r := (List.prefix_append q [b]).trans h

/-- enough fuel to clear the slot `q` -/
def Deep (g : G) (q : Bytes) (f : Nat) : Prop := 0 < f ∧ ∀ r, g.nd (q ++ r) ≠ none → r.length + 1 < f

section
variable {base : Nat} {F : Nat → Option Block} {P : (Bytes → Option Val) → Prop}

/-- what clearing the child slot q of a node does -/
def SlotSpec (base : Nat) (F : Nat → Option Block) (P : (Bytes → Option Val) → Prop) (f : Nat) : Prop :=
  ∀ {g : G} {ni nn : Nat} {h : Heap} {p : Bytes} {b : UInt8} {hp : Hd}, Tr base F g ni nn h → g.nd p = some hp → hp.s ≤ b.toNat → b.toNat ≤ hp.e → Deep g (p ++ [b]) f →
    (∀ m, Sub m g.kv → P m) →
    wpI (Cr base P) (clearSlot base f (slotOf (hp.o, hp.off) hp.s b.toNat)) (fun out h' => out = .ok () ∧ ∃ g' ni' nn', Tr base F g' ni' nn' h' ∧
      Cleared g g' (p ++ [b]) ∧ (Card g.vl ni → Card g'.vl ni') ∧ (Card g.nd nn → Card g'.nd nn')) h

/-- the children from `x` on have been left as they were, the others are gone -/
structure Part (g g' : G) (q : Bytes) (hd : Hd) (x : Nat) : Prop where
  out : ∀ r, ¬ q <+: r → g'.nd r = g.nd r ∧ g'.vl r = g.vl r
  nd : g'.nd q = some hd
  vl : g'.vl q = none
  done : ∀ b : UInt8, b.toNat < hd.s + x → ∀ r, q ++ [b] <+: r → g'.nd r = none ∧ g'.vl r = none
  todo : ∀ b : UInt8, hd.s + x ≤ b.toNat → ∀ r, q ++ [b] <+: r → g'.nd r = g.nd r ∧ g'.vl r = g.vl r

theorem eachSlot_spec {f : Nat} (ih : SlotSpec base F P f) {g0 : G} {q : Bytes} {hd : Hd} (hdeep : ∀ b, Deep g0 (q ++ [b]) f) (hlt : hd.e < 256) (hle : hd.s ≤ hd.e) :
    ∀ (n x : Nat) {g : G} {ni nn : Nat} {h : Heap}, x + n = hd.e + 1 - hd.s → Tr base F g ni nn h → Part g0 g q hd x → (∀ m, Sub m g.kv → P m) →
    wpI (Cr base P) (eachSlot (clearSlot base f) (hd.o, hd.off) n x) (fun out h' => out = .ok () ∧ ∃ g' ni' nn', Tr base F g' ni' nn' h' ∧
      Part g0 g' q hd (hd.e + 1 - hd.s) ∧ (∀ m, Sub m g'.kv → P m) ∧ (Card g.vl ni → Card g'.vl ni') ∧ (Card g.nd nn → Card g'.nd nn')) h := by
  intro n
  induction n with
  | zero =>
    intro x g ni nn h hx t hp hP
    have : x = hd.e + 1 - hd.s := by omega
    subst this
    exact ⟨rfl, g, ni, nn, t, hp, hP, fun h => h, fun h => h⟩
  | succ n ih' =>
    intro x g ni nn h hx t hp hP
    have hb : (UInt8.ofNat (hd.s + x)).toNat = hd.s + x := by
      have : (UInt8.ofNat (hd.s + x)).toNat = (hd.s + x) % 256 := UInt8.toNat_ofNat'
      omega
    unfold eachSlot
    simp only [Prog.bind_def]
    have hslot : ((hd.o, hd.off + 16 + 8 * x) : Addr) = slotOf (hd.o, hd.off) hd.s (UInt8.ofNat (hd.s + x)).toNat := by
      rw [hb]; unfold slotOf; rw [Nat.add_sub_cancel_left]
    show wpI _ ((clearSlot base f (hd.o, hd.off + 16 + 8 * x)).bind _) _ _
    rw [hslot]
    have hdp : Deep g (q ++ [UInt8.ofNat (hd.s + x)]) f := by
      refine ⟨(hdeep (UInt8.ofNat (hd.s + x))).1, fun r hr => (hdeep (UInt8.ofNat (hd.s + x))).2 r ?_⟩
      rwa [(hp.todo _ (by omega) _ (List.prefix_append _ _)).1] at hr
    refine wpI_bind_of (ih t hp.nd (by omega) (by omega) hdp hP) ?_ (by rintro e h' ⟨h1, -⟩; cases h1)
    rintro _ h' ⟨-, g', ni', nn', t', hcl, hc1, hc2⟩
    have hp' : Part g0 g' q hd (x + 1) := by
      refine ⟨?_, ?_, ?_, ?_, ?_⟩
      · intro r hr
        obtain ⟨h1, h2⟩ := hcl.1 r (fun h => hr (prefix_of_snoc h))
        rw [h1, h2]; exact hp.out r hr
      · rw [(hcl.1 q not_prefix_self).1]; exact hp.nd
      · rw [(hcl.1 q not_prefix_self).2]; exact hp.vl
      · intro b h1 r h2
        by_cases e : b.toNat = hd.s + x
        · have : b = UInt8.ofNat (hd.s + x) := toNat_inj (by omega)
          subst this
          exact hcl.2 r h2
        · obtain ⟨h3, h4⟩ := hcl.1 r (fun h => e (by rw [snoc_prefix h2 h]; exact hb))
          rw [h3, h4]; exact hp.done b (by omega) r h2
      · intro b h1 r h2
        obtain ⟨h3, h4⟩ := hcl.1 r (fun h => by have := snoc_prefix h2 h; rw [this] at h1; omega)
        rw [h3, h4]; exact hp.todo b (by omega) r h2
    refine wpI_mono (fun _ h => h) ?_ (ih' (x + 1) (by omega) t' hp' (fun m hm => hP m (hm.trans hcl.sub)))
    rintro out h2 ⟨h3, g2, ni2, nn2, t2, h4, h5, h6, h7⟩
    exact ⟨h3, g2, ni2, nn2, t2, h4, h5, fun hc => h6 (hc1 hc), fun hc => h7 (hc2 hc)⟩

/-- clearing a node: its value and all below it -/
theorem clearNode_spec {f : Nat} (ih : SlotSpec base F P (f + 1)) {g : G} {ni nn : Nat} {h : Heap} (t : Tr base F g ni nn h) {q : Bytes} {hd : Hd} (hq : g.nd q = some hd)
    (hdeep : ∀ b, Deep g (q ++ [b]) (f + 1)) (hP : ∀ m, Sub m g.kv → P m) :
    wpI (Cr base P) (clearNodeWith (clearSlot base (f + 1)) (hd.o, hd.off)) (fun out h' => out = .ok () ∧ ∃ g' ni' nn', Tr base F g' ni' nn' h' ∧
      (∀ r, ¬ q <+: r → g'.nd r = g.nd r ∧ g'.vl r = g.vl r) ∧ g'.nd q = some hd ∧ g'.vl q = none ∧ (∀ r, q <+: r → r ≠ q → g'.nd r = none ∧ g'.vl r = none) ∧
      (∀ m, Sub m g'.kv → P m) ∧ (Card g.vl ni → Card g'.vl ni') ∧ (Card g.nd nn → Card g'.nd nn')) h := by
  obtain ⟨A0, hA0, hn0⟩ := t.node q hd hq
  unfold clearNodeWith
  simp only [Prog.bind_def]
  refine wpI_bind_of (clearVal_spec t (q := q) (Or.inl ⟨hd, hq, rfl⟩) (hP _ (Sub.refl _)) (hP _ (sub_upd _ _)) f) ?_ (by rintro e h' ⟨h1, -⟩; cases h1)
  rintro _ h' ⟨-, ni', t', hc'⟩
  obtain ⟨A, hA, hn⟩ := t'.node q hd hq
  have hsz := lt_size hn
  refine wpI_rd (B := A) hA (by show hd.off + 1 ≤ _; omega) ?_
  rw [show A.rd hd.off 1 = hd.s from hn.s]
  refine wpI_rd (B := A) hA (by show hd.off + 1 + 1 ≤ _; omega) ?_
  rw [show A.rd (hd.off + 1) 1 = hd.e from hn.e]
  have hpart : Part (g.setV q none) (g.setV q none) q hd 0 := by
    refine ⟨fun _ _ => ⟨rfl, rfl⟩, hq, setV_vl_same _ _ _, ?_, fun _ _ _ _ => ⟨rfl, rfl⟩⟩
    intro b hb r hr
    obtain ⟨h1, h2⟩ := t'.outside (b := b) hq (Or.inl hb)
    obtain ⟨s, rfl⟩ := hr
    by_cases hs : s = []
    · subst hs; simpa using ⟨h1, h2⟩
    · exact t'.below h1 hs
  have hP' : ∀ m, Sub m (g.setV q none).kv → P m := fun m hm => hP m (hm.trans (by rw [kv_setV]; exact sub_upd _ _))
  refine wpI_mono (fun _ h => h) ?_ (eachSlot_spec ih (g0 := g.setV q none) hdeep hn.lt hn.le _ 0 (by omega) t' hpart hP')
  rintro out h2 ⟨h3, g2, ni2, nn2, t2, h4, h5, h6, h7⟩
  refine ⟨h3, g2, ni2, nn2, t2, ?_, h4.nd, h4.vl, ?_, h5, fun hc => h6 (hc' hc), h7⟩
  · intro r hr
    obtain ⟨h8, h9⟩ := h4.out r hr
    refine ⟨h8, ?_⟩
    rw [h9, setV_vl_ne _ _ (fun e => hr (by rw [e]; exact List.prefix_refl _))]
  · intro r hr hne
    rcases prefix_cases hr with h8 | ⟨b, h8⟩
    · exact absurd h8 hne
    · have hle := hn.le
      by_cases hb : b.toNat < hd.s + (hd.e + 1 - hd.s)
      · exact h4.done b hb r h8
      · obtain ⟨h1, h2⟩ := t2.outside (b := b) h4.nd (Or.inr (by omega))
        obtain ⟨s, rfl⟩ := h8
        by_cases hs : s = []
        · subst hs; simpa using ⟨h1, h2⟩
        · exact t2.below h1 hs

theorem slotSpec : ∀ f, SlotSpec base F P f := by
  intro f
  induction f with
  | zero => intro g ni nn h p b hp _ _ _ _ hd; exact absurd hd.1 (by omega)
  | succ f ih =>
    intro g ni nn h p b hp t hpn h1 h2 hdeep hP
    cases hq : g.nd (p ++ [b]) with
    | none =>
      have hs : SlotAt g (p ++ [b]) (slotOf (hp.o, hp.off) hp.s b.toNat) := Or.inr ⟨hq, p, b, hp, rfl, hpn, h1, h2, rfl⟩
      refine wpI_mono (fun _ h => h) ?_ (clearVal_spec t hs (hP _ (Sub.refl _)) (hP _ (sub_upd _ _)) f)
      rintro out h' ⟨h3, ni', t', hc⟩
      refine ⟨h3, _, ni', nn, t', ⟨?_, ?_⟩, hc, fun h => h⟩
      · intro r hr
        exact ⟨rfl, setV_vl_ne _ _ (fun e => hr (by rw [e]; exact List.prefix_refl _))⟩
      · rintro r ⟨s, rfl⟩
        by_cases hs : s = []
        · subst hs
          rw [List.append_nil]
          exact ⟨hq, setV_vl_same _ _ _⟩
        · exact t'.below hq hs
    | some hd =>
      obtain ⟨B, hB, hn⟩ := t.node p hp hpn
      have hf : 0 < f := by
        have := hdeep.2 [] (by rw [List.append_nil, hq]; simp)
        simp at this; omega
      obtain ⟨f, rfl⟩ : ∃ f', f = f' + 1 := ⟨f - 1, by omega⟩
      obtain ⟨hoff, hps, hal, hpos, hlt, -⟩ := t.child p b hd hq
      unfold clearSlot
      simp only [Prog.bind_def]
      refine wpI_rd (B := B) hB (ch_size hn h1 h2) ?_
      rw [show B.rd (slotOf (hp.o, hp.off) hp.s b.toNat).2 8 = g.word (p ++ [b]) from hn.ch b h1 h2]
      have hw : g.word (p ++ [b]) = hd.o := by unfold G.word; rw [hq]
      have hval : valOf hd.o = hd.o := by unfold valOf; omega
      rw [hw, if_neg hpos, if_pos (show typeOf hd.o = 0 from hal), hval, show ((hd.o, 0) : Addr) = (hd.o, hd.off) by rw [hoff]]
      have hdeep' : ∀ b', Deep g (p ++ [b] ++ [b']) (f + 1) := by
        intro b'
        refine ⟨by omega, fun r hr => ?_⟩
        have := hdeep.2 ([b'] ++ r) (by rw [← List.append_assoc]; exact hr)
        simp at this ⊢; omega
      refine wpI_bind_of (clearNode_spec ih t hq hdeep' hP) ?_ (by rintro e h' ⟨h1, -⟩; cases h1)
      rintro _ h' ⟨-, g1, ni1, nn1, t1, h3, h4, h5, h6, h7, h8, h9⟩
      have hpn1 : g1.nd p = some hp := by rw [(h3 p not_prefix_self).1]; exact hpn
      obtain ⟨B', hB', hsz', t2⟩ := t1.setNode hpn1 h1 h2 none (fun _ b' => h6 _ (List.prefix_append _ _) (by
        intro e; have := congrArg List.length e; simp at this)) (by intro hd e; cases e)
      have hw2 : (g1.setN (p ++ [b]) none).word (p ++ [b]) = 0 := by unfold G.word; rw [setN_nd_same, setN_vl, h5]; rfl
      rw [hw2] at t2
      have hkv : (g1.setN (p ++ [b]) none).kv = g1.kv := rfl
      have hP1 : P (g1.setN (p ++ [b]) none).kv := by rw [hkv]; exact h7 _ (Sub.refl _)
      refine wpI_wr (B := B') hB' hsz' ⟨_, _, _, _, t2, hP1⟩ ?_
      obtain ⟨A, hA, hna⟩ := t1.node _ hd h4
      have hF1 : swapN F h' (g1.nd (p ++ [b])) none hd.o ≠ none := by
        unfold swapN
        rw [if_neg (by simp), h4, if_pos (by simp), hA]; simp
      have hno := t2.foreign_not_own hF1
      obtain ⟨B2, hB2⟩ := Option.ne_none_iff_exists'.1 hF1
      rw [← t2.frame _ hno] at hB2
      have t3 := t2.unforeign hno
      have hF2 : fset (swapN F h' (g1.nd (p ++ [b])) none) hd.o none = F := by
        funext x
        by_cases e : x = hd.o
        · subst e; rw [fset_same]; exact (t1.excl _ (true, p ++ [b]) ⟨hd, h4, rfl⟩).symm
        · rw [fset_ne e]
          unfold swapN
          rw [if_neg (by simp), h4, if_neg (by simpa using fun h => e h.symm)]
      rw [hF2] at t3
      refine wpI_free (B := B2) hB2 ⟨_, _, _, _, t3, hP1⟩ ?_
      refine wpI_mono (fun _ h => h) ?_ (addNodes_spec t3 hP1 minusOne (if nn1 = 0 then minusOne else nn1 - 1) (by split <;> omega))
      rintro out h10 ⟨h11, t4⟩
      refine ⟨h11, _, _, _, t4, ⟨?_, ?_⟩, h8, ?_⟩
      · intro r hr
        rw [setN_nd_ne _ _ (fun e => hr (by rw [e]; exact List.prefix_refl _))]
        exact h3 r hr
      · intro r hr
        by_cases e : r = p ++ [b]
        · subst e; exact ⟨setN_nd_same _ _ _, h5⟩
        · rw [setN_nd_ne _ _ e]; exact h6 r hr e
      · intro hc
        obtain ⟨h12, h13⟩ := (h9 hc).sub (q := p ++ [b]) (f' := (g1.setN (p ++ [b]) none).nd) (by rw [h4]; simp) (by
          intro r
          by_cases e : r = p ++ [b]
          · subst e; rw [setN_nd_same]; simp
          · rw [setN_nd_ne _ _ e]; simp [e])
        rw [if_neg (by omega)]; exact h12

end
end Verif.PrefixTree
