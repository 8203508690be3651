import Verif.PropsCostPrefix
import Verif.PropsPrefixTreeBytes
/-
The cost of bytes_for_prefix (PrefixTree.cc 698-762).
-/
namespace Verif.PrefixTree
open Verif
attribute [local irreducible] Block.rd Block.rdB
section
variable {base : Nat} {F : Nat → Option Block} {g : G} {ni nn : Nat} {h : Heap}

/-- what the search of a subtree costs, where `S` are its nodes -/
def SubCost (S : Bytes → Prop) (x : Nat) (c c' : Cost) : Prop := ∃ n, CardP S n ∧ c.Upto c' 0 0 (x + 514 * n) 0

attribute [local irreducible] cev in
theorem sumSlots_bcost (t : Tr base F g ni nn h) {f : Nat → HProg Nat} {q : Bytes} {hd : Hd} (hq : g.nd q = some hd)
    (hf : ∀ (b : UInt8) (c : Cost), cev (f (g.word (q ++ [b]))) (fun o c' h' => h' = h ∧ (∃ v, o = .ok v) ∧ SubCost (Below g (q ++ [b])) 1 c c') c h) :
    ∀ n x (c : Cost), x + n = hd.e + 1 - hd.s → cev (sumSlots f (hd.o, hd.off) n x) (fun o c' h' => h' = h ∧ (∃ v, o = .ok v) ∧
      SubCost (fun r => ∃ b : UInt8, hd.s + x ≤ b.toNat ∧ Below g (q ++ [b]) r) (2 * n) c c') c h := by
  obtain ⟨B, hB, hn⟩ := t.node q hd hq
  have hle := hn.le
  have hlt := hn.lt
  intro n
  induction n with
  | zero =>
    intro x c hx
    refine cev_ret ⟨rfl, ⟨_, rfl⟩, 0, CardP.none ?_, Cost.Upto.refl c⟩
    rintro r ⟨b, h1, ⟨s, rfl⟩, h3⟩
    obtain ⟨h4, -⟩ := t.outside (b := b) hq (Or.inr (by omega))
    exact (t.parent (r := s) h3) h4
  | succ n ih =>
    intro x c hx
    have hb : (UInt8.ofNat (hd.s + x)).toNat = hd.s + x := by
      have : (UInt8.ofNat (hd.s + x)).toNat = (hd.s + x) % 256 := UInt8.toNat_ofNat'
      omega
    unfold sumSlots
    simp only [Prog.bind_def]
    refine cev_rd (B := B) hB ?_
    have hch := hn.ch (UInt8.ofNat (hd.s + x)) (by omega) (by omega)
    rw [hb, Nat.add_sub_cancel_left] at hch
    rw [hch]
    refine cev_bind ?_ (by rintro e c' h' ⟨-, ⟨v, h1⟩, -⟩; cases h1) (hf _ _)
    rintro a c1 h' ⟨rfl, -, n1, h2, u⟩
    refine cev_bind ?_ (by rintro e c' h' ⟨-, ⟨v, h1⟩, -⟩; cases h1) (ih (x + 1) c1 (by omega))
    rintro m c2 h' ⟨rfl, -, n2, h4, v⟩
    refine cev_ret ⟨rfl, ⟨_, rfl⟩, n1 + n2, h2.union h4 ?_ ?_, ?_⟩
    · rintro p ⟨h5, -⟩ ⟨b, h6, h7, -⟩
      have := snoc_prefix h5 h7
      subst this; omega
    · intro p
      constructor
      · rintro ⟨b, h5, h6⟩
        by_cases e : b.toNat = hd.s + x
        · have : b = UInt8.ofNat (hd.s + x) := toNat_inj (by omega)
          subst this; exact Or.inl h6
        · exact Or.inr ⟨b, by omega, h6⟩
      · rintro (h5 | ⟨b, h5, h6⟩)
        · exact ⟨_, by omega, h5⟩
        · exact ⟨b, by omega, h6⟩
    · obtain ⟨u1, u2, u3, u4⟩ := u
      obtain ⟨v1, v2, v3, v4⟩ := v
      simp at u1 u2 u3 u4
      constructor <;> omega

attribute [local irreducible] cev in
theorem sumNode_bcost (t : Tr base F g ni nn h) {f : Nat → HProg Nat} {q : Bytes} {hd : Hd} (hq : g.nd q = some hd)
    (hf : ∀ (b : UInt8) (c : Cost), cev (f (g.word (q ++ [b]))) (fun o c' h' => h' = h ∧ (∃ v, o = .ok v) ∧ SubCost (Below g (q ++ [b])) 1 c c') c h) (c : Cost) :
    cev (sumNode f (hd.o, hd.off)) (fun o c' h' => h' = h ∧ (∃ v, o = .ok v) ∧ SubCost (Below g q) 0 c c') c h := by
  obtain ⟨B, hB, hn⟩ := t.node q hd hq
  have hlt := hn.lt
  unfold sumNode
  simp only [Prog.bind_def]
  refine cev_rd (B := B) hB ?_
  rw [show B.rd hd.off 1 = hd.s from hn.s]
  refine cev_rd (B := B) hB ?_
  rw [show B.rd (hd.off + 1) 1 = hd.e from hn.e]
  refine cev_mono ?_ (sumSlots_bcost t hq hf _ 0 _ (by omega))
  rintro out c' h' ⟨rfl, hv, n, h4, u⟩
  refine ⟨rfl, hv, 1 + n, (CardP.one (S := fun p => p = q) (fun _ => Iff.rfl)).union h4 ?_ ?_, ?_⟩
  · rintro p rfl ⟨b, -, h5, -⟩
    exact not_prefix_self h5
  · intro p
    constructor
    · rintro ⟨h5, h6⟩
      rcases prefix_cases h5 with h7 | ⟨b, h7⟩
      · exact Or.inl h7
      · refine Or.inr ⟨b, ?_, h7, h6⟩
        refine Classical.byContradiction fun h8 => ?_
        obtain ⟨s, rfl⟩ := h7
        exact (t.parent (r := s) h6) (t.outside (b := b) hq (Or.inl (by omega))).1
    · rintro (rfl | ⟨b, -, h5, h6⟩)
      · exact ⟨List.prefix_refl _, by rw [hq]; simp⟩
      · exact ⟨prefix_of_snoc h5, h6⟩
  · obtain ⟨u1, u2, u3, u4⟩ := u
    simp at u1 u2 u3 u4
    constructor <;> omega

attribute [local irreducible] cev in
theorem bytesFor_bcost (t : Tr base F g ni nn h) (hne : NoEmptyLeaf g) : ∀ (f : Nat) (p : Bytes) (b : UInt8), Deep g (p ++ [b]) f → ∀ c : Cost,
    cev (bytesFor f (g.word (p ++ [b]))) (fun o c' h' => h' = h ∧ (∃ v, o = .ok v) ∧ SubCost (Below g (p ++ [b])) 1 c c') c h := by
  intro f
  induction f with
  | zero => intro p b hd; exact absurd hd.1 (by omega)
  | succ f ih =>
    intro p b hdeep c
    cases hq : g.nd (p ++ [b]) with
    | none =>
      have hz : CardP (Below g (p ++ [b])) 0 := CardP.none (by
        rintro r ⟨⟨s, rfl⟩, h1⟩
        exact t.parent (r := s) h1 hq)
      refine cev_mono (Q := fun o c' h' => (h' = h ∧ ∃ n, o = .ok (8 + n) ∧ SumP (There g (p ++ [b])) (pathB g) n) ∧ c.Upto c' 0 0 1 0) ?_
        (cev_wp (bytesFor_spec (I := fun _ => True) t hne (f + 1) p b hdeep).wp ?_)
      · rintro o c' h' ⟨⟨h1, n, h2, -⟩, u⟩
        exact ⟨h1, ⟨_, h2⟩, 0, hz, u⟩
      unfold bytesFor
      generalize hw : g.word (p ++ [b]) = w
      by_cases h0 : typeOf w = 0
      · have : w = 0 := by
          by_cases hw0 : w = 0
          · exact hw0
          · exfalso
            rw [← hw] at h0 hw0
            cases hv : g.vl (p ++ [b]) with
            | none => exact hw0 (t.word_zero.2 ⟨hq, hv⟩)
            | some cv => exact (t.word_node (p := p) (b := b)).1 h0 |>.elim (fun h => absurd hq h) (fun h => by simp [hv] at h)
        rw [if_pos h0, if_pos this]
        exact cev_ret (Cost.Upto.refl c)
      rw [if_neg h0]
      split
      · refine cev_bsize' fun v => cev_ret ?_
        constructor <;> simp
      split
      · exact cev_ret (Cost.Upto.refl c)
      split
      · exact cev_ret (Cost.Upto.refl c)
      split
      · exact cev_ret (Cost.Upto.refl c)
      · exact cev_err (Cost.Upto.refl c)
    | some hd =>
      have hw : g.word (p ++ [b]) = hd.o := by unfold G.word; rw [hq]
      unfold bytesFor
      rw [if_pos (by rw [t.word_node, hq]; simp), if_neg (by rw [t.word_zero, hq]; simp), hw]
      obtain ⟨hoff, -⟩ := t.child p b hd hq
      rw [show ((hd.o, 0) : Addr) = (hd.o, hd.off) by rw [hoff]]
      simp only [Prog.bind_def]
      refine cev_bind ?_ (by rintro e c' h' ⟨-, ⟨v, h1⟩, -⟩; cases h1) (sumNode_bcost t hq (fun b' c => ih _ b' ?_ c) c)
      case refine_1 =>
        rintro a c' h' ⟨rfl, -, n, h1, u⟩
        exact cev_ret ⟨rfl, ⟨_, rfl⟩, n, h1, u.mono (by omega) (Nat.le_refl _)⟩
      have h1 := hdeep.2 [] (by rw [List.append_nil, hq]; simp)
      refine ⟨by simp at h1; omega, fun r hr => ?_⟩
      have := hdeep.2 ([b'] ++ r) (by rw [← List.append_assoc]; exact hr)
      simp at this ⊢; omega

attribute [local irreducible] cev in
theorem bytesForPrefix_bcost (t : Tr base F g ni nn h) (hne : NoEmptyLeaf g) (k : Bytes) :
    cev (bytesForPrefix base k) (fun _ c' _ => ∃ n, CardP (Below g k) n ∧ ({} : Cost).Upto c' 0 0 (3 * k.length + 3 + 514 * n) 0) {} h := by
  unfold bytesForPrefix
  split
  · rename_i hk
    obtain ⟨p, b, rfl⟩ := exists_snoc hk
    simp only [Prog.bind_def]
    unfold traverseSlot
    rw [show (p ++ [b]).getLast? = some b by simp]
    simp only [Prog.bind_def, Prog.bind_assoc]
    refine cev_bind ?_ (by rintro e c' h' ⟨⟨-, f, h1, -⟩, -⟩; cases h1) (cev_wp (follow_root (I := fun _ => True) t _).wp (cev_every (follow_every _ _ _ _)))
    rintro a c1 h' ⟨⟨rfl, f, h1, h2⟩, u, -⟩
    injection h1 with h1; subst h1
    obtain ⟨u1, u2, u3, u4⟩ := u
    have z : ({} : Cost).acc = 0 ∧ ({} : Cost).allocs = 0 ∧ ({} : Cost).frees = 0 ∧ ({} : Cost).bytes = 0 := ⟨rfl, rfl, rfl, rfl⟩
    obtain ⟨z1, z2, z3, z4⟩ := z
    have key : ∀ hp (c2 : Cost), g.nd p = some hp → hp.s ≤ b.toNat → b.toNat ≤ hp.e → c1.Upto c2 0 0 1 0 →
        cev ((H.rd64 (slotOf (hp.o, hp.off) hp.s b.toNat).1 (slotOf (hp.o, hp.off) hp.s b.toNat).2).bind fun c => bytesFor maxSteps c)
          (fun _ c' _ => ∃ n, CardP (Below g (p ++ [b])) n ∧ ({} : Cost).Upto c' 0 0 (3 * (p ++ [b]).length + 3 + 514 * n) 0) c2 h' := by
      intro hp c2 h3 h4 h5 v
      obtain ⟨v1, v2, v3, v4⟩ := v
      obtain ⟨B, hB, hn⟩ := t.node p hp h3
      have hadd : (c2 + ({ acc := 1 } : Cost)).acc = c2.acc + 1 ∧ (c2 + ({ acc := 1 } : Cost)).allocs = c2.allocs ∧ (c2 + ({ acc := 1 } : Cost)).frees = c2.frees ∧ (c2 + ({ acc := 1 } : Cost)).bytes = c2.bytes := by simp
      obtain ⟨y1, y2, y3, y4⟩ := hadd
      refine cev_rd (B := B) hB ?_
      rw [show B.rd (slotOf (hp.o, hp.off) hp.s b.toNat).2 8 = g.word (p ++ [b]) from hn.ch b h4 h5]
      refine cev_mono ?_ (bytesFor_bcost t hne _ _ _ (t.deep _ (by rw [maxSteps_eq]; omega)) _)
      rintro out c' h' ⟨-, -, n, h2, w1, w2, w3, w4⟩
      refine ⟨n, h2, ?_⟩
      constructor <;> omega
    cases a with
    | val a ns =>
      obtain ⟨p', b', hp, h0, h3, h4, h5, rfl, -⟩ := h2
      obtain ⟨rfl, rfl⟩ := snoc_inj h0
      exact key hp c1 h3 h4 h5 (Cost.Upto.refl c1)
    | node par nd ns =>
      obtain ⟨hd, h3, rfl, h4, -⟩ := h2
      obtain ⟨hp, h5, rfl⟩ := h4 p b rfl
      obtain ⟨B, hB, hn⟩ := t.node p hp h5
      obtain ⟨-, -, -, -, -, p', b', hp', h6, h7, h8, h9⟩ := t.child p b hd h3
      obtain ⟨rfl, rfl⟩ := snoc_inj h6
      rw [h5] at h7; cases h7
      simp only [Prog.bind_assoc]
      refine cev_rd (B := B) hB ?_
      rw [show B.rd hp.off 1 = hp.s from hn.s]
      refine key hp _ h5 h8 h9 ?_
      constructor <;> simp
    | stuck par nd ns b' k' =>
      obtain ⟨p', hd, -, -, -, -, -, -, h3, h4, -⟩ := h2
      refine cev_ret ⟨0, CardP.none ?_, ?_⟩
      · rintro r ⟨⟨s, rfl⟩, h1⟩
        exact t.parent (r := s) h1 h3
      · constructor <;> omega
  · rename_i hk
    rw [ne_eq, Classical.not_not] at hk
    subst hk
    simp only [Prog.bind_def]
    refine cev_bind ?_ (by rintro e c' h' ⟨-, ⟨v, h1⟩, -⟩; cases h1) (sumNode_bcost t t.root (fun b c => bytesFor_bcost t hne _ _ _ (t.deep _ (by rw [maxSteps_eq]; omega)) c) {})
    rintro a c' h' ⟨rfl, -, n, h1, u⟩
    exact cev_ret ⟨n, h1, u.mono (by omega) (Nat.le_refl _)⟩
end
end Verif.PrefixTree

namespace Verif
open PT
/-- **C71, bytes_for_prefix.** On a clean tree that does not hold "" (with "" it reads outside the pool, `C57_false_empty`), bytes_for_prefix(k) neither allocates nor frees nor copies anything and makes at
most 3 |k| + 3 + 514 n accesses, where n is the number of nodes in the subtree: the prefixes of keys that begin with `k`. -/
theorem C71_bytes_for_prefix {base : Nat} {F : Nat → Option Block} {s : State} {h : Heap} (hi : PrefixTree.Holds base F s h) (he : ∀ k, s.m k ≠ some (.str [])) (hcl : s.clean = true) (k : Bytes) {n : Nat}
    (hn : Count (fun p => k <+: p ∧ Inner s.m p) n) :
    wp (counted (PrefixTree.bytesForPrefix base k)) (fun out h' => h' = h ∧ ∃ r c, out = .ok (.ok r, c) ∧ c.allocs = 0 ∧ c.frees = 0 ∧ c.bytes = 0 ∧ c.acc ≤ 3 * k.length + 3 + 514 * n) h := by
  obtain ⟨⟨g, ni, nn, t, hm, -, -, hc⟩, -, -⟩ := hi
  have hkv : ∀ q c v, g.vl q = some (c, v) → s.m q = some v := by
    intro q c v hq
    rw [← hm]; simp [PrefixTree.G.kv, hq]
  have hne : PrefixTree.NoEmptyLeaf g := fun q c _ hq => he q (hkv q c _ hq)
  refine wp_mono ?_ (cev_and (PrefixTree.bytesForPrefix_spec (I := fun _ => True) t hne k).wp (PrefixTree.bytesForPrefix_bcost t hne k))
  rintro out h' ⟨r, c, rfl, ⟨h1, h2⟩, m, hm', u1, u2, u3, u4⟩
  have : m = n := by
    refine PrefixTree.CardP.unique hm' ?_
    obtain ⟨l, l1, l2, l3⟩ := hn
    exact ⟨l, l1, fun p => by rw [l2]; show k <+: p ∧ _ ↔ _; rw [← hm, ← t.tight_inner (hc hcl)]; rfl, l3⟩
  subst this
  refine ⟨h1, ?_⟩
  simp at u1 u2 u3 u4
  rcases h2 with ⟨rfl, -⟩ | ⟨n', rfl, -⟩
  · exact ⟨_, c, rfl, u1, u2, u4, u3⟩
  · exact ⟨_, c, rfl, u1, u2, u4, u3⟩

/-- a concrete tree and the cost of bytes_for_prefix("a"): two nodes below "a" -/
example : (run (compile ((hist (PrefixTree.call noAdd 344) [.insert [97, 98] (.int 5) none, .insert [97, 99, 100] (.str [1, 2, 3, 4, 5, 6, 7, 8, 9]) none]).bind fun _ =>
    counted (PrefixTree.bytesForPrefix 344 [97]))) (ptPool 0)).1 = .ok (.ok 73, ⟨0, 0, 13, 0, 0⟩) := by
  decide +kernel
end Verif
