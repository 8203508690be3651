import Verif.PrefixTreeOps
/-
erase: clearing the slot and deleting the nodes that have become empty.
-/
namespace Verif.PrefixTree
open Verif
attribute [local irreducible] Block.rd Block.rdB

/-- all nodes but the root and the one at `q` have something below them -/
def TightX (g : G) (q : Bytes) : Prop := ∀ p, p ≠ [] → p ≠ q → g.nd p ≠ none → ∃ b, g.nd (p ++ [b]) ≠ none ∨ g.kv (p ++ [b]) ≠ none

theorem Stack.congr {g g' : G} {p : Bytes} {ns : List Addr} (s : Stack g p ns) (h : ∀ r s, p = r ++ s → g'.nd r = g.nd r) : Stack g' p ns := by
  induction s with
  | root hd hr => exact .root hd (by rw [h [] [] rfl]; exact hr)
  | snoc p b ns hd hs hn ih =>
    refine .snoc p b ns hd (ih ?_) (by rw [h (p ++ [b]) [] (by simp)]; exact hn)
    intro r s e
    exact h r (s ++ [b]) (by rw [e]; simp)

theorem Stack.head {g : G} {p : Bytes} {ns : List Addr} (s : Stack g p ns) : ∃ hd st, g.nd p = some hd ∧ ns = (hd.o, hd.off) :: st := by
  cases s with
  | root hd hr => exact ⟨hd, _, hr, rfl⟩
  | snoc p b ns hd hs hn => exact ⟨hd, _, hn, rfl⟩

section
variable {base : Nat} {F : Nat → Option Block} {g : G} {ni nn : Nat} {h : Heap} {I : Heap → Prop} {P : (Bytes → Option Val) → Prop}

theorem hasChildren_spec {nd : Addr} {B : Block} (hB : h.blk nd.1 = some B) : ∀ (n x : Nat), nd.2 + 16 + 8 * (x + n) ≤ B.size →
    wpI I (hasChildren nd n x) (fun out h' => h' = h ∧ ∃ b, out = .ok b ∧ (b = true ↔ ∃ i, x ≤ i ∧ i < x + n ∧ B.rd (nd.2 + 16 + 8 * i) 8 ≠ 0)) h := by
  intro n
  induction n with
  | zero => intro x _; exact ⟨rfl, false, rfl, fun h => (by cases h), by rintro ⟨i, h1, h2, -⟩; omega⟩
  | succ n ih =>
    intro x hsz
    unfold hasChildren
    simp only [Prog.bind_def]
    refine wpI_rd hB (by omega) ?_
    split
    · rename_i hc
      exact ⟨rfl, true, rfl, fun _ => ⟨x, by omega, by omega, hc⟩, fun _ => rfl⟩
    · rename_i hc
      refine wpI_mono (fun _ h => h) ?_ (ih (x + 1) (by omega))
      rintro out h' ⟨h1, b, h2, h3⟩
      refine ⟨h1, b, h2, h3.trans ⟨?_, ?_⟩⟩
      · rintro ⟨i, h4, h5, h6⟩; exact ⟨i, by omega, by omega, h6⟩
      · rintro ⟨i, h4, h5, h6⟩
        by_cases e : i = x
        · subst e; exact absurd h6 hc
        · exact ⟨i, by omega, by omega, h6⟩

/-- does a node have children? -/
theorem hasChildren_node (t : Tr base F g ni nn h) {p : Bytes} {hd : Hd} (hp : g.nd p = some hd) :
    wpI I (hasChildren (hd.o, hd.off) (hd.e + 1 - hd.s) 0) (fun out h' => h' = h ∧ ∃ b, out = .ok b ∧ (b = true ↔ ∃ b', g.nd (p ++ [b']) ≠ none ∨ g.vl (p ++ [b']) ≠ none)) h := by
  obtain ⟨B, hB, hn⟩ := t.node p hd hp
  have hsz := hn.size
  refine wpI_mono (fun _ h => h) ?_ (hasChildren_spec (nd := (hd.o, hd.off)) hB _ 0 (by show hd.off + 16 + _ ≤ _; omega))
  rintro out h' ⟨h1, b, h2, h3⟩
  refine ⟨h1, b, h2, h3.trans ⟨?_, ?_⟩⟩
  · rintro ⟨i, -, h5, h6⟩
    have hlt := hn.lt
    have hle := hn.le
    have hb : (UInt8.ofNat (hd.s + i)).toNat = hd.s + i := by
      have : (UInt8.ofNat (hd.s + i)).toNat = (hd.s + i) % 256 := UInt8.toNat_ofNat'
      omega
    have hw := hn.ch (UInt8.ofNat (hd.s + i)) (by omega) (by omega)
    rw [hb, Nat.add_sub_cancel_left] at hw
    rw [hw] at h6
    refine ⟨UInt8.ofNat (hd.s + i), ?_⟩
    refine Classical.byContradiction fun hc => ?_
    obtain ⟨h7, h8⟩ := not_or.1 hc
    exact h6 (t.word_zero.2 ⟨Classical.not_not.1 h7, Classical.not_not.1 h8⟩)
  · rintro ⟨b', hb'⟩
    have hin : hd.s ≤ b'.toNat ∧ b'.toNat ≤ hd.e := by
      refine Classical.byContradiction fun hc => ?_
      obtain ⟨h4, h5⟩ := t.outside hp (b := b') (by omega)
      rcases hb' with h6 | h6
      · exact h6 h4
      · exact h6 h5
    refine ⟨b'.toNat - hd.s, by omega, by omega, ?_⟩
    show B.rd (hd.off + 16 + 8 * (b'.toNat - hd.s)) 8 ≠ 0
    rw [hn.ch b' hin.1 hin.2]
    intro hz
    obtain ⟨h4, h5⟩ := t.word_zero.1 hz
    rcases hb' with h6 | h6
    · exact h6 h4
    · exact h6 h5

/-- deleting the empty nodes at the end of a path -/
theorem prune_spec : ∀ (ns : List Addr) (p : Bytes) (g : G) (nn : Nat) (h : Heap), Tr base F g ni nn h → Stack g p ns → P g.kv →
    wpI (Cr base P) (prune base ns) (fun out h' => out = .ok () ∧ ∃ g' nn', Tr base F g' ni nn' h' ∧ g'.vl = g.vl ∧ (Card g.nd nn → Card g'.nd nn') ∧ (TightX g p → Tight g')) h := by
  intro ns
  induction ns with
  | nil => intro p g nn h t hs; cases hs
  | cons nd st ih =>
    intro p g nn h t hs hP
    cases hs with
    | root hd hr => exact ⟨rfl, g, nn, t, rfl, fun h => h, fun ht p hp hn => ht p hp hp hn⟩
    | snoc p b ns hd hs hq =>
      obtain ⟨hp, st', hpn, rfl⟩ := hs.head
      obtain ⟨A, hA, hn⟩ := t.node _ hd hq
      obtain ⟨hoff, hps, hal, hpos, hlt, p', b', hp', h2, h3, h4, h5⟩ := t.child p b hd hq
      obtain ⟨rfl, rfl⟩ := snoc_inj h2
      rw [hpn] at h3; cases h3
      obtain ⟨Bp, hBp, hnp⟩ := t.node p hp hpn
      have hsz := lt_size hn
      have hszp := lt_size hnp
      unfold prune
      simp only [Prog.bind_def]
      refine wpI_rd (B := A) hA (by show hd.off + 1 ≤ _; omega) ?_
      rw [show A.rd hd.off 1 = hd.s from hn.s]
      refine wpI_rd (B := A) hA (by show hd.off + 1 + 1 ≤ _; omega) ?_
      rw [show A.rd (hd.off + 1) 1 = hd.e from hn.e]
      refine wpI_bind_of (hasChildren_node t hq) ?_ (by rintro e h' ⟨-, b, h1, -⟩; cases h1)
      rintro has h' ⟨rfl, has', h6, h7⟩
      injection h6 with h6; subst h6
      split
      · rename_i hh
        refine ⟨rfl, g, nn, t, rfl, fun h => h, fun ht r hr hrn => ?_⟩
        by_cases e : r = p ++ [b]
        · obtain ⟨b', h8⟩ := h7.1 hh
          refine ⟨b', ?_⟩
          rw [e]
          rcases h8 with h8 | h8
          · exact Or.inl h8
          · exact Or.inr (fun h => h8 (kv_none.1 h))
        · exact ht r hr e hrn
      · rename_i hh
        have hnone : ∀ b', g.nd (p ++ [b] ++ [b']) = none ∧ g.vl (p ++ [b] ++ [b']) = none := by
          intro b'
          refine Classical.byContradiction fun hc => hh (h7.2 ⟨b', ?_⟩)
          rcases Classical.em (g.nd (p ++ [b] ++ [b']) = none) with h8 | h8
          · exact Or.inr (fun h9 => hc ⟨h8, h9⟩)
          · exact Or.inl h8
        refine wpI_rd (B := A) hA (by show hd.off + 2 + 1 ≤ _; omega) ?_
        rw [show A.rd (hd.off + 2) 1 = hd.ps from hn.ps, hps]
        refine wpI_rd (B := Bp) hBp (by show hp.off + 1 ≤ _; omega) ?_
        rw [show Bp.rd hp.off 1 = hp.s from hnp.s]
        refine wpI_rd (B := A) hA (by show hd.off + 8 + 8 ≤ _; omega) ?_
        rw [show A.rd (hd.off + 8) 8 = cw (g.vl (p ++ [b])) from hn.v]
        obtain ⟨B', hB', hsz', t'⟩ := t.setNode hpn h4 h5 none (fun _ => hnone) (by intro hd e; cases e)
        rw [hBp] at hB'; cases hB'
        have hw : (g.setN (p ++ [b]) none).word (p ++ [b]) = cw (g.vl (p ++ [b])) := by unfold G.word; rw [setN_nd_same]; rfl
        rw [hw] at t'
        have hkv : (g.setN (p ++ [b]) none).kv = g.kv := rfl
        refine wpI_wr (B := Bp) hBp hsz' ⟨_, _, _, _, t', by rw [hkv]; exact hP⟩ ?_
        have hF1 : swapN F h' (g.nd (p ++ [b])) none hd.o ≠ none := by
          unfold swapN
          rw [if_neg (by simp), hq, if_pos (by simp), hA]; simp
        have hno := t'.foreign_not_own hF1
        obtain ⟨B2, hB2⟩ := Option.ne_none_iff_exists'.1 hF1
        rw [← t'.frame _ hno] at hB2
        have t'' := t'.unforeign hno
        have hF2 : fset (swapN F h' (g.nd (p ++ [b])) none) hd.o none = F := by
          funext x
          by_cases e : x = hd.o
          · subst e; rw [fset_same]; exact (t.excl _ (true, p ++ [b]) ⟨hd, hq, rfl⟩).symm
          · rw [fset_ne e]
            unfold swapN
            rw [if_neg (by simp), hq, if_neg (by simpa using fun h => e h.symm)]
        rw [hF2] at t''
        refine wpI_free (B := B2) hB2 ⟨_, _, _, _, t'', by rw [hkv]; exact hP⟩ ?_
        refine wpI_bind_of (addNodes_spec t'' (by rw [hkv]; exact hP) minusOne (if nn = 0 then minusOne else nn - 1) (by split <;> omega)) ?_ (by rintro e h' ⟨h1, -⟩; cases h1)
        rintro _ h2 ⟨-, t3⟩
        have hcard : Card g.nd nn → Card (g.setN (p ++ [b]) none).nd (if nn = 0 then minusOne else nn - 1) := by
          intro hc
          obtain ⟨h1, h2⟩ := hc.sub (q := p ++ [b]) (f' := (g.setN (p ++ [b]) none).nd) (by rw [hq]; simp) (by
            intro r
            by_cases e : r = p ++ [b]
            · subst e; rw [setN_nd_same]; simp
            · rw [setN_nd_ne _ _ e]; simp [e])
          rw [if_neg (by omega)]; exact h1
        split
        · rename_i hv
          refine ⟨rfl, _, _, t3, rfl, hcard, fun ht r hr hrn => ?_⟩
          have hrne : r ≠ p ++ [b] := by rintro rfl; rw [setN_nd_same] at hrn; exact hrn rfl
          rw [setN_nd_ne _ _ hrne] at hrn
          obtain ⟨b', hb'⟩ := ht r hr hrne hrn
          refine ⟨b', ?_⟩
          by_cases e : r ++ [b'] = p ++ [b]
          · right
            rw [e, hkv]
            intro h9
            rw [kv_none.1 h9] at hv
            exact hv rfl
          · rw [setN_nd_ne _ _ e]; exact hb'
        · rename_i hv
          have hs' : Stack (g.setN (p ++ [b]) none) p ((hp.o, hp.off) :: st') := hs.congr (by
            intro r s e
            refine setN_nd_ne _ _ ?_
            rintro rfl
            have := congrArg List.length e
            simp at this)
          refine wpI_mono (fun _ h => h) ?_ (ih p _ _ h2 t3 hs' (by rw [hkv]; exact hP))
          rintro out h3 ⟨h4, g', nn', t4, h5, h6, h7⟩
          refine ⟨h4, g', nn', t4, h5, fun hc => h6 (hcard hc), fun ht => h7 ?_⟩
          intro r hr hrp hrn
          have hrne : r ≠ p ++ [b] := by rintro rfl; rw [setN_nd_same] at hrn; exact hrn rfl
          rw [setN_nd_ne _ _ hrne] at hrn
          obtain ⟨b', hb'⟩ := ht r hr hrne hrn
          refine ⟨b', ?_⟩
          by_cases e : r ++ [b'] = p ++ [b]
          · exact absurd (snoc_inj e).1 hrp
          · rw [setN_nd_ne _ _ e]; exact hb'

/-- **erase** -/
theorem erase_spec (t : Tr base F g ni nn h) {k : Bytes} {c : Option Check} (h0 : P g.kv) (h1 : checkVal g.kv c = true → P (upd g.kv k none)) :
    wpI (Cr base P) (erase base k c) (fun out h' => (checkVal g.kv c = false ∧ out = .ok false ∧ h' = h) ∨
      (checkVal g.kv c = true ∧ g.nd k = none ∧ g.kv k = none ∧ out = .ok false ∧ h' = h) ∨
      (checkVal g.kv c = true ∧ (g.nd k ≠ none ∨ g.kv k ≠ none) ∧ out = .ok true ∧ ∃ g' ni' nn', Tr base F g' ni' nn' h' ∧ g'.kv = upd g.kv k none ∧
        (Card g.vl ni → Card g'.vl ni') ∧ (Card g.nd nn → Card g'.nd nn') ∧ (Tight g → Tight g'))) h := by
  unfold erase
  simp only [Prog.bind_def]
  refine wpI_bind_of (checkOk_spec t c) ?_ (by rintro e h' ⟨-, h1⟩; cases h1)
  rintro go h' ⟨rfl, hgo⟩
  injection hgo with hgo
  subst hgo
  split
  · rename_i hc
    refine wpI_bind_of (traverse_spec t k) ?_ (by rintro e h' ⟨rfl, (⟨a, ns, h1, -⟩ | ⟨ns, h1, -⟩)⟩ <;> cases h1)
    rintro r h' ⟨rfl, (⟨a, ns, h2, hs, hpath, h3⟩ | ⟨ns, h2, h3, h4⟩)⟩
    · injection h2 with h2; subst h2
      obtain ⟨n, hn⟩ := maxSteps_succ
      simp only
      rw [hn]
      refine wpI_bind_of (clearVal_spec t hs h0 (h1 hc) n) ?_ (by rintro e h' ⟨h1, -⟩; cases h1)
      rintro _ h2 ⟨-, ni', t', hc'⟩
      have hP' : P (g.setV k none).kv := by rw [kv_setV]; exact h1 hc
      obtain ⟨p, hst, htx⟩ : ∃ p, Stack (g.setV k none) p ns ∧ (Tight g → TightX (g.setV k none) p) := by
        rcases hpath with hst | ⟨hkn, p, b, rfl, hst⟩
        · refine ⟨k, hst.congr (fun _ _ _ => rfl), fun ht r hr hrk hrn => ?_⟩
          obtain ⟨b, hb⟩ := ht r hr hrn
          refine ⟨b, ?_⟩
          by_cases e : r ++ [b] = k
          · left
            obtain ⟨hd, st, h9, -⟩ := hst.head
            rw [setV_nd, e, h9]; simp
          · rw [kv_setV]; unfold upd; rw [if_neg e]; exact hb
        · refine ⟨p, hst.congr (fun _ _ _ => rfl), fun ht r hr hrk hrn => ?_⟩
          obtain ⟨b', hb⟩ := ht r hr hrn
          refine ⟨b', ?_⟩
          rw [kv_setV]; unfold upd
          rw [if_neg (fun e => hrk (snoc_inj e).1)]; exact hb
      refine wpI_bind_of (prune_spec ns p _ nn h2 t' hst hP') ?_ (by rintro e h' ⟨h1, -⟩; cases h1)
      rintro _ h4 ⟨-, g', nn', t'', h5, h6, h7⟩
      refine Or.inr (Or.inr ⟨hc, ?_, rfl, g', ni', nn', t'', ?_, ?_, h6, fun ht => h7 (htx ht)⟩)
      · rcases h3 with h3 | h3
        · exact Or.inl h3
        · exact Or.inr (fun h => h3 (kv_none.1 h))
      · have : g'.kv = (g.setV k none).kv := by unfold G.kv; rw [h5]
        rw [this, kv_setV]; rfl
      · rw [h5]; exact hc'
    · injection h2 with h2; subst h2
      exact Or.inr (Or.inl ⟨hc, h3, kv_none.2 h4, rfl, rfl⟩)
  · rename_i hc
    exact Or.inl ⟨by simpa using hc, rfl, rfl⟩

end
end Verif.PrefixTree
