import Verif.SimpleAlloc
/-
Pool growth, the best-fit search, allocate.
-/
namespace Verif.Simple
open Verif

/-- the pool grew (or stayed): everything below the old size except the size word itself is unchanged -/
structure Grow (p p' : Pool) : Prop where
  geo : Geo p'
  sz : p.size ≤ p'.size
  mem : ∀ i, 8 ≤ i → i < p.size → p'.mem i = p.mem i
  mx : p'.maxSize = p.maxSize
  lm : p'.lim = p.lim

section
variable {p p' : Pool} {L : Blocks}

theorem Grow.refl (h : Geo p) : Grow p p := ⟨h, Nat.le_refl _, fun _ _ _ => rfl, rfl, rfl⟩

theorem Grow.w (g : Grow p p') {a : Nat} (h8 : 8 ≤ a) (ha : a + 8 ≤ p.size) : w p'.mem a = w p.mem a :=
  leRd_congr _ _ _ _ (by intro i hi h2; exact g.mem _ (by omega) (by omega))

theorem CInv.grow (h : CInv p L) (g : Grow p p') : CInv p' L := by
  have hmin := h.geo.min
  refine ⟨g.geo, ?_, ?_, h.ch.widen g.sz⟩
  · rw [g.w (by decide) (by omega)]; exact h.head
  · refine h.fl.congr ?_
    intro b hb
    have := h.ch.mem hb
    exact ⟨g.w (by omega) (by omega), g.w (by omega) (by omega)⟩

theorem SInv.grow (h : SInv p L) (g : Grow p p') : SInv p' L := by
  have hmin := h.geo.min
  refine ⟨h.toCInv.grow g, ?_, ?_, ?_, ?_⟩
  · rw [g.w (by decide) (by omega)]; exact h.tail
  · refine h.bl.congr ?_
    intro b hb
    have := h.ch.mem hb
    exact g.w (by omega) (by omega)
  · rw [g.w (by decide) (by omega)]; exact h.ba
  · rw [g.w (by decide) (by omega)]; exact h.bc

theorem CInv.grow_keep (h : CInv p L) (g : Grow p p') : Keep L p p' := by
  have hmin := h.geo.min
  refine ⟨fun i h1 h2 => g.mem i h1 (by omega), ?_, g.mx, g.lm⟩
  intro b hb i hi
  have h0 := h.ch.mem hb
  have := eff_facts h0.2.2.1
  exact g.mem _ (by omega) (by omega)

theorem roundPage_le {n : Nat} (h : n + 4095 < W64) :
    n ≤ roundPage n ∧ roundPage n % 4096 = 0 ∧ roundPage n < n + 4096 := by
  unfold roundPage; rw [Nat.mod_eq_of_lt h]; omega

theorem expand_spec (hg : Geo p) (n : Nat) :
    rwp (expand n)
      (fun out p' => (out = .ok () ∧ Grow p p' ∧ p'.size = max p.size (roundPage n) ∧
          (p.maxSize = 0 ∨ roundPage n ≤ p.maxSize)) ∨
        (out = .err .noMem ∧ p' = p ∧ ((p.maxSize ≠ 0 ∧ p.maxSize < roundPage n) ∨
          (p.size < roundPage n ∧ p.lim < roundPage n))))
      (Grow p) p := by
  have hmin := hg.min
  have hmax := hg.max
  have hI := Grow.refl hg
  unfold expand
  simp only [Prog.bind_def]
  refine rwp_maxSize hI ?_
  split
  · rename_i hc
    exact ⟨hI, Or.inr ⟨rfl, rfl, Or.inl ⟨hc.1, hc.2⟩⟩⟩
  · rename_i hc
    have hc' : p.maxSize = 0 ∨ roundPage n ≤ p.maxSize := by
      by_cases h : p.maxSize = 0
      · exact Or.inl h
      · right
        have : ¬ roundPage n > p.maxSize := fun h' => hc ⟨h, h'⟩
        omega
    refine rwp_r hI hg (by omega) ?_
    rw [show w p.mem 0 = p.size from rfl]
    split
    · rename_i hle
      exact ⟨hI, Or.inl ⟨rfl, hI, by omega, hc'⟩⟩
    · rename_i hgt
      refine rwp_trunc hI ?_ ?_
      · intro hl
        have hlim := hg.lim
        have hfs := hg.le
        have hts : (p.trunc (roundPage n)).size = p.size := by
          refine leRd_congr _ _ _ _ ?_
          intro i h1 h2
          show (if _ then _ else _) = _
          rw [if_pos (by omega)]
        have hpg : roundPage n % 4096 = 0 := by unfold roundPage; omega
        have hgt' : Grow p (p.trunc (roundPage n)) := by
          refine ⟨⟨?_, ?_, ?_, ?_, hg.lim⟩, by omega, ?_, rfl, rfl⟩
          · rw [hts]; show _ ≤ roundPage n; omega
          · rw [hts]; exact hg.page
          · omega
          · omega
          · intro i h8 hi
            show (if _ then _ else _) = _
            rw [if_pos (by omega)]
        simp only [Bool.true_eq_false, if_false]
        refine ⟨hgt', ⟨?_, ?_⟩, ?_⟩
        · show _ ≤ (p.trunc (roundPage n)).size; rw [hts]; omega
        · show _ ≤ roundPage n; omega
        · have hs2 : (Pool.size { p.trunc (roundPage n) with mem := leWr (p.trunc (roundPage n)).mem 0 8 (roundPage n) }) = roundPage n := by
            unfold Pool.size
            show leRd (leWr _ 0 8 _) 0 8 = _
            rw [leRd_leWr_same]
            exact Nat.mod_eq_of_lt (by omega)
          have hG : Grow p { p.trunc (roundPage n) with mem := leWr (p.trunc (roundPage n)).mem 0 8 (roundPage n) } := by
            refine ⟨⟨?_, ?_, ?_, ?_, hg.lim⟩, by omega, ?_, rfl, rfl⟩
            · rw [hs2]; exact Nat.le_refl _
            · rw [hs2]; exact hpg
            · omega
            · omega
            · intro i h8 hi
              exact (leWr_out _ _ _ _ _ (by omega)).trans (hgt'.mem i h8 hi)
          exact ⟨hG, Or.inl ⟨rfl, hG, by rw [hs2]; omega, hc'⟩⟩
      · intro hl
        rw [if_pos rfl]
        exact ⟨hI, Or.inr ⟨rfl, rfl, Or.inr ⟨by omega, by omega⟩⟩⟩

/-! ### the search -/

/-- the k-th gap: between the first k blocks and the rest -/
def gapAt (L : Blocks) (hi k : Nat) : Nat := hdOr (L.drop k) hi - endOr (L.take k) 320

/-- `k` is a best-fitting gap for `need` among the first `j + 1` gaps -/
def Best (L : Blocks) (hi need k j : Nat) : Prop :=
  (need ≤ gapAt L hi k → ∀ i, i ≤ j → need ≤ gapAt L hi i → gapAt L hi k ≤ gapAt L hi i) ∧
  (gapAt L hi k < need → ∀ i, i ≤ j → gapAt L hi i < need)

theorem CInv.split_at (h : CInv p L) {j : Nat} (hj : j < L.length) :
    let b := L[j]
    w p.mem (b.1 + 8) = hdOr (L.drop (j + 1)) 0 ∧ w p.mem (b.1 + 16) = b.2 ∧ hdOr (L.drop j) 0 = b.1 ∧
    endOr (L.take (j + 1)) 320 = b.1 + 24 + eff b.2 ∧ lastOr (L.take (j + 1)) 0 = b.1 ∧
    b.1 + 24 + eff b.2 ≤ hdOr (L.drop (j + 1)) p.size ∧ 320 ≤ b.1 ∧ b.1 % 8 = 0 ∧ b.1 + 24 + eff b.2 ≤ p.size ∧
    hdOr (L.drop (j + 1)) p.size ≤ p.size := by
  intro b
  have e : L = L.take j ++ b :: L.drop (j + 1) := by
    rw [show b :: L.drop (j + 1) = L.drop j from (List.drop_eq_getElem_cons hj).symm, List.take_append_drop]
  have hf := h.fl
  have hch := h.ch
  rw [e] at hf hch
  rw [FLk.append_iff] at hf
  have hc := Chain.append_iff.1 hch
  have et : L.take (j + 1) = L.take j ++ [b] := by rw [List.take_succ_eq_append_getElem hj]
  have hup := hc.2.2.2.2
  have hm := hch.mem (b := b) (by simp)
  refine ⟨hf.2.1, hf.2.2.1, ?_, ?_, ?_, ?_, hm.1, hm.2.1, hm.2.2.2, ?_⟩
  · rw [List.drop_eq_getElem_cons hj]; rfl
  · rw [et, endOr_append]; rfl
  · rw [et, lastOr_append]; rfl
  · generalize L.drop (j + 1) = D at hup ⊢
    cases D with
    | nil => exact hup
    | cons c D => exact hup.1
  · generalize L.drop (j + 1) = D at hup ⊢
    cases D with
    | nil => exact Nat.le_refl _
    | cons c D => have := hup.2.2.2.lo_le; simp only [hdOr]; omega

theorem search_spec (h : CInv p L) {I : Pool → Prop} (hI : I p) {need : Nat} :
    ∀ (fuel j k : Nat), j ≤ L.length → k ≤ j → L.length + 1 ≤ fuel + j → Best L p.size need k j →
    rwp (search need fuel (hdOr (L.drop j) 0) (endOr (L.take k) 320) (gapAt L p.size k) (lastOr (L.take k) 0))
      (fun out p' => p' = p ∧ ∃ k, k ≤ L.length ∧ Best L p.size need k L.length ∧
        out = .ok (endOr (L.take k) 320, gapAt L p.size k, lastOr (L.take k) 0)) I p := by
  have hmin := h.geo.min
  have hmax := h.geo.max
  intro fuel
  induction fuel with
  | zero => intro j k h1 h2 h3; omega
  | succ fuel ih =>
    intro j k hj hk hfu hb
    unfold search
    split
    · rename_i hc
      refine ⟨hI, rfl, k, by omega, ?_, rfl⟩
      rcases hc with hc | hc
      · have : j = L.length := by
          refine Nat.le_antisymm hj (Nat.not_lt.1 ?_)
          intro hlt
          have := h.split_at hlt
          omega
        rw [← this]; exact hb
      · constructor
        · intro _ i _ h2; omega
        · intro h1; omega
    · rename_i hc
      have hlt : j < L.length := by
        refine Nat.lt_of_le_of_ne hj ?_
        intro e
        apply hc; left
        rw [e, List.drop_length]; rfl
      obtain ⟨s1, s2, s3, s4, s5, s6, s7, s8, s9, s10⟩ := h.split_at hlt
      generalize hbb : L[j] = b at *
      rw [s3]
      simp only [Prog.bind_def]
      refine rwp_r hI h.geo (by omega) ?_
      refine rwp_r hI h.geo (by omega) ?_
      rw [s1, s2]
      -- the upper end of the gap
      have key : rwp (if need ≤ gapAt L p.size (j + 1) ∧ (gapAt L p.size k < need ∨ gapAt L p.size (j + 1) < gapAt L p.size k) then
            search need fuel (hdOr (L.drop (j + 1)) 0) (b.1 + 24 + eff b.2) (gapAt L p.size (j + 1)) b.1
          else search need fuel (hdOr (L.drop (j + 1)) 0) (endOr (L.take k) 320) (gapAt L p.size k) (lastOr (L.take k) 0))
          (fun out p' => p' = p ∧ ∃ k, k ≤ L.length ∧ Best L p.size need k L.length ∧
            out = .ok (endOr (L.take k) 320, gapAt L p.size k, lastOr (L.take k) 0)) I p := by
        obtain ⟨hb1, hb2⟩ := hb
        split
        · rename_i hcond
          have := ih (j + 1) (j + 1) (by omega) (by omega) (by omega) ?_
          · rw [s4, s5] at this; exact this
          · constructor
            · intro _ i hi hn
              by_cases e : i = j + 1
              · subst e; exact Nat.le_refl _
              · by_cases hck : gapAt L p.size k < need
                · have := hb2 hck i (by omega); omega
                · have := hb1 (by omega) i (by omega) hn; omega
            · intro h1; omega
        · rename_i hcond
          refine ih (j + 1) k (by omega) (by omega) (by omega) ?_
          constructor
          · intro h1 i hi hn
            by_cases e : i = j + 1
            · subst e; omega
            · exact hb1 h1 i (by omega) hn
          · intro h1 i hi
            by_cases e : i = j + 1
            · subst e; omega
            · exact hb2 h1 i (by omega)
      have hsub : ∀ x, b.1 + 24 + eff b.2 ≤ x → x ≤ p.size → sub64 (sub64 (sub64 x b.1) (eff b.2)) 24 = x - (b.1 + 24 + eff b.2) := by
        intro x h1 h2
        rw [sub64_eq (a := x) (by omega) (by omega), sub64_eq (b := eff b.2) (by omega) (by omega),
          sub64_eq (b := 24) (by omega) (by omega)]
        omega
      have hgap : gapAt L p.size (j + 1) = hdOr (L.drop (j + 1)) p.size - (b.1 + 24 + eff b.2) := by
        unfold gapAt; rw [s4]
      generalize hD : L.drop (j + 1) = D at *
      cases D with
      | nil =>
        simp only [hdOr] at *
        simp only [ne_eq, not_true_eq_false, if_false]
        refine rwp_r hI h.geo (by omega) ?_
        rw [show w p.mem 0 = p.size from rfl, hsub _ (by omega) (by omega), ← hgap]
        exact key
      | cons c D =>
        have hne : (hdOr (c :: D) 0 ≠ 0) = True := by
          simp only [hdOr] at *; simp only [ne_eq, eq_iff_iff, iff_true]; omega
        simp only [hne, if_true]
        have hcs : hdOr (c :: D) 0 = hdOr (c :: D) p.size := rfl
        show rwp (if _ then _ else _) _ _ _
        rw [hcs] at key ⊢
        rw [hsub _ (by omega) (by omega), ← hgap]
        exact key

end
end Verif.Simple
