import Verif.SimpleInv
/-
Linking a new block: the stores of SimpleAllocator.cc 118-150 take a consistent list to a consistent list,
and every intermediate state is repairable.
-/
namespace Verif.Simple
open Verif

variable {α : Type} {Q : Out α → Pool → Prop} {I : Pool → Prop} {s : Pool} {a v : Nat}

theorem rwp_r {k : Nat → RProg α} (hI : I s) (hg : Geo s) (ha : a + 8 ≤ s.size)
    (hk : rwp (k (w s.mem a)) Q I s) : rwp ((R.rd64 a).bind k) Q I s :=
  rwp_rd hI (hg.inb ha) hk
theorem rwp_w {k : Unit → RProg α} (hI : I s) (hg : Geo s) (ha : a + 8 ≤ s.size)
    (hk : rwp (k ()) Q I (put s a v)) : rwp ((R.wr64 a v).bind k) Q I s :=
  rwp_wr hI (hg.inb ha) hk

/-- the cell holding the forward pointer to the insertion point -/
def fcell (L1 : Blocks) : Nat := if L1 = [] then 304 else lastOr L1 0 + 8
/-- the cell holding the backward pointer to the insertion point -/
def bcell (L2 : Blocks) : Nat := if L2 = [] then 312 else hdOr L2 0

/-- position of a new block between `L1` and `L2` -/
structure Slot (L1 L2 : Blocks) (hi co size : Nat) : Prop where
  lo : endOr L1 320 ≤ co
  al : co % 8 = 0
  sz : size + 31 < W64
  up : Chain (co + 24 + eff size) L2 hi

section
variable {p q : Pool} {L1 L2 : Blocks} {co size : Nat}

theorem Slot.sep (h : CInv p (L1 ++ L2)) (sl : Slot L1 L2 p.size co size) :
    ∀ b ∈ L1 ++ L2, (b.1 + 24 + eff b.2 ≤ co ∨ co + 24 + eff size ≤ b.1) ∧ 320 ≤ b.1 ∧ b.1 % 8 = 0 ∧
      b.2 + 7 < W64 ∧ b.1 + 24 + eff b.2 ≤ p.size := by
  intro b hb
  have h0 := h.ch.mem hb
  refine ⟨?_, h0.1, h0.2.1, h0.2.2.1, h0.2.2.2⟩
  rw [List.mem_append] at hb
  rcases hb with hb | hb
  · left
    have h1 := (Chain.append_iff.1 h.ch).1
    have h2 := (h1.mem hb).2.2.2
    have := sl.lo
    omega
  · right; exact (sl.up.mem hb).1

theorem Slot.co_ge (h : CInv p (L1 ++ L2)) (sl : Slot L1 L2 p.size co size) : 320 ≤ co := by
  have h1 := (Chain.append_iff.1 h.ch).1.lo_le
  have := sl.lo
  omega

theorem Slot.co_le (sl : Slot L1 L2 p.size co size) : co + 24 + eff size ≤ p.size := sl.up.lo_le

theorem Slot.chain (h : CInv p (L1 ++ L2)) (sl : Slot L1 L2 p.size co size) :
    Chain 320 (L1 ++ (co, size) :: L2) p.size := by
  rw [Chain.append_iff]
  exact ⟨(Chain.append_iff.1 h.ch).1, sl.lo, sl.al, by have := sl.sz; omega, sl.up⟩

/-- facts about the forward cell -/
theorem fcell_cases (h : CInv p (L1 ++ L2)) : (L1 = [] ∧ fcell L1 = 304) ∨
    (∃ A s, L1 = A ++ [(lastOr L1 0, s)] ∧ fcell L1 = lastOr L1 0 + 8 ∧ 320 ≤ lastOr L1 0 ∧ lastOr L1 0 % 8 = 0) := by
  by_cases hL : L1 = []
  · left; simp [fcell, hL]
  · right
    obtain ⟨A, t, hA, -⟩ := lastOr_mem hL 0
    have hm : (lastOr L1 0, t) ∈ L1 ++ L2 := by
      rw [List.mem_append]; left; rw [hA]; simp [lastOr_append, lastOr]
    have := h.ch.mem hm
    refine ⟨A, t, hA, by simp [fcell, hL], this.1, this.2.1⟩

theorem fcell_mod (h : CInv p (L1 ++ L2)) : fcell L1 % 8 = 0 := by
  rcases fcell_cases h with ⟨-, e⟩ | ⟨A, t, -, e, -, h2⟩ <;> omega

theorem bcell_cases (h : CInv p (L1 ++ L2)) : (L2 = [] ∧ bcell L2 = 312) ∨
    (∃ t T, L2 = (hdOr L2 0, t) :: T ∧ bcell L2 = hdOr L2 0 ∧ 320 ≤ hdOr L2 0 ∧ hdOr L2 0 % 8 = 0 ∧
      hdOr L2 0 + 24 ≤ p.size) := by
  cases L2 with
  | nil => left; simp [bcell]
  | cons b T =>
    right
    have := h.ch.mem (b := b) (by simp)
    exact ⟨b.2, T, rfl, by simp [bcell, hdOr], this.1, this.2.1, by simp only [hdOr]; omega⟩

/-- after the forward pointer is set, the new list is (crash-)consistent -/
theorem link_fwd (h : CInv p (L1 ++ L2)) (sl : Slot L1 L2 p.size co size) (hg : Geo q)
    (hs : q.size = p.size)
    (hw : ∀ a, a % 8 = 0 → 8 ≤ a → a ≠ co → a ≠ co + 8 → a ≠ co + 16 → a ≠ fcell L1 → a ≠ bcell L2 →
      w q.mem a = w p.mem a)
    (h8 : w q.mem (co + 8) = hdOr L2 0) (h16 : w q.mem (co + 16) = size)
    (hf : w q.mem (fcell L1) = co) : CInv q (L1 ++ (co, size) :: L2) := by
  have hsep := sl.sep h
  have hco := sl.co_ge h
  have hal := sl.al
  have hb := bcell_cases h
  have hbm : bcell L2 = 312 ∨ ∃ t, (bcell L2, t) ∈ L1 ++ L2 := by
    rcases hb with ⟨-, e⟩ | ⟨t, T, e, e', -⟩
    · exact Or.inl e
    · right; refine ⟨t, ?_⟩; rw [List.mem_append]; right; rw [e', e]; simp [hdOr]
  -- words next/size of old blocks other than the predecessor's next are unchanged
  have hkeep : ∀ b ∈ L1 ++ L2, ∀ f, (f = 8 ∨ f = 16) → b.1 + f ≠ fcell L1 →
      w q.mem (b.1 + f) = w p.mem (b.1 + f) := by
    intro b hb f hf8 hne
    have h0 := hsep b hb
    refine hw _ (by omega) (by omega) (by omega) (by omega) (by omega) hne ?_
    rcases hbm with e | ⟨t, ht⟩
    · omega
    · intro e
      have h1 := hsep _ ht
      rcases h.ch.sep hb ht with e2 | e2 | e2
      · subst e2; simp only at e; omega
      · simp only at e2; omega
      · simp only at e2; omega
  refine ⟨hg, ?_, ?_, by rw [hs]; exact sl.chain h⟩
  · rcases fcell_cases h with ⟨e, e'⟩ | ⟨A, t, hA, e, h1, h2⟩
    · rw [e'] at hf; rw [hf, e]; rfl
    · rw [hdOr_append]
      have hne : L1 ≠ [] := by intro e0; rw [e0] at hA; simp at hA
      have := h.head
      rw [hdOr_append] at this
      rw [hw 304 (by decide) (by decide) (by omega) (by omega) (by omega) (by omega) ?_, this]
      · cases L1 with
        | nil => exact absurd rfl hne
        | cons => rfl
      · rcases bcell_cases h with ⟨-, e3⟩ | ⟨_, _, -, e3, e4, -⟩ <;> omega
  · have hfl := h.fl
    rw [FLk.append_iff] at hfl ⊢
    refine ⟨?_, h8, h16, hfl.2.congr ?_⟩
    · rcases fcell_cases h with ⟨e, e'⟩ | ⟨A, t, hA, e, h1, h2⟩
      · rw [e]; trivial
      · have hm : ∀ c ∈ A, c ∈ L1 ++ L2 := by
          intro c hc; rw [List.mem_append]; left; rw [hA]; simp [hc]
        have hml : (lastOr L1 0, t) ∈ L1 ++ L2 := by
          rw [List.mem_append]; left
          have : (lastOr L1 0, t) ∈ A ++ [(lastOr L1 0, t)] := by simp
          rw [← hA] at this; exact this
        have hch := (Chain.append_iff.1 h.ch).1
        have h1' := hfl.1
        rw [hA] at h1' hch ⊢
        rw [FLk.append_iff] at h1' ⊢
        rw [Chain.append_iff] at hch
        refine ⟨h1'.1.congr ?_, ?_, ?_, trivial⟩
        · intro c hc
          have h3 := hch.1.mem hc
          have h4 := hch.2.1
          simp only at h4
          have hcm := hsep c (hm c hc)
          exact ⟨hkeep c (hm c hc) 8 (Or.inl rfl) (by omega), hkeep c (hm c hc) 16 (Or.inr rfl) (by omega)⟩
        · rw [← e]; exact hf
        · rw [hkeep _ hml 16 (Or.inr rfl) (by simp only; omega)]
          exact h1'.2.2.1
    · intro c hc
      have hcm : c ∈ L1 ++ L2 := by rw [List.mem_append]; exact Or.inr hc
      have h0 := hsep c hcm
      have h3 := (sl.up.mem hc).1
      have hne : ∀ f, (f = 8 ∨ f = 16) → c.1 + f ≠ fcell L1 := by
        intro f hf8
        rcases fcell_cases h with ⟨e, e'⟩ | ⟨A, t, hA, e, h1, h2⟩
        · omega
        · have hml : (lastOr L1 0, t) ∈ L1 := by
            have : (lastOr L1 0, t) ∈ A ++ [(lastOr L1 0, t)] := by simp
            rw [← hA] at this; exact this
          have h5 := (Chain.append_iff.1 h.ch).1.mem hml
          have := sl.lo
          simp only at h5
          omega
      exact ⟨hkeep c hcm 8 (Or.inl rfl) (hne 8 (Or.inl rfl)), hkeep c hcm 16 (Or.inr rfl) (hne 16 (Or.inr rfl))⟩

/-- after the backward pointer is set too, tail and backward links are right -/
theorem link_bwd (h : SInv p (L1 ++ L2)) (sl : Slot L1 L2 p.size co size)
    (hw : ∀ a, a % 8 = 0 → 8 ≤ a → a ≠ co → a ≠ co + 8 → a ≠ co + 16 → a ≠ fcell L1 → a ≠ bcell L2 →
      w q.mem a = w p.mem a)
    (h0 : w q.mem co = lastOr L1 0) (hb : w q.mem (bcell L2) = co) :
    w q.mem 312 = lastOr (L1 ++ (co, size) :: L2) 0 ∧ BLk q.mem 0 (L1 ++ (co, size) :: L2) := by
  have hc := h.toCInv
  have hsep := sl.sep hc
  have hco := sl.co_ge hc
  have hal := sl.al
  have hfm : ∀ b ∈ L1 ++ L2, b.1 ≠ fcell L1 := by
    intro b hb
    have hbb := hsep b hb
    rcases fcell_cases hc with ⟨e, e'⟩ | ⟨A, t, hA, e, h1, h2⟩
    · omega
    · have hml : (lastOr L1 0, t) ∈ L1 ++ L2 := by
        rw [List.mem_append]; left
        have : (lastOr L1 0, t) ∈ A ++ [(lastOr L1 0, t)] := by simp
        rw [← hA] at this; exact this
      rcases hc.ch.sep hb hml with e2 | e2 | e2
      · rw [e2]; simp only; omega
      · simp only at e2; omega
      · simp only at e2; omega
  have hkeep : ∀ b ∈ L1 ++ L2, b.1 ≠ bcell L2 → w q.mem b.1 = w p.mem b.1 := by
    intro b hb hne
    have h0 := hsep b hb
    exact hw _ (by omega) (by omega) (by omega) (by omega) (by omega) (hfm b hb) hne
  constructor
  · rw [lastOr_append]
    rcases bcell_cases hc with ⟨e, e'⟩ | ⟨t, T, hT, e', e4, -⟩
    · rw [e'] at hb; rw [hb, e]; rfl
    · have := h.tail
      rw [lastOr_append] at this
      rw [hw 312 (by decide) (by decide) (by omega) (by omega) (by omega) ?_ (by omega), this]
      · rw [hT]; rfl
      · rcases fcell_cases hc with ⟨e, e'⟩ | ⟨A, t, hA, e, h1, h2⟩ <;> omega
  · have hbl := h.bl
    rw [BLk.append_iff] at hbl ⊢
    refine ⟨hbl.1.congr ?_, h0, ?_⟩
    · intro b hb
      have hm : b ∈ L1 ++ L2 := by rw [List.mem_append]; exact Or.inl hb
      refine hkeep b hm ?_
      have h5 := (Chain.append_iff.1 hc.ch).1.mem hb
      have := sl.lo
      rcases bcell_cases hc with ⟨e, e'⟩ | ⟨t, T, hT, e', e4, -⟩
      · omega
      · have h6 := (sl.up.mem (b := (hdOr L2 0, t)) (by rw [hT]; simp [hdOr])).1
        simp only at h6; omega
    · rcases bcell_cases hc with ⟨e, e'⟩ | ⟨t, T, hT, e', e4, -⟩
      · rw [e]; trivial
      · have h7 := hbl.2
        have h8 := sl.up
        rw [hT] at h7 h8 ⊢
        refine ⟨by simp only; rw [← e']; exact hb, h7.2.congr ?_⟩
        intro b hb
        have hm : b ∈ L1 ++ L2 := by rw [List.mem_append, hT]; right; simp [hb]
        refine hkeep b hm ?_
        have h9 := (h8.2.2.2.mem hb).1
        simp only at h9
        omega

end
end Verif.Simple
