import Verif.SimpleAllocSpec
/-
The specifications of SimpleAllocator::free, repair, block_size, the base object offset, and initialisation.
-/
namespace Verif.Simple
open Verif

section
variable {p q : Pool} {A B L : Blocks} {b s : Nat}

theorem mem_ins {x c : Nat × Nat} (h : c ∈ A ++ B) : c ∈ A ++ x :: B := by
  rcases List.mem_append.1 h with h | h
  · exact List.mem_append_left _ h
  · exact List.mem_append_right _ (List.mem_cons_of_mem _ h)

theorem unlink_fwd (h : CInv p (A ++ (b, s) :: B)) :
    CInv (put p (fcell A) (hdOr B 0)) (A ++ B) := by
  have hch := h.ch
  have hc := Chain.append_iff.1 hch
  have hfl := h.fl
  rw [FLk.append_iff] at hfl
  have hfm := fcell_mod h
  have hb := h.ch.mem (b := (b, s)) (by simp)
  simp only at hb
  have hmax := h.geo.max
  have hlt : hdOr B 0 < W64 := by
    cases B with
    | nil => simp [hdOr]
    | cons c T => have := h.ch.mem (b := c) (by simp); simp only [hdOr]; omega
  have hf8 : 8 ≤ fcell A := by
    rcases fcell_cases h with ⟨-, e⟩ | ⟨_, _, -, e, _, _⟩ <;> omega
  refine ⟨h.geo.put hf8, ?_, ?_, ?_⟩
  · rcases fcell_cases h with ⟨e, e'⟩ | ⟨A', t, hA, e, h1, h2⟩
    · rw [e', put_w (by decide) (by decide), if_pos rfl, Nat.mod_eq_of_lt hlt, e]; rfl
    · rw [e, put_w (by omega) (by decide), if_neg (by omega), h.head]
      rw [hdOr_append, hdOr_append]
      cases A with
      | nil => simp at hA
      | cons => rfl
  · rw [FLk.append_iff]
    constructor
    · rcases fcell_cases h with ⟨e, e'⟩ | ⟨A', t, hA, e, h1, h2⟩
      · rw [e]; trivial
      · have hf1 := hfl.1
        have hc1 := hc.1
        rw [hA] at hf1 hc1
        rw [e]
        rw [FLk.append_iff] at hf1
        rw [Chain.append_iff] at hc1
        suffices hh : FLk (put p (lastOr A 0 + 8) (hdOr B 0)).mem (A' ++ [(lastOr A 0, t)]) (hdOr B 0) by
          rw [← hA] at hh; exact hh
        rw [FLk.append_iff]
        refine ⟨hf1.1.congr ?_, ?_, ?_, trivial⟩
        · intro c hc
          have h3 := hc1.1.mem hc
          have h4 := hc1.2.1
          simp only at h4
          rw [put_w (by omega) (by omega), put_w (by omega) (by omega), if_neg (by omega), if_neg (by omega)]
          exact ⟨rfl, rfl⟩
        · show w _ (lastOr A 0 + 8) = _
          rw [put_w (by omega) (by omega), if_pos rfl, Nat.mod_eq_of_lt hlt]; rfl
        · show w _ (lastOr A 0 + 16) = _
          rw [put_w (by omega) (by omega), if_neg (by omega)]
          exact hf1.2.2.1
    · refine hfl.2.2.2.congr ?_
      intro c hcm
      have h3 := hc.2.2.2.2.mem hcm
      simp only at h3
      have hne : fcell A + 8 ≤ c.1 ∧ (c.1 + 8) % 8 = 0 ∧ (c.1 + 16) % 8 = 0 := by
        have := hc.2.1
        simp only at this
        rcases fcell_cases h with ⟨e, e'⟩ | ⟨A', t, hA, e, h1, h2⟩
        · omega
        · have hml : (lastOr A 0, t) ∈ A := by
            have : (lastOr A 0, t) ∈ A' ++ [(lastOr A 0, t)] := by simp
            rw [← hA] at this; exact this
          have := hc.1.mem hml
          simp only at this
          omega
      rw [put_w hfm (by omega), put_w hfm (by omega), if_neg (by omega), if_neg (by omega)]
      exact ⟨rfl, rfl⟩
  · rw [put_size hf8, Chain.append_iff]
    have h2 := hc.2.1
    simp only at h2
    exact ⟨hc.1, hc.2.2.2.2.lower (by simp only; omega)⟩

theorem unlink_bwd (h : CInv p (A ++ (b, s) :: B)) (ht : w p.mem 312 = lastOr (A ++ (b, s) :: B) 0)
    (hbl : BLk p.mem 0 (A ++ (b, s) :: B)) {v : Nat} :
    w (put (put p (fcell A) v) (bcell B) (lastOr A 0)).mem 312 = lastOr (A ++ B) 0 ∧
    BLk (put (put p (fcell A) v) (bcell B) (lastOr A 0)).mem 0 (A ++ B) := by
  have hch := h.ch
  have hc := Chain.append_iff.1 hch
  have hfm := fcell_mod h
  have hmax := h.geo.max
  have h2 := hc.2.1
  simp only at h2
  have h' : CInv p ((A ++ [(b, s)]) ++ B) := by simpa using h
  have hlt : lastOr A 0 < W64 := by
    by_cases hA : A = []
    · rw [hA]; simp [lastOr]
    · obtain ⟨A', t, hA, -⟩ := lastOr_mem hA 0
      have hml : (lastOr A 0, t) ∈ A := by
        have : (lastOr A 0, t) ∈ A' ++ [(lastOr A 0, t)] := by simp
        rw [← hA] at this; exact this
      have := hc.1.mem hml
      have := h.ch.mem (b := (b, s)) (by simp)
      simp only at *; omega
  have hbm : bcell B % 8 = 0 := by
    rcases bcell_cases h' with ⟨e, e'⟩ | ⟨t, T, hT, e', e4, e5, -⟩ <;> omega
  have hfne : ∀ c ∈ A ++ B, c.1 ≠ fcell A := by
    intro c hcm
    have hcm' : c ∈ A ++ (b, s) :: B := mem_ins hcm
    have h0 := h.ch.mem hcm'
    rcases fcell_cases h with ⟨e, e'⟩ | ⟨A', t, hA, e, h1, h2⟩
    · omega
    · have hml : (lastOr A 0, t) ∈ A ++ (b, s) :: B := by
        rw [List.mem_append]; left
        have : (lastOr A 0, t) ∈ A' ++ [(lastOr A 0, t)] := by simp
        rw [← hA] at this; exact this
      rcases h.ch.sep hcm' hml with e2 | e2 | e2
      · rw [e2]; simp only; omega
      · simp only at e2; omega
      · simp only at e2; omega
  have hf312 : fcell A ≠ 312 := by
    rcases fcell_cases h with ⟨e, e'⟩ | ⟨A', t, hA, e, h1, h2⟩ <;> omega
  constructor
  · rcases bcell_cases h' with ⟨e, e'⟩ | ⟨t, T, hT, e', e4, -⟩
    · rw [e', put_w (by decide) (by decide), if_pos rfl, Nat.mod_eq_of_lt hlt, e, List.append_nil]
    · rw [put_w hbm (by decide), if_neg (by omega), put_w hfm (by decide), if_neg (by omega), ht, lastOr_append, lastOr_append]
      rw [hT]; rfl
  · rw [BLk.append_iff] at hbl ⊢
    constructor
    · refine hbl.1.congr ?_
      intro c hcm
      have h3 := hc.1.mem hcm
      have hne := hfne c (by simp [hcm])
      have : bcell B ≠ c.1 := by
        rcases bcell_cases h' with ⟨e, e'⟩ | ⟨t, T, hT, e', e4, -⟩
        · omega
        · have := (hc.2.2.2.2.mem (b := (hdOr B 0, t)) (by rw [hT]; simp [hdOr])).1
          simp only at this; omega
      rw [put_w hbm (by omega), if_neg (by omega), put_w hfm (by omega), if_neg (by omega)]
    · rcases bcell_cases h' with ⟨e, e'⟩ | ⟨t, T, hT, e', e4, e5, -⟩
      · rw [e]; trivial
      · have hB := hbl.2.2
        have hcB := hc.2.2.2.2
        rw [e']
        rw [e'] at hbm
        rw [hT] at hB hcB
        suffices hh : BLk (put (put p (fcell A) v) (hdOr B 0) (lastOr A 0)).mem (lastOr A 0) ((hdOr B 0, t) :: T) by
          rw [← hT] at hh; exact hh
        refine ⟨?_, hB.2.congr ?_⟩
        · show w _ (hdOr B 0) = _
          rw [put_w hbm hbm, if_pos rfl, Nat.mod_eq_of_lt hlt]
        · intro c hcm
          have h9 := hcB.2.2.2.mem hcm
          simp only at h9
          have hne := hfne c (by rw [hT]; simp [hcm])
          rw [put_w hbm (by omega), if_neg (by omega), put_w hfm (by omega), if_neg hne]

set_option maxHeartbeats 1000000 in
/-- `free` of a live block -/
theorem free_spec (h : SInv p (A ++ (b, s) :: B)) :
    rwp (free (b + 24))
      (fun out p' => out = .ok () ∧
        ((p.size < b + 48 ∧ p' = p) ∨
         (b + 48 ≤ p.size ∧ SInv p' (A ++ B) ∧ Keep (A ++ (b, s) :: B) p p' ∧ p'.size = p.size ∧ p'.fsize = p.fsize)))
      (fun p' => (CInv p' (A ++ (b, s) :: B) ∨ CInv p' (A ++ B)) ∧ Keep (A ++ (b, s) :: B) p p') p := by
  have hc := h.toCInv
  have hmin := hc.geo.min
  have hmax := hc.geo.max
  have hm : (b, s) ∈ A ++ (b, s) :: B := by simp
  have hbm := hc.ch.mem hm
  simp only at hbm
  have hef := eff_facts hbm.2.2.1
  have hk0 := Keep.refl (A ++ (b, s) :: B) p
  have hI : (CInv p (A ++ (b, s) :: B) ∨ CInv p (A ++ B)) ∧ Keep (A ++ (b, s) :: B) p p := ⟨Or.inl hc, hk0⟩
  have hsum := hc.ch.sum_le
  unfold free
  simp only [Prog.bind_def]
  refine rwp_r hI hc.geo (by omega) ?_
  rw [show w p.mem 0 = p.size from rfl, sub64_eq (by omega) (by omega)]
  by_cases hl : b + 24 < 320 ∨ b + 24 > p.size - 24
  · rw [if_pos hl]
    exact ⟨hI, rfl, Or.inl ⟨by omega, rfl⟩⟩
  · rw [if_neg hl]
    have eb : b + 24 - 24 = b := by omega
    rw [eb]
    refine rwp_r hI hc.geo (by omega) ?_
    refine rwp_r hI hc.geo (by omega) ?_
    have hws : w p.mem (b + 16) = s := FLk.mem (b := (b, s)) hc.fl hm
    have hss : sumSz (A ++ (b, s) :: B) = sumSz (A ++ B) + s := by
      simp only [sumSz_append, sumSz_cons]; omega
    have hse : sumEff (A ++ (b, s) :: B) = sumEff (A ++ B) + (eff s + 24) := by
      simp only [sumEff_append, sumEff_cons]; omega
    rw [hws, h.ba, sub64_eq (by omega) (by omega)]
    refine rwp_w hI hc.geo (by omega) ?_
    have hlow : ∀ x, x < 320 → ∀ c ∈ A ++ (b, s) :: B, x ≠ c.1 + 8 ∧ x ≠ c.1 + 16 := by
      intro x hx c hcm; have := hc.ch.mem hcm; omega
    have klow : ∀ x, x < 320 → x % 8 = 0 → ∀ c ∈ A ++ (b, s) :: B, x + 8 ≤ c.1 + 24 ∨ c.1 + 24 + c.2 ≤ x := by
      intro x hx hx8 c hcm; have := hc.ch.mem hcm; omega
    have c1 := hc.put (a := 288) (v := sumSz (A ++ (b, s) :: B) - s) (by decide) (by decide) (by decide) (hlow _ (by decide))
    have k1 := hk0.put (a := 288) (v := sumSz (A ++ (b, s) :: B) - s) (by decide) (klow _ (by decide) (by decide))
    have s1 : (put p 288 (sumSz (A ++ (b, s) :: B) - s)).size = p.size := put_size (by decide)
    refine rwp_r ⟨Or.inl c1, k1⟩ c1.geo (by omega) ?_
    refine rwp_r ⟨Or.inl c1, k1⟩ c1.geo (by omega) ?_
    have e16 : w (put p 288 (sumSz (A ++ (b, s) :: B) - s)).mem (b + 16) = s := FLk.mem (b := (b, s)) c1.fl hm
    rw [e16]
    have e296 : w (put p 288 (sumSz (A ++ (b, s) :: B) - s)).mem 296 = 320 + sumEff (A ++ (b, s) :: B) := by
      rw [put_w (by decide) (by decide), if_neg (by decide)]; exact h.bc
    have e297 : sub64 (320 + sumEff (A ++ (b, s) :: B)) (eff s + 24) = 320 + sumEff (A ++ (b, s) :: B) - (eff s + 24) :=
      sub64_eq (by omega) (by omega)
    rw [e296, e297]
    refine rwp_w ⟨Or.inl c1, k1⟩ c1.geo (by omega) ?_
    have c2 := c1.put (a := 296) (v := 320 + sumEff (A ++ (b, s) :: B) - (eff s + 24)) (by decide) (by decide) (by decide) (hlow _ (by decide))
    have k2 := k1.put (a := 296) (v := 320 + sumEff (A ++ (b, s) :: B) - (eff s + 24)) (by decide) (klow _ (by decide) (by decide))
    have s2 : (put (put p 288 (sumSz (A ++ (b, s) :: B) - s)) 296 (320 + sumEff (A ++ (b, s) :: B) - (eff s + 24))).size = p.size := by
      rw [put_size (by decide), s1]
    have hw2 : ∀ a, a % 8 = 0 → a ≠ 288 → a ≠ 296 →
        w (put (put p 288 (sumSz (A ++ (b, s) :: B) - s)) 296 (320 + sumEff (A ++ (b, s) :: B) - (eff s + 24))).mem a = w p.mem a := by
      intro a ha h1 h2
      rw [put_w (by decide) ha, if_neg h2, put_w (by decide) ha, if_neg h1]
    have hba2 : w (put (put p 288 (sumSz (A ++ (b, s) :: B) - s)) 296 (320 + sumEff (A ++ (b, s) :: B) - (eff s + 24))).mem 288 = sumSz (A ++ B) := by
      rw [put_w (by decide) (by decide), if_neg (by decide), put_w (by decide) (by decide), if_pos rfl]; omega
    have hbc2 : w (put (put p 288 (sumSz (A ++ (b, s) :: B) - s)) 296 (320 + sumEff (A ++ (b, s) :: B) - (eff s + 24))).mem 296 = 320 + sumEff (A ++ B) := by
      rw [put_w (by decide) (by decide), if_pos rfl]; omega
    have hf2 : (put (put p 288 (sumSz (A ++ (b, s) :: B) - s)) 296 (320 + sumEff (A ++ (b, s) :: B) - (eff s + 24))).fsize = p.fsize := rfl
    generalize put (put p 288 (sumSz (A ++ (b, s) :: B) - s)) 296 (320 + sumEff (A ++ (b, s) :: B) - (eff s + 24)) = q at *
    have ht2 : w q.mem 312 = lastOr (A ++ (b, s) :: B) 0 := by rw [hw2 _ (by decide) (by decide) (by decide)]; exact h.tail
    have hbl2 : BLk q.mem 0 (A ++ (b, s) :: B) := by
      refine h.bl.congr ?_
      intro c hcm
      have := hc.ch.mem hcm
      exact hw2 _ (by omega) (by omega) (by omega)
    have hpv : w q.mem b = lastOr A 0 := (BLk.append_iff.1 hbl2).2.1
    have hnx : w q.mem (b + 8) = hdOr B 0 := (FLk.append_iff.1 c2.fl).2.1
    have c3 := unlink_fwd c2
    have c2' : CInv q ((A ++ [(b, s)]) ++ B) := by simpa using c2
    have hB := unlink_bwd c2 ht2 hbl2 (v := hdOr B 0)
    -- the two cells
    have hfc : fcell A + 8 ≤ p.size ∧ fcell A ≠ b ∧ fcell A ≠ b + 8 ∧ 288 < fcell A ∧ fcell A ≠ 296 := by
      rcases fcell_cases c2 with ⟨e, e'⟩ | ⟨A', t, hA, e, h1, h2⟩
      · omega
      · have hml : (lastOr A 0, t) ∈ A := by
          have : (lastOr A 0, t) ∈ A' ++ [(lastOr A 0, t)] := by simp
          rw [← hA] at this; exact this
        have := (Chain.append_iff.1 hc.ch).1.mem hml
        have h5 := (Chain.append_iff.1 hc.ch).2.1
        simp only at this h5; omega
    have hbcl : bcell B + 8 ≤ p.size ∧ 288 < bcell B ∧ bcell B ≠ 304 ∧ bcell B ≠ 296 ∧ bcell B % 8 = 0 := by
      rcases bcell_cases c2' with ⟨e, e'⟩ | ⟨t, T, hT, e', e4, e5, e6⟩ <;> omega
    have hfm := fcell_mod c2
    have kf : ∀ c ∈ A ++ (b, s) :: B, fcell A + 8 ≤ c.1 + 24 ∨ c.1 + 24 + c.2 ≤ fcell A := by
      intro c hcm
      have h0 := hc.ch.mem hcm
      have := eff_facts h0.2.2.1
      rcases fcell_cases c2 with ⟨e, e'⟩ | ⟨A', t, hA, e, h1, h2⟩
      · omega
      · have hml : (lastOr A 0, t) ∈ A ++ (b, s) :: B := by
          rw [List.mem_append]; left
          have : (lastOr A 0, t) ∈ A' ++ [(lastOr A 0, t)] := by simp
          rw [← hA] at this; exact this
        rcases hc.ch.sep hcm hml with e2 | e2 | e2
        · rw [e2]; simp only; omega
        · simp only at e2; omega
        · simp only at e2; omega
    have kb : ∀ c ∈ A ++ (b, s) :: B, bcell B + 8 ≤ c.1 + 24 ∨ c.1 + 24 + c.2 ≤ bcell B := by
      intro c hcm
      have h0 := hc.ch.mem hcm
      have := eff_facts h0.2.2.1
      rcases bcell_cases c2' with ⟨e, e'⟩ | ⟨t, T, hT, e', e4, e5, e6⟩
      · omega
      · have hml : (hdOr B 0, t) ∈ A ++ (b, s) :: B := by
          rw [List.mem_append, List.mem_cons]; right; right
          have : (hdOr B 0, t) ∈ (hdOr B 0, t) :: T := by simp
          rw [← hT] at this; exact this
        rcases hc.ch.sep hcm hml with e2 | e2 | e2
        · rw [e2]; simp only; omega
        · simp only at e2; omega
        · simp only at e2; omega
    have k3 := k2.put (a := fcell A) (v := hdOr B 0) (by omega) kf
    have s3 : (put q (fcell A) (hdOr B 0)).size = p.size := by rw [put_size (by omega), s2]
    have w3 : ∀ a, a % 8 = 0 → a ≠ fcell A → w (put q (fcell A) (hdOr B 0)).mem a = w q.mem a := by
      intro a ha h1; rw [put_w hfm ha, if_neg h1]
    have c4 : CInv (put (put q (fcell A) (hdOr B 0)) (bcell B) (lastOr A 0)) (A ++ B) := by
      refine c3.put hbcl.2.2.2.2 (by omega) hbcl.2.2.1 ?_
      intro c hcm
      have hcm' : c ∈ A ++ (b, s) :: B := mem_ins hcm
      have h0 := hc.ch.mem hcm'
      rcases bcell_cases c2' with ⟨e, e'⟩ | ⟨t, T, hT, e', e4, e5, e6⟩
      · omega
      · have hml : (hdOr B 0, t) ∈ A ++ (b, s) :: B := by
          rw [List.mem_append, List.mem_cons]; right; right
          have : (hdOr B 0, t) ∈ (hdOr B 0, t) :: T := by simp
          rw [← hT] at this; exact this
        rcases hc.ch.sep hcm' hml with e2 | e2 | e2
        · rw [e2]; simp only; omega
        · simp only at e2; omega
        · simp only at e2; omega
    have k4 := k3.put (a := bcell B) (v := lastOr A 0) (by omega) kb
    have s4 : (put (put q (fcell A) (hdOr B 0)) (bcell B) (lastOr A 0)).size = p.size := by rw [put_size (by omega), s3]
    have fin : rwp (do
        let nx ← R.rd64 (b + 8)
        if nx ≠ 0 then do
          let pv ← R.rd64 b
          R.wr64 nx pv
        else do
          let pv ← R.rd64 b
          R.wr64 312 pv)
        (fun out p' => out = .ok () ∧
        ((p.size < b + 48 ∧ p' = p) ∨
         (b + 48 ≤ p.size ∧ SInv p' (A ++ B) ∧ Keep (A ++ (b, s) :: B) p p' ∧ p'.size = p.size ∧ p'.fsize = p.fsize)))
      (fun p' => (CInv p' (A ++ (b, s) :: B) ∨ CInv p' (A ++ B)) ∧ Keep (A ++ (b, s) :: B) p p')
        (put q (fcell A) (hdOr B 0)) := by
      have hI3 : (CInv (put q (fcell A) (hdOr B 0)) (A ++ (b, s) :: B) ∨ CInv (put q (fcell A) (hdOr B 0)) (A ++ B)) ∧
        Keep (A ++ (b, s) :: B) p (put q (fcell A) (hdOr B 0)) := ⟨Or.inr c3, k3⟩
      have post : (fun out p' => out = .ok () ∧
          ((p.size < b + 48 ∧ p' = p) ∨
           (b + 48 ≤ p.size ∧ SInv p' (A ++ B) ∧ Keep (A ++ (b, s) :: B) p p' ∧ p'.size = p.size ∧ p'.fsize = p.fsize)))
            (.ok () : Out Unit) (put (put q (fcell A) (hdOr B 0)) (bcell B) (lastOr A 0)) := by
        refine ⟨rfl, Or.inr ⟨by omega, ⟨c4, hB.1, hB.2, ?_, ?_⟩, k4, s4, hf2⟩⟩
        · rw [put_w hbcl.2.2.2.2 (by decide), if_neg (by omega), w3 _ (by decide) (by omega), hba2]
        · rw [put_w hbcl.2.2.2.2 (by decide), if_neg (by omega), w3 _ (by decide) (by omega), hbc2]
      simp only [Prog.bind_def]
      refine rwp_r hI3 c3.geo (by omega) ?_
      rw [w3 _ (by omega) (by omega), hnx]
      rcases bcell_cases c2' with ⟨e, e'⟩ | ⟨t, T, hT, e', e4, e5, e6⟩
      · rw [e'] at post c4 k4
        rw [if_neg (by rw [e]; simp [hdOr])]
        refine rwp_r hI3 c3.geo (by omega) ?_
        rw [w3 _ (by omega) (by omega), hpv]
        exact ⟨hI3, c3.geo.inb (by omega), ⟨Or.inr c4, k4⟩, post⟩
      · rw [e'] at post c4 k4
        rw [if_pos (by omega)]
        refine rwp_r hI3 c3.geo (by omega) ?_
        rw [w3 _ (by omega) (by omega), hpv]
        exact ⟨hI3, c3.geo.inb (by omega), ⟨Or.inr c4, k4⟩, post⟩
    have hI2 : (CInv q (A ++ (b, s) :: B) ∨ CInv q (A ++ B)) ∧ Keep (A ++ (b, s) :: B) p q := ⟨Or.inl c2, k2⟩
    refine rwp_r hI2 c2.geo (by omega) ?_
    rw [hpv]
    rcases fcell_cases c2 with ⟨e, e'⟩ | ⟨A', t, hA, e, h1, h2⟩
    · rw [e'] at fin
      rw [if_neg (by rw [e]; simp [lastOr])]
      refine rwp_r hI2 c2.geo (by omega) ?_
      rw [hnx]
      exact rwp_w hI2 c2.geo (by omega) fin
    · rw [e] at fin
      rw [if_pos (by omega)]
      refine rwp_r hI2 c2.geo (by omega) ?_
      rw [hnx]
      exact rwp_w hI2 c2.geo (by omega) fin

end
end Verif.Simple
