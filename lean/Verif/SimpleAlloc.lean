import Verif.SimpleLink
/-
Specifications of expand, link, search, allocate, free and repair of the SimpleAllocator model.
-/
namespace Verif.Simple
open Verif

/-- crash states of an operation that turns the list `L` into `L'` -/
def Mid (L L' : Blocks) (p p' : Pool) : Prop := (CInv p' L ∨ CInv p' L') ∧ Keep L p p'

section
variable {α : Type} {p q : Pool} {L1 L2 : Blocks} {co size : Nat}

theorem account_spec {I : Pool → Prop} {q : Pool} {L : Blocks} {ret : Nat}
    (hc : CInv q L) (hm : (co, size) ∈ L) (ht : w q.mem 312 = lastOr L 0) (hb : BLk q.mem 0 L)
    (hba : w q.mem 288 + size = sumSz L) (hbc : w q.mem 296 + (eff size + 24) = 320 + sumEff L)
    (hI : ∀ v v', I q ∧ I (put q 288 v) ∧ I (put (put q 288 v) 296 v')) :
    rwp ((account co size).bind fun _ => .ret ret)
      (fun out q' => out = .ok ret ∧ SInv q' L ∧ ∃ v v', q' = put (put q 288 v) 296 v') I q := by
  have hmin := hc.geo.min
  have hmax := hc.geo.max
  have hcm := hc.ch.mem hm
  simp only at hcm
  have hsum := hc.ch.sum_le
  unfold account
  simp only [Prog.bind_def, Prog.bind_assoc]
  refine rwp_r (hI 0 0).1 hc.geo (by omega) ?_
  refine rwp_w (hI 0 0).1 hc.geo (by omega) ?_
  have hs1 : ∀ v, (put q 288 v).size = q.size := fun v => put_size (by decide)
  refine rwp_r (hI _ 0).2.1 (hc.geo.put (by decide)) (by rw [hs1]; omega) ?_
  refine rwp_r (hI _ 0).2.1 (hc.geo.put (by decide)) (by rw [hs1]; omega) ?_
  refine rwp_w (hI _ 0).2.1 (hc.geo.put (by decide)) (by rw [hs1]; omega) ?_
  have hsz : w (put q 288 (w q.mem 288 + size)).mem (co + 16) = size := by
    rw [put_w (by decide) (by omega), if_neg (by omega)]; exact hc.fl.mem hm
  rw [hsz, put_w (by decide) (by decide), if_neg (by decide)]
  have hne : ∀ (x : Nat), x < 320 → ∀ b ∈ L, x ≠ b.1 + 8 ∧ x ≠ b.1 + 16 := by
    intro x hx b hb; have := hc.ch.mem hb; omega
  have hc1 := (hc.put (a := 288) (v := w q.mem 288 + size) (by decide) (by decide) (by decide) (hne _ (by decide))).put
    (a := 296) (v := w q.mem 296 + (eff size + 24)) (by decide) (by decide) (by decide) (hne _ (by decide))
  refine ⟨(hI _ _).2.2, rfl, ⟨hc1, ?_, ?_, ?_, ?_⟩, _, _, rfl⟩
  · rw [put_w (by decide) (by decide), put_w (by decide) (by decide)]; simpa using ht
  · refine hb.congr ?_
    intro b hb
    have := hc.ch.mem hb
    rw [put_w (by decide) (by omega), put_w (by decide) (by omega), if_neg (by omega), if_neg (by omega)]
  · rw [put_w (by decide) (by decide), if_neg (by decide), put_w (by decide) (by decide), if_pos rfl, hba]
    omega
  · rw [put_w (by decide) (by decide), if_pos rfl, hbc]
    omega

/-- The stores that link a new block keep the allocator repairable at every point and end consistent. -/
theorem link_spec (h : SInv p (L1 ++ L2)) (sl : Slot L1 L2 p.size co size) (hne : L1 ++ L2 ≠ []) :
    rwp (link co (lastOr L1 0) size)
      (fun out p' => out = .ok (co + 24) ∧ SInv p' (L1 ++ (co, size) :: L2) ∧ Keep (L1 ++ L2) p p' ∧
        p'.size = p.size ∧ p'.fsize = p.fsize)
      (Mid (L1 ++ L2) (L1 ++ (co, size) :: L2) p) p := by
  have hc := h.toCInv
  have hsep := sl.sep hc
  have hco := sl.co_ge hc
  have hcle := sl.co_le
  have hal := sl.al
  have hszb := sl.sz
  have hmin := hc.geo.min
  have hmax := hc.geo.max
  have hef := eff_facts (s := size) (by omega)
  have hmem : (co, size) ∈ L1 ++ (co, size) :: L2 := by simp
  have hba : w p.mem 288 + size = sumSz (L1 ++ (co, size) :: L2) := by
    have := h.ba
    simp only [sumSz_append, sumSz_cons] at this ⊢; omega
  have hbc : w p.mem 296 + (eff size + 24) = 320 + sumEff (L1 ++ (co, size) :: L2) := by
    have := h.bc
    simp only [sumEff_append, sumEff_cons] at this ⊢; omega
  -- a store that keeps the block contents
  have kp : ∀ {q : Pool} {a v : Nat}, Keep (L1 ++ L2) p q → 288 ≤ a →
      (∀ b ∈ L1 ++ L2, a + 8 ≤ b.1 + 24 ∨ b.1 + 24 + b.2 ≤ a) → Keep (L1 ++ L2) p (put q a v) :=
    fun hk h1 h2 => hk.put h1 h2
  have kco : ∀ x, (x = 0 ∨ x = 8 ∨ x = 16) → ∀ b ∈ L1 ++ L2, co + x + 8 ≤ b.1 + 24 ∨ b.1 + 24 + b.2 ≤ co + x := by
    intro x hx b hb
    have := hsep b hb
    have := eff_facts this.2.2.2.1
    omega
  have klow : ∀ x, x < 320 → ∀ b ∈ L1 ++ L2, x + 8 ≤ b.1 + 24 ∨ b.1 + 24 + b.2 ≤ x := by
    intro x hx b hb; have := hsep b hb; omega
  have kblk : ∀ c ∈ L1 ++ L2, ∀ x, (x = 0 ∨ x = 8 ∨ x = 16) →
      ∀ b ∈ L1 ++ L2, c.1 + x + 8 ≤ b.1 + 24 ∨ b.1 + 24 + b.2 ≤ c.1 + x := by
    intro c hcm x hx b hb
    have h1 := hsep b hb
    have := eff_facts h1.2.2.2.1
    rcases hc.ch.sep hb hcm with e | e | e
    · subst e; omega
    · omega
    · omega
  have cput : ∀ {q : Pool} {x v : Nat}, CInv q (L1 ++ L2) → (x = 0 ∨ x = 8 ∨ x = 16) →
      CInv (put q (co + x) v) (L1 ++ L2) := by
    intro q x v hq hx
    refine hq.put (by omega) (by omega) (by omega) ?_
    intro b hb; have := hsep b hb; omega
  have p16c : CInv (put p (co + 16) size) (L1 ++ L2) := cput hc (by omega)
  have p16k : Keep (L1 ++ L2) p (put p (co + 16) size) :=
    kp (Keep.refl _ _) (by omega) (kco 16 (by omega))
  have p16s : (put p (co + 16) size).size = p.size := put_size (by omega)
  unfold link
  simp only [Prog.bind_def]
  refine rwp_w ⟨Or.inl hc, Keep.refl _ _⟩ hc.geo (by omega) ?_
  -- the common final part, from the state after both pointers are set
  have fin : ∀ q : Pool, CInv q (L1 ++ (co, size) :: L2) → Keep (L1 ++ L2) p q → q.size = p.size →
      q.fsize = p.fsize →
      w q.mem 312 = lastOr (L1 ++ (co, size) :: L2) 0 → BLk q.mem 0 (L1 ++ (co, size) :: L2) →
      w q.mem 288 = w p.mem 288 → w q.mem 296 = w p.mem 296 →
      rwp ((account co size).bind fun _ => .ret (co + 24))
        (fun out p' => out = .ok (co + 24) ∧ SInv p' (L1 ++ (co, size) :: L2) ∧ Keep (L1 ++ L2) p p' ∧
          p'.size = p.size ∧ p'.fsize = p.fsize)
        (Mid (L1 ++ L2) (L1 ++ (co, size) :: L2) p) q := by
    intro q hq hk hs hfs ht hb e1 e2
    have hne' : ∀ (x : Nat), x < 320 → ∀ b ∈ (L1 ++ (co, size) :: L2), x ≠ b.1 + 8 ∧ x ≠ b.1 + 16 := by
      intro x hx b hb; have := hq.ch.mem hb; omega
    refine rwp_mono ?_ (fun _ h => h) (account_spec (I := Mid (L1 ++ L2) (L1 ++ (co, size) :: L2) p)
      hq hmem ht hb (by rw [e1]; exact hba) (by rw [e2]; exact hbc) ?_)
    · rintro out q' ⟨rfl, hS, v, v', rfl⟩
      refine ⟨rfl, hS, kp (kp hk (by decide) (klow _ (by decide))) (by decide) (klow _ (by decide)), ?_, hfs⟩
      rw [put_size (by decide), put_size (by decide)]; exact hs
    · intro v v'
      refine ⟨⟨Or.inr hq, hk⟩, ⟨Or.inr (hq.put (by decide) (by decide) (by decide) (hne' _ (by decide))),
        kp hk (by decide) (klow _ (by decide))⟩,
        Or.inr ((hq.put (by decide) (by decide) (by decide) (hne' _ (by decide))).put (by decide) (by decide)
          (by decide) (hne' _ (by decide))),
        kp (kp hk (by decide) (klow _ (by decide))) (by decide) (klow _ (by decide))⟩
  by_cases hL1 : L1 = []
  · -- before the head block
    subst hL1
    simp only [lastOr, List.nil_append, if_true] at *
    have hd : w p.mem 304 = hdOr L2 0 := hc.head
    obtain ⟨t, T, hT, -, hn1, hn2, hn3⟩ : ∃ t T, L2 = (hdOr L2 0, t) :: T ∧ True ∧ 320 ≤ hdOr L2 0 ∧
        hdOr L2 0 % 8 = 0 ∧ hdOr L2 0 + 24 ≤ p.size := by
      rcases bcell_cases (L1 := []) (p := p) hc with ⟨e, -⟩ | ⟨t, T, e1, -, e2, e3, e4⟩
      · exact absurd e hne
      · exact ⟨t, T, e1, trivial, e2, e3, e4⟩
    have hnm : (hdOr L2 0, t) ∈ L2 := by
      have : (hdOr L2 0, t) ∈ (hdOr L2 0, t) :: T := by simp
      rw [← hT] at this; exact this
    have hnsep := hsep _ hnm
    simp only at hnsep
    have hnlt : hdOr L2 0 < W64 := by omega
    refine rwp_r ⟨Or.inl p16c, p16k⟩ p16c.geo (by omega) ?_
    have : w (put p (co + 16) size).mem 304 = hdOr L2 0 := by
      rw [put_w (by omega) (by decide), if_neg (by omega)]; exact hd
    rw [this]
    refine rwp_w ⟨Or.inl p16c, p16k⟩ p16c.geo (by omega) ?_
    have p8c : CInv (put (put p (co + 16) size) (co + 8) (hdOr L2 0)) L2 := cput p16c (by omega)
    have p8k := kp (v := hdOr L2 0) p16k (a := co + 8) (by omega) (kco 8 (by omega))
    have p8s : (put (put p (co + 16) size) (co + 8) (hdOr L2 0)).size = p.size := by
      rw [put_size (by omega), put_size (by omega)]
    refine rwp_w ⟨Or.inl p8c, p8k⟩ p8c.geo (by omega) ?_
    have p0c : CInv (put (put (put p (co + 16) size) (co + 8) (hdOr L2 0)) co 0) L2 := by
      have := cput (v := 0) p8c (x := 0) (by omega); simpa using this
    have p0k := kp (v := 0) p8k (a := co) (by omega) (kco 0 (by omega))
    have p0s : (put (put (put p (co + 16) size) (co + 8) (hdOr L2 0)) co 0).size = p.size := by
      rw [put_size (by omega), put_size (by omega), put_size (by omega)]
    refine rwp_w ⟨Or.inl p0c, p0k⟩ p0c.geo (by omega) ?_
    have pfk := kp (v := co) p0k (a := 304) (by omega) (klow 304 (by decide))
    have pfs : (put (put (put (put p (co + 16) size) (co + 8) (hdOr L2 0)) co 0) 304 co).size = p.size := by
      rw [put_size (by omega)]; exact p0s
    have hfw : ∀ a, a % 8 = 0 → 8 ≤ a → w (put (put (put (put p (co + 16) size) (co + 8) (hdOr L2 0)) co 0) 304 co).mem a
        = if a = 304 then co else if a = co then 0 else if a = co + 8 then hdOr L2 0 else
          if a = co + 16 then size else w p.mem a := by
      intro a ha h8
      rw [put_w (by omega) ha, put_w (by omega) ha, put_w (by omega) ha, put_w (by omega) ha]
      rw [Nat.mod_eq_of_lt (by omega), Nat.mod_eq_of_lt (by omega), Nat.mod_eq_of_lt hnlt, Nat.mod_eq_of_lt (by omega)]
    have pfc : CInv (put (put (put (put p (co + 16) size) (co + 8) (hdOr L2 0)) co 0) 304 co) ((co, size) :: L2) := by
      refine link_fwd (L1 := []) (L2 := L2) hc sl (p0c.geo.put (by decide)) pfs ?_ ?_ ?_ ?_
      · intro a ha h8 n0 n8 n16 nf nb
        simp only [fcell, if_true] at nf
        rw [hfw a ha h8, if_neg nf, if_neg n0, if_neg n8, if_neg n16]
      · rw [hfw _ (by omega) (by omega), if_neg (by omega), if_neg (by omega), if_pos rfl]
      · rw [hfw _ (by omega) (by omega), if_neg (by omega), if_neg (by omega), if_neg (by omega), if_pos rfl]
      · rw [show fcell [] = 304 from rfl, hfw _ (by omega) (by omega), if_pos rfl]
    refine rwp_r ⟨Or.inr pfc, pfk⟩ pfc.geo (by omega) ?_
    rw [hfw _ (by omega) (by omega), if_neg (by omega), if_neg (by omega), if_pos rfl]
    refine rwp_w ⟨Or.inr pfc, pfk⟩ pfc.geo (by omega) ?_
    have pbk := kp (v := co) pfk (a := hdOr L2 0) (by omega) (fun b hb => by
      have := kblk _ hnm 0 (by omega) b hb; simpa using this)
    have hbw : ∀ a, a % 8 = 0 → 8 ≤ a → w (put (put (put (put (put p (co + 16) size) (co + 8) (hdOr L2 0)) co 0) 304 co) (hdOr L2 0) co).mem a
        = if a = hdOr L2 0 then co else if a = 304 then co else if a = co then 0 else if a = co + 8 then hdOr L2 0 else
          if a = co + 16 then size else w p.mem a := by
      intro a ha h8
      rw [put_w (by omega) ha, hfw a ha h8, Nat.mod_eq_of_lt (by omega)]
    have hbe : bcell L2 = hdOr L2 0 := by unfold bcell; rw [if_neg (by rw [hT]; simp)]
    have hB := link_bwd (L1 := []) (L2 := L2) (q := put (put (put (put (put p (co + 16) size) (co + 8) (hdOr L2 0)) co 0) 304 co) (hdOr L2 0) co) h sl
      (by
        intro a ha h8 n0 n8 n16 nf nb
        rw [hbe] at nb
        simp only [fcell, if_true] at nf
        rw [hbw a ha h8, if_neg nb, if_neg nf, if_neg n0, if_neg n8, if_neg n16])
      (by rw [hbw _ (by omega) (by omega), if_neg (by omega), if_neg (by omega), if_pos rfl]; rfl)
      (by rw [hbe, hbw _ (by omega) (by omega), if_pos rfl])
    refine fin _ ?_ pbk (by rw [put_size (by omega)]; exact pfs) rfl hB.1 hB.2 ?_ ?_
    · refine pfc.put (by omega) (by omega) (by omega) ?_
      intro b hb
      have hnm' : (hdOr L2 0, t) ∈ (co, size) :: L2 := List.mem_cons_of_mem _ hnm
      have h1 := pfc.ch.mem hb
      rcases pfc.ch.sep hb hnm' with e | e | e
      · rw [e]; simp only; omega
      · simp only at e; omega
      · simp only at e; omega
    · rw [hbw _ (by decide) (by decide), if_neg (by omega), if_neg (by omega), if_neg (by omega), if_neg (by omega),
        if_neg (by omega)]
    · rw [hbw _ (by decide) (by decide), if_neg (by omega), if_neg (by omega), if_neg (by omega), if_neg (by omega),
        if_neg (by omega)]
  · obtain ⟨A, t, hA, hAend⟩ := lastOr_mem hL1 0
    have hml : (lastOr L1 0, t) ∈ L1 ++ L2 := by
      rw [List.mem_append]; left
      have : (lastOr L1 0, t) ∈ A ++ [(lastOr L1 0, t)] := by simp
      rw [← hA] at this; exact this
    have hlsep := hsep _ hml
    simp only at hlsep
    have hco2 : lastOr L1 0 + 24 + eff t ≤ co := by rw [← hAend 320]; exact sl.lo
    have hfe : fcell L1 = lastOr L1 0 + 8 := by simp [fcell, hL1]
    generalize hcl : lastOr L1 0 = cl at *
    rw [if_neg (by omega)]
    refine rwp_r ⟨Or.inl p16c, p16k⟩ p16c.geo (by omega) ?_
    have htl : w (put p (co + 16) size).mem 312 = lastOr (L1 ++ L2) 0 := by
      rw [put_w (by omega) (by decide), if_neg (by omega)]; exact h.tail
    rw [htl]
    by_cases hL2 : L2 = []
    · -- after the tail block
      subst hL2
      rw [List.append_nil, hcl, if_pos rfl]
      simp only [List.append_nil] at *
      have hbe : bcell [] = 312 := rfl
      refine rwp_w ⟨Or.inl p16c, p16k⟩ p16c.geo (by omega) ?_
      have p8c : CInv (put (put p (co + 16) size) (co + 8) 0) L1 := cput p16c (by omega)
      have p8k := kp (v := 0) p16k (a := co + 8) (by omega) (kco 8 (by omega))
      have p8s : (put (put p (co + 16) size) (co + 8) 0).size = p.size := by
        rw [put_size (by omega), put_size (by omega)]
      refine rwp_r ⟨Or.inl p8c, p8k⟩ p8c.geo (by omega) ?_
      have htl2 : w (put (put p (co + 16) size) (co + 8) 0).mem 312 = cl := by
        rw [put_w (by omega) (by decide), if_neg (by omega), htl, hcl]
      rw [htl2]
      refine rwp_w ⟨Or.inl p8c, p8k⟩ p8c.geo (by omega) ?_
      have p0c : CInv (put (put (put p (co + 16) size) (co + 8) 0) co cl) L1 := by
        have := cput (v := cl) p8c (x := 0) (by omega); simpa using this
      have p0k := kp (v := cl) p8k (a := co) (by omega) (kco 0 (by omega))
      have p0s : (put (put (put p (co + 16) size) (co + 8) 0) co cl).size = p.size := by
        rw [put_size (by omega), put_size (by omega), put_size (by omega)]
      refine rwp_r ⟨Or.inl p0c, p0k⟩ p0c.geo (by omega) ?_
      rw [put_w (by omega) (by omega), if_pos rfl, Nat.mod_eq_of_lt (by omega)]
      refine rwp_w ⟨Or.inl p0c, p0k⟩ p0c.geo (by omega) ?_
      have pfk := kp (v := co) p0k (a := cl + 8) (by omega) (kblk _ hml 8 (by omega))
      have pfs : (put (put (put (put p (co + 16) size) (co + 8) 0) co cl) (cl + 8) co).size = p.size := by
        rw [put_size (by omega)]; exact p0s
      have hfw : ∀ a, a % 8 = 0 → 8 ≤ a → w (put (put (put (put p (co + 16) size) (co + 8) 0) co cl) (cl + 8) co).mem a
          = if a = cl + 8 then co else if a = co then cl else if a = co + 8 then 0 else
            if a = co + 16 then size else w p.mem a := by
        intro a ha h8
        rw [put_w (by omega) ha, put_w (by omega) ha, put_w (by omega) ha, put_w (by omega) ha]
        rw [Nat.mod_eq_of_lt (by omega), Nat.mod_eq_of_lt (by omega), Nat.mod_eq_of_lt (by omega), Nat.mod_eq_of_lt (by omega)]
      have pfc : CInv (put (put (put (put p (co + 16) size) (co + 8) 0) co cl) (cl + 8) co) (L1 ++ [(co, size)]) := by
        refine link_fwd (L1 := L1) (L2 := []) (by simpa using hc) sl (p0c.geo.put (by omega)) pfs ?_ ?_ ?_ ?_
        · intro a ha h8 n0 n8 n16 nf nb
          rw [hfe] at nf
          rw [hfw a ha h8, if_neg nf, if_neg n0, if_neg n8, if_neg n16]
        · rw [hfw _ (by omega) (by omega), if_neg (by omega), if_neg (by omega), if_pos rfl]; rfl
        · rw [hfw _ (by omega) (by omega), if_neg (by omega), if_neg (by omega), if_neg (by omega), if_pos rfl]
        · rw [hfe, hfw _ (by omega) (by omega), if_pos rfl]
      refine rwp_w ⟨Or.inr pfc, pfk⟩ pfc.geo (by omega) ?_
      have pbk := kp (v := co) pfk (a := 312) (by omega) (klow 312 (by decide))
      have hbw : ∀ a, a % 8 = 0 → 8 ≤ a → w (put (put (put (put (put p (co + 16) size) (co + 8) 0) co cl) (cl + 8) co) 312 co).mem a
          = if a = 312 then co else if a = cl + 8 then co else if a = co then cl else if a = co + 8 then 0 else
            if a = co + 16 then size else w p.mem a := by
        intro a ha h8
        rw [put_w (by omega) ha, hfw a ha h8, Nat.mod_eq_of_lt (by omega)]
      have hB := link_bwd (L1 := L1) (L2 := []) (q := put (put (put (put (put p (co + 16) size) (co + 8) 0) co cl) (cl + 8) co) 312 co)
        (by simpa using h) sl
        (by
          intro a ha h8 n0 n8 n16 nf nb
          rw [hbe] at nb
          rw [hfe] at nf
          rw [hbw a ha h8, if_neg nb, if_neg nf, if_neg n0, if_neg n8, if_neg n16])
        (by rw [hbw _ (by omega) (by omega), if_neg (by omega), if_neg (by omega), if_pos rfl, hcl])
        (by rw [hbe, hbw _ (by omega) (by omega), if_pos rfl])
      refine fin _ ?_ pbk (by rw [put_size (by omega)]; exact pfs) rfl hB.1 hB.2 ?_ ?_
      · refine pfc.put (by omega) (by omega) (by omega) ?_
        intro b hb
        have h1 := pfc.ch.mem hb
        omega
      · rw [hbw _ (by decide) (by decide), if_neg (by omega), if_neg (by omega), if_neg (by omega), if_neg (by omega),
          if_neg (by omega)]
      · rw [hbw _ (by decide) (by decide), if_neg (by omega), if_neg (by omega), if_neg (by omega), if_neg (by omega),
          if_neg (by omega)]
    · -- between two blocks
      obtain ⟨t2, T, hT, hbe, hn1, hn2, hn3⟩ : ∃ t T, L2 = (hdOr L2 0, t) :: T ∧ bcell L2 = hdOr L2 0 ∧ 320 ≤ hdOr L2 0 ∧
          hdOr L2 0 % 8 = 0 ∧ hdOr L2 0 + 24 ≤ p.size := by
        rcases bcell_cases hc with ⟨e, -⟩ | ⟨t, T, e1, e0, e2, e3, e4⟩
        · exact absurd e hL2
        · exact ⟨t, T, e1, e0, e2, e3, e4⟩
      have hnm2 : (hdOr L2 0, t2) ∈ L2 := by
        have : (hdOr L2 0, t2) ∈ (hdOr L2 0, t2) :: T := by simp
        rw [← hT] at this; exact this
      have hnm : (hdOr L2 0, t2) ∈ L1 ++ L2 := by rw [List.mem_append]; exact Or.inr hnm2
      have hup := (sl.up.mem hnm2).1
      simp only at hup
      have hnlt : hdOr L2 0 < W64 := by omega
      have hntail : ¬ cl = lastOr (L1 ++ L2) 0 := by
        rw [lastOr_append]
        obtain ⟨A2, t3, hA2, -⟩ := lastOr_mem hL2 (lastOr L1 0)
        have : (lastOr L2 (lastOr L1 0), t3) ∈ L2 := by
          have : (lastOr L2 (lastOr L1 0), t3) ∈ A2 ++ [(lastOr L2 (lastOr L1 0), t3)] := by simp
          rw [← hA2] at this; exact this
        have := (sl.up.mem this).1
        simp only at this
        omega
      rw [if_neg hntail]
      have hcln : w p.mem (cl + 8) = hdOr L2 0 := by
        have := hc.fl
        rw [FLk.append_iff, hA, FLk.append_iff] at this
        exact this.1.2.1
      refine rwp_r ⟨Or.inl p16c, p16k⟩ p16c.geo (by omega) ?_
      have : w (put p (co + 16) size).mem (cl + 8) = hdOr L2 0 := by
        rw [put_w (by omega) (by omega), if_neg (by omega)]; exact hcln
      rw [this]
      refine rwp_w ⟨Or.inl p16c, p16k⟩ p16c.geo (by omega) ?_
      have p8c : CInv (put (put p (co + 16) size) (co + 8) (hdOr L2 0)) (L1 ++ L2) := cput p16c (by omega)
      have p8k := kp (v := hdOr L2 0) p16k (a := co + 8) (by omega) (kco 8 (by omega))
      have p8s : (put (put p (co + 16) size) (co + 8) (hdOr L2 0)).size = p.size := by
        rw [put_size (by omega), put_size (by omega)]
      refine rwp_w ⟨Or.inl p8c, p8k⟩ p8c.geo (by omega) ?_
      have p0c : CInv (put (put (put p (co + 16) size) (co + 8) (hdOr L2 0)) co cl) (L1 ++ L2) := by
        have := cput (v := cl) p8c (x := 0) (by omega); simpa using this
      have p0k := kp (v := cl) p8k (a := co) (by omega) (kco 0 (by omega))
      have p0s : (put (put (put p (co + 16) size) (co + 8) (hdOr L2 0)) co cl).size = p.size := by
        rw [put_size (by omega), put_size (by omega), put_size (by omega)]
      refine rwp_w ⟨Or.inl p0c, p0k⟩ p0c.geo (by omega) ?_
      have pfk := kp (v := co) p0k (a := cl + 8) (by omega) (kblk _ hml 8 (by omega))
      have pfs : (put (put (put (put p (co + 16) size) (co + 8) (hdOr L2 0)) co cl) (cl + 8) co).size = p.size := by
        rw [put_size (by omega)]; exact p0s
      have hfw : ∀ a, a % 8 = 0 → 8 ≤ a → w (put (put (put (put p (co + 16) size) (co + 8) (hdOr L2 0)) co cl) (cl + 8) co).mem a
          = if a = cl + 8 then co else if a = co then cl else if a = co + 8 then hdOr L2 0 else
            if a = co + 16 then size else w p.mem a := by
        intro a ha h8
        rw [put_w (by omega) ha, put_w (by omega) ha, put_w (by omega) ha, put_w (by omega) ha]
        rw [Nat.mod_eq_of_lt (by omega), Nat.mod_eq_of_lt (by omega), Nat.mod_eq_of_lt (by omega), Nat.mod_eq_of_lt (by omega)]
      have pfc : CInv (put (put (put (put p (co + 16) size) (co + 8) (hdOr L2 0)) co cl) (cl + 8) co) (L1 ++ (co, size) :: L2) := by
        refine link_fwd (L1 := L1) (L2 := L2) hc sl (p0c.geo.put (by omega)) pfs ?_ ?_ ?_ ?_
        · intro a ha h8 n0 n8 n16 nf nb
          rw [hfe] at nf
          rw [hfw a ha h8, if_neg nf, if_neg n0, if_neg n8, if_neg n16]
        · rw [hfw _ (by omega) (by omega), if_neg (by omega), if_neg (by omega), if_pos rfl]
        · rw [hfw _ (by omega) (by omega), if_neg (by omega), if_neg (by omega), if_neg (by omega), if_pos rfl]
        · rw [hfe, hfw _ (by omega) (by omega), if_pos rfl]
      refine rwp_w ⟨Or.inr pfc, pfk⟩ pfc.geo (by omega) ?_
      have pbk := kp (v := co) pfk (a := hdOr L2 0) (by omega) (fun b hb => by
        have := kblk _ hnm 0 (by omega) b hb; simpa using this)
      have hbw : ∀ a, a % 8 = 0 → 8 ≤ a → w (put (put (put (put (put p (co + 16) size) (co + 8) (hdOr L2 0)) co cl) (cl + 8) co) (hdOr L2 0) co).mem a
          = if a = hdOr L2 0 then co else if a = cl + 8 then co else if a = co then cl else if a = co + 8 then hdOr L2 0 else
            if a = co + 16 then size else w p.mem a := by
        intro a ha h8
        rw [put_w (by omega) ha, hfw a ha h8, Nat.mod_eq_of_lt (by omega)]
      have hB := link_bwd (L1 := L1) (L2 := L2) (q := put (put (put (put (put p (co + 16) size) (co + 8) (hdOr L2 0)) co cl) (cl + 8) co) (hdOr L2 0) co)
        h sl
        (by
          intro a ha h8 n0 n8 n16 nf nb
          rw [hbe] at nb
          rw [hfe] at nf
          rw [hbw a ha h8, if_neg nb, if_neg nf, if_neg n0, if_neg n8, if_neg n16])
        (by rw [hbw _ (by omega) (by omega), if_neg (by omega), if_neg (by omega), if_pos rfl, hcl])
        (by rw [hbe, hbw _ (by omega) (by omega), if_pos rfl])
      refine fin _ ?_ pbk (by rw [put_size (by omega)]; exact pfs) rfl hB.1 hB.2 ?_ ?_
      · refine pfc.put (by omega) (by omega) (by omega) ?_
        intro b hb
        have hnm' : (hdOr L2 0, t2) ∈ L1 ++ (co, size) :: L2 := by
          simp only [List.mem_append, List.mem_cons]; exact Or.inr (Or.inr hnm2)
        have h1 := pfc.ch.mem hb
        rcases pfc.ch.sep hb hnm' with e | e | e
        · rw [e]; simp only; omega
        · simp only at e; omega
        · simp only at e; omega
      · rw [hbw _ (by decide) (by decide), if_neg (by omega), if_neg (by omega), if_neg (by omega), if_neg (by omega),
          if_neg (by omega)]
      · rw [hbw _ (by decide) (by decide), if_neg (by omega), if_neg (by omega), if_neg (by omega), if_neg (by omega),
          if_neg (by omega)]

end
end Verif.Simple
