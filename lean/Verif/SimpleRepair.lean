import Verif.SimpleFree
/-
SimpleAllocator::repair and initialisation.
-/
namespace Verif.Simple
open Verif

section
variable {p q : Pool} {L : Blocks}

/-- what repair may have done so far: list intact, contents intact -/
def RMid (L : Blocks) (p p' : Pool) : Prop := CInv p' L ∧ Keep L p p' ∧ p'.size = p.size ∧ p'.fsize = p.fsize

theorem RMid.put {a v : Nat} (h : RMid L p q) (ha : a % 8 = 0) (h8 : 288 ≤ a) (h3 : a ≠ 304)
    (hx : a < 320 ∨ ∃ b ∈ L, a = b.1) : RMid L p (put q a v) := by
  obtain ⟨hc, hk, hs, hf⟩ := h
  refine ⟨hc.put ha (by omega) h3 ?_, hk.put h8 ?_, by rw [put_size (by omega), hs], hf⟩
  · intro c hcm
    have h0 := hc.ch.mem hcm
    rcases hx with hx | ⟨b, hb, rfl⟩
    · omega
    · rcases hc.ch.sep hcm hb with e | e | e
      · subst e; omega
      · omega
      · omega
  · intro c hcm
    have h0 := hc.ch.mem hcm
    have := eff_facts h0.2.2.1
    rcases hx with hx | ⟨b, hb, rfl⟩
    · omega
    · rcases hc.ch.sep hcm hb with e | e | e
      · subst e; omega
      · omega
      · omega

theorem repairLoop_spec {fuel : Nat} : ∀ {q : Pool} {A T : Blocks}, L = A ++ T → RMid L p q → BLk q.mem 0 A →
    T.length < fuel →
    rwp (repairLoop fuel (hdOr T 0) (lastOr A 0) (sumSz A) (320 + sumEff A))
      (fun out p' => RMid L p p' ∧ BLk p'.mem 0 L ∧ out = .ok (lastOr L 0, sumSz L, 320 + sumEff L)) (RMid L p) q := by
  induction fuel with
  | zero => intro q A T _ _ _ h; omega
  | succ fuel ih =>
    intro q A T hL hm hb hfu
    unfold repairLoop
    cases T with
    | nil =>
      rw [if_pos (show hdOr [] 0 = 0 from rfl)]
      rw [List.append_nil] at hL
      subst hL
      exact ⟨hm, hm, hb, rfl⟩
    | cons c T =>
      have hcm : c ∈ L := by rw [hL]; simp
      have hc := hm.1
      have h0 := hc.ch.mem hcm
      have hmax := hc.geo.max
      have hsum := hc.ch.sum_le
      have hs1 : sumSz L = sumSz A + c.2 + sumSz T := by rw [hL, sumSz_append, sumSz_cons]; omega
      have hs2 : sumEff L = sumEff A + (eff c.2 + 24) + sumEff T := by rw [hL, sumEff_append, sumEff_cons]; omega
      have hlA : lastOr A 0 < W64 := by
        by_cases hA : A = []
        · rw [hA]; simp [lastOr]
        · obtain ⟨A', t, hA, -⟩ := lastOr_mem hA 0
          have hml : (lastOr A 0, t) ∈ L := by
            rw [hL, List.mem_append]; left
            have : (lastOr A 0, t) ∈ A' ++ [(lastOr A 0, t)] := by simp
            rw [← hA] at this; exact this
          have := hc.ch.mem hml
          simp only at this; omega
      rw [show hdOr (c :: T) 0 = c.1 from rfl, if_neg (by omega)]
      simp only [Prog.bind_def]
      refine rwp_w hm hc.geo (by omega) ?_
      have hm1 : RMid L p (put q c.1 (lastOr A 0)) := hm.put (by omega) (by omega) (by omega) (Or.inr ⟨c, hcm, rfl⟩)
      have hc1 := hm1.1
      have hsz : (put q c.1 (lastOr A 0)).size = q.size := put_size (by omega)
      refine rwp_r hm1 hc1.geo (by omega) ?_
      refine rwp_r hm1 hc1.geo (by omega) ?_
      have e16 := FLk.mem (b := c) hc1.fl hcm
      have e8 : w (put q c.1 (lastOr A 0)).mem (c.1 + 8) = hdOr T 0 := by
        have := hc1.fl
        rw [hL, FLk.append_iff] at this
        exact this.2.1
      rw [e16, e8]
      have hb1 : BLk (put q c.1 (lastOr A 0)).mem 0 (A ++ [c]) := by
        rw [BLk.append_iff]
        refine ⟨hb.congr ?_, ?_, trivial⟩
        · intro d hd
          have hdm : d ∈ L := by rw [hL]; simp [hd]
          have h1 := hc.ch.mem hdm
          have hch := hc.ch
          rw [hL, Chain.append_iff] at hch
          have h2 := (hch.1.mem hd).2.2.2
          have h3 := hch.2.1
          rw [put_w (by omega) (by omega), if_neg (by omega)]
        · rw [put_w (by omega) (by omega), if_pos rfl, Nat.mod_eq_of_lt hlA]
      have := ih (q := put q c.1 (lastOr A 0)) (A := A ++ [c]) (T := T) (by rw [hL]; simp) hm1 hb1
        (by simp only [List.length_cons] at hfu; omega)
      rw [lastOr_append, sumSz_append, sumEff_append, sumSz_cons, sumEff_cons] at this
      have e1 : (sumSz A + c.2) % W64 = sumSz A + (c.2 + sumSz []) := by
        rw [show sumSz [] = 0 from rfl]; omega
      have e2 : (320 + sumEff A + (eff c.2 + 24)) % W64 = 320 + (sumEff A + (eff c.2 + 24 + sumEff [])) := by
        rw [show sumEff [] = 0 from rfl]; omega
      rw [e1, e2]
      exact this

/-- `repair` restores the full invariant from any crash-consistent state; its own crash points are
crash-consistent for the same list -/
theorem repair_spec (h : CInv p L) :
    rwp repair (fun out p' => out = .ok () ∧ SInv p' L ∧ Keep L p p' ∧ p'.size = p.size ∧ p'.fsize = p.fsize)
      (RMid L p) p := by
  have hI : RMid L p p := ⟨h, Keep.refl _ _, rfl, rfl⟩
  have hmin := h.geo.min
  have hmax := h.geo.max
  have hlen := h.ch.length_le
  have hsum := h.ch.sum_le
  unfold repair
  simp only [Prog.bind_def]
  refine rwp_r hI h.geo (by omega) ?_
  refine rwp_r hI h.geo (by omega) ?_
  rw [h.head, show w p.mem 0 = p.size from rfl]
  generalize hfu : p.size = fu
  have hl := repairLoop_spec (fuel := fu) (p := p) (L := L) (A := []) (T := L) rfl hI trivial (by omega)
  refine rwp_bind_of hl (fun _ h => h) ?_ (by rintro e q ⟨-, -, h4⟩; cases h4)
  rintro ⟨pv, ba, bc⟩ q ⟨hm, hb, heq⟩
  injection heq with heq
  injection heq with e1 e2
  injection e2 with e2 e3
  subst e1 e2 e3
  have hqs := hm.2.2.1
  simp only
  refine rwp_w hm hm.1.geo (by omega) ?_
  have m1 : RMid L p (put q 312 (lastOr L 0)) := hm.put (by decide) (by decide) (by decide) (Or.inl (by decide))
  have s1 := m1.2.2.1
  refine rwp_w m1 m1.1.geo (by omega) ?_
  have m2 : RMid L p (put (put q 312 (lastOr L 0)) 288 (sumSz L)) := m1.put (by decide) (by decide) (by decide) (Or.inl (by decide))
  have s2 := m2.2.2.1
  refine ⟨m2, m2.1.geo.inb (by omega), ?_⟩
  have m3 : RMid L p (put (put (put q 312 (lastOr L 0)) 288 (sumSz L)) 296 (320 + sumEff L)) :=
    m2.put (by decide) (by decide) (by decide) (Or.inl (by decide))
  have hlL : lastOr L 0 < W64 := by
    by_cases hA : L = []
    · rw [hA]; simp [lastOr]
    · obtain ⟨A', t, hA, -⟩ := lastOr_mem hA 0
      have hml : (lastOr L 0, t) ∈ L := by
        have : (lastOr L 0, t) ∈ A' ++ [(lastOr L 0, t)] := by simp
        rw [← hA] at this; exact this
      have := h.ch.mem hml
      simp only at this; omega
  refine ⟨m3, rfl, ⟨m3.1, ?_, ?_, ?_, ?_⟩, m3.2.1, ?_, m3.2.2.2⟩
  · show w (put (put (put q 312 (lastOr L 0)) 288 (sumSz L)) 296 (320 + sumEff L)).mem 312 = _
    rw [put_w (by decide) (by decide), if_neg (by decide), put_w (by decide) (by decide), if_neg (by decide),
      put_w (by decide) (by decide), if_pos rfl, Nat.mod_eq_of_lt hlL]
  · show BLk (put (put (put q 312 (lastOr L 0)) 288 (sumSz L)) 296 (320 + sumEff L)).mem 0 L
    refine hb.congr ?_
    intro c hc
    have := h.ch.mem hc
    rw [put_w (by decide) (by omega), if_neg (by omega), put_w (by decide) (by omega), if_neg (by omega),
      put_w (by decide) (by omega), if_neg (by omega)]
  · show w (put (put (put q 312 (lastOr L 0)) 288 (sumSz L)) 296 (320 + sumEff L)).mem 288 = _
    rw [put_w (by decide) (by decide), if_neg (by decide), put_w (by decide) (by decide), if_pos rfl]
    exact Nat.mod_eq_of_lt (by omega)
  · show w (put (put (put q 312 (lastOr L 0)) 288 (sumSz L)) 296 (320 + sumEff L)).mem 296 = _
    rw [put_w (by decide) (by decide), if_pos rfl]
    exact Nat.mod_eq_of_lt (by omega)
  · rw [← hfu]; exact m3.2.2.1

/-- a new pool (initialized word 0) becomes an empty, consistent allocator -/
theorem init_new_spec (hg : Geo p) (h8 : w p.mem 8 = 0) :
    rwp init (fun out p' => out = .ok () ∧ SInv p' [] ∧ w p'.mem 280 = 0 ∧ w p'.mem 8 = 1 ∧ p'.size = p.size ∧
      p'.maxSize = p.maxSize ∧ p'.lim = p.lim) (fun _ => True) p := by
  have hmin := hg.min
  have g1 : ∀ {q : Pool}, Geo q → ∀ a v, 8 ≤ a → Geo (put q a v) := fun h a v ha => h.put ha
  unfold init
  simp only [Prog.bind_def]
  refine rwp_r trivial hg (by omega) ?_
  rw [h8, if_neg (by simp)]
  have ps : ∀ {q : Pool} {a v : Nat}, 8 ≤ a → (put q a v).size = q.size := fun h => put_size h
  refine rwp_w trivial hg (by omega) ?_
  refine rwp_w trivial (g1 hg _ _ (by decide)) (by rw [ps (by decide)]; omega) ?_
  refine rwp_w trivial (g1 (g1 hg _ _ (by decide)) _ _ (by decide)) (by rw [ps (by decide), ps (by decide)]; omega) ?_
  refine rwp_w trivial (g1 (g1 (g1 hg _ _ (by decide)) _ _ (by decide)) _ _ (by decide))
    (by rw [ps (by decide), ps (by decide), ps (by decide)]; omega) ?_
  refine rwp_w trivial (g1 (g1 (g1 (g1 hg _ _ (by decide)) _ _ (by decide)) _ _ (by decide)) _ _ (by decide))
    (by rw [ps (by decide), ps (by decide), ps (by decide), ps (by decide)]; omega) ?_
  have g5 := g1 (g1 (g1 (g1 (g1 hg 8 1 (by decide)) 280 0 (by decide)) 304 0 (by decide)) 312 0 (by decide)) 288 0 (by decide)
  refine ⟨trivial, g5.inb (by rw [ps (by decide), ps (by decide), ps (by decide), ps (by decide), ps (by decide)]; omega), trivial, rfl, ?_⟩
  show SInv (put (put (put (put (put (put p 8 1) 280 0) 304 0) 312 0) 288 0) 296 320) [] ∧
    w (put (put (put (put (put (put p 8 1) 280 0) 304 0) 312 0) 288 0) 296 320).mem 280 = 0 ∧ 
    w (put (put (put (put (put (put p 8 1) 280 0) 304 0) 312 0) 288 0) 296 320).mem 8 = 1 ∧ 
    (put (put (put (put (put (put p 8 1) 280 0) 304 0) 312 0) 288 0) 296 320).size = _ ∧ _
  have hsz : (put (put (put (put (put (put p 8 1) 280 0) 304 0) 312 0) 288 0) 296 320).size = p.size := by
    rw [ps (by decide), ps (by decide), ps (by decide), ps (by decide), ps (by decide), ps (by decide)]
  have hw : ∀ a, a % 8 = 0 → w (put (put (put (put (put (put p 8 1) 280 0) 304 0) 312 0) 288 0) 296 320).mem a =
      if a = 296 then 320 else if a = 288 then 0 else if a = 312 then 0 else if a = 304 then 0 else
        if a = 280 then 0 else if a = 8 then 1 else w p.mem a := by
    intro a ha
    rw [put_w (by decide) ha, put_w (by decide) ha, put_w (by decide) ha, put_w (by decide) ha, put_w (by decide) ha,
      put_w (by decide) ha]
  refine ⟨⟨⟨g1 g5 _ _ (by decide), ?_, trivial, ?_⟩, ?_, trivial, ?_, ?_⟩, ?_, ?_, hsz, rfl, rfl⟩
  · rw [hw _ (by decide)]; rfl
  · rw [hsz]; show 320 ≤ _; omega
  · rw [hw _ (by decide)]; rfl
  · rw [hw _ (by decide)]; rfl
  · rw [hw _ (by decide)]; rfl
  · rw [hw _ (by decide)]; rfl
  · rw [hw _ (by decide)]; rfl

/-- opening an initialised pool changes nothing -/
theorem init_old_spec (hg : Geo p) (h8 : w p.mem 8 ≠ 0) :
    rwp init (fun out p' => out = .ok () ∧ p' = p) (fun p' => p' = p) p := by
  have hmin := hg.min
  unfold init
  simp only [Prog.bind_def]
  refine rwp_r rfl hg (by omega) ?_
  rw [if_pos h8]
  exact ⟨rfl, rfl, rfl⟩

end
end Verif.Simple
