import Verif.SimpleOps
/-
The specification of SimpleAllocator::allocate.
-/
namespace Verif.Simple
open Verif

/-- the list with a block put at position `k` -/
def insAt (L : Blocks) (k : Nat) (b : Nat × Nat) : Blocks := L.take k ++ b :: L.drop k

/-- what a crash during `allocate size` can leave: the old list, or the old list with one new block of
that size; existing contents untouched -/
def AllocMid (L : Blocks) (size : Nat) (p p' : Pool) : Prop :=
  ∃ L', CInv p' L' ∧ Keep L p p' ∧ (L' = L ∨ ∃ k co, L' = insAt L k (co, size))

/-- what a completed `allocate size` does -/
def AllocPost (L : Blocks) (size : Nat) (p : Pool) (out : Out Nat) (p' : Pool) : Prop :=
  (∃ k co, k ≤ L.length ∧ out = .ok (co + 24) ∧ SInv p' (insAt L k (co, size)) ∧ Keep L p p' ∧
      co = endOr (L.take k) 320 ∧
      ((Best L p.size (needed size) k L.length ∧ needed size ≤ gapAt L p.size k ∧ p'.size = p.size) ∨
       (k = L.length ∧ (∀ i, i ≤ L.length → gapAt L p.size i < needed size) ∧
          p'.size = max p.size (roundPage (co + needed size))))) ∨
  (out = .err .noMem ∧ p' = p ∧ (∀ i, i ≤ L.length → gapAt L p.size i < needed size) ∧
    ((p.maxSize ≠ 0 ∧ p.maxSize < roundPage (endOr L 320 + needed size)) ∨
      (p.size < roundPage (endOr L 320 + needed size) ∧ p.lim < roundPage (endOr L 320 + needed size))))

section
variable {p p' : Pool} {L : Blocks} {size : Nat}

theorem needed_eq (h : size + 8192 < W64) : needed size = eff size + 24 := by
  have := eff_facts (s := size) (by omega)
  unfold needed; omega

theorem allocFirst_spec (h : SInv p []) (hs : size + p.size + 8192 < W64) :
    rwp (allocFirst size) (AllocPost [] size p) (AllocMid [] size p) p := by
  have hc := h.toCInv
  have hmin := hc.geo.min
  have hmax := hc.geo.max
  have hef := eff_facts (s := size) (by omega)
  have hn := needed_eq (size := size) (by omega)
  have mid0 : ∀ {q}, CInv q [] → Keep [] p q → AllocMid [] size p q :=
    fun hq hk => ⟨[], hq, hk, Or.inl rfl⟩
  -- the part after the optional expansion
  have fin : ∀ q : Pool, Grow p q → 320 + needed size ≤ q.size →
      ((320 + needed size ≤ p.size ∧ q.size = p.size) ∨ (p.size < 320 + needed size ∧ q.size = max p.size (roundPage (320 + needed size)))) →
      rwp (do
        R.wr64 320 0
        R.wr64 328 0
        R.wr64 336 size
        R.wr64 304 320
        R.wr64 312 320
        let ba ← R.rd64 288
        R.wr64 288 (ba + size)
        let bs ← R.rd64 336
        let bc ← R.rd64 296
        R.wr64 296 (bc + (eff bs + 24))
        pure 344) (AllocPost [] size p) (AllocMid [] size p) q := by
    intro q hG hle hcase
    have hS := h.grow hG
    have hC := hS.toCInv
    have hk0 := hc.grow_keep hG
    simp only [Prog.bind_def]
    have kput : ∀ {q : Pool} {a v : Nat}, Keep [] p q → 288 ≤ a → Keep [] p (put q a v) :=
      fun hk h1 => hk.put h1 (by simp)
    have cput : ∀ {q : Pool} {a v : Nat}, CInv q [] → a % 8 = 0 → 8 ≤ a → a ≠ 304 → CInv (put q a v) [] :=
      fun hq h1 h2 h3 => hq.put h1 h2 h3 (by simp)
    have q1 := cput (a := 320) (v := 0) hC (by decide) (by decide) (by decide)
    have k1 := kput (a := 320) (v := 0) hk0 (by decide)
    have q2 := cput (a := 328) (v := 0) q1 (by decide) (by decide) (by decide)
    have k2 := kput (a := 328) (v := 0) k1 (by decide)
    have q3 := cput (a := 336) (v := size) q2 (by decide) (by decide) (by decide)
    have k3 := kput (a := 336) (v := size) k2 (by decide)
    have k4 := kput (a := 304) (v := 320) k3 (by decide)
    generalize hq3 : put (put (put q 320 0) 328 0) 336 size = r3 at *
    have hr3s : r3.size = q.size := by
      rw [← hq3, put_size (by decide), put_size (by decide), put_size (by decide)]
    have hr3w : ∀ a, a % 8 = 0 → w r3.mem a = if a = 336 then size else if a = 328 then 0 else if a = 320 then 0 else w q.mem a := by
      intro a ha
      rw [← hq3, put_w (by decide) ha, put_w (by decide) ha, put_w (by decide) ha, Nat.mod_eq_of_lt (by omega)]
    have q4 : CInv (put r3 304 320) [(320, size)] := by
      refine ⟨q3.geo.put (by decide), ?_, ⟨?_, ?_, trivial⟩, ?_⟩
      · rw [put_w (by decide) (by decide)]; simp [hdOr]
      · show w _ 328 = _
        rw [put_w (by decide) (by decide), if_neg (by decide), hr3w _ (by decide)]; simp [hdOr]
      · show w _ 336 = _
        rw [put_w (by decide) (by decide), if_neg (by decide), hr3w _ (by decide)]; simp
      · rw [put_size (by decide), hr3s]
        refine ⟨Nat.le_refl _, by simp only, ?_, ?_⟩
        · simp only; omega
        · simp only [Chain]; omega
    have m4 : ∀ {q}, CInv q [(320, size)] → Keep [] p q → AllocMid [] size p q :=
      fun hq hk => ⟨_, hq, hk, Or.inr ⟨0, 320, rfl⟩⟩
    have cput4 : ∀ {q : Pool} {a v : Nat}, CInv q [(320, size)] → a % 8 = 0 → 8 ≤ a → a < 320 → a ≠ 304 → CInv (put q a v) [(320, size)] :=
      fun hq h1 h2 h3 h4 => hq.put h1 h2 h4 (by simp; omega)
    have hq1s : (put q 320 0).size = q.size := put_size (by decide)
    have hq2s : (put (put q 320 0) 328 0).size = q.size := by rw [put_size (by decide), put_size (by decide)]
    refine rwp_w (mid0 hC hk0) hC.geo (by omega) ?_
    refine rwp_w (mid0 q1 k1) q1.geo (by omega) ?_
    refine rwp_w (mid0 q2 k2) q2.geo (by omega) ?_
    rw [hq3]
    refine rwp_w (mid0 q3 k3) q3.geo (by omega) ?_
    have hr4s : (put r3 304 320).size = q.size := by rw [put_size (by decide), hr3s]
    refine rwp_w (m4 q4 k4) q4.geo (by omega) ?_
    have q5 := cput4 (a := 312) (v := 320) q4 (by decide) (by decide) (by decide) (by decide)
    have k5 := kput (a := 312) (v := 320) k4 (by decide)
    have hr5s : (put (put r3 304 320) 312 320).size = q.size := by rw [put_size (by decide), hr4s]
    refine rwp_r (m4 q5 k5) q5.geo (by omega) ?_
    rw [put_w (by decide) (by decide), if_neg (by decide), put_w (by decide) (by decide), if_neg (by decide),
      hr3w _ (by decide), if_neg (by decide), if_neg (by decide), if_neg (by decide), hS.ba]
    refine rwp_w (m4 q5 k5) q5.geo (by omega) ?_
    have q6 := cput4 (a := 288) (v := sumSz [] + size) q5 (by decide) (by decide) (by decide) (by decide)
    have k6 := kput (a := 288) (v := sumSz [] + size) k5 (by decide)
    have hr6s : (put (put (put r3 304 320) 312 320) 288 (sumSz [] + size)).size = q.size := by rw [put_size (by decide), hr5s]
    refine rwp_r (m4 q6 k6) q6.geo (by omega) ?_
    refine rwp_r (m4 q6 k6) q6.geo (by omega) ?_
    have e336 : w (put (put (put r3 304 320) 312 320) 288 (sumSz [] + size)).mem 336 = size := by
      rw [put_w (by decide) (by decide), if_neg (by decide), put_w (by decide) (by decide), if_neg (by decide),
        put_w (by decide) (by decide), if_neg (by decide), hr3w _ (by decide), if_pos rfl]
    have e296 : w (put (put (put r3 304 320) 312 320) 288 (sumSz [] + size)).mem 296 = 320 + sumEff [] := by
      rw [put_w (by decide) (by decide), if_neg (by decide), put_w (by decide) (by decide), if_neg (by decide),
        put_w (by decide) (by decide), if_neg (by decide), hr3w _ (by decide), if_neg (by decide), if_neg (by decide), if_neg (by decide), hS.bc]
    rw [e336, e296]
    refine rwp_w (m4 q6 k6) q6.geo (by omega) ?_
    have q7 := cput4 (a := 296) (v := 320 + sumEff [] + (eff size + 24)) q6 (by decide) (by decide) (by decide) (by decide)
    have k7 := kput (a := 296) (v := 320 + sumEff [] + (eff size + 24)) k6 (by decide)
    refine ⟨m4 q7 k7, Or.inl ⟨0, 320, Nat.le_refl _, rfl, ⟨q7, ?_, ⟨?_, trivial⟩, ?_, ?_⟩, k7, rfl, ?_⟩⟩
    · simp [put_w, lastOr, insAt]
    · simp [put_w, hr3w]
    · rw [put_w (by decide) (by decide), if_neg (by decide), put_w (by decide) (by decide), if_pos rfl]
      simp only [insAt, List.take_nil, List.drop_nil, List.nil_append, sumSz_cons]
      simp only [sumSz, List.map_nil, List.sum_nil]; omega
    · rw [put_w (by decide) (by decide), if_pos rfl]
      simp only [insAt, List.take_nil, List.drop_nil, List.nil_append, sumEff_cons]
      simp only [sumEff, List.map_nil, List.sum_nil]; omega
    · rw [put_size (by decide), hr6s]
      have hg0 : ∀ i, gapAt [] p.size i = p.size - 320 := by
        intro i; simp [gapAt, hdOr, endOr]
      rcases hcase with ⟨h1, h2⟩ | ⟨h1, h2⟩
      · left
        refine ⟨⟨?_, ?_⟩, ?_, h2⟩
        · intro _ i _ _; rw [hg0, hg0]; exact Nat.le_refl _
        · intro hlt; rw [hg0] at hlt; omega
        · rw [hg0]; omega
      · right
        refine ⟨rfl, ?_, h2⟩
        intro i _; rw [hg0]; omega
  unfold allocFirst
  rw [Prog.bind_def]
  refine rwp_r (mid0 hc (Keep.refl _ _)) hc.geo (by omega) ?_
  rw [show w p.mem 0 = p.size from rfl]
  have e : sub64 p.size 320 = p.size - 320 := sub64_eq (by omega) (by omega)
  rw [e]
  by_cases hlt : p.size - 320 < needed size
  · rw [if_pos hlt, Prog.bind_def]
    have e2 : (needed size + 320) % W64 = 320 + needed size := by omega
    rw [e2]
    have hr := roundPage_le (n := 320 + needed size) (by omega)
    refine rwp_bind_of (expand_spec hc.geo _) (fun q hq => mid0 (hc.grow hq) (hc.grow_keep hq)) ?_ ?_
    · intro _ q hq
      rcases hq with ⟨-, hG, hsz, -⟩ | ⟨h1, -⟩
      · exact fin q hG (by omega) (Or.inr ⟨by omega, hsz⟩)
      · cases h1
    · intro e q hq
      rcases hq with ⟨h1, -⟩ | ⟨h1, h2, h3⟩
      · cases h1
      · right
        refine ⟨by cases h1; rfl, h2, ?_, h3⟩
        intro i _
        simp only [gapAt, List.drop_nil, List.take_nil, hdOr, endOr]; exact hlt
  · rw [if_neg hlt]
    exact fin p (Grow.refl hc.geo) (by omega) (Or.inl ⟨by omega, rfl⟩)

theorem insAt_end (L : Blocks) (b : Nat × Nat) : insAt L L.length b = L ++ [b] := by
  simp [insAt]

theorem Chain.drop {hi : Nat} (h : Chain 320 L hi) (k : Nat) :
    Chain (hdOr (L.drop k) hi) (L.drop k) hi := by
  have hch := h
  rw [← List.take_append_drop k L] at hch
  have hup := (Chain.append_iff.1 hch).2
  generalize L.drop k = D at hup ⊢
  cases D with
  | nil => exact Nat.le_refl _
  | cons c D => exact ⟨Nat.le_refl _, hup.2⟩

set_option maxHeartbeats 1000000 in
theorem allocMore_spec (h : SInv p L) (hne : L ≠ []) (hs : size + p.size + 8192 < W64) :
    rwp (allocMore size) (AllocPost L size p) (AllocMid L size p) p := by
  have hc := h.toCInv
  have hmin := hc.geo.min
  have hmax := hc.geo.max
  have hef := eff_facts (s := size) (by omega)
  have hn := needed_eq (size := size) (by omega)
  have mid0 : ∀ {q}, CInv q L → Keep L p q → AllocMid L size p q :=
    fun hq hk => ⟨L, hq, hk, Or.inl rfl⟩
  have hI := mid0 hc (Keep.refl _ _)
  have hpos : 0 < L.length := List.length_pos_iff.2 hne
  unfold allocMore
  simp only [Prog.bind_def]
  refine rwp_r hI hc.geo (by omega) ?_
  refine rwp_r hI hc.geo (by omega) ?_
  rw [show w p.mem 0 = p.size from rfl, hc.head]
  have hlen := hc.ch.length_le
  have hs0 := hc.split_at hpos
  have hd0 : hdOr L 0 = hdOr (L.drop 0) 0 := rfl
  have hg0 : sub64 (hdOr L 0) 320 = gapAt L p.size 0 := by
    have hle : hdOr L 0 = hdOr L p.size := by cases L with
      | nil => exact absurd rfl hne
      | cons => rfl
    simp only [List.drop_zero] at hs0
    simp only [gapAt, List.drop_zero, List.take_zero, endOr]
    rw [sub64_eq (by omega) (by omega), hle]
  rw [hg0, hd0]
  generalize hfu : p.size = fu at hlen
  rw [hfu] at hs
  have hsr := search_spec (need := needed size) hc hI fu 0 0 (by omega) (by omega) (by omega) (by
    constructor
    · intro _ i hi _; rw [Nat.le_zero.1 hi]; exact Nat.le_refl _
    · intro h1 i hi; rw [Nat.le_zero.1 hi]; exact h1)
  rw [show endOr (L.take 0) 320 = 320 from rfl, show lastOr (L.take 0) 0 = 0 from rfl] at hsr
  rw [hfu] at hsr
  refine rwp_bind_of hsr (fun _ h => h) ?_ (by rintro e q ⟨-, k, -, -, h4⟩; cases h4)
  rintro ⟨co, cs, cl⟩ q ⟨rfl, k, hk, hbest, heq⟩
  rw [← hfu] at hbest heq hs
  injection heq with heq
  injection heq with e1 e2
  injection e2 with e2 e3
  subst e1 e2 e3
  simp only
  by_cases hlt : gapAt L q.size k < needed size
  · rw [if_pos hlt]
    obtain ⟨A, t, hA, hAend⟩ := lastOr_mem hne 0
    have hml : (lastOr L 0, t) ∈ L := by
      have : (lastOr L 0, t) ∈ A ++ [(lastOr L 0, t)] := by simp
      rw [← hA] at this; exact this
    have hmc := hc.ch.mem hml
    simp only at hmc
    have hts : w q.mem (lastOr L 0 + 16) = t := hc.fl.mem hml
    refine rwp_r hI hc.geo (by omega) ?_
    rw [h.tail]
    refine rwp_r hI hc.geo (by omega) ?_
    rw [hts]
    have e2 : (lastOr L 0 + 24 + eff t + needed size) % W64 = endOr L 320 + needed size := by
      rw [← hAend 320]; rw [← hAend 320] at hmc; omega
    rw [e2]
    have hend := hc.ch.end_le
    have hr := roundPage_le (n := endOr L 320 + needed size) (by omega)
    refine rwp_bind_of (expand_spec hc.geo _) (fun q hq => mid0 (hc.grow hq) (hc.grow_keep hq)) ?_ ?_
    · intro _ r hr'
      rcases hr' with ⟨-, hG, hsz, -⟩ | ⟨h1, -⟩
      · have hS := h.grow hG
        have hC := hS.toCInv
        have hk0 := hc.grow_keep hG
        have hIr := mid0 hC hk0
        have hgsz := hG.sz
        refine rwp_r hIr hC.geo (by omega) ?_
        rw [hS.tail]
        refine rwp_r hIr hC.geo (by omega) ?_
        refine rwp_r hIr hC.geo (by omega) ?_
        rw [hS.tail, hC.fl.mem hml]
        have sl : Slot L [] r.size (endOr L 320) size := by
          refine ⟨Nat.le_refl _, hc.ch.end_mod (by decide), by omega, ?_⟩
          simp only [Chain]; omega
        have hl := link_spec (L1 := L) (L2 := []) (by simpa using hS) sl (by simpa using hne)
        simp only [← hAend 320]
        refine rwp_mono ?_ ?_ hl
        · rintro out p' ⟨ho, hS', hk', hs', -⟩
          left
          simp only [List.append_nil] at hk'
          refine ⟨L.length, endOr L 320, Nat.le_refl _, ho, by rw [insAt_end]; exact hS', hk0.trans hk', by rw [List.take_length], ?_⟩
          right
          exact ⟨rfl, hbest.2 hlt, by rw [hs', hsz]⟩
        · rintro p' ⟨hm, hk'⟩
          simp only [List.append_nil] at hm hk'
          rcases hm with hm | hm
          · exact mid0 hm (hk0.trans hk')
          · exact ⟨_, hm, hk0.trans hk', Or.inr ⟨L.length, endOr L 320, by rw [insAt_end]⟩⟩
      · cases h1
    · intro e q hq
      rcases hq with ⟨h1, -⟩ | ⟨h1, h2, h3⟩
      · cases h1
      · right
        exact ⟨by cases h1; rfl, h2, hbest.2 hlt, h3⟩
  · rw [if_neg hlt]
    have hLk : L.take k ++ L.drop k = L := List.take_append_drop k L
    have hcc := hc.ch
    rw [← hLk] at hcc
    have hca := (Chain.append_iff.1 hcc).1
    have sl : Slot (L.take k) (L.drop k) q.size (endOr (L.take k) 320) size := by
      refine ⟨Nat.le_refl _, hca.end_mod (by decide), by omega, ?_⟩
      refine (hc.ch.drop k).lower ?_
      unfold gapAt at hlt
      omega
    have hl := link_spec (L1 := L.take k) (L2 := L.drop k) (by rw [hLk]; exact h) sl (by rw [hLk]; exact hne)
    rw [hLk] at hl
    refine rwp_mono ?_ ?_ hl
    · rintro out p' ⟨ho, hS', hk', hs', -⟩
      left
      exact ⟨k, _, hk, ho, hS', hk', rfl, Or.inl ⟨hbest, by omega, hs'⟩⟩
    · rintro p' ⟨hm, hk'⟩
      rcases hm with hm | hm
      · exact mid0 hm hk'
      · exact ⟨_, hm, hk', Or.inr ⟨k, _, rfl⟩⟩

/-- SimpleAllocator::allocate from any consistent state -/
theorem alloc_spec (h : SInv p L) (hs : size + p.size + 8192 < W64) :
    rwp (alloc size) (AllocPost L size p) (AllocMid L size p) p := by
  have hc := h.toCInv
  have hmin := hc.geo.min
  have hI : AllocMid L size p p := ⟨L, hc, Keep.refl _ _, Or.inl rfl⟩
  unfold alloc
  simp only [Prog.bind_def]
  refine rwp_r hI hc.geo (by omega) ?_
  rw [hc.head]
  by_cases hne : L = []
  · subst hne
    rw [if_pos (show hdOr [] 0 = 0 from rfl)]
    refine rwp_r hI hc.geo (by omega) ?_
    rw [h.tail, if_pos (show lastOr [] 0 = 0 from rfl)]
    exact allocFirst_spec h hs
  · have : hdOr L 0 ≠ 0 := by
      cases L with
      | nil => exact absurd rfl hne
      | cons b t => have := hc.ch.1; simp only [hdOr]; omega
    rw [if_neg this]
    exact allocMore_spec h hne hs

end
end Verif.Simple
