import Verif.PropsLogCrash
/-
LogarithmicAllocator::verify accepts every consistent pool (/repo/src/LogarithmicAllocator.cc 474-564).
-/
namespace Verif.Logarithmic
open Verif
open Verif.Simple (w w_wr w_lt Geo put put_w put_size rwp_r rwp_w)

variable {p : Pool} {T : Tiles} {F : Nat → List Nat} {live : List (Nat × Nat)} {C : Prop}

theorem boundary_same {x k : Nat} (h : 2 ^ k ∣ x) : nextBoundary x k = x := by
  unfold nextBoundary
  rw [Nat.and_two_pow_sub_one_eq_mod, Nat.mod_eq_zero_of_dvd h, if_neg (by simp)]

theorem verifyBlocks_spec (h : DiskLive p T live) (hi : LInv p T F (fun _ => False)) : ∀ (fuel o : Nat), (o = p.size ∨ ∃ j st, T o = some (j, st)) → p.size < o + 16 * fuel →
    rwp (verifyBlocks fuel o (sumTo (·.2) live o) (1168 + sumTo (fun x => blk x.2) live o))
      (fun out p' => out = .ok ((live.map (·.2)).sum, 1168 + (live.map (fun x => blk x.2)).sum) ∧ p' = p) NoCrash p := by
  have hmin := h.disk.geo.min
  have hcap := h.disk.cap
  have hsum := h.sums
  have hgq := h.disk.geo
  intro fuel
  induction fuel with
  | zero =>
    intro o ho hf
    exfalso
    rcases ho with ho | ⟨j, st, ho⟩
    · omega
    · have := h.disk.geom.mod16 ho; omega
  | succ fuel ih =>
    intro o ho hf
    rcases ho with ho | ⟨k, st, ht⟩
    · subst ho
      rw [sumTo_end h, sumTo_end h]
      unfold verifyBlocks
      simp only [Prog.bind_def]
      refine rwp_r trivial hgq (by omega) ?_
      rw [size_w, if_neg (by omega)]
      exact ⟨trivial, rfl, rfl⟩
    · have h1 := h.disk.geom.tile ht
      have h16 := h.disk.geom.mod16 ht
      have hk := h.disk.geom.ord_lt ht hcap
      have hnx := h.disk.geom.next ht
      cases st with
      | held => exact absurd ht (h.nh _ _)
      | alloc n =>
        have hh := h.disk.hdr ht
        have hn := hh.2.1
        have hord := hh.order (by omega)
        have hw0 := hh.1
        have hn1 := sumTo_alloc h (·.2) ht
        have hb1 := sumTo_alloc h (fun x => blk x.2) ht
        have hl1 := sumTo_le (·.2) live (o + 2 ^ k)
        have hl2 := sumTo_le (fun x => blk x.2) live (o + 2 ^ k)
        simp only at hn1 hb1
        rw [← ((h.mem o k n).1 ht).2] at hb1
        have := ih (o + 2 ^ k) hnx (by omega)
        unfold verifyBlocks
        simp only [Prog.bind_def]
        refine rwp_r trivial hgq (by omega) ?_
        rw [size_w, if_pos (by omega)]
        refine rwp_r trivial hgq (by omega) ?_
        rw [hw0, alloc_mkAlloc (by omega), size_mkAlloc (by omega), Nat.mod_eq_of_lt (by omega : n + 8 < W64), hord,
          sizeForOrder_eq hk]
        rw [if_pos rfl]
        simp only [Prog.pure_def, Prog.ret_bind]
        rw [Nat.mod_eq_of_lt (by omega : o + 2 ^ k < W64), if_neg (by omega), Nat.mod_eq_of_lt (by omega : sumTo (·.2) live o + n < W64),
          Nat.mod_eq_of_lt (by omega : 1168 + sumTo (fun x => blk x.2) live o + 2 ^ k < W64), ← hn1, Nat.add_assoc, ← hb1]
        exact this
      | free =>
        obtain ⟨A, B, hF, hw0, hw8⟩ := hi.lst.seg_mem ht
        have hA : ∀ x ∈ A, x ∈ F k := fun x hx => by rw [hF]; simp [hx]
        have hB : ∀ x ∈ B, x ∈ F k := fun x hx => by rw [hF]; simp [hx]
        have d1 : 2 ^ k ∣ lastD A 0 := by
          by_cases e : A = []
          · subst e; exact Nat.dvd_zero _
          · exact (h.disk.geom.tile (hi.elem (hA _ (lastD_mem e 0))).1).2.1
        have d2 : 2 ^ k ∣ hdD B 0 := by
          by_cases e : B = []
          · subst e; exact Nat.dvd_zero _
          · exact (h.disk.geom.tile (hi.elem (hB _ (hdD_mem e 0))).1).2.1
        have hl := hi.last_lt hA
        have := ih (o + 2 ^ k) hnx (by omega)
        rw [sumTo_free h _ ht, sumTo_free h _ ht] at this
        unfold verifyBlocks
        simp only [Prog.bind_def]
        refine rwp_r trivial hgq (by omega) ?_
        rw [size_w, if_pos (by omega)]
        refine rwp_r trivial hgq (by omega) ?_
        rw [hw0, alloc_mkFree (by omega) hl, order_mkFree (by omega) hl, if_neg (by decide), if_neg (by omega), sizeForOrder_eq hk]
        simp only [Prog.pure_def, Prog.ret_bind]
        refine rwp_r trivial hgq (by omega) ?_
        rw [hw0, order_mkFree (by omega) hl, prev_mkFree hl, boundary_same d1, if_neg (by simp)]
        refine rwp_r trivial hgq (by omega) ?_
        rw [hw8, boundary_same d2, if_neg (by simp), Nat.mod_eq_of_lt (by omega : o + 2 ^ k < W64), if_neg (by omega)]
        exact this

theorem verifyChain_spec (hi : LInv p T F (fun _ => False)) {k : Nat} (hk : k < 64) : ∀ (l : List Nat) (pv fuel : Nat), (∀ x ∈ l, x ∈ F k) → pv < 2 ^ 57 → Seg p.mem k pv l 0 → l.length < fuel →
    rwp (verifyChain k fuel (hdD l 0) pv) (fun out p' => out = .ok (lastD l pv) ∧ p' = p) NoCrash p := by
  have hgq := hi.geo
  intro l
  induction l with
  | nil =>
    intro pv fuel _ _ _ hf
    obtain ⟨fuel, rfl⟩ : ∃ f, fuel = f + 1 := ⟨fuel - 1, by simp only [List.length_nil] at hf; omega⟩
    unfold verifyChain
    rw [if_pos (show hdD [] 0 = 0 from rfl)]
    exact ⟨trivial, rfl, rfl⟩
  | cons o l ih =>
    intro pv fuel hl hpv hs hf
    obtain ⟨fuel, rfl⟩ : ∃ f, fuel = f + 1 := ⟨fuel - 1, by omega⟩
    have he := hi.elem (hl o (by simp))
    obtain ⟨s1, s2, s3⟩ := hs
    unfold verifyChain
    rw [if_neg (by show o ≠ 0; omega)]
    show rwp ((R.rd64 o).bind _) _ _ _
    refine rwp_r trivial hgq (by omega) ?_
    rw [s1, order_mkFree hk hpv, alloc_mkFree hk hpv, prev_mkFree hpv, if_neg (by simp), if_neg (by simp), if_neg (by simp)]
    refine rwp_r trivial hgq (by show o + 8 + 8 ≤ _; omega) ?_
    have s2' : w p.mem (hdD (o :: l) 0 + 8) = hdD l 0 := s2
    rw [s2']
    exact ih o fuel (fun x hx => hl x (by simp [hx])) he.2.2.2.2.1 s3 (by simp only [List.length_cons] at hf; omega)

theorem list_short (hi : LInv p T F (fun _ => False)) (k : Nat) : (F k).length < p.size + 1 := by
  have h1 : ∀ x ∈ F k, x < p.size := fun x hx => by have := hi.elem hx; omega
  have : (F k).length ≤ (List.range p.size).length := (hi.lst.nodup k).length_le_of_subset (fun x hx => List.mem_range.2 (h1 x hx))
  rw [List.length_range] at this
  omega

theorem verifyLists_spec (hi : LInv p T F (fun _ => False)) : ∀ n, n ≤ 53 → rwp (verifyLists (p.size + 1) n) (fun out p' => out = .ok () ∧ p' = p) NoCrash p := by
  have hgq := hi.geo
  have hmin := hgq.min
  intro n
  induction n with
  | zero => intro _; exact ⟨trivial, rfl, rfl⟩
  | succ n ih =>
    intro hn
    unfold verifyLists verifyList
    simp only [Prog.bind_def, Prog.bind_assoc]
    have b1 := headA_b (k := 56 - n) (by omega) (by omega)
    have b2 := tailA_b (k := 56 - n) (by omega) (by omega)
    refine rwp_r trivial hgq (by omega) ?_
    rw [hi.lst.head (56 - n) (by omega) (by omega)]
    refine rwp_bind_of (verifyChain_spec hi (by omega) (F (56 - n)) 0 (p.size + 1) (fun _ h => h) (by decide) (hi.lst.seg _) (list_short hi _)) (fun _ h => h) ?_ (by rintro e s' ⟨h, -⟩; cases h)
    rintro last p' ⟨he, rfl⟩
    injection he with he
    subst he
    refine rwp_r trivial hgq (by omega) ?_
    rw [hi.lst.tail (56 - n) (by omega) (by omega), if_neg (by simp)]
    exact ih (by omega)

theorem verify_spec (h : LiveInv C p T live) : rwp verify (fun out p' => out = .ok () ∧ p' = p) NoCrash p := by
  obtain ⟨F, hi⟩ := h.rdy.inv
  have hd := h.diskLive
  have hgq := hi.geo
  have hmin := hgq.min
  unfold verify
  simp only [Prog.bind_def]
  refine rwp_r trivial hgq (by omega) ?_
  rw [size_w]
  have hs := verifyBlocks_spec hd hi (p.size + 1) start hd.disk.first (by unfold start; omega)
  rw [show start = 1168 from rfl, sumTo_start hd, sumTo_start hd] at hs
  refine rwp_bind_of hs (fun _ h => h) ?_ (by rintro e s' ⟨h, -⟩; cases h)
  rintro ⟨ba, bc⟩ p' ⟨he, rfl⟩
  injection he with he
  obtain ⟨e1, e2⟩ := Prod.mk.inj he
  subst e1; subst e2
  refine rwp_r trivial hgq (by omega) ?_
  rw [h.ba, if_neg (by simp)]
  refine rwp_r trivial hgq (by omega) ?_
  rw [h.bc, if_neg (by simp)]
  exact verifyLists_spec hi 53 (Nat.le_refl _)

end Verif.Logarithmic
