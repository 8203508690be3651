import Verif.LogInv
/-
create_free_block and unlink_block keep the invariant.
-/
namespace Verif.Logarithmic
open Verif
open Verif.Simple (w w_wr w_lt Geo put put_w put_size rwp_r rwp_w)

variable {p : Pool} {T : Tiles} {F : Nat → List Nat} {E : Nat → Prop} {o k : Nat} {s : St}

abbrev NoCrash : Pool → Prop := fun _ => True

/-- bounds of the list table -/
theorem headA_b {k : Nat} (h4 : 4 ≤ k) (h : k ≤ 57) : headA k % 8 = 0 ∧ 304 ≤ headA k ∧ headA k + 8 ≤ 1168 := by unfold headA; omega
theorem tailA_b {k : Nat} (h4 : 4 ≤ k) (h : k ≤ 57) : tailA k % 8 = 0 ∧ 304 ≤ tailA k ∧ tailA k + 8 ≤ 1168 := by unfold tailA; omega
theorem head_ne_tail {j k : Nat} (h4 : 4 ≤ k) (h : j ≤ 57) : headA j ≠ tailA k := by unfold headA tailA; omega

theorem Lists.seg_mem {m : Nat → UInt8} (h : Lists m T F) (ht : T o = some (k, .free)) :
    ∃ A B, F k = A ++ o :: B ∧ w m o = mkFree k (lastD A 0) ∧ w m (o + 8) = hdD B 0 :=
  (h.seg k).mem ((h.mem k o).2 ht)

theorem LInv.elem (h : LInv p T F E) {x : Nat} (hx : x ∈ F k) :
    T x = some (k, .free) ∧ x % 16 = 0 ∧ 1168 ≤ x ∧ x + 16 ≤ p.size ∧ x < 2 ^ 57 ∧ k < 31 ∧ 4 ≤ k ∧ x + 2 ^ k ≤ p.size := by
  have ht := (h.lst.mem k x).1 hx
  have h1 := h.geom.mod16 ht
  have h2 := h.geom.ord_lt ht h.cap
  have h3 := h.cap
  have h4 := h.geom.tile ht
  exact ⟨ht, h1.1, h1.2.1, h1.2.2.1, by omega, h2, h4.1, h4.2.2.2⟩

theorem LInv.last_lt (h : LInv p T F E) {A : List Nat} (hA : ∀ x ∈ A, x ∈ F k) : lastD A 0 < 2 ^ 57 := by
  by_cases e : A = []
  · subst e; exact Nat.two_pow_pos 57
  · exact (h.elem (hA _ (lastD_mem e 0))).2.2.2.2.1
theorem LInv.hd_lt (h : LInv p T F E) {A : List Nat} (hA : ∀ x ∈ A, x ∈ F k) : hdD A 0 < 2 ^ 57 := by
  by_cases e : A = []
  · subst e; exact Nat.two_pow_pos 57
  · exact (h.elem (hA _ (hdD_mem e 0))).2.2.2.2.1

theorem LInv.safe_head (h4 : 4 ≤ k) (hk : k < 31) : Safe 304 T (headA k) := Or.inl (by have := headA_b h4 (by omega : k ≤ 57); omega)
theorem LInv.safe_tail (h4 : 4 ≤ k) (hk : k < 31) : Safe 304 T (tailA k) := Or.inl (by have := tailA_b h4 (by omega : k ≤ 57); omega)

theorem head_top {k : Nat} (h : k < 31) : headA k ≠ 728 ∧ headA k ≠ 1160 := by unfold headA; omega
theorem tail_top {k : Nat} (h4 : 4 ≤ k) (h : k < 31) : tailA k ≠ 728 ∧ tailA k ≠ 1160 := by unfold tailA; omega

theorem createFree_spec (h : LInv p T F E) (ht : T o = some (k, .held)) :
    rwp (createFree o k) (fun out p' => out = .ok () ∧ LInv p' (tset T o k .free) (fupd F k (F k ++ [o])) E ∧
      LKeep 304 T p p' ∧ p'.size = p.size) (CrF 304 T p o k) p := by
  have hg := h.geo
  have hk := h.geom.ord_lt ht h.cap
  have h4 := (h.geom.tile ht).1
  have ho := h.geom.mod16 ht
  have hmin := hg.min
  have hh := headA_b h4 (by omega : k ≤ 57)
  have htl := tailA_b h4 (by omega : k ≤ 57)
  have hht : headA k ≠ tailA k := head_ne_tail h4 (by omega)
  have ht1 := head_top hk
  have ht2 := tail_top h4 hk
  have htail := h.lst.tail k h4 (by omega)
  have hhead := h.lst.head k h4 (by omega)
  have hseg := h.lst.seg k
  have hlast : lastD (F k) 0 < 2 ^ 57 := h.last_lt (fun _ h => h)
  have hoF : o ∉ F k := by
    intro hc; have := (h.elem hc).1; rw [ht] at this; simpa using (some_pair this).2
  have hcap := h.cap
  have hosmall : o < 2 ^ 57 := by omega
  have holt : o % W64 = o := Nat.mod_eq_of_lt (by omega)
  have hmk : mkFree k (lastD (F k) 0) % W64 = mkFree k (lastD (F k) 0) :=
    Nat.mod_eq_of_lt (by have := mkFree_lt (k := k) (by omega) hlast; omega)
  have hsafe : ∀ a, o ≤ a → a + 8 ≤ o + 16 → Safe 304 T a :=
    fun a h1 h2 => Or.inr ⟨o, k, .held, ht, by intro n; simp, h1, by omega⟩
  unfold createFree
  simp only [Prog.bind_def]
  have g1 := hg.put (a := o) (v := mkFree k (lastD (F k) 0)) (by omega)
  have g2 := g1.put (a := o + 8) (v := 0) (by omega)
  have z1 := put_size (p := p) (a := o) (v := mkFree k (lastD (F k) 0)) (by omega)
  have z2 := put_size (p := put p o (mkFree k (lastD (F k) 0))) (a := o + 8) (v := 0) (by omega)
  have k1 : LKeep 304 T p (put p o (mkFree k (lastD (F k) 0))) :=
    (LKeep.refl _ _ _).put (by decide) (by decide) h.geom (hsafe _ (by omega) (by omega))
  have k2 := k1.put (v := 0) (by decide) (by decide) h.geom (hsafe (o + 8) (by omega) (by omega))
  have c1 : CrU 304 T (put p o (mkFree k (lastD (F k) 0))) (put p o (mkFree k (lastD (F k) 0))) := CrU.refl _ _ g1
  have c2 := c1.put (v := 0) (by decide) (by decide) h.geom (hsafe (o + 8) (by omega) (by omega)) (by omega) (by omega) (by omega)
  have hv : ∀ {q}, LKeep 304 T p q → CrU 304 T (put p o (mkFree k (lastD (F k) 0))) q → CrF 304 T p o k q := fun a b =>
    Or.inr ⟨a, _, by have := mkFree_lt (k := k) (by omega) hlast; omega, order_mkFree (by omega) hlast, alloc_mkFree (by omega) hlast, b⟩
  refine rwp_r (Or.inl rfl) hg (by omega) ?_
  rw [htail]
  refine rwp_w (Or.inl rfl) hg (by omega) ?_
  refine rwp_w (hv k1 c1) g1 (by omega) ?_
  refine rwp_r (hv k2 c2) g2 (by omega) ?_
  have e0 : w (put (put p o (mkFree k (lastD (F k) 0))) (o + 8) 0).mem (tailA k) = lastD (F k) 0 := by
    rw [put_w (by omega) (by omega), if_neg (by omega), put_w (by omega) (by omega), if_neg (by omega), htail]
  rw [e0]
  generalize hrr : put p o (mkFree k (lastD (F k) 0)) = rr at *
  generalize hq : put rr (o + 8) 0 = q at *
  have hqw : ∀ a, a % 8 = 0 → w q.mem a = if a = o + 8 then 0 else if a = o then mkFree k (lastD (F k) 0) else w p.mem a := by
    intro a ha
    rw [← hq, put_w (by omega) ha, ← hrr, put_w (by omega) ha, hmk]
  have zq : q.size = p.size := by omega
  by_cases hF : F k = []
  · -- empty list
    rw [hF] at htail hhead hqw ⊢
    simp only [lastD, ne_eq, not_true_eq_false, if_false]
    refine rwp_w (hv k2 c2) g2 (by omega) ?_
    have g3 := g2.put (a := headA k) (v := o) (by omega)
    have z3 := put_size (p := q) (a := headA k) (v := o) (by omega)
    have k3 := k2.put (v := o) (by decide) (by decide) h.geom (LInv.safe_head (T := T) h4 hk)
    have g4 := g3.put (a := tailA k) (v := o) (by omega)
    have z4 := put_size (p := put q (headA k) o) (a := tailA k) (v := o) (by omega)
    have k4 := k3.put (v := o) (by decide) (by decide) h.geom (LInv.safe_tail (T := T) h4 hk)
    have c3 := c2.put (v := o) (by decide) (by decide) h.geom (LInv.safe_head (T := T) h4 hk) (by omega) (by omega) (by omega)
    have c4 := c3.put (v := o) (by decide) (by decide) h.geom (LInv.safe_tail (T := T) h4 hk) (by omega) (by omega) (by omega)
    refine ⟨hv k3 c3, g3.inb (by omega), hv k4 c4, rfl, ?_, k4, z4.trans (z3.trans zq)⟩
    have hw' : ∀ a, a % 8 = 0 → w (put (put q (headA k) o) (tailA k) o).mem a =
        if a = tailA k then o else if a = headA k then o else w q.mem a := by
      intro a ha
      rw [put_w (by omega) ha, put_w (by omega) ha, holt]
    refine h.ofList ht (by intro n; simp) (by intro n; simp) g4 (by show Pool.size (put (put q (headA k) o) (tailA k) o) = _; omega)
      ?_ ?_ ?_ ?_ ?_ ?_
    · intro a h1 h2 h3 h5 h6
      show w (put (put q (headA k) o) (tailA k) o).mem a = _
      have := h6 o (by simp)
      rw [hw' a h1, if_neg h5, if_neg h3, hqw a h1, if_neg this.2, if_neg this.1]
    · intro x; simp [hF]
    · simp
    · show w (put (put q (headA k) o) (tailA k) o).mem (headA k) = _
      rw [hw' _ hh.1, if_neg hht, if_pos rfl]; rfl
    · show w (put (put q (headA k) o) (tailA k) o).mem (tailA k) = _
      rw [hw' _ htl.1, if_pos rfl]; rfl
    · refine ⟨?_, ?_, trivial⟩
      · show w (put (put q (headA k) o) (tailA k) o).mem o = _
        rw [hw' o (by omega), if_neg (by omega), if_neg (by omega), hqw o (by omega), if_neg (by omega), if_pos rfl]; rfl
      · show w (put (put q (headA k) o) (tailA k) o).mem (o + 8) = _
        rw [hw' (o + 8) (by omega), if_neg (by omega), if_neg (by omega), hqw _ (by omega), if_pos rfl]; rfl
  · -- append
    have hlm := lastD_mem hF 0
    have hle := h.elem hlm
    obtain ⟨l0, hl0⟩ := lastD_snoc hF 0
    generalize hx : lastD (F k) 0 = x at *
    have hxo : x ≠ o := fun e => hoF (e ▸ hlm)
    rw [if_pos (by omega)]
    refine rwp_r (hv k2 c2) g2 (by omega) ?_
    have hsg := hseg
    rw [hl0, Seg.append_iff] at hsg
    have ex : w q.mem x = mkFree k (lastD l0 0) := by
      rw [hqw x (by omega), if_neg (by omega), if_neg hxo]; exact hsg.2.1
    have hl0lt : lastD l0 0 < 2 ^ 57 := h.last_lt (k := k) (fun y hy => by rw [hl0]; simp [hy])
    rw [ex, order_mkFree (by omega) hl0lt]
    simp only [ne_eq, not_true_eq_false, if_false]
    have hsx : Safe 304 T (x + 8) := Or.inr ⟨x, k, .free, hle.1, by intro n; simp, by omega, by
      have := pow16 h4; omega⟩
    have g3 := g2.put (a := x + 8) (v := o) (by omega)
    have z3 := put_size (p := q) (a := x + 8) (v := o) (by omega)
    have k3 := k2.put (v := o) (by decide) (by decide) h.geom hsx
    refine rwp_w (hv k2 c2) g2 (by omega) ?_
    have g4 := g3.put (a := tailA k) (v := o) (by omega)
    have z4 := put_size (p := put q (x + 8) o) (a := tailA k) (v := o) (by omega)
    have k4 := k3.put (v := o) (by decide) (by decide) h.geom (LInv.safe_tail (T := T) h4 hk)
    have c3 := c2.put (v := o) (by decide) (by decide) h.geom hsx (by omega) (by omega) (by omega)
    have c4 := c3.put (v := o) (by decide) (by decide) h.geom (LInv.safe_tail (T := T) h4 hk) (by omega) (by omega) (by omega)
    refine ⟨hv k3 c3, g3.inb (by omega), hv k4 c4, rfl, ?_, k4, z4.trans (z3.trans zq)⟩
    have hw' : ∀ a, a % 8 = 0 → w (put (put q (x + 8) o) (tailA k) o).mem a =
        if a = tailA k then o else if a = x + 8 then o else w q.mem a := by
      intro a ha
      rw [put_w (by omega) ha, put_w (by omega) ha, holt]
    refine h.ofList ht (by intro n; simp) (by intro n; simp) g4 (by show Pool.size (put (put q (x + 8) o) (tailA k) o) = _; omega)
      ?_ ?_ ?_ ?_ ?_ ?_
    · intro a h1 h2 h3 h5 h6
      show w (put (put q (x + 8) o) (tailA k) o).mem a = _
      have h7 := h6 o (by simp)
      have h8 := h6 x (by simp [hlm])
      rw [hw' a h1, if_neg h5, if_neg h8.2, hqw a h1, if_neg h7.2, if_neg h7.1]
    · intro y
      rw [List.mem_append, List.mem_singleton]
      constructor
      · rintro (h1 | h1)
        · exact Or.inr ⟨fun e => hoF (e ▸ h1), h1⟩
        · exact Or.inl ⟨h1, rfl⟩
      · rintro (h1 | h1)
        · exact Or.inr h1.1
        · exact Or.inl h1.2
    · rw [List.nodup_append]
      refine ⟨h.lst.nodup k, by simp, ?_⟩
      intro a ha b hb
      rw [List.mem_singleton] at hb
      rintro rfl; exact hoF (hb ▸ ha)
    · show w (put (put q (x + 8) o) (tailA k) o).mem (headA k) = _
      rw [hw' _ hh.1, if_neg hht, if_neg (by omega), hqw _ hh.1, if_neg (by omega), if_neg (by omega), hhead, hdD_append]
      cases hFk : F k with
      | nil => exact absurd hFk hF
      | cons a t => rfl
    · show w (put (put q (x + 8) o) (tailA k) o).mem (tailA k) = _
      rw [hw' _ htl.1, if_pos rfl, lastD_append]; rfl
    · have hnd := h.lst.nodup k
      rw [hl0, List.nodup_append] at hnd
      rw [hl0, List.append_assoc, Seg.append_iff]
      refine ⟨hsg.1.congr ?_, ?_, ?_, ?_, ?_, trivial⟩
      · intro y hy
        have hyF : y ∈ F k := by rw [hl0]; simp [hy]
        have hye := h.elem hyF
        have hyx : y ≠ x := fun e => hnd.2.2 y hy x (by simp) e
        have hyo : y ≠ o := fun e => hoF (e ▸ hyF)
        constructor
        · show w (put (put q (x + 8) o) (tailA k) o).mem y = _
          rw [hw' y (by omega), if_neg (by omega), if_neg (by omega), hqw y (by omega), if_neg (by omega), if_neg hyo]
        · show w (put (put q (x + 8) o) (tailA k) o).mem (y + 8) = _
          rw [hw' _ (by omega), if_neg (by omega), if_neg (by omega), hqw _ (by omega), if_neg (by omega), if_neg (by omega)]
      · show w (put (put q (x + 8) o) (tailA k) o).mem x = _
        rw [hw' x (by omega), if_neg (by omega), if_neg (by omega), ex]
      · show w (put (put q (x + 8) o) (tailA k) o).mem (x + 8) = _
        rw [hw' _ (by omega), if_neg (by omega), if_pos rfl]; rfl
      · show w (put (put q (x + 8) o) (tailA k) o).mem o = _
        rw [hw' o (by omega), if_neg (by omega), if_neg (by omega), hqw o (by omega), if_neg (by omega), if_pos rfl]
      · show w (put (put q (x + 8) o) (tailA k) o).mem (o + 8) = _
        rw [hw' _ (by omega), if_neg (by omega), if_neg (by omega), hqw _ (by omega), if_pos rfl]; rfl

/-- the cell holding the pointer back to the block, and what unlinking stores there -/
def bcell (k : Nat) (B : List Nat) : Nat := if B = [] then tailA k else hdD B 0
def bval (k : Nat) (A B : List Nat) : Nat := if B = [] then lastD A 0 else mkFree k (lastD A 0)
/-- the cell holding the pointer to the block -/
def fcell (k : Nat) (A : List Nat) : Nat := if A = [] then headA k else lastD A 0 + 8

theorem LInv.cells (h : LInv p T F E) {A B : List Nat} (ht : T o = some (k, s)) (hF : ∀ x, x ∈ A ++ B → x ∈ F k) :
    (bcell k B % 8 = 0 ∧ 304 ≤ bcell k B ∧ bcell k B + 8 ≤ p.size ∧ Safe 304 T (bcell k B)) ∧
    (fcell k A % 8 = 0 ∧ 304 ≤ fcell k A ∧ fcell k A + 8 ≤ p.size ∧ Safe 304 T (fcell k A)) := by
  have hk := h.geom.ord_lt ht h.cap
  have h4 := (h.geom.tile ht).1
  have hmin := h.geo.min
  have hh := headA_b h4 (by omega : k ≤ 57)
  have htl := tailA_b h4 (by omega : k ≤ 57)
  have h16 := pow16 h4
  constructor
  · unfold bcell
    split
    · exact ⟨htl.1, htl.2.1, by omega, LInv.safe_tail h4 hk⟩
    · rename_i hB
      have he := h.elem (hF _ (List.mem_append_right _ (hdD_mem hB 0)))
      exact ⟨by omega, by omega, by omega, Or.inr ⟨_, k, .free, he.1, by intro n; simp, Nat.le_refl _, by omega⟩⟩
  · unfold fcell
    split
    · exact ⟨hh.1, hh.2.1, by omega, LInv.safe_head h4 hk⟩
    · rename_i hA
      have he := h.elem (hF _ (List.mem_append_left _ (lastD_mem hA 0)))
      exact ⟨by omega, by omega, by omega, Or.inr ⟨_, k, .free, he.1, by intro n; simp, by omega, by omega⟩⟩

/-- the two stores of unlinking take the block off its list -/
theorem LInv.unlinked (h : LInv p T F E) (ht : T o = some (k, .free)) {A B : List Nat} (hF : F k = A ++ o :: B) :
    LInv (put (put p (bcell k B) (bval k A B)) (fcell k A) (hdD B 0)) (tset T o k .held) (fupd F k (A ++ B)) E ∧
    LKeep 304 T p (put (put p (bcell k B) (bval k A B)) (fcell k A) (hdD B 0)) ∧
    (put (put p (bcell k B) (bval k A B)) (fcell k A) (hdD B 0)).size = p.size := by
  have hk := h.geom.ord_lt ht h.cap
  have h4 := (h.geom.tile ht).1
  have hmin := h.geo.min
  have hh := headA_b h4 (by omega : k ≤ 57)
  have htl := tailA_b h4 (by omega : k ≤ 57)
  have hht : headA k ≠ tailA k := head_ne_tail h4 (by omega)
  have hsub : ∀ x, x ∈ A ++ B → x ∈ F k := by
    intro x hx; rw [hF]; rcases List.mem_append.1 hx with hx | hx <;> simp [hx]
  have hsubA : ∀ x, x ∈ A → x ∈ F k := fun x hx => hsub x (List.mem_append_left _ hx)
  have hsubB : ∀ x, x ∈ B → x ∈ F k := fun x hx => hsub x (List.mem_append_right _ hx)
  obtain ⟨hb, hf⟩ := h.cells ht hsub
  have hnd := h.lst.nodup k
  rw [hF, List.nodup_append] at hnd
  obtain ⟨hndA, hndB, hndx⟩ := hnd
  rw [List.nodup_cons] at hndB
  have hlast : lastD A 0 < 2 ^ 57 := h.last_lt hsubA
  have hhd : hdD B 0 < 2 ^ 57 := h.hd_lt hsubB
  have hv1 : bval k A B % W64 = bval k A B := by
    refine Nat.mod_eq_of_lt ?_
    unfold bval
    split
    · omega
    · have := mkFree_lt (k := k) (by omega) hlast; omega
  have hv2 : hdD B 0 % W64 = hdD B 0 := Nat.mod_eq_of_lt (by omega)
  have z1 := put_size (p := p) (a := bcell k B) (v := bval k A B) (by omega)
  have z2 := put_size (p := put p (bcell k B) (bval k A B)) (a := fcell k A) (v := hdD B 0) (by omega)
  have g2 := (h.geo.put (a := bcell k B) (v := bval k A B) (by omega)).put (a := fcell k A) (v := hdD B 0) (by omega)
  have k2 := ((LKeep.refl 304 T p).put (v := bval k A B) (by decide) (by decide) h.geom hb.2.2.2).put (v := hdD B 0)
    (by decide) (by decide) h.geom hf.2.2.2
  have hw : ∀ a, a % 8 = 0 → w (put (put p (bcell k B) (bval k A B)) (fcell k A) (hdD B 0)).mem a =
      if a = fcell k A then hdD B 0 else if a = bcell k B then bval k A B else w p.mem a := by
    intro a ha
    rw [put_w hf.1 ha, put_w hb.1 ha, hv1, hv2]
  refine ⟨?_, k2, by omega⟩
  generalize put (put p (bcell k B) (bval k A B)) (fcell k A) (hdD B 0) = q at *
  have hfb : fcell k A ≠ bcell k B := by
    unfold fcell bcell
    split <;> split
    · exact hht
    · rename_i hB; have := h.elem (hsubB _ (hdD_mem hB 0)); omega
    · rename_i hA _; have := h.elem (hsubA _ (lastD_mem hA 0)); omega
    · rename_i hA hB; have := h.elem (hsubA _ (lastD_mem hA 0)); have := h.elem (hsubB _ (hdD_mem hB 0)); omega
  have hsg := h.lst.seg k
  rw [hF, Seg.append_iff] at hsg
  obtain ⟨hsA, -, -, hsB⟩ := hsg
  refine h.ofList ht (by intro n; simp) (by intro n; simp) g2 (by omega) ?_ ?_ ?_ ?_ ?_ ?_
  · intro a h1 h2 h3 h5 h6
    rw [hw a h1, if_neg, if_neg]
    · unfold bcell
      split
      · exact h5
      · rename_i hB; exact (h6 _ (List.mem_cons_of_mem _ (hsubB _ (hdD_mem hB 0)))).1
    · unfold fcell
      split
      · exact h3
      · rename_i hA; exact (h6 _ (List.mem_cons_of_mem _ (hsubA _ (lastD_mem hA 0)))).2
  · intro x
    have hoA : o ∉ A := fun hc => hndx o hc o (by simp) rfl
    rw [hF]
    simp only [List.mem_append, List.mem_cons]
    constructor
    · intro hx
      refine Or.inr ⟨?_, hx.elim Or.inl (fun h => Or.inr (Or.inr h))⟩
      rintro rfl; rcases hx with hx | hx
      · exact hoA hx
      · exact hndB.1 hx
    · rintro (⟨-, hx⟩ | ⟨hx, hx2⟩)
      · cases hx
      · rcases hx2 with h1 | h1 | h1
        · exact Or.inl h1
        · exact absurd h1 hx
        · exact Or.inr h1
  · rw [List.nodup_append]
    exact ⟨hndA, hndB.2, fun a ha b hb => hndx a ha b (by simp [hb])⟩
  · rw [hw _ hh.1]
    by_cases hA : A = []
    · rw [if_pos (by simp [fcell, hA]), hA]; rfl
    · rw [if_neg, if_neg, h.lst.head k h4 (by omega), hF, hdD_append, hdD_append]
      · cases A with
        | nil => exact absurd rfl hA
        | cons => rfl
      · unfold bcell
        split
        · exact hht
        · rename_i hB; have := h.elem (hsubB _ (hdD_mem hB 0)); omega
      · unfold fcell
        rw [if_neg hA]; have := h.elem (hsubA _ (lastD_mem hA 0)); omega
  · rw [hw _ htl.1]
    by_cases hB : B = []
    · have : tailA k = bcell k B := by simp [bcell, hB]
      rw [if_neg (by rw [this]; exact Ne.symm hfb), if_pos this, hB]
      simp [bval]
    · rw [if_neg, if_neg, h.lst.tail k h4 (by omega), hF, lastD_append, lastD_append]
      · cases B with
        | nil => exact absurd rfl hB
        | cons => rfl
      · unfold bcell
        rw [if_neg hB]; have := h.elem (hsubB _ (hdD_mem hB 0)); omega
      · unfold fcell
        split
        · exact Ne.symm hht
        · rename_i hA; have := h.elem (hsubA _ (lastD_mem hA 0)); omega
  · rw [Seg.append_iff]
    constructor
    · by_cases hA : A = []
      · subst hA; trivial
      · obtain ⟨l0, hl0⟩ := lastD_snoc hA 0
        have hx := h.elem (hsubA _ (lastD_mem hA 0))
        have hfc : fcell k A = lastD A 0 + 8 := by simp [fcell, hA]
        have hxA := lastD_mem hA 0
        generalize lastD A 0 = x at *
        rw [hl0] at hsA ⊢
        rw [hl0, List.nodup_append] at hndA
        rw [Seg.append_iff] at hsA ⊢
        have hbx : ∀ y ∈ A, y ≠ bcell k B ∧ y + 8 ≠ bcell k B := by
          intro y hy
          have hye := h.elem (hsubA y hy)
          unfold bcell
          split
          · omega
          · rename_i hB
            have hbe := h.elem (hsubB _ (hdD_mem hB 0))
            exact ⟨hndx y hy _ (List.mem_cons_of_mem _ (hdD_mem hB 0)), by omega⟩
        refine ⟨hsA.1.congr ?_, ?_, ?_, trivial⟩
        · intro y hy
          have hyA : y ∈ A := by rw [hl0]; simp [hy]
          have hye := h.elem (hsubA y hyA)
          have hyx : y ≠ x := fun e => hndA.2.2 y hy x (by simp) e
          have := hbx y hyA
          rw [hw y (by omega), hw (y + 8) (by omega), if_neg (by omega), if_neg this.1, if_neg (by omega), if_neg this.2]
          exact ⟨rfl, rfl⟩
        · rw [hw x (by omega), if_neg (by omega), if_neg (hbx x hxA).1]; exact hsA.2.1
        · rw [hw (x + 8) (by omega), if_pos hfc.symm]; rfl
    · by_cases hB : B = []
      · subst hB; trivial
      · cases B with
        | nil => exact absurd rfl hB
        | cons x B =>
          have hx := h.elem (hsubB x (by simp))
          have hbc : bcell k (x :: B) = x := by simp [bcell, hdD]
          have hbv : bval k A (x :: B) = mkFree k (lastD A 0) := by simp [bval]
          have hfy : ∀ y ∈ x :: B, y ≠ fcell k A ∧ y + 8 ≠ fcell k A := by
            intro y hy
            have hye := h.elem (hsubB y hy)
            unfold fcell
            split
            · omega
            · rename_i hA
              have hbe := h.elem (hsubA _ (lastD_mem hA 0))
              have := hndx _ (lastD_mem hA 0) y (List.mem_cons_of_mem _ hy)
              omega
          have hfx := hfy x (by simp)
          refine ⟨?_, ?_, hsB.2.2.congr ?_⟩
          · rw [hw x (by omega), if_neg hfx.1, if_pos hbc.symm, hbv]
          · rw [hw (x + 8) (by omega), if_neg hfx.2, if_neg (by omega)]; exact hsB.2.1
          · intro y hy
            have hye := h.elem (hsubB y (by simp [hy]))
            have hyx : y ≠ x := by
              rintro rfl
              have := hndB.2
              rw [List.nodup_cons] at this
              exact this.1 hy
            have := hfy y (by simp [hy])
            rw [hw y (by omega), hw (y + 8) (by omega), if_neg this.1, if_neg (by omega), if_neg this.2, if_neg (by omega)]
            exact ⟨rfl, rfl⟩

theorem unlink_spec (h : LInv p T F E) (ht : T o = some (k, .free)) :
    rwp (unlink o) (fun out p' => out = .ok () ∧ (∃ A B, F k = A ++ o :: B ∧
        LInv p' (tset T o k .held) (fupd F k (A ++ B)) E) ∧ LKeep 304 T p p' ∧ p'.size = p.size) (CrU 304 T p) p := by
  obtain ⟨A, B, hF, hw0, hw8⟩ := h.lst.seg_mem ht
  have hfin := h.unlinked ht hF
  have hk := h.geom.ord_lt ht h.cap
  have h4 := (h.geom.tile ht).1
  have ho := h.geom.mod16 ht
  have hsub : ∀ x, x ∈ A ++ B → x ∈ F k := by
    intro x hx; rw [hF]; rcases List.mem_append.1 hx with hx | hx <;> simp [hx]
  obtain ⟨hb, hf⟩ := h.cells ht hsub
  have hlast : lastD A 0 < 2 ^ 57 := h.last_lt (fun x hx => hsub x (List.mem_append_left _ hx))
  have hoB : o ∉ B ∧ o ∉ A := by
    have hnd := h.lst.nodup k
    rw [hF, List.nodup_append, List.nodup_cons] at hnd
    exact ⟨hnd.2.1.1, fun hc => hnd.2.2 o hc o (by simp) rfl⟩
  have hbo : bcell k B ≠ o ∧ bcell k B ≠ o + 8 := by
    unfold bcell
    split
    · have := tailA_b h4 (by omega : k ≤ 57); omega
    · rename_i hB
      have := h.elem (hsub _ (List.mem_append_right _ (hdD_mem hB 0)))
      exact ⟨fun e => hoB.1 (e ▸ hdD_mem hB 0), by omega⟩
  have z1 := put_size (p := p) (a := bcell k B) (v := bval k A B) (by omega)
  have g1 := h.geo.put (a := bcell k B) (v := bval k A B) (by omega)
  have e0 : w (put p (bcell k B) (bval k A B)).mem o = mkFree k (lastD A 0) := by
    rw [put_w hb.1 (by omega), if_neg (Ne.symm hbo.1), hw0]
  have e8 : w (put p (bcell k B) (bval k A B)).mem (o + 8) = hdD B 0 := by
    rw [put_w hb.1 (by omega), if_neg (Ne.symm hbo.2), hw8]
  have c0 : CrU 304 T p p := CrU.refl _ _ h.geo
  have c1 : CrU 304 T p (put p (bcell k B) (bval k A B)) := by
    refine ⟨c0.kp.put (by decide) (by decide) h.geom hb.2.2.2, z1, g1, ?_, ?_⟩
    case refine_2 =>
      have : bcell k B ≠ 728 ∧ bcell k B ≠ 1160 := by
        unfold bcell
        split
        · exact tail_top h4 hk
        · rename_i hB
          have := h.elem (hsub _ (List.mem_append_right _ (hdD_mem hB 0))); omega
      rw [put_w hb.1 (by decide), put_w hb.1 (by decide), if_neg (by omega), if_neg (by omega)]
      exact ⟨rfl, rfl⟩
    by_cases hB : B = []
    · have := tailA_b h4 (by omega : k ≤ 57)
      exact (HK.refl _).put hb.1 (by simp only [bcell, hB, if_true]; omega)
    · have ev : bval k A B = mkFree k (lastD A 0) := by simp [bval, hB]
      have eb : bcell k B = hdD B 0 := by simp [bcell, hB]
      have hm := hdD_mem hB 0
      obtain ⟨A', B', hF', hw0', -⟩ := h.lst.seg_mem (h.elem (hsub _ (List.mem_append_right _ hm))).1
      have hlast' : lastD A' 0 < 2 ^ 57 := h.last_lt (k := k) (fun x hx => by rw [hF']; simp [hx])
      refine (HK.refl _).put_hdr hb.1 ?_ ?_ ?_ ?_
      · rw [ev]; have := mkFree_lt (k := k) (by omega) hlast; omega
      · rw [eb, hw0', alloc_mkFree (by omega) hlast']
      · rw [ev, alloc_mkFree (by omega) hlast]
      · rw [ev, eb, hw0', order_mkFree (by omega) hlast, order_mkFree (by omega) hlast']
  have c2 : CrU 304 T p (put (put p (bcell k B) (bval k A B)) (fcell k A) (hdD B 0)) := by
    refine c1.put (by decide) (by decide) h.geom hf.2.2.2 hf.1 (by omega) ?_
    unfold fcell
    split
    · have := headA_b h4 (by omega : k ≤ 57); have := head_top hk; omega
    · rename_i hA
      have := h.elem (hsub _ (List.mem_append_left _ (lastD_mem hA 0))); omega
  unfold unlink
  simp only [Prog.bind_def]
  refine rwp_r c0 h.geo (by omega) ?_
  rw [hw0, order_mkFree (by omega) hlast]
  refine rwp_bind_of (T := fun out p' => out = .ok () ∧ p' = put p (bcell k B) (bval k A B)) (J := CrU 304 T p) ?_
    (fun _ h => h) ?_ (by rintro e s' ⟨h, -⟩; cases h)
  · unfold unlinkNext
    simp only [Prog.bind_def]
    refine rwp_r c0 h.geo (by omega) ?_
    rw [hw8]
    by_cases hB : B = []
    · rw [if_neg (by simp [hB, hdD])]
      refine rwp_r c0 h.geo (by omega) ?_
      rw [hw0, prev_mkFree hlast]
      have eb : tailA k = bcell k B := by simp [bcell, hB]
      have ev : lastD A 0 = bval k A B := by simp [bval, hB]
      rw [eb, ev]
      exact ⟨c0, h.geo.inb hb.2.2.1, c1, rfl, rfl⟩
    · have hx := h.elem (hsub _ (List.mem_append_right _ (hdD_mem hB 0)))
      rw [if_pos (by omega)]
      refine rwp_r c0 h.geo (by omega) ?_
      rw [hw0, prev_mkFree hlast]
      have eb : hdD B 0 = bcell k B := by simp [bcell, hB]
      have ev : mkFree k (lastD A 0) = bval k A B := by simp [bval, hB]
      rw [ev, eb]
      exact ⟨c0, h.geo.inb hb.2.2.1, c1, rfl, rfl⟩
  · rintro - q ⟨-, rfl⟩
    unfold unlinkPrev
    simp only [Prog.bind_def]
    refine rwp_r c1 g1 (by omega) ?_
    rw [e0, prev_mkFree hlast]
    by_cases hA : A = []
    · rw [if_neg (by simp [hA, lastD])]
      refine rwp_r c1 g1 (by omega) ?_
      rw [e8]
      have ef : headA k = fcell k A := by simp [fcell, hA]
      rw [ef]
      exact ⟨c1, g1.inb (by omega), c2, rfl, ⟨A, B, hF, hfin.1⟩, hfin.2.1, hfin.2.2⟩
    · have hx := h.elem (hsub _ (List.mem_append_left _ (lastD_mem hA 0)))
      rw [if_pos (by omega)]
      refine rwp_r c1 g1 (by omega) ?_
      rw [e8]
      have ef : lastD A 0 + 8 = fcell k A := by simp [fcell, hA]
      rw [ef]
      exact ⟨c1, g1.inb (by omega), c2, rfl, ⟨A, B, hF, hfin.1⟩, hfin.2.1, hfin.2.2⟩

end Verif.Logarithmic
