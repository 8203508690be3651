import Verif.LogAlloc
/-
Taking a block off its list and marking it allocated; the counters.
-/
namespace Verif.Logarithmic
open Verif
open Verif.Simple (w w_wr w_lt Geo put put_w put_size rwp_r rwp_w Grow)

variable {p p' : Pool} {T : Tiles} {F : Nat → List Nat} {E : Nat → Prop} {o k n : Nat} {s : St}

theorem put_comm {a b v u : Nat} (h : a + 8 ≤ b ∨ b + 8 ≤ a) : put (put p a v) b u = put (put p b u) a v := by
  show ({ p with mem := leWr (leWr p.mem a 8 v) b 8 u } : Pool) = { p with mem := leWr (leWr p.mem b 8 u) a 8 v }
  have : leWr (leWr p.mem a 8 v) b 8 u = leWr (leWr p.mem b 8 u) a 8 v := by
    funext i
    unfold leWr
    by_cases h1 : a ≤ i ∧ i < a + 8
    · rw [if_neg (by omega), if_pos h1, if_pos h1]
    · by_cases h2 : b ≤ i ∧ i < b + 8
      · rw [if_pos h2, if_neg h1, if_pos h2]
      · rw [if_neg h2, if_neg h1, if_neg h1, if_neg h2]
  rw [this]

/-- the words the invariant looks at -/
theorem LInv.congr (h : LInv p T F E) (hg : Geo p') (hsz : p'.size = p.size)
    (h1 : ∀ a, a % 8 = 0 → 304 ≤ a → a + 8 ≤ 1168 → w p'.mem a = w p.mem a)
    (h2 : ∀ {x k}, T x = some (k, .free) → w p'.mem x = w p.mem x ∧ w p'.mem (x + 8) = w p.mem (x + 8))
    (h3 : ∀ {x k n}, T x = some (k, .alloc n) → w p'.mem x = w p.mem x) : LInv p' T F E := by
  refine ⟨hg, by rw [hsz]; exact h.cap, by rw [hsz]; exact h.geom, ⟨h.lst.mem, h.lst.nodup, ?_, ?_, ?_⟩, ?_⟩
  · intro k h4 h5; have := headA_b h4 h5; rw [h1 _ (by omega) (by omega) (by omega)]; exact h.lst.head k h4 h5
  · intro k h4 h5; have := tailA_b h4 h5; rw [h1 _ (by omega) (by omega) (by omega)]; exact h.lst.tail k h4 h5
  · intro k; exact (h.lst.seg k).congr (fun x hx => h2 ((h.lst.mem k x).1 hx))
  · intro x k n hx; rw [h3 hx]; exact h.al hx

/-- storing into the header below the lists -/
theorem LInv.put_hdr (h : LInv p T F E) {a v : Nat} (h8 : a % 8 = 0) (ha : 8 ≤ a) (hb : a + 8 ≤ 304) : LInv (put p a v) T F E := by
  refine h.congr (h.geo.put ha) (put_size ha) ?_ ?_ ?_
  · intro b h1 h2 h3; rw [put_w h8 h1, if_neg (by omega)]
  · intro x k hx
    have := h.geom.mod16 hx
    rw [put_w h8 (by omega), put_w h8 (by omega), if_neg (by omega), if_neg (by omega)]
    exact ⟨rfl, rfl⟩
  · intro x k n hx
    have := h.geom.mod16 hx
    rw [put_w h8 (by omega), if_neg (by omega)]

/-- marking a held block allocated -/
theorem LInv.setAlloc (h : LInv p T F E) (ht : T o = some (k, .held)) (h1 : n + 8 ≤ 2 ^ k) (h2 : 2 ^ k < 2 * (n + 8)) :
    LInv (put p o (mkAlloc n)) (tset T o k (.alloc n)) F E := by
  have h0 := h.geom.mod16 ht
  have hk := h.geom.tile ht
  have hcap := h.cap
  have hp : 2 ^ k < 2 ^ 31 := by omega
  have hh : LInv (put p o (mkAlloc n)) T F E := by
    refine h.congr (h.geo.put (by omega)) (put_size (by omega)) ?_ ?_ ?_
    · intro b h1 h2 h3; rw [put_w (by omega) h1, if_neg (by omega)]
    · intro x j hx
      have := h.geom.mod16 hx
      have hne : x ≠ o := by rintro rfl; rw [ht] at hx; cases (some_pair hx).2
      rw [put_w (by omega) (by omega), put_w (by omega) (by omega), if_neg hne, if_neg (by omega)]
      exact ⟨rfl, rfl⟩
    · intro x j m hx
      have := h.geom.mod16 hx
      have hne : x ≠ o := by rintro rfl; rw [ht] at hx; cases (some_pair hx).2
      rw [put_w (by omega) (by omega), if_neg hne]
  refine ⟨hh.geo, hh.cap, hh.geom.setSt ht _, ⟨?_, hh.lst.nodup, hh.lst.head, hh.lst.tail, hh.lst.seg⟩, ?_⟩
  · intro j x
    rw [hh.lst.mem j x]
    by_cases e : x = o
    · subst e; rw [tset_same, ht]
      constructor
      · intro hx; cases (some_pair hx).2
      · intro hx; cases (some_pair hx).2
    · rw [tset_ne e]
  · intro x j m hx
    by_cases e : x = o
    · subst e; rw [tset_same] at hx
      obtain ⟨e1, e2⟩ := some_pair hx
      injection e2 with e2
      subst e1; subst e2
      refine ⟨?_, h1, h2⟩
      rw [put_w (by omega) (by omega), if_pos rfl, Nat.mod_eq_of_lt (mkAlloc_lt (by omega))]
    · rw [tset_ne e] at hx; exact hh.al hx

/-- an allocated block whose client gives it up -/
theorem LInv.release (h : LInv p T F E) (ht : T o = some (k, .alloc n)) : LInv p (tset T o k .held) F E := by
  refine ⟨h.geo, h.cap, h.geom.setSt ht _, ⟨?_, h.lst.nodup, h.lst.head, h.lst.tail, h.lst.seg⟩, ?_⟩
  · intro j x
    rw [h.lst.mem j x]
    by_cases e : x = o
    · subst e; rw [tset_same, ht]
      constructor
      · intro hx; cases (some_pair hx).2
      · intro hx; cases (some_pair hx).2
    · rw [tset_ne e]
  · intro x j m hx
    by_cases e : x = o
    · subst e; rw [tset_same] at hx; cases (some_pair hx).2
    · rw [tset_ne e] at hx; exact h.al hx

theorem CoalX.alloc {C : Prop} (h : CoalX C T o) : Coal C (Logarithmic.tset T o k (.alloc n)) := by
  intro hC x j h1 h2
  have e1 : x ≠ o := by rintro rfl; rw [tset_same] at h1; cases (some_pair h1).2
  have e2 : x ^^^ 2 ^ j ≠ o := by
    intro e; rw [e, tset_same] at h2; cases (some_pair h2).2
  rw [tset_ne e1] at h1
  rw [tset_ne e2] at h2
  exact h hC x j e1 e2 h1 h2

theorem Coal.x {C : Prop} (h : Coal C T) : CoalX C T o := fun hC x j _ _ h1 h2 => h hC x j h1 h2

/-- the two counters after adding a block -/
def counted (p : Pool) (n k : Nat) : Pool := put (put p 288 (w p.mem 288 + n)) 296 (w p.mem 296 + 2 ^ k)

theorem counted_w {a : Nat} (ha : a % 8 = 0) : w (counted p n k).mem a =
    if a = 296 then (w p.mem 296 + 2 ^ k) % W64 else if a = 288 then (w p.mem 288 + n) % W64 else w p.mem a := by
  unfold counted
  rw [put_w (by decide) ha]
  split
  · rfl
  · rw [put_w (by decide) ha]
theorem counted_size : (counted p n k).size = p.size := by unfold counted; rw [put_size (by decide), put_size (by decide)]
theorem LInv.counted (h : LInv p T F E) : LInv (counted p n k) T F E :=
  (h.put_hdr (by decide) (by decide) (by decide)).put_hdr (by decide) (by decide) (by decide)
theorem LKeep.counted {q : Pool} (hg : Geom T E p.size) (h : LKeep 288 T q p) : LKeep 288 T q (counted p n k) :=
  LKeep.put (by decide) (by decide) hg
    (LKeep.put (by decide) (by decide) hg h (Or.inl (by omega))) (Or.inl (by omega))

theorem account_spec (hg : Geo p) (hk : k < 31) :
    rwp (account n k) (fun out p' => out = .ok () ∧ p' = counted p n k)
      (fun p' => p' = p ∨ p' = put p 288 (w p.mem 288 + n) ∨ p' = counted p n k) p := by
  have hmin := hg.min
  have g1 := hg.put (a := 288) (v := w p.mem 288 + n) (by decide)
  have z1 := put_size (p := p) (a := 288) (v := w p.mem 288 + n) (by decide)
  unfold account
  simp only [Prog.bind_def]
  refine rwp_r (Or.inl rfl) hg (by omega) ?_
  refine rwp_w (Or.inl rfl) hg (by omega) ?_
  rw [sizeForOrder_eq hk]
  simp only [Prog.pure_def, Prog.ret_bind]
  refine rwp_r (Or.inr (Or.inl rfl)) g1 (by omega) ?_
  rw [put_w (by decide) (by decide), if_neg (by decide)]
  exact ⟨Or.inr (Or.inl rfl), g1.inb (by omega), Or.inr (Or.inr rfl), rfl, rfl⟩

theorem popHead_spec {r : List Nat} (h : LInv p T F E) (hF : F k = o :: r) (h1 : n + 8 ≤ 2 ^ k) (h2 : 2 ^ k < 2 * (n + 8)) :
    rwp (popHead n k) (fun out p' => out = .ok (o + 8) ∧ (∃ F', LInv p' (tset T o k (.alloc n)) F' E) ∧ LKeep 288 T p p' ∧
      p'.size = p.size ∧ w p'.mem 288 = (w p.mem 288 + n) % W64 ∧ w p'.mem 296 = (w p.mem 296 + 2 ^ k) % W64)
      (fun p' => CrU 288 T p p' ∨ ((∃ F', LInv p' (tset T o k (.alloc n)) F' E) ∧ LKeep 288 T p p' ∧ p'.size = p.size)) p := by
  have ht : T o = some (k, .free) := h.lst.hd_mem hF
  have hmin := h.geo.min
  have hk := h.geom.ord_lt ht h.cap
  have h4 := (h.geom.tile ht).1
  have ho := h.geom.mod16 ht
  have hh := headA_b h4 (by omega : k ≤ 57)
  have htl := tailA_b h4 (by omega : k ≤ 57)
  have hhead := h.lst.head k h4 (by omega)
  have hseg := h.lst.seg k
  rw [hF] at hseg hhead
  have hw8 : w p.mem (o + 8) = hdD r 0 := hseg.2.1
  have hFr : F k = [] ++ o :: r := hF
  obtain ⟨hu1, hu2, hu3⟩ := h.unlinked ht hFr
  have hr : ∀ x ∈ r, x ∈ F k := fun x hx => by rw [hF]; simp [hx]
  obtain ⟨hb, -⟩ := h.cells (A := []) (B := r) ht hr
  have hbh : headA k + 8 ≤ bcell k r ∨ bcell k r + 8 ≤ headA k := by
    unfold bcell
    split
    · have := head_ne_tail (j := k) h4 (by omega); omega
    · rename_i hB
      have := h.elem (hr _ (hdD_mem hB 0)); omega
  rw [show fcell k [] = headA k from rfl, ← put_comm hbh] at hu1 hu2 hu3
  generalize hq : put (put p (headA k) (hdD r 0)) (bcell k r) (bval k [] r) = q at hu1 hu2 hu3
  have g1 := h.geo.put (a := headA k) (v := hdD r 0) (by omega)
  have z1 := put_size (p := p) (a := headA k) (v := hdD r 0) (by omega)
  have c0 : CrU 288 T p p := CrU.refl _ _ h.geo
  have ht1 := head_top hk
  have c1 : CrU 288 T p (put p (headA k) (hdD r 0)) :=
    c0.put (by decide) (by decide) h.geom (Or.inl (by omega)) (by omega) (by omega) (by omega)
  have c2 : CrU 288 T p q := by
    refine ⟨hu2.weaken (by omega), hu3, hu1.geo, ?_, hu1.top.1.trans h.top.1.symm, hu1.top.2.trans h.top.2.symm⟩
    rw [← hq]
    by_cases hB : r = []
    · exact c1.hk.put hb.1 (by simp only [bcell, hB, if_true]; omega)
    · have ev : bval k [] r = mkFree k 0 := by simp [bval, hB, lastD]
      have eb : bcell k r = hdD r 0 := by simp [bcell, hB]
      have hx := h.elem (hr _ (hdD_mem hB 0))
      obtain ⟨A', B', hF', hw0', -⟩ := h.lst.seg_mem hx.1
      have hlast' : lastD A' 0 < 2 ^ 57 := h.last_lt (k := k) (fun x hx => by rw [hF']; simp [hx])
      have ew : w (put p (headA k) (hdD r 0)).mem (bcell k r) = mkFree k (lastD A' 0) := by
        rw [put_w (by omega) hb.1, if_neg (by omega), eb, hw0']
      refine c1.hk.put_hdr hb.1 ?_ ?_ ?_ ?_
      · rw [ev]; have := mkFree_lt (k := k) (pv := 0) (by omega) (by decide); omega
      · rw [ew, alloc_mkFree (by omega) hlast']
      · rw [ev, alloc_mkFree (by omega) (by decide)]
      · rw [ev, ew, order_mkFree (by omega) (by decide), order_mkFree (by omega) hlast']
  have gc : ∀ p', (p' = q ∨ p' = put q 288 (w q.mem 288 + n) ∨ p' = counted q n k) → CrU 288 T p p' := by
    have c3 := c2.put (v := w q.mem 288 + n) (a := 288) (by decide) (by decide) h.geom (Or.inl (by omega)) (by omega) (by omega) (by omega)
    have c4 := c3.put (v := w q.mem 296 + 2 ^ k) (a := 296) (by decide) (by decide) h.geom (Or.inl (by omega)) (by omega) (by omega) (by omega)
    rintro p' (rfl | rfl | rfl)
    · exact c2
    · exact c3
    · exact c4
  unfold popHead
  simp only [Prog.bind_def]
  refine rwp_r (Or.inl c0) h.geo (by omega) ?_
  rw [hhead]
  simp only [hdD]
  refine rwp_r (Or.inl c0) h.geo (by omega) ?_
  rw [hw8]
  refine rwp_w (Or.inl c0) h.geo (by omega) ?_
  refine rwp_r (Or.inl c1) g1 (by omega) ?_
  rw [put_w (by omega) (by omega), if_neg (by omega), hw8]
  refine rwp_bind_of (T := fun out p' => out = .ok () ∧ p' = q) (J := CrU 288 T p) ?_ (fun _ h => Or.inl h) ?_
    (by rintro e s' ⟨h, -⟩; cases h)
  · unfold popFix
    rw [← hq]
    by_cases hB : r = []
    · subst hB
      exact ⟨c1, g1.inb (by omega), (show CrU 288 T p (put (put p (headA k) (hdD [] 0)) (bcell k []) (bval k [] [])) from by rw [hq]; exact c2), rfl, rfl⟩
    · have hx := h.elem (hr _ (hdD_mem hB 0))
      rw [if_pos (by omega)]
      have eb : hdD r 0 = bcell k r := by simp [bcell, hB]
      have ev : mkFree k 0 = bval k [] r := by simp [bval, hB, lastD]
      rw [ev, show R.wr64 (hdD r 0) (bval k [] r) = R.wr64 (bcell k r) (bval k [] r) from by rw [eb]]
      exact ⟨c1, g1.inb (by omega), (show CrU 288 T p (put (put p (headA k) (hdD r 0)) (bcell k r) (bval k [] r)) from by rw [hq]; exact c2), rfl, rfl⟩
  · rintro - q' ⟨-, rfl⟩
    have gq := hu1.geo
    refine rwp_bind_of (account_spec (n := n) gq hk) (fun p' h => Or.inl (gc p' h)) ?_ (by rintro e s' ⟨h, -⟩; cases h)
    rintro - q2 ⟨-, rfl⟩
    have hc := hu1.counted (n := n) (k := k)
    have hsa := hc.setAlloc (tset_same _ _ _ _) h1 h2
    have e1 : tset (tset T o k .held) o k (.alloc n) = tset T o k (.alloc n) := by
      funext x; unfold tset; split <;> rfl
    rw [e1] at hsa
    have hzc := counted_size (p := q') (n := n) (k := k)
    have hkp : LKeep 288 T p (counted q' n k) := LKeep.counted (by rw [hu3]; exact h.geom) (hu2.weaken (by omega))
    have hkf : LKeep 288 T p (put (counted q' n k) o (mkAlloc n)) :=
      LKeep.put (by decide) (by decide) h.geom hkp (Or.inr ⟨o, k, _, ht, by intro n; simp, by omega, by omega⟩)
    refine ⟨Or.inl (gc _ (Or.inr (Or.inr rfl))), hc.geo.inb (by omega), Or.inr ⟨⟨_, hsa⟩, hkf, (put_size (by omega)).trans (hzc.trans hu3)⟩, rfl, ⟨_, hsa⟩, hkf, (put_size (by omega)).trans (hzc.trans hu3), ?_, ?_⟩
    · show w (put (counted q' n k) o (mkAlloc n)).mem 288 = _
      rw [put_w (by omega) (by decide), if_neg (by omega), counted_w (by decide), if_neg (by decide), if_pos rfl, hu2.w (by omega) (by omega)]
    · show w (put (counted q' n k) o (mkAlloc n)).mem 296 = _
      rw [put_w (by omega) (by decide), if_neg (by omega), counted_w (by decide), if_pos rfl, hu2.w (by omega) (by omega)]

end Verif.Logarithmic
