import Verif.LogRepair
import Verif.PropsLogarithmic
/-
C54: crashes inside LogarithmicAllocator::free, and inside allocate when no block has to be split
(/repo/src/LogarithmicAllocator.cc 103-155, 325-352, 566-621).
-/
namespace Verif.Logarithmic
open Verif
open Verif.Simple (w w_wr w_lt Geo put put_w put_size rwp_r rwp_w Grow)

/-- The allocator's list of free blocks of exactly the request's size class (word `304 + 8 * (order - 4)` of the pool,
LogarithmicAllocator.hh) is not empty: allocate takes its first block and splits nothing. -/
def ExactFit (p : Pool) (n : Nat) : Prop := leRd p.mem (304 + 8 * (Nat.log2 (n + 7) + 1 - 4)) 8 ≠ 0

/-- The pools a dead process can leave behind, and the client's list if the interrupted call took effect: a crash
after any number of memory accesses inside free, or inside an allocate that splits nothing; or inside the repair after
such a crash. -/
inductive Crashed (p : Pool) (live : List (Nat × Nat)) : Pool → List (Nat × Nat) → Prop
  | inFree {o n} (c : Nat) : (o, n) ∈ live → Crashed p live (crashAt c (free o) p) (live.erase (o, n))
  | inAlloc {n o p'} (c : Nat) : 1 ≤ n → n + 8 ≤ 2 ^ 30 → ExactFit p n → run (alloc n) p = (.ok o, p') →
      Crashed p live (crashAt c (alloc n) p) ((o, n) :: live)
  | again {q after} (c : Nat) : Crashed p live q after → Crashed p live (crashAt c repair q) after

/-- Client histories with crashes.  `repaired`: a process dies, the next one runs repair; the client's list is the old one or
the one after the interrupted call, whichever agrees with bytes_allocated. -/
inductive LHistX (p0 : Pool) : Pool → List (Nat × Nat) → Prop
  | base {p live} : LHist p0 p live → LHistX p0 p live
  | alloc {p live n o p'} : LHistX p0 p live → 1 ≤ n → n + 8 ≤ 2 ^ 30 → (ExactFit p n ∨ TidyEnd p live n) →
      run (alloc n) p = (.ok o, p') → LHistX p0 p' ((o, n) :: live)
  | allocFail {p live n e p'} : LHistX p0 p live → 1 ≤ n → n + 8 ≤ 2 ^ 30 → (ExactFit p n ∨ TidyEnd p live n) →
      run (alloc n) p = (.err e, p') → LHistX p0 p' live
  | free {p live o n r p'} : LHistX p0 p live → (o, n) ∈ live → run (free o) p = (r, p') → LHistX p0 p' (live.erase (o, n))
  | write {p live o n i bs r p'} : LHistX p0 p live → (o, n) ∈ live → i + bs.length ≤ n →
      run (R.wrB (o + i) bs) p = (r, p') → LHistX p0 p' live
  | repaired {p live q after live' r p'} : LHistX p0 p live → Crashed p live q after → run repair q = (r, p') →
      (live' = live ∨ live' = after) → run bytesAllocated p' = (.ok (live'.map (·.2)).sum, p') → LHistX p0 p' live'

/-! ### the invariant -/

variable {p0 p p' q : Pool} {T : Tiles} {live after : List (Nat × Nat)} {C : Prop}

theorem LiveInv.weaken (h : LiveInv C p T live) : LiveInv False p T live :=
  ⟨⟨h.rdy.inv, fun h => h.elim, h.rdy.nh⟩, h.mem, h.lo, h.nodup, h.ba, h.bc, h.cap⟩

theorem LiveInv.diskLive (h : LiveInv C p T live) : DiskLive p T live := by
  obtain ⟨F, hi⟩ := h.rdy.inv
  exact ⟨hi.disk h.rdy.nh, h.rdy.nh, h.mem, h.lo, h.nodup, h.cap⟩

/-- the bytes of every block that is in both lists -/
def Same (p q : Pool) (live live' : List (Nat × Nat)) : Prop :=
  ∀ x, x ∈ live → x ∈ live' → ∀ i, i < x.2 → q.mem (x.1 + i) = p.mem (x.1 + i)

theorem DiskLive.cru (h : DiskLive p T live) {c : Nat} (hc : CrU c T p q) : DiskLive q T live :=
  ⟨h.disk.cru hc, h.nh, h.mem, h.lo, h.nodup, by unfold Cap; rw [hc.kp.lm, hc.kp.mx]; exact h.cap⟩

theorem DiskLive.le (h : DiskLive p T live) {x j n : Nat} (ht : T x = some (j, .alloc n)) : n + 8 ≤ 2 ^ j ∧ 1 ≤ n := by
  have h1 : HdrIs (w p.mem x) j (.alloc n) := h.disk.hdr ht
  have h2 := h1.2
  have h3 := h.disk.geom.mod16 ht
  omega

/-- kept blocks keep their bytes -/
theorem LKeep.same {c : Nat} {T' : Tiles} {live' : List (Nat × Nat)} (h : DiskLive q T' live') (hk : LKeep c T' p q) (l : List (Nat × Nat)) :
    Same p q l live' := by
  rintro ⟨a, m⟩ - hx i hi
  obtain ⟨y, j, rfl, hy, -⟩ := h.tile hx
  have := (h.le hy).1
  simp only at hi ⊢
  exact hk.blk hy _ (by omega) (by omega)

theorem exact_room (h : LiveInv C p T live) {n : Nat} (h1 : 1 ≤ n) (h2 : n + 8 ≤ 2 ^ 30) (he : ExactFit p n) :
    HasRoom T (orderForSize (n + 8)) := by
  obtain ⟨F, hi⟩ := h.rdy.inv
  obtain ⟨h4, h31, -, -⟩ := order_facts h1 h2
  have ho := order_log n (by omega)
  have hw : w p.mem (headA (orderForSize (n + 8))) ≠ 0 := by
    rw [ho]
    have : headA (Nat.log2 (n + 7) + 1) = 304 + 8 * (Nat.log2 (n + 7) + 1 - 4) := by
      rw [ho] at h4; unfold headA; omega
    rw [this]; exact he
  rw [hi.lst.head _ h4 (by omega)] at hw
  cases hF : F (orderForSize (n + 8)) with
  | nil => rw [hF] at hw; exact absurd rfl hw
  | cons a t => exact ⟨a, _, Nat.le_refl _, hi.lst.hd_mem hF⟩

/-- allocate of a block that is there: crash points -/
theorem alloc_exact (h : Ready C p T) {n : Nat} (h1 : 1 ≤ n) (h2 : n + 8 ≤ 2 ^ 30)
    (hw : w p.mem (headA (orderForSize (n + 8))) ≠ 0) : ∃ o, T o = some (orderForSize (n + 8), .free) ∧
    rwp (alloc n) (fun out _ => out = .ok (o + 8)) (fun q => CrU 288 T p q ∨
      ((∃ F', LInv q (tset T o (orderForSize (n + 8)) (.alloc n)) F' (fun _ => False)) ∧ LKeep 288 T p q ∧ q.size = p.size)) p := by
  obtain ⟨F, hi⟩ := h.inv
  obtain ⟨h4, h31, hk1, hk2⟩ := order_facts h1 h2
  unfold alloc
  rw [Nat.mod_eq_of_lt (by omega : n + 8 < W64), if_neg (by omega)]
  generalize orderForSize (n + 8) = k at *
  have hmin := hi.geo.min
  have hh := hi.lst.head k h4 (by omega)
  obtain ⟨o, rr, hFo⟩ : ∃ o rr, F k = o :: rr := by
    cases hFr : F k with
    | nil => rw [hFr] at hh; exact absurd hh hw
    | cons a t => exact ⟨a, t, rfl⟩
  have c0 : CrU 288 T p p := CrU.refl _ _ hi.geo
  have hp := popHead_spec (n := n) hi hFo hk1 hk2
  have e : ((search 64 k).bind fun j => allocFrom n k j) = (R.rd64 (headA k)).bind fun h =>
      (if h = 0 ∧ k ≤ 57 then search 63 (k + 1) else pure k : RProg Nat).bind fun j => allocFrom n k j := by
    show ((R.rd64 (headA k)).bind fun h => if h = 0 ∧ k ≤ 57 then search 63 (k + 1) else pure k).bind _ = _
    rw [Prog.bind_assoc]
  refine ⟨o, hi.lst.hd_mem hFo, ?_⟩
  simp only [Prog.bind_def]
  rw [e]
  refine rwp_r (Or.inl c0) hi.geo (by unfold headA; omega) ?_
  rw [if_neg (by omega)]
  simp only [Prog.pure_def, Prog.ret_bind]
  unfold allocFrom
  rw [if_pos (by omega), Nat.sub_self]
  unfold splitDown
  simp only [Prog.pure_def, Prog.bind_def, Prog.ret_bind]
  exact rwp_mono (fun _ _ h => h.1) (fun _ h => h) hp

theorem FreeCr.diskLive (h : LiveInv C p T live) {x j n : Nat} (ht : T x = some (j, .alloc n)) (hc : FreeCr p T n j x q) :
    ∃ T' live', DiskLive q T' live' ∧ (live' = live ∨ live' = live.erase (x + 8, n)) ∧ LKeep 288 T' p q := by
  obtain ⟨T1, hd1, hall1, ho1, hk1⟩ := hc.ex
  obtain ⟨T', hd, hnh, hsa⟩ := hd1.norm
  have hk : LKeep 288 T' p q := ⟨hk1.hdr, fun hx => hk1.blk ((hsa _ _ _).1 hx), hk1.mx, hk1.lm⟩
  have hcap : Cap q := by unfold Cap; rw [hk.lm, hk.mx]; exact h.cap
  obtain ⟨hm, hj⟩ := (h.mem x j n).1 ht
  rcases ho1 with ho | ho
  · refine ⟨T', live, ⟨hd, hnh, ?_, h.lo, h.nodup, hcap⟩, Or.inl rfl, hk⟩
    intro y i m
    rw [hsa]
    by_cases e : y = x
    · subst e
      rw [ho, ← h.mem y i m, ht]
    · rw [hall1 y i m e]; exact h.mem y i m
  · refine ⟨T', live.erase (x + 8, n), ⟨hd, hnh, ?_, fun y hy => h.lo y (List.mem_of_mem_erase hy), h.nodup.erase _, hcap⟩, Or.inr rfl, hk⟩
    intro y i m
    rw [hsa]
    by_cases e : y = x
    · subst e
      constructor
      · intro hy; exact absurd hy (ho i m)
      · rintro ⟨h2, h3⟩
        exfalso
        have h4 := List.mem_of_mem_erase h2
        have h5 : T y = some (i, .alloc m) := (h.mem _ _ _).2 ⟨h4, h3⟩
        rw [ht] at h5
        have := (some_pair h5).2
        injection this with this
        subst this
        exact (List.Nodup.not_mem_erase h.nodup) h2
    · rw [hall1 y i m e, h.mem y i m]
      constructor
      · rintro ⟨h2, h3⟩
        refine ⟨(List.mem_erase_of_ne ?_).2 h2, h3⟩
        intro e2; have := congrArg Prod.fst e2; simp only at this; omega
      · rintro ⟨h2, h3⟩; exact ⟨List.mem_of_mem_erase h2, h3⟩

theorem tset_diskLive (h : LiveInv C p T live) {o k n : Nat} (ht : T o = some (k, .free)) (hk : 2 ^ k = blk n)
    (hi : ∃ F', LInv q (tset T o k (.alloc n)) F' (fun _ => False)) (hcap : Cap q) :
    DiskLive q (tset T o k (.alloc n)) ((o + 8, n) :: live) := by
  obtain ⟨F', hi⟩ := hi
  obtain ⟨F, hL⟩ := h.rdy.inv
  have hnot : ∀ m, (o + 8, m) ∉ live := by
    intro m hm
    obtain ⟨x, j, e, hx, -⟩ := h.tile hm
    have : x = o := by omega
    subst this
    rw [ht] at hx; cases (some_pair hx).2
  have hnh : ∀ x j, tset T o k (.alloc n) x ≠ some (j, .held) := by
    intro x j hx
    by_cases e : x = o
    · subst e; rw [tset_same] at hx; cases (some_pair hx).2
    · rw [tset_ne e] at hx; exact h.rdy.nh x j hx
  refine ⟨hi.disk hnh, hnh, ?_, ?_, List.nodup_cons.2 ⟨hnot n, h.nodup⟩, hcap⟩
  · intro y i m
    by_cases e : y = o
    · subst e
      rw [tset_same]
      constructor
      · intro hx
        obtain ⟨e1, e2⟩ := some_pair hx
        injection e2 with e2
        subst e1; subst e2
        exact ⟨by simp, hk⟩
      · rintro ⟨hx, h3⟩
        rcases List.mem_cons.1 hx with hx | hx
        · have : m = n := congrArg Prod.snd hx
          subst this
          rw [← hk] at h3
          rw [(Nat.pow_right_inj (by decide)).1 h3]
        · exact absurd hx (hnot m)
    · rw [tset_ne e, h.mem, List.mem_cons]
      constructor
      · rintro ⟨h1, h2⟩; exact ⟨Or.inr h1, h2⟩
      · rintro ⟨h1 | h1, h2⟩
        · have := congrArg Prod.fst h1; simp only at this; omega
        · exact ⟨h1, h2⟩
  · intro x hx
    rcases List.mem_cons.1 hx with rfl | hx
    · have := hL.geom.tile ht; simp only; omega
    · exact h.lo x hx

/-- what the headers say after a crash -/
theorem Crashed.inv (h : LiveInv C p T live) (hc : Crashed p live q after) :
    ∃ T' live', DiskLive q T' live' ∧ (live' = live ∨ live' = after) ∧ Same p q live live' ∧
      (∀ i, 8 ≤ i → i < 288 → q.mem i = p.mem i) := by
  induction hc with
  | inFree c hm =>
    obtain ⟨x, j, rfl, ht, hj⟩ := h.tile hm
    obtain ⟨T', live', h1, h2, h3⟩ := FreeCr.diskLive h ht (rwp_crash (free_spec h.rdy ht) c)
    exact ⟨T', live', h1, h2, h3.same h1 _, h3.hdr⟩
  | @inAlloc n o p' c h1 h2 he hr =>
    obtain ⟨h4, h31, -, -⟩ := order_facts h1 h2
    have ho := order_log n (by omega)
    have hw : w p.mem (headA (orderForSize (n + 8))) ≠ 0 := by
      rw [ho]
      have : headA (Nat.log2 (n + 7) + 1) = 304 + 8 * (Nat.log2 (n + 7) + 1 - 4) := by
        rw [ho] at h4; unfold headA; omega
      rw [this]; exact he
    obtain ⟨a, hfa, hs⟩ := alloc_exact h.rdy h1 h2 hw
    obtain ⟨out, h5, h6⟩ := rwp_run hs
    rw [hr, h6] at h5
    have h5 : Res.ok o = Res.ok (a + 8) := h5
    injection h5 with h5
    subst h5
    rcases rwp_crash hs c with hc | ⟨hi, hk, hz⟩
    · exact ⟨T, live, h.diskLive.cru hc, Or.inl rfl, hc.kp.same (h.diskLive.cru hc) _, hc.kp.hdr⟩
    · have hd := tset_diskLive h hfa (by rw [ho]; rfl) hi (by unfold Cap; rw [hk.lm, hk.mx]; exact h.cap)
      refine ⟨_, _, hd, Or.inr rfl, ?_, hk.hdr⟩
      rintro ⟨b, m⟩ hx - i hi
      obtain ⟨y, j, rfl, hy, -⟩ := h.tile hx
      have := (h.diskLive.le hy).1
      simp only at hi ⊢
      exact hk.blk hy _ (by omega) (by omega)
  | again c _ ih =>
    obtain ⟨T', live', h1, h2, h3, h4⟩ := ih
    have hc := rwp_crash (repair_spec h1) c
    have hd := h1.cru hc
    refine ⟨T', live', hd, h2, ?_, fun i a b => (hc.kp.hdr i a b).trans (h4 i a b)⟩
    intro x hx hx' i hi
    exact (hc.kp.same hd live' x hx' hx' i hi).trans (h3 x hx hx' i hi)

theorem Crashed.repaired (h : LiveInv C p T live) (hc : Crashed p live q after) :
    ∃ p' T' live', run repair q = (.ok (), p') ∧ LiveInv False p' T' live' ∧ (live' = live ∨ live' = after) ∧ Same p p' live live' ∧
      (∀ i, 8 ≤ i → i < 288 → p'.mem i = p.mem i) := by
  obtain ⟨T', live', h1, h2, h3, h4⟩ := hc.inv h
  obtain ⟨out, h5, h6, h7, h8⟩ := rwp_run (repair_spec h1)
  refine ⟨_, T', live', run_eta (h5.trans (by rw [h6]; rfl)), h7, h2, ?_, fun i a b => (h8.kp.hdr i a b).trans (h4 i a b)⟩
  intro x hx hx' i hi
  exact (h8.kp.same (h1.cru h8) live' x hx' hx' i hi).trans (h3 x hx hx' i hi)

theorem LiveInv.run_ba (h : LiveInv C p T live) : run bytesAllocated p = (.ok (live.map (·.2)).sum, p) := by
  obtain ⟨F, hL⟩ := h.rdy.inv
  have hmin := hL.geo.min
  exact run_bytesAllocated (hL.geo.inb (by omega)) h.ba

/-- the two lists have different totals -/
theorem Crashed.sums (h : LiveInv C p T live) (hc : Crashed p live q after) : (live.map (·.2)).sum ≠ (after.map (·.2)).sum := by
  induction hc with
  | @inFree o n c hm =>
    have e := sum_erase (f := fun x : Nat × Nat => x.2) hm
    obtain ⟨x, j, rfl, ht, hj⟩ := h.tile hm
    have := (h.diskLive.le ht).2
    simp only at e
    omega
  | @inAlloc n o p' c h1 h2 he hr =>
    simp only [List.map_cons, List.sum_cons]
    omega
  | again c _ ih => exact ih

theorem LHistX.guard (h : LiveInv C p T live) {n : Nat} (h1 : 1 ≤ n) (h2 : n + 8 ≤ 2 ^ 30) (ht : ExactFit p n ∨ TidyEnd p live n) :
    HasRoom T (orderForSize (n + 8)) ∨ Guard p T (orderForSize (n + 8)) := by
  rcases ht with ht | ht
  · exact Or.inl (exact_room h h1 h2 ht)
  · exact Or.inr (h.guardEnd h1 (by omega) ht)

section
attribute [local irreducible] run alloc free init repair Pool.size w

theorem LHistX.inv (h : LHistX p0 p live) : ∃ T, LiveInv False p T live := by
  induction h with
  | base h =>
    obtain ⟨T, hI⟩ := h.inv
    exact ⟨T, hI.weaken⟩
  | @alloc p live n o p' h h1 h2 ht hr ih =>
    obtain ⟨T, hI⟩ := ih
    obtain ⟨out, p'', h3, h4⟩ := lalloc_run hI h1 h2 (LHistX.guard hI h1 h2 ht)
    rw [hr] at h3
    injection h3 with h3 h3'
    subst h3'
    rcases h4 with ⟨o', T', ho, hg, -⟩ | ⟨ho, -⟩
    · rw [ho] at h3
      injection h3 with h3
      subst h3
      exact ⟨T', hI.got h1 h2 hg⟩
    · rw [ho] at h3; cases h3
  | @allocFail p live n e p' h h1 h2 ht hr ih =>
    obtain ⟨T, hI⟩ := ih
    obtain ⟨out, p'', h3, h4⟩ := lalloc_run hI h1 h2 (LHistX.guard hI h1 h2 ht)
    rw [hr] at h3
    injection h3 with h3 h3'
    subst h3'
    rcases h4 with ⟨o', T', ho, -⟩ | ⟨ho, hp, -⟩
    · rw [ho] at h3; cases h3
    · rw [hp]; exact ⟨T, hI⟩
  | @free p live o n r p' h hm hr ih =>
    obtain ⟨T, hI⟩ := ih
    obtain ⟨x, j, rfl, ht, hj⟩ := hI.tile hm
    obtain ⟨p'', T', h3, h4⟩ := lfree_run hI ht
    rw [hr] at h3
    injection h3 with h3 h3'
    subst h3'
    exact ⟨T', hI.freed ht h4⟩
  | @write p live o n i bs r p' h hm hi hr ih =>
    obtain ⟨T, hI⟩ := ih
    have hb := hI.block hm
    obtain ⟨F, hL⟩ := hI.rdy.inv
    have hle := hL.geo.le
    simp only at hb
    have hin : p.inb (o + i) bs.length := ⟨by omega, by omega⟩
    have hrun : run (R.wrB (o + i) bs) p = (.ok (), { p with mem := bsWr p.mem (o + i) bs }) := by
      simp only [R.wrB, run, if_pos hin]
    rw [hr] at hrun
    injection hrun with _ hrun
    subst hrun
    exact ⟨T, hI.write hm hi⟩
  | @repaired p live q after live' r p' h hc hr hl hb ih =>
    obtain ⟨T, hI⟩ := ih
    obtain ⟨p'', T', l2, h3, h4, h5, -⟩ := hc.repaired hI
    rw [hr] at h3
    injection h3 with h3 h3'
    subst h3'
    have hb2 := h4.run_ba
    rw [hb] at hb2
    injection hb2 with hb2
    injection hb2 with hb2
    have hne := hc.sums hI
    have : l2 = live' := by
      rcases h5 with rfl | rfl <;> rcases hl with rfl | rfl
      · rfl
      · exact absurd hb2.symm hne
      · exact absurd hb2 hne
      · rfl
    subst this
    exact ⟨T', h4⟩

/-- **C54, true part (repair).** When a process has died at any point inside free, or inside an allocate for whose size class a
free block is at hand (or at any point inside a repair after such a crash), the next repair succeeds.  The client's blocks
are then those it held before, with or without the block of the interrupted call; every block that was live and
still is has its bytes, and the base object offset is kept.  Missing: a crash inside an allocate that splits a block
(`C54_false`) or grows the pool (`C54_false_growth`). -/
theorem C54_repair_partial (h : LHistX p0 p live) (hc : Crashed p live q after) :
    ∃ p' live', run repair q = (.ok (), p') ∧ LHistX p0 p' live' ∧ (live' = live ∨ live' = after) ∧
      (∀ x ∈ live, x ∈ live' → ∀ i, i < x.2 → p'.mem (x.1 + i) = p.mem (x.1 + i)) ∧
      leRd p'.mem 280 8 = leRd p.mem 280 8 := by
  obtain ⟨T, hI⟩ := h.inv
  obtain ⟨p', T', live', h3, h4, h5, h6, h7⟩ := hc.repaired hI
  exact ⟨p', live', h3, h.repaired hc h3 h5 h4.run_ba, h5, h6, leRd_congr _ _ _ _ (fun i h9 h10 => h7 i (by omega) (by omega))⟩

/-- **C54, true part (blocks).** In every history with such crashes, every live block lies inside the pool behind the allocator's
own data, live blocks do not overlap, block_size of each is the size it was requested with, and bytes_allocated and bytes_free
count exactly the live blocks. -/
theorem C54_live_blocks_partial (h : LHistX p0 p live) :
    (∀ x ∈ live, 1168 ≤ x.1 ∧ x.1 % 8 = 0 ∧ x.1 + x.2 ≤ p.size ∧ p.size ≤ p.fsize) ∧
    live.Pairwise (fun x y => x.1 + x.2 ≤ y.1 ∨ y.1 + y.2 ≤ x.1) ∧
    (∀ x ∈ live, run (blockSize x.1) p = (.ok x.2, p)) ∧
    run bytesAllocated p = (.ok (live.map (·.2)).sum, p) ∧
    run bytesFree p = (.ok (p.size - 1168 - (live.map (fun x => blk x.2)).sum), p) := by
  obtain ⟨T, hI⟩ := h.inv
  obtain ⟨F, hL⟩ := hI.rdy.inv
  have hle := hL.geo.le
  have hmin := hL.geo.min
  have hsum := hI.sum_le
  have hcap := hL.cap
  refine ⟨?_, ?_, ?_, hI.run_ba, ?_⟩
  · intro x hx
    have := hI.block hx
    omega
  · refine List.Pairwise.imp_of_mem ?_ hI.disj
    intro x y hx hy h1
    have := hI.block hx
    have := hI.block hy
    omega
  · rintro ⟨a, n⟩ hx
    have hb := hI.block hx
    obtain ⟨y, j, rfl, hy, hj⟩ := hI.tile hx
    have h1 := (hL.al hy)
    simp only at hb ⊢
    exact run_blockSize (by omega) (hL.geo.inb (by omega)) h1.1 (by omega)
  · rw [run_bytesFree (hL.geo.inb (by omega)) (hL.geo.inb (by omega)) hI.bc]
    have : sub64 p.size (1168 + (live.map (fun x => blk x.2)).sum) = p.size - 1168 - (live.map (fun x => blk x.2)).sum := by
      unfold sub64
      rw [Nat.mod_eq_of_lt (by omega : 1168 + _ < W64)]
      omega
    rw [this]

/-- **C54, true part (later calls).** After such crashes and repairs, allocate returns a block apart from every live one or throws
bad_alloc and changes nothing, free of a live block returns normally, and both keep every byte of the other live blocks. -/
theorem C54_later_calls_partial (h : LHistX p0 p live) :
    (∀ n, 1 ≤ n → n + 8 ≤ 2 ^ 30 → (ExactFit p n ∨ TidyEnd p live n) → run (alloc n) p = (.err .noMem, p) ∨
      ∃ o p', run (alloc n) p = (.ok o, p') ∧ 1168 ≤ o ∧ o + n ≤ p'.size ∧ (∀ x ∈ live, x.1 + x.2 ≤ o ∨ o + n ≤ x.1) ∧
        (∀ x ∈ live, ∀ i, i < x.2 → p'.mem (x.1 + i) = p.mem (x.1 + i))) ∧
    (∀ o n, (o, n) ∈ live → ∃ p', run (free o) p = (.ok (), p') ∧ p'.size = p.size ∧
      (∀ x ∈ live.erase (o, n), ∀ i, i < x.2 → p'.mem (x.1 + i) = p.mem (x.1 + i))) := by
  obtain ⟨T, hI⟩ := h.inv
  constructor
  · intro n h1 h2 ht
    obtain ⟨out, p', h3, h4⟩ := lalloc_run hI h1 h2 (LHistX.guard hI h1 h2 ht)
    rcases h4 with ⟨o, T', ho, hg, -⟩ | ⟨ho, hp, -⟩
    · right
      subst ho
      have h5 : run (alloc n) p = (.ok (o + 8), p') := h3
      have h6 := C54_live_blocks_partial (h.alloc h1 h2 ht h5)
      have h7 := h6.1 (o + 8, n) (by simp)
      have h8 := (List.pairwise_cons.1 h6.2.1).1
      refine ⟨o + 8, p', h5, h7.1, h7.2.2.1, ?_, ?_⟩
      · intro x hx
        have := h8 x hx
        simp only at this
        omega
      · intro x hx i hi
        obtain ⟨a, m⟩ := x
        obtain ⟨y, j, rfl, hy, hj⟩ := hI.tile hx
        have h9 := (hI.block hx).2.2.2.1
        simp only at h9 hi ⊢
        exact hg.kp.blk hy _ (by omega) (by omega)
    · left; rw [h3, ho, hp]; rfl
  · intro o n hm
    obtain ⟨x, j, rfl, ht, hj⟩ := hI.tile hm
    obtain ⟨p', T', h3, h4⟩ := lfree_run hI ht
    have hI' := hI.freed ht h4
    refine ⟨p', h3, h4.sz, ?_⟩
    intro x hx i hi
    have h9 := (hI'.block hx).2.2.2.1
    obtain ⟨a, m⟩ := x
    obtain ⟨y, j, rfl, hy, hj⟩ := hI'.tile hx
    simp only at h9 hi ⊢
    exact h4.kp.blk hy _ (by omega) (by omega)

end

/-! ### concrete crashes -/

theorem run_ba_of {p : Pool} {v : Nat} (h : (run bytesAllocated p).1 = .ok v) : run bytesAllocated p = (.ok v, p) := by
  have e : run bytesAllocated p = if p.inb 288 8 then (.ok (leRd p.mem 288 8), p) else (.ub, p) := by
    simp only [bytesAllocated, R.rd64, R.rd, Prog.bind_def, Prog.step_bind, Prog.ret_bind, run, forceN_eq, Prog.pure_def]
  rw [e] at h ⊢
  split at h
  · rename_i hi
    rw [if_pos hi]
    exact Prod.ext h rfl
  · cases h

/-- allocate 100, 100, 100; die inside free of the second after 9 accesses (its header already marks it free), die again inside
repair after 60 accesses, repair: the second block is gone, the others are there, and allocate(100) returns a block -/
example : ∃ p p' live, LHistX (newPool (2 ^ 30)) p live ∧ live = [(1544, 100), (1416, 100), (1288, 100)] ∧
    Crashed p live (crashAt 60 repair (crashAt 9 (free 1416) p)) [(1544, 100), (1288, 100)] ∧
    run repair (crashAt 60 repair (crashAt 9 (free 1416) p)) = (.ok (), p') ∧
    LHistX (newPool (2 ^ 30)) p' [(1544, 100), (1288, 100)] ∧ ExactFit p' 100 := by
  have h0 : LHist (newPool (2 ^ 30)) (run init (newPool (2 ^ 30))).2 [] :=
    .start (newPool_geo _) (by rw [newPool_size]; decide) newPool_cap (by decide +kernel) (run_eta (by decide +kernel))
  have h1 := h0.alloc (n := 100) (o := 1288) (by decide) (by decide) (Or.inr (Or.inl (by decide +kernel))) (run_eta (by decide +kernel))
  have h2 := h1.alloc (n := 100) (o := 1416) (by decide) (by decide) (Or.inr (Or.inl (by decide +kernel))) (run_eta (by decide +kernel))
  have h3 := h2.alloc (n := 100) (o := 1544) (by decide) (by decide) (Or.inr (Or.inl (by decide +kernel))) (run_eta (by decide +kernel))
  have hx := LHistX.base h3
  have hc := (Crashed.inFree (p := _) (live := [(1544, 100), (1416, 100), (1288, 100)]) (o := 1416) (n := 100) 9 (by decide)).again (p :=
    (run (alloc 100) (run (alloc 100) (run (alloc 100) (run init (newPool (2 ^ 30))).2).2).2).2) 60
  refine ⟨_, _, _, hx, rfl, hc, run_eta (by decide +kernel),
    hx.repaired hc (r := .ok ()) (run_eta (by decide +kernel)) (Or.inr (by decide)) (run_ba_of ?_), ?_⟩
  · decide +kernel
  · unfold ExactFit; decide +kernel

end Verif.Logarithmic
