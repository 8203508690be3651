import Verif.PropsSimple
import Verif.History
/-
Running the data structures on real pool bytes.

`compile` turns a structure method (a program over allocator blocks) into a program over raw pool bytes that uses the
modelled SimpleAllocator: `pool->at<T>(block)->field` becomes an access at byte address block + field offset,
`allocator->allocate/free/block_size/…` become the SimpleAllocator methods.  `Sim` relates the two views and
`sim_run`/`sim_crash` show that whatever is proved over every lawful allocator holds of the bytes.
-/
namespace Verif
open Simple

variable {α β : Type}

/-- allocate, reporting failure as a value -/
def tryAlloc (n : Nat) : RProg (Option Nat) :=
  ((Simple.alloc n).bind fun o => .ret (some o)).tryCatch fun _ => .ret none

/-- the raw program of a structure method over a SimpleAllocator (Allocator.hh 14-90 interface) -/
def compile : HProg α → RProg α
  | .ret a => .ret a
  | .err e => .err e
  | .ub => .ub
  | .step (.rd b o n) k => .step (.rd (b + o) n) fun v => compile (k v)
  | .step (.wr b o n v) k => .step (.wr (b + o) n v) fun u => compile (k u)
  | .step (.rdB b o n) k => .step (.rdB (b + o) n) fun v => compile (k v)
  | .step (.wrB b o bs) k => .step (.wrB (b + o) bs) fun u => compile (k u)
  | .step (.alloc n) k => (tryAlloc n).bind fun r => compile (k r)
  | .step (.free b) k => (Simple.free b).bind fun u => compile (k u)
  | .step (.bsize b) k => (Simple.blockSize b).bind fun v => compile (k v)
  | .step .getBase k => Simple.getBase.bind fun v => compile (k v)
  | .step (.setBase o) k => (Simple.setBase o).bind fun u => compile (k u)

/-- the pool's bytes show the base offset and every block of `h` -/
structure Holds (h : Heap) (p : Pool) (L : Blocks) : Prop where
  base : w p.mem 280 = h.base
  blk : ∀ x B, h.blk x = some B → 24 ≤ x ∧ (x - 24, B.size) ∈ L ∧ ∀ i, i < B.size → p.mem (x + i) = B.data i

/-- allocator consistent, and the pool's bytes show `h` (it may hold further blocks) -/
def Sim (h : Heap) (p : Pool) : Prop := ∃ L, SInv p L ∧ Holds h p L
/-- the same at a crash point: consistent once `repair` has run -/
def CSim (h : Heap) (p : Pool) : Prop := ∃ L, CInv p L ∧ Holds h p L

theorem Sim.csim {h : Heap} {p : Pool} (s : Sim h p) : CSim h p :=
  let ⟨L, h1, h2⟩ := s; ⟨L, h1.toCInv, h2⟩

theorem rwp_tryCatch {c : RProg α} {f : Err → RProg α} {Q : Out α → Pool → Prop} {I : Pool → Prop} :
    ∀ {s : Pool}, rwp c (fun out s => match out with | .ok a => Q (.ok a) s | .err e => rwp (f e) Q I s) I s →
      rwp (c.tryCatch f) Q I s := by
  induction c with
  | ret a => exact fun h => h
  | err e => exact fun h => h.2
  | ub => exact fun h => h
  | step op k ih =>
    intro s h
    cases op with
    | rd a n | wr a n v | rdB a n | wrB a bs => exact ⟨h.1, h.2.1, ih _ h.2.2⟩
    | trunc n => exact ⟨h.1, fun hc => ih _ (h.2.1 hc), fun hc => ih _ (h.2.2 hc)⟩
    | maxSize => exact ⟨h.1, ih _ h.2⟩

theorem tryAlloc_spec {p : Pool} {L : Blocks} {n : Nat} (h : SInv p L) (hs : n + p.size + 8192 < W64) :
    rwp (tryAlloc n) (fun out p' => (∃ o, out = .ok (some o) ∧ AllocPost L n p (.ok o) p') ∨
      (out = .ok none ∧ p' = p)) (AllocMid L n p) p := by
  unfold tryAlloc
  apply rwp_tryCatch
  refine rwp_bind_of (alloc_spec h hs) (fun _ h => h) ?_ ?_
  · intro o s' hp
    refine ⟨?_, Or.inl ⟨o, rfl, hp⟩⟩
    rcases hp with ⟨k, co, -, ho, hS, hk, -⟩ | ⟨ho, -⟩
    · exact ⟨_, hS.toCInv, hk, Or.inr ⟨k, co, rfl⟩⟩
    · cases ho
  · intro e s' hp
    have hpp : s' = p := by
      rcases hp with ⟨k, co, -, ho, -⟩ | ⟨ho, hpp, -⟩
      · cases ho
      · exact hpp
    subst hpp
    exact ⟨⟨L, h.toCInv, Keep.refl _ _, Or.inl rfl⟩, Or.inr ⟨rfl, rfl⟩⟩

theorem SInv.agree {p : Pool} {L : Blocks} (h : SInv p L) {b : Nat × Nat} (hb : b ∈ L) {m : Nat → UInt8}
    (hm : ∀ i, i < b.1 + 24 ∨ b.1 + 24 + b.2 ≤ i → m i = p.mem i) : SInv { p with mem := m } L := by
  have hbm := h.ch.mem hb
  have hef := eff_facts hbm.2.2.1
  have e : m = bsWr p.mem (b.1 + 24 + 0) (bsRd m (b.1 + 24) b.2) := by
    funext i
    by_cases hi : i < b.1 + 24 ∨ b.1 + 24 + b.2 ≤ i
    · rw [hm i hi, bsWr_out _ _ _ _ (by rw [bsRd_length]; omega)]
    · obtain ⟨j, rfl⟩ : ∃ j, i = b.1 + 24 + j := ⟨i - (b.1 + 24), by omega⟩
      rw [Nat.add_zero, bsWr_in _ _ _ _ (by rw [bsRd_length]; omega), bsRd_getElem]
  rw [e]
  exact h.write hb (by rw [bsRd_length]; omega)

theorem Holds.block {h : Heap} {p : Pool} {L : Blocks} (hS : CInv p L) (hh : Holds h p L) {x : Nat} {B : Block}
    (hx : h.blk x = some B) : ∃ b, (b, B.size) ∈ L ∧ x = b + 24 ∧ 320 ≤ b ∧ b % 8 = 0 ∧ b + 24 + B.size ≤ p.size := by
  obtain ⟨h1, h2, h3⟩ := hh.blk x B hx
  have hm := hS.ch.mem h2
  have := eff_facts hm.2.2.1
  simp only at hm this
  exact ⟨x - 24, h2, by omega, by omega, by omega, by omega⟩

/-- a store into a block -/
theorem Holds.store {h : Heap} {p : Pool} {L : Blocks} (hS : SInv p L) (hh : Holds h p L) {x : Nat} {B B' : Block}
    (hx : h.blk x = some B) (hsz : B'.size = B.size) {m : Nat → UInt8}
    (hout : ∀ i, i < x ∨ x + B.size ≤ i → m i = p.mem i) (hin : ∀ i, i < B.size → m (x + i) = B'.data i) :
    Sim (h.set x B') { p with mem := m } := by
  obtain ⟨b, hb, rfl, hlo, hal, hhi⟩ := hh.block hS.toCInv hx
  refine ⟨L, SInv.agree hS hb (fun i hi => hout i hi), ?_, ?_⟩
  · rw [Heap.set_base, ← hh.base]
    exact leRd_congr _ _ _ _ (fun i _ h2 => hout i (by omega))
  · intro y C hy
    rw [Heap.set_blk] at hy
    split at hy
    · rename_i e
      cases hy
      subst e
      exact ⟨by omega, by rw [hsz]; simpa using hb, fun i hi => hin i (by omega)⟩
    · rename_i e
      obtain ⟨h1, h2, h3⟩ := hh.blk y C hy
      refine ⟨h1, h2, fun i hi => ?_⟩
      refine (hout _ ?_).trans (h3 i hi)
      have e1 := hS.ch.mem h2
      have e2 := hS.ch.mem hb
      have e3 := eff_facts e1.2.2.1
      have e4 := eff_facts e2.2.2.1
      have := hS.ch.sep hb h2
      simp only at e1 e2 e3 e4 this
      rcases this with e5 | e5 | e5
      · injection e5 with e5 _; omega
      · omega
      · omega

theorem Holds.keep {h : Heap} {p p' : Pool} {L L' : Blocks} (hh : Holds h p L) (hk : Keep L p p')
    (hL : ∀ b ∈ L, b ∈ L') : Holds h p' L' := by
  refine ⟨?_, ?_⟩
  · rw [← hh.base]; exact leRd_congr _ _ _ _ (fun i h1 h2 => hk.hdr i (by omega) (by omega))
  · intro x B hx
    obtain ⟨h1, h2, h3⟩ := hh.blk x B hx
    refine ⟨h1, hL _ h2, fun i hi => ?_⟩
    have := hk.blk _ h2 i hi
    simp only at this
    rw [show x - 24 + 24 + i = x + i by omega] at this
    rw [this, h3 i hi]

theorem mem_insAt {L : Blocks} {k : Nat} {b c : Nat × Nat} : c ∈ insAt L k b ↔ c = b ∨ c ∈ L := by
  rw [(insAt_perm L k b).mem_iff]; simp

/-- what `allocate` does to the relation -/
theorem Holds.alloc {h : Heap} {p p' : Pool} {L : Blocks} {n o : Nat} (hS : SInv p L) (hh : Holds h p L)
    (hp : AllocPost L n p (.ok o) p') :
    Fresh h o n ∧ Sim (h.set o ⟨n, fun i => p'.mem (o + i)⟩) p' := by
  rcases hp with ⟨k, co, hkl, ho, hS', hk, hco, hr⟩ | ⟨ho, -⟩
  rotate_left
  · cases ho
  injection ho with ho
  subst ho
  have hmem : (co, n) ∈ insAt L k (co, n) := mem_insAt.2 (Or.inl rfl)
  have hm := hS'.ch.mem hmem
  have hef := eff_facts hm.2.2.1
  have hmx := hS'.geo.max
  simp only at hm hef
  have hnd : ∀ c ∈ L, c.1 ≠ co := by
    intro c hc e
    have hperm : (insAt L k (co, n)) = L.take k ++ (co, n) :: L.drop k := rfl
    have hch := hS'.ch
    rw [hperm, Chain.append_iff] at hch
    rw [← List.take_append_drop k L] at hc
    rcases List.mem_append.1 hc with hc | hc
    · have h1 := hch.1.mem hc
      have h2 := hch.2.1
      simp only at h2
      omega
    · have h1 := hch.2.2.2.2.mem hc
      simp only at h1
      omega
  have hfr : Fresh h (co + 24) n := by
    refine ⟨?_, ?_, by omega, by omega, by omega, by omega⟩
    · cases hb : h.blk (co + 24) with
      | none => rfl
      | some B =>
        obtain ⟨-, h2, -⟩ := hh.blk _ _ hb
        exact absurd (by simp) (hnd _ h2)
    · intro x B hx
      obtain ⟨h1, h2, h3⟩ := hh.blk _ _ hx
      have h4 := hS'.ch.sep hmem (mem_insAt.2 (Or.inr h2))
      have h5 := hnd _ h2
      have h6 := hS'.ch.mem (mem_insAt.2 (Or.inr h2))
      have h7 := eff_facts h6.2.2.1
      simp only at h4 h5 h6 h7
      rcases h4 with h4 | h4 | h4
      · injection h4 with h4 _; omega
      · omega
      · omega
  refine ⟨hfr, _, hS', ?_⟩
  have hk2 := hh.keep (L' := insAt L k (co, n)) hk (fun b hb => mem_insAt.2 (Or.inr hb))
  refine ⟨hk2.base, ?_⟩
  intro x B hx
  rw [Heap.set_blk] at hx
  split at hx
  · rename_i e
    cases hx
    subst e
    exact ⟨by omega, by simpa using hmem, fun i _ => rfl⟩
  · exact hk2.blk x B hx

theorem Holds.del {h : Heap} {p p' : Pool} {A B : Blocks} {b s : Nat} (hc : CInv p (A ++ (b, s) :: B))
    (hh : Holds h p (A ++ (b, s) :: B)) (hk : Keep (A ++ (b, s) :: B) p p') : Holds (h.del (b + 24)) p' (A ++ B) := by
  have h0 := hh.keep hk (fun _ h => h)
  refine ⟨h0.base, ?_⟩
  intro x C hx
  rw [Heap.del_blk] at hx
  split at hx
  · cases hx
  · rename_i hne
    obtain ⟨h1, h2, h3⟩ := h0.blk x C hx
    refine ⟨h1, ?_, h3⟩
    simp only [List.mem_append, List.mem_cons] at h2 ⊢
    rcases h2 with h2 | h2 | h2
    · exact Or.inl h2
    · injection h2 with h2 _; omega
    · exact Or.inr h2

theorem Holds.del' {h : Heap} {p p' : Pool} {L : Blocks} {o : Nat} (hh : Holds h p L) (hk : Keep L p p') :
    Holds (h.del o) p' L := by
  have h0 := hh.keep hk (fun _ h => h)
  refine ⟨h0.base, ?_⟩
  intro x C hx
  rw [Heap.del_blk] at hx
  split at hx
  · cases hx
  · exact h0.blk x C hx

/-- **Simulation.** If the invariant `I` holds at every step of a structure method under every lawful allocator, then at every
point where the process running the compiled method on real bytes may die, the bytes show a heap satisfying `I` once `repair` has
run; and if every completed execution satisfies `Q`, so does the compiled one. -/
theorem sim {prog : HProg α} {Q : Out α → Heap → Prop} {I : Heap → Prop} :
    ∀ {h : Heap} {p : Pool}, wp prog Q h → always prog I h → Sim h p →
      rwp (compile prog) (fun out p' => ∃ h', Q out h' ∧ Sim h' p') (fun p' => ∃ h', I h' ∧ CSim h' p') p := by
  have key : ∀ {prog : HProg α} {h : Heap}, always prog I h → I h := by
    intro prog h ha
    cases prog with
    | ret | err => exact ha
    | ub => exact ha.elim
    | step op k => cases op <;> exact ha.1
  induction prog with
  | ret a => exact fun hw ha hs => ⟨⟨_, ha, hs.csim⟩, _, hw, hs⟩
  | err e => exact fun hw ha hs => ⟨⟨_, ha, hs.csim⟩, _, hw, hs⟩
  | ub => exact fun hw _ _ => hw.elim
  | step op k ih =>
    intro h p hw ha hs
    have hI : ∃ h', I h' ∧ CSim h' p := ⟨h, key ha, hs.csim⟩
    obtain ⟨L, hS, hh⟩ := hs
    have hmin := hS.geo.min
    have hmax := hS.geo.max
    have hle := hS.geo.le
    cases op with
    | rd b o n =>
      obtain ⟨B, hB, hn, hw⟩ := hw
      obtain ⟨-, B', hB', -, ha⟩ := ha
      rw [hB] at hB'; cases hB'
      obtain ⟨c, hc, rfl, h1, h2, h3⟩ := hh.block hS.toCInv hB
      refine ⟨hI, ⟨by omega, by omega⟩, ?_⟩
      have e : leRd p.mem (c + 24 + o) n = B.rd o n :=
        leRd_shift _ _ _ _ _ (fun i hi => by
          rw [Nat.add_assoc _ o i]; exact (hh.blk _ _ hB).2.2 _ (by omega))
      rw [e]
      exact ih _ hw ha ⟨L, hS, hh⟩
    | rdB b o n =>
      obtain ⟨B, hB, hn, hw⟩ := hw
      obtain ⟨-, B', hB', -, ha⟩ := ha
      rw [hB] at hB'; cases hB'
      obtain ⟨c, hc, rfl, h1, h2, h3⟩ := hh.block hS.toCInv hB
      refine ⟨hI, ⟨by omega, by omega⟩, ?_⟩
      have e : bsRd p.mem (c + 24 + o) n = B.rdB o n :=
        bsRd_shift _ _ _ _ _ (fun i hi => by
          rw [Nat.add_assoc _ o i]; exact (hh.blk _ _ hB).2.2 _ (by omega))
      rw [e]
      exact ih _ hw ha ⟨L, hS, hh⟩
    | wr b o n v =>
      obtain ⟨B, hB, hn, hw⟩ := hw
      obtain ⟨-, B', hB', -, ha⟩ := ha
      rw [hB] at hB'; cases hB'
      obtain ⟨c, hc, rfl, h1, h2, h3⟩ := hh.block hS.toCInv hB
      refine ⟨hI, ⟨by omega, by omega⟩, ?_⟩
      refine ih _ hw ha (hh.store (B' := B.wr o n v) hS hB rfl ?_ ?_)
      · intro i hi; exact leWr_out _ _ _ _ _ (by omega)
      · intro i hi
        show leWr _ _ _ _ _ = leWr _ _ _ _ _
        unfold leWr
        by_cases hr : o ≤ i ∧ i < o + n
        · rw [if_pos (by omega), if_pos hr]; congr 3; omega
        · rw [if_neg (by omega), if_neg hr]; exact (hh.blk _ _ hB).2.2 _ hi
    | wrB b o bs =>
      obtain ⟨B, hB, hn, hw⟩ := hw
      obtain ⟨-, B', hB', -, ha⟩ := ha
      rw [hB] at hB'; cases hB'
      obtain ⟨c, hc, rfl, h1, h2, h3⟩ := hh.block hS.toCInv hB
      refine ⟨hI, ⟨by omega, by omega⟩, ?_⟩
      refine ih _ hw ha (hh.store (B' := B.wrB o bs) hS hB rfl ?_ ?_)
      · intro i hi; exact bsWr_out _ _ _ _ (by omega)
      · intro i hi
        show bsWr _ _ _ _ = bsWr _ _ _ _
        unfold bsWr
        by_cases hr : o ≤ i ∧ i < o + bs.length
        · rw [if_pos (by omega), if_pos hr]; congr 1; omega
        · rw [if_neg (by omega), if_neg hr]; exact (hh.blk _ _ hB).2.2 _ hi
    | alloc n =>
      obtain ⟨hn, hw1, hw2⟩ := hw
      obtain ⟨hIh, -, ha1, ha2⟩ := ha
      refine rwp_bind_of (tryAlloc_spec hS (by omega)) ?_ ?_ ?_
      · rintro p' ⟨L', hC, hk, hL'⟩
        refine ⟨h, hIh, L', hC, hh.keep hk ?_⟩
        intro c hc
        rcases hL' with rfl | ⟨kk, co, rfl⟩
        · exact hc
        · exact mem_insAt.2 (Or.inr hc)
      · intro r p' hr
        rcases hr with ⟨o, ho, hp⟩ | ⟨ho, rfl⟩
        · injection ho with ho
          subst ho
          obtain ⟨hf, hsim⟩ := hh.alloc hS hp
          exact ih _ (hw1 _ _ hf) (ha1 _ _ hf) hsim
        · injection ho with ho
          subst ho
          exact ih _ hw2 ha2 ⟨L, hS, hh⟩
      · intro e p' hr
        rcases hr with ⟨o, ho, -⟩ | ⟨ho, -⟩ <;> cases ho
    | free b =>
      obtain ⟨B, hB, hw⟩ := hw
      obtain ⟨hIh, B', hB', ha⟩ := ha
      obtain ⟨c, hc, rfl, h1, h2, h3⟩ := hh.block hS.toCInv hB
      obtain ⟨A, T, rfl⟩ := List.append_of_mem hc
      refine rwp_bind_of (free_spec hS) ?_ ?_ ?_
      · rintro p' ⟨hC | hC, hk⟩
        · exact ⟨_, hIh, _, hC, hh.keep hk (fun _ h => h)⟩
        · exact ⟨_, key ha, _, hC, hh.del hS.toCInv hk⟩
      · rintro u p' ⟨-, ⟨-, rfl⟩ | ⟨-, hS', hk, -⟩⟩
        · exact ih _ hw ha ⟨_, hS, hh.del' (Keep.refl _ _)⟩
        · exact ih _ hw ha ⟨_, hS', hh.del hS.toCInv hk⟩
      · rintro e p' ⟨he, -⟩; cases he
    | bsize b =>
      obtain ⟨B, hB, hw⟩ := hw
      obtain ⟨-, B', hB', ha⟩ := ha
      rw [hB] at hB'; cases hB'
      obtain ⟨c, hc, rfl, h1, h2, h3⟩ := hh.block hS.toCInv hB
      have hsb : sub64 (c + 24) 24 = c := by rw [sub64_eq (by omega) (by omega)]; omega
      have e : leRd p.mem (sub64 (c + 24) 24 + 16) 8 = B.size := by
        have := hS.fl.mem (b := (c, B.size)) hc
        rw [hsb]
        simpa [w] using this
      refine ⟨hI, ⟨by rw [hsb]; omega, by rw [hsb]; omega⟩, ?_⟩
      rw [e]
      exact ih _ hw ha ⟨L, hS, hh⟩
    | getBase =>
      refine ⟨hI, ⟨by omega, by omega⟩, ?_⟩
      have e : leRd p.mem 280 8 = h.base := hh.base
      rw [e]
      exact ih _ hw ha.2 ⟨L, hS, hh⟩
    | setBase o =>
      refine ⟨hI, ⟨by omega, by omega⟩, ?_⟩
      refine ih _ hw.2 ha.2.2 ⟨L, hS.base o, ?_, ?_⟩
      · have := put_w (p := p) (a := 280) (b := 280) (v := o) (by decide) (by decide)
        rw [if_pos rfl, Nat.mod_eq_of_lt hw.1] at this
        exact this
      · intro x B hx
        obtain ⟨b1, b2, b3⟩ := hh.blk x B hx
        refine ⟨b1, b2, fun i hi => ?_⟩
        have := (hS.ch.mem b2).1
        exact (leWr_out _ _ _ _ _ (by simp only at this; omega)).trans (b3 i hi)

/-- every program is `always`-safe for the trivial invariant if it has a `wp` -/
theorem wp_always {prog : HProg α} {Q : Out α → Heap → Prop} :
    ∀ {h : Heap}, wp prog Q h → always prog (fun _ => True) h := by
  induction prog with
  | ret a => exact fun _ => trivial
  | err e => exact fun _ => trivial
  | ub => exact fun h => h
  | step op k ih =>
    intro h hw
    cases op with
    | alloc n => exact ⟨trivial, hw.1, fun o d hf => ih _ (hw.2.1 o d hf), ih _ hw.2.2⟩
    | getBase => exact ⟨trivial, ih _ hw⟩
    | setBase => exact ⟨trivial, hw.1, ih _ hw.2⟩
    | free | bsize => obtain ⟨b, h1, h2⟩ := hw; exact ⟨trivial, b, h1, ih _ h2⟩
    | rd | wr | rdB | wrB => obtain ⟨b, h1, h2, h3⟩ := hw; exact ⟨trivial, b, h1, h2, ih _ h3⟩

/-- a completed run of a compiled method -/
theorem sim_run {prog : HProg α} {Q : Out α → Heap → Prop} {h : Heap} {p : Pool} (hw : wp prog Q h) (hs : Sim h p) :
    ∃ out p' h', run (compile prog) p = (Out.toRes out, p') ∧ Q out h' ∧ Sim h' p' := by
  obtain ⟨out, h1, h', h2, h3⟩ := rwp_run (sim hw (wp_always hw) hs)
  exact ⟨out, _, h', run_eta h1, h2, h3⟩

/-- a crash inside a compiled method, followed by `repair` -/
theorem sim_crash {prog : HProg α} {Q : Out α → Heap → Prop} {I : Heap → Prop} {h : Heap} {p : Pool} (hw : wp prog Q h)
    (ha : always prog I h) (hs : Sim h p) (c : Nat) :
    ∃ h', I h' ∧ ∃ p', run Simple.repair (crashAt c (compile prog) p) = (.ok (), p') ∧ Sim h' p' := by
  obtain ⟨h', h1, L, h2, h3⟩ := rwp_crash (sim hw ha hs) c
  obtain ⟨p', h4, h5, h6, -⟩ := repair_run h2
  exact ⟨h', h1, p', h4, L, h5, h3.keep h6 (fun _ h => h)⟩

/-- the heap shown by a pool: all allocated blocks, as the client sees them -/
def heapOf (p : Pool) (L : Blocks) : Heap where
  base := w p.mem 280
  blk := fun x => (L.find? fun b => b.1 + 24 = x).map fun b => ⟨b.2, fun i => p.mem (x + i)⟩

theorem heapOf_sim {p : Pool} {L : Blocks} (h : SInv p L) : Sim (heapOf p L) p := by
  refine ⟨L, h, rfl, ?_⟩
  intro x B hx
  simp only [heapOf, Option.map_eq_some_iff] at hx
  obtain ⟨b, hb, rfl⟩ := hx
  have h1 := List.mem_of_find?_eq_some hb
  have h2 := List.find?_some hb
  simp only [decide_eq_true_eq] at h2
  subst h2
  exact ⟨by omega, by simpa using h1, fun _ _ => rfl⟩

/-- after any client history the structures can be used on the pool -/
theorem Hist.sim {p0 p : Pool} {live lk : List (Nat × Nat)} {ex : Bool} (h : Hist p0 p live lk ex) :
    ∃ hp, Sim hp p ∧ ∀ o n, (o, n) ∈ live → ∃ B, hp.blk o = some B ∧ B.size = n ∧ ∀ i, B.data i = p.mem (o + i) := by
  obtain ⟨L, lk', hS, hp, -⟩ := h.inv
  refine ⟨heapOf p L, heapOf_sim hS, ?_⟩
  intro o n hm
  have hx : (o, n) ∈ L.map usr := hp.mem_iff.2 (List.mem_append_left _ hm)
  obtain ⟨⟨b, s⟩, hb, hx2⟩ := List.mem_map.1 hx
  injection hx2 with e1 e2
  simp only at e1 e2
  subst e1 e2
  have hf : L.find? (fun c => c.1 + 24 = b + 24) = some (b, s) := by
    cases hfd : L.find? (fun c => c.1 + 24 = b + 24) with
    | none =>
      have := List.find?_eq_none.1 hfd (b, s) hb
      simp at this
    | some c =>
      have h1 := List.mem_of_find?_eq_some hfd
      have h2 := List.find?_some hfd
      simp only [decide_eq_true_eq] at h2
      have h3 := hS.ch.sep h1 hb
      simp only at h3
      rcases h3 with h3 | h3 | h3
      · rw [h3]
      · omega
      · omega
  refine ⟨⟨s, fun i => p.mem (b + 24 + i)⟩, ?_, rfl, fun _ => rfl⟩
  simp only [heapOf]
  rw [hf]; rfl

end Verif
