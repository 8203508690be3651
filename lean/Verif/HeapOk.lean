import Verif.Sim
import Mathlib.Data.Finset.Union
import Mathlib.Order.Interval.Finset.Nat
import Mathlib.Algebra.BigOperators.Group.Finset.Basic
/-
Well-formed heaps: the live blocks are disjoint address ranges below 2^63.  Preserved by every program under every
lawful allocator, and true of the heap shown by a pool.
-/
namespace Verif
open Simple

variable {α O R S : Type}

structure HeapOk (h : Heap) : Prop where
  disj : ∀ x y B C, h.blk x = some B → h.blk y = some C → x ≠ y → x + B.size ≤ y ∨ y + C.size ≤ x
  lt : ∀ x B, h.blk x = some B → x + B.size < 9223372036854775808

theorem HeapOk.store {h : Heap} (hk : HeapOk h) {b : Nat} {B B' : Block} (hb : h.blk b = some B) (hs : B'.size = B.size) :
    HeapOk (h.set b B') := by
  have key : ∀ x C, (h.set b B').blk x = some C → ∃ D, h.blk x = some D ∧ D.size = C.size := by
    intro x C hx
    rw [Heap.set_blk] at hx
    split at hx
    · rename_i e; subst e; cases hx; exact ⟨B, hb, hs.symm⟩
    · exact ⟨C, hx, rfl⟩
  refine ⟨?_, ?_⟩
  · intro x y C D hx hy hne
    obtain ⟨C', hC, e1⟩ := key x C hx
    obtain ⟨D', hD, e2⟩ := key y D hy
    rw [← e1, ← e2]; exact hk.disj x y C' D' hC hD hne
  · intro x C hx
    obtain ⟨C', hC, e1⟩ := key x C hx
    rw [← e1]; exact hk.lt x C' hC

theorem HeapOk.del {h : Heap} (hk : HeapOk h) (b : Nat) : HeapOk (h.del b) := by
  have key : ∀ x C, (h.del b).blk x = some C → h.blk x = some C := by
    intro x C hx
    rw [Heap.del_blk] at hx
    split at hx
    · cases hx
    · exact hx
  exact ⟨fun x y C D hx hy => hk.disj x y C D (key x C hx) (key y D hy), fun x C hx => hk.lt x C (key x C hx)⟩

theorem HeapOk.new {h : Heap} (hk : HeapOk h) {o n : Nat} {d : Nat → UInt8} (hf : Fresh h o n) : HeapOk (h.set o ⟨n, d⟩) := by
  refine ⟨?_, ?_⟩
  · intro x y B C hx hy hne
    rw [Heap.set_blk] at hx hy
    split at hx <;> split at hy
    · omega
    · rename_i e1 e2; subst e1; cases hx; exact hf.disj y C hy
    · rename_i e1 e2; subst e2; cases hy; have := hf.disj x B hx; simp only; omega
    · exact hk.disj x y B C hx hy hne
  · intro x B hx
    rw [Heap.set_blk] at hx
    split at hx
    · rename_i e1; subst e1; cases hx; exact hf.lt
    · exact hk.lt x B hx

/-- no program can break well-formedness -/
theorem wp_heapOk {prog : HProg α} {Q : Out α → Heap → Prop} : ∀ {h : Heap}, HeapOk h → wp prog Q h →
    wp prog (fun out h' => Q out h' ∧ HeapOk h') h := by
  induction prog with
  | ret a => exact fun hk hw => ⟨hw, hk⟩
  | err e => exact fun hk hw => ⟨hw, hk⟩
  | ub => exact fun _ hw => hw
  | step op k ih =>
    intro h hk hw
    cases op with
    | alloc n => exact ⟨hw.1, fun o d hf => ih _ (hk.new hf) (hw.2.1 o d hf), ih _ hk hw.2.2⟩
    | getBase => exact ih _ hk hw
    | setBase => exact ⟨hw.1, ih _ ⟨hk.disj, hk.lt⟩ hw.2⟩
    | free => obtain ⟨b, h1, h2⟩ := hw; exact ⟨b, h1, ih _ (hk.del _) h2⟩
    | bsize => obtain ⟨b, h1, h2⟩ := hw; exact ⟨b, h1, ih _ hk h2⟩
    | rd | rdB => obtain ⟨b, h1, h2, h3⟩ := hw; exact ⟨b, h1, h2, ih _ hk h3⟩
    | wr | wrB => obtain ⟨b, h1, h2, h3⟩ := hw; exact ⟨b, h1, h2, ih _ (hk.store h1 rfl) h3⟩

theorem Sim.heapOk {h : Heap} {p : Pool} (s : Sim h p) : HeapOk h := by
  obtain ⟨L, hS, hh⟩ := s
  refine ⟨?_, ?_⟩
  · intro x y B C hx hy hne
    obtain ⟨b, hb, rfl, h1, h2, h3⟩ := hh.block hS.toCInv hx
    obtain ⟨c, hc, rfl, h4, h5, h6⟩ := hh.block hS.toCInv hy
    have e1 := eff_facts (hS.ch.mem hb).2.2.1
    have e2 := eff_facts (hS.ch.mem hc).2.2.1
    have e3 := hS.ch.sep hb hc
    simp only at e1 e2 e3
    rcases e3 with e3 | e3 | e3
    · injection e3 with e3 _; omega
    · omega
    · omega
  · intro x B hx
    obtain ⟨b, hb, rfl, h1, h2, h3⟩ := hh.block hS.toCInv hx
    have := hS.geo.max
    omega

/-- distinct live blocks cannot add up to more than the address space -/
theorem HeapOk.sum_lt {h : Heap} (hk : HeapOk h) {ι : Type} (l : List ι) (f : ι → Nat) (sz : ι → Nat)
    (hnd : (l.map f).Nodup) (hl : ∀ p ∈ l, ∃ B, h.blk (f p) = some B ∧ sz p ≤ B.size) :
    (l.map sz).sum ≤ 9223372036854775808 := by
  have key : ∀ l : List ι, (l.map f).Nodup → (∀ p ∈ l, ∃ B, h.blk (f p) = some B ∧ sz p ≤ B.size) →
      ∃ s : Finset Nat, s.card = (l.map sz).sum ∧ ∀ i ∈ s, ∃ p ∈ l, f p ≤ i ∧ i < f p + sz p := by
    intro l
    induction l with
    | nil => exact fun _ _ => ⟨∅, rfl, by simp⟩
    | cons a l ih =>
      intro hnd hl
      simp only [List.map_cons, List.nodup_cons] at hnd
      obtain ⟨s, hs, hm⟩ := ih hnd.2 (fun p hp => hl p (by simp [hp]))
      obtain ⟨A, hA, hA2⟩ := hl a (by simp)
      refine ⟨Finset.Ico (f a) (f a + sz a) ∪ s, ?_, ?_⟩
      · rw [Finset.card_union_of_disjoint, hs, Nat.card_Ico, List.map_cons, List.sum_cons]
        · omega
        · rw [Finset.disjoint_left]
          intro i h1 h2
          obtain ⟨p, hp, h3, h4⟩ := hm i h2
          obtain ⟨B, hB, hB2⟩ := hl p (by simp [hp])
          have hne : f a ≠ f p := by
            intro e; exact hnd.1 (by rw [e]; exact List.mem_map_of_mem hp)
          have := hk.disj _ _ _ _ hA hB hne
          rw [Finset.mem_Ico] at h1
          omega
      · intro i hi
        rw [Finset.mem_union, Finset.mem_Ico] at hi
        rcases hi with hi | hi
        · exact ⟨a, by simp, hi⟩
        · obtain ⟨p, hp, h3⟩ := hm i hi
          exact ⟨p, by simp [hp], h3⟩
  obtain ⟨s, hs, hm⟩ := key l hnd hl
  have hsub : s ⊆ Finset.range 9223372036854775808 := by
    intro i hi
    obtain ⟨p, hp, h3, h4⟩ := hm i hi
    obtain ⟨B, hB, hB2⟩ := hl p hp
    have := hk.lt _ _ hB
    rw [Finset.mem_range]; omega
  have := Finset.card_le_card hsub
  rw [Finset.card_range] at this
  omega

/-- **From every lawful allocator to bytes.** If every call of a structure refines `Spec` under the invariant `Inv`, then any sequence
of calls run on a pool that shows an `Inv` heap finishes without undefined behaviour, with results allowed by `Spec`. -/
theorem hist_run {f : O → HProg R} {Spec : S → O → Out R → S → Prop} {Inv : S → Heap → Prop} {ok : O → Prop}
    (hstep : ∀ s o h, ok o → Inv s h → wp (f o) (fun out h' => ∃ s', Spec s o out s' ∧ Inv s' h') h)
    (ops : List O) {s : S} {h : Heap} {p : Pool} (hok : ∀ o ∈ ops, ok o) (hi : Inv s h) (hs : Sim h p) :
    ∃ rs p' s' h', run (compile (hist f ops)) p = (.ok rs, p') ∧ Trace Spec s ops rs s' ∧ Inv s' h' ∧ Sim h' p' := by
  obtain ⟨out, p', h', h1, ⟨rs, s', h2, h3, h4⟩, h5⟩ := sim_run (hist_spec hstep ops s h hok hi) hs
  subst h2
  exact ⟨rs, p', s', h', h1, h3, h4, h5⟩

end Verif
