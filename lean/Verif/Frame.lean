import Verif.Opening
/-
The frame property: a program that is safe on some of the blocks of a heap does the same when there are others, and never touches those.
-/
namespace Verif
variable {α : Type}

/-- the heap `hs` together with the blocks `F` -/
def Heap.join (hs : Heap) (F : Nat → Option Block) : Heap := ⟨fun x => (hs.blk x).or (F x), hs.base⟩
/-- the blocks `F` are not in the heap `hs` -/
def Heap.Apart (hs : Heap) (F : Nat → Option Block) : Prop := ∀ x B, hs.blk x = some B → F x = none

namespace Heap
variable {hs : Heap} {F : Nat → Option Block} {b o n : Nat} {B : Block}

theorem join_some (h : hs.blk b = some B) : (hs.join F).blk b = some B := by
  simp [join, h]

theorem join_none (h : (hs.join F).blk b = none) : hs.blk b = none ∧ F b = none := by
  simpa [join] using h

theorem join_set (B : Block) : (hs.join F).set b B = (hs.set b B).join F := by
  simp only [join, set]
  congr 1
  funext x
  split <;> simp_all

theorem join_del (ha : hs.Apart F) (h : hs.blk b = some B) : (hs.join F).del b = (hs.del b).join F := by
  simp only [join, del]
  congr 1
  funext x
  by_cases e : x = b
  · subst e; simp [ha _ _ h]
  · simp [e]

theorem Apart.set (ha : hs.Apart F) (h : F b = none) : (hs.set b B).Apart F := by
  intro x C hx
  by_cases e : x = b
  · subst e; exact h
  · rw [set_ne _ _ _ _ e] at hx; exact ha x C hx

theorem Apart.del (ha : hs.Apart F) : (hs.del b).Apart F := by
  intro x C hx
  by_cases e : x = b
  · subst e; simp at hx
  · rw [del_ne _ _ _ e] at hx; exact ha x C hx

theorem Fresh.of_join (hf : Fresh (hs.join F) o n) : Fresh hs o n ∧ F o = none := by
  have h1 := join_none hf.none
  exact ⟨⟨h1.1, fun x B hx => hf.disj x B (join_some hx), hf.pos, hf.low, hf.align, hf.lt⟩, h1.2⟩
end Heap
open Heap

/-- **The frame property** for runs to the end. -/
theorem wp_frame {p : HProg α} {Q : Out α → Heap → Prop} {F : Nat → Option Block} : ∀ {hs : Heap}, hs.Apart F → wp p Q hs →
    wp p (fun out h' => ∃ hs', Q out hs' ∧ h' = hs'.join F ∧ hs'.Apart F) (hs.join F) := by
  induction p with
  | ret a => exact fun ha h => ⟨_, h, rfl, ha⟩
  | err e => exact fun ha h => ⟨_, h, rfl, ha⟩
  | ub => exact fun _ h => h
  | step op k ih =>
    intro hs ha hw
    cases op with
    | rd b o n => obtain ⟨B, h1, h2, h3⟩ := hw; exact ⟨B, join_some h1, h2, ih _ ha h3⟩
    | rdB b o n => obtain ⟨B, h1, h2, h3⟩ := hw; exact ⟨B, join_some h1, h2, ih _ ha h3⟩
    | wr b o n v => obtain ⟨B, h1, h2, h3⟩ := hw; exact ⟨B, join_some h1, h2, by rw [join_set]; exact ih _ (ha.set (ha b B h1)) h3⟩
    | wrB b o l => obtain ⟨B, h1, h2, h3⟩ := hw; exact ⟨B, join_some h1, h2, by rw [join_set]; exact ih _ (ha.set (ha b B h1)) h3⟩
    | alloc n =>
      refine ⟨hw.1, fun o d hf => ?_, ih _ ha hw.2.2⟩
      obtain ⟨f1, f2⟩ := Fresh.of_join hf
      rw [join_set]
      exact ih _ (ha.set f2) (hw.2.1 o d f1)
    | free b => obtain ⟨B, h1, h2⟩ := hw; exact ⟨B, join_some h1, by rw [join_del ha h1]; exact ih _ ha.del h2⟩
    | bsize b => obtain ⟨B, h1, h2⟩ := hw; exact ⟨B, join_some h1, ih _ ha h2⟩
    | getBase => exact ih _ ha hw
    | setBase o => exact ⟨hw.1, ih _ (hs := { hs with base := o }) ha hw.2⟩

/-- **The frame property** at every point of a run. -/
theorem always_frame {p : HProg α} {I : Heap → Prop} {F : Nat → Option Block} : ∀ {hs : Heap}, hs.Apart F → always p I hs →
    always p (fun h' => ∃ hs', I hs' ∧ h' = hs'.join F ∧ hs'.Apart F) (hs.join F) := by
  induction p with
  | ret a => exact fun ha h => ⟨_, h, rfl, ha⟩
  | err e => exact fun ha h => ⟨_, h, rfl, ha⟩
  | ub => exact fun _ h => h
  | step op k ih =>
    intro hs ha hw
    cases op with
    | rd b o n => obtain ⟨hi, B, h1, h2, h3⟩ := hw; exact ⟨⟨_, hi, rfl, ha⟩, B, join_some h1, h2, ih _ ha h3⟩
    | rdB b o n => obtain ⟨hi, B, h1, h2, h3⟩ := hw; exact ⟨⟨_, hi, rfl, ha⟩, B, join_some h1, h2, ih _ ha h3⟩
    | wr b o n v => obtain ⟨hi, B, h1, h2, h3⟩ := hw; exact ⟨⟨_, hi, rfl, ha⟩, B, join_some h1, h2, by rw [join_set]; exact ih _ (ha.set (ha b B h1)) h3⟩
    | wrB b o l => obtain ⟨hi, B, h1, h2, h3⟩ := hw; exact ⟨⟨_, hi, rfl, ha⟩, B, join_some h1, h2, by rw [join_set]; exact ih _ (ha.set (ha b B h1)) h3⟩
    | alloc n =>
      refine ⟨⟨_, hw.1, rfl, ha⟩, hw.2.1, fun o d hf => ?_, ih _ ha hw.2.2.2⟩
      obtain ⟨f1, f2⟩ := Fresh.of_join hf
      rw [join_set]
      exact ih _ (ha.set f2) (hw.2.2.1 o d f1)
    | free b => obtain ⟨hi, B, h1, h2⟩ := hw; exact ⟨⟨_, hi, rfl, ha⟩, B, join_some h1, by rw [join_del ha h1]; exact ih _ ha.del h2⟩
    | bsize b => obtain ⟨hi, B, h1, h2⟩ := hw; exact ⟨⟨_, hi, rfl, ha⟩, B, join_some h1, ih _ ha h2⟩
    | getBase => exact ⟨⟨_, hw.1, rfl, ha⟩, ih _ ha hw.2⟩
    | setBase o => exact ⟨⟨_, hw.1, rfl, ha⟩, hw.2.1, ih _ (hs := { hs with base := o }) ha hw.2.2⟩

end Verif
