import Verif.Heap
/-
`wpI I p Q h`: as `wp`, and in addition `I` holds after every single modification of the heap, i.e. (with `I h`) at every point between accesses at which the process may die.
-/
namespace Verif
variable {α β : Type}

def wpI (I : Heap → Prop) : HProg α → (Out α → Heap → Prop) → Heap → Prop
  | .ret a, Q, h => Q (.ok a) h
  | .err e, Q, h => Q (.err e) h
  | .ub, _, _ => False
  | .step (.rd b o n) k, Q, h => ∃ blk, h.blk b = some blk ∧ o + n ≤ blk.size ∧ wpI I (k (blk.rd o n)) Q h
  | .step (.wr b o n v) k, Q, h => ∃ blk, h.blk b = some blk ∧ o + n ≤ blk.size ∧ I (h.set b (blk.wr o n v)) ∧ wpI I (k ()) Q (h.set b (blk.wr o n v))
  | .step (.rdB b o n) k, Q, h => ∃ blk, h.blk b = some blk ∧ o + n ≤ blk.size ∧ wpI I (k (blk.rdB o n)) Q h
  | .step (.wrB b o bs) k, Q, h =>
      ∃ blk, h.blk b = some blk ∧ o + bs.length ≤ blk.size ∧ I (h.set b (blk.wrB o bs)) ∧ wpI I (k ()) Q (h.set b (blk.wrB o bs))
  | .step (.alloc n) k, Q, h =>
      n ≤ maxAlloc ∧ (∀ o d, Fresh h o n → I (h.set o ⟨n, d⟩) ∧ wpI I (k (some o)) Q (h.set o ⟨n, d⟩)) ∧ wpI I (k none) Q h
  | .step (.free b) k, Q, h => ∃ blk, h.blk b = some blk ∧ I (h.del b) ∧ wpI I (k ()) Q (h.del b)
  | .step (.bsize b) k, Q, h => ∃ blk, h.blk b = some blk ∧ wpI I (k blk.size) Q h
  | .step .getBase k, Q, h => wpI I (k h.base) Q h
  | .step (.setBase o) k, Q, h => o < W64 ∧ I { h with base := o } ∧ wpI I (k ()) Q { h with base := o }

theorem wpI.wp {I : Heap → Prop} {p : HProg α} {Q : Out α → Heap → Prop} : ∀ {h}, wpI I p Q h → Verif.wp p Q h := by
  induction p with
  | ret a => exact fun h => h
  | err e => exact fun h => h
  | ub => exact fun h => h
  | step op k ih =>
    intro h hw
    cases op <;> simp only [wpI, Verif.wp] at hw ⊢
    case alloc n => exact ⟨hw.1, fun o d hf => ih _ (hw.2.1 o d hf).2, ih _ hw.2.2⟩
    case getBase => exact ih _ hw
    case setBase => exact ⟨hw.1, ih _ hw.2.2⟩
    case free => obtain ⟨b, h1, -, h2⟩ := hw; exact ⟨b, h1, ih _ h2⟩
    case bsize => obtain ⟨b, h1, h2⟩ := hw; exact ⟨b, h1, ih _ h2⟩
    case rd | rdB => obtain ⟨b, h1, h2, h3⟩ := hw; exact ⟨b, h1, h2, ih _ h3⟩
    all_goals (obtain ⟨b, h1, h2, -, h3⟩ := hw; exact ⟨b, h1, h2, ih _ h3⟩)

theorem wpI.always {I : Heap → Prop} {p : HProg α} {Q : Out α → Heap → Prop} : ∀ {h}, I h → wpI I p Q h → Verif.always p I h := by
  induction p with
  | ret a => exact fun h _ => h
  | err e => exact fun h _ => h
  | ub => exact fun _ h => h
  | step op k ih =>
    intro h hI hw
    cases op <;> simp only [wpI, Verif.always] at hw ⊢ <;> refine ⟨hI, ?_⟩
    case alloc n => exact ⟨hw.1, fun o d hf => ih _ (hw.2.1 o d hf).1 (hw.2.1 o d hf).2, ih _ hI hw.2.2⟩
    case getBase => exact ih _ hI hw
    case setBase => exact ⟨hw.1, ih _ hw.2.1 hw.2.2⟩
    case free => obtain ⟨b, h1, h2, h3⟩ := hw; exact ⟨b, h1, ih _ h2 h3⟩
    case bsize => obtain ⟨b, h1, h2⟩ := hw; exact ⟨b, h1, ih _ hI h2⟩
    case rd | rdB => obtain ⟨b, h1, h2, h3⟩ := hw; exact ⟨b, h1, h2, ih _ hI h3⟩
    all_goals (obtain ⟨b, h1, h2, h3, h4⟩ := hw; exact ⟨b, h1, h2, ih _ h3 h4⟩)

theorem wpI_mono {I I' : Heap → Prop} (hI : ∀ h, I h → I' h) {p : HProg α} {Q Q' : Out α → Heap → Prop} (hQ : ∀ o h, Q o h → Q' o h) :
    ∀ {h}, wpI I p Q h → wpI I' p Q' h := by
  induction p with
  | ret a => exact fun h => hQ _ _ h
  | err e => exact fun h => hQ _ _ h
  | ub => exact fun h => h
  | step op k ih =>
    intro h hw
    cases op <;> simp only [wpI] at hw ⊢
    case alloc n => exact ⟨hw.1, fun o d hf => ⟨hI _ (hw.2.1 o d hf).1, ih _ (hw.2.1 o d hf).2⟩, ih _ hw.2.2⟩
    case getBase => exact ih _ hw
    case setBase => exact ⟨hw.1, hI _ hw.2.1, ih _ hw.2.2⟩
    case free => obtain ⟨b, h1, h2, h3⟩ := hw; exact ⟨b, h1, hI _ h2, ih _ h3⟩
    case bsize => obtain ⟨b, h1, h2⟩ := hw; exact ⟨b, h1, ih _ h2⟩
    case rd | rdB => obtain ⟨b, h1, h2, h3⟩ := hw; exact ⟨b, h1, h2, ih _ h3⟩
    all_goals (obtain ⟨b, h1, h2, h3, h4⟩ := hw; exact ⟨b, h1, h2, hI _ h3, ih _ h4⟩)

def wpIK (I : Heap → Prop) (f : α → HProg β) (Q : Out β → Heap → Prop) : Out α → Heap → Prop
  | .ok a, h => wpI I (f a) Q h
  | .err e, h => Q (.err e) h

theorem wpI_bind {I : Heap → Prop} (p : HProg α) (f : α → HProg β) (Q : Out β → Heap → Prop) (h : Heap) :
    wpI I (p.bind f) Q h ↔ wpI I p (wpIK I f Q) h := by
  induction p generalizing h with
  | ret a => exact Iff.rfl
  | err e => exact Iff.rfl
  | ub => exact Iff.rfl
  | step op k ih => cases op <;> simp only [Prog.step_bind, wpI, ih]

theorem wpI_bind_of {I : Heap → Prop} {p : HProg α} {f : α → HProg β} {Q : Out β → Heap → Prop} {h : Heap} {R : Out α → Heap → Prop} (hp : wpI I p R h)
    (hk : ∀ a h', R (.ok a) h' → wpI I (f a) Q h') (he : ∀ e h', R (.err e) h' → Q (.err e) h') : wpI I (p.bind f) Q h := by
  rw [wpI_bind]
  refine wpI_mono (fun _ h => h) ?_ hp
  intro o h' hR
  cases o with
  | ok a => exact hk a h' hR
  | err e => exact he e h' hR

section rules
variable {I : Heap → Prop} {Q : Out α → Heap → Prop} {h : Heap} {b o n : Nat} {B : Block}
theorem wpI_ret {a : α} (hq : Q (.ok a) h) : wpI I (.ret a) Q h := hq
theorem wpI_rd {k : Nat → HProg α} (hb : h.blk b = some B) (ho : o + n ≤ B.size) (hk : wpI I (k (B.rd o n)) Q h) : wpI I ((H.rd b o n).bind k) Q h := ⟨B, hb, ho, hk⟩
theorem wpI_wr {v : Nat} {k : Unit → HProg α} (hb : h.blk b = some B) (ho : o + n ≤ B.size) (hi : I (h.set b (B.wr o n v)))
    (hk : wpI I (k ()) Q (h.set b (B.wr o n v))) : wpI I ((H.wr b o n v).bind k) Q h := ⟨B, hb, ho, hi, hk⟩
theorem wpI_rdB {k : Bytes → HProg α} (hb : h.blk b = some B) (ho : o + n ≤ B.size) (hk : wpI I (k (B.rdB o n)) Q h) : wpI I ((H.rdB b o n).bind k) Q h := ⟨B, hb, ho, hk⟩
theorem wpI_wrB {bs : Bytes} {k : Unit → HProg α} (hb : h.blk b = some B) (ho : o + bs.length ≤ B.size) (hi : I (h.set b (B.wrB o bs)))
    (hk : wpI I (k ()) Q (h.set b (B.wrB o bs))) : wpI I ((H.wrB b o bs).bind k) Q h := ⟨B, hb, ho, hi, hk⟩
theorem wpI_alloc {k : Nat → HProg α} (hn : n ≤ maxAlloc)
    (hk : ∀ o d, Fresh h o n → I (h.set o ⟨n, d⟩) ∧ wpI I (k o) Q (h.set o ⟨n, d⟩)) (he : Q (.err .noMem) h) : wpI I ((H.alloc n).bind k) Q h := ⟨hn, hk, he⟩
theorem wpI_free {k : Unit → HProg α} (hb : h.blk b = some B) (hi : I (h.del b)) (hk : wpI I (k ()) Q (h.del b)) : wpI I ((H.free b).bind k) Q h := ⟨B, hb, hi, hk⟩
theorem wpI_bsize {k : Nat → HProg α} (hb : h.blk b = some B) (hk : wpI I (k B.size) Q h) : wpI I ((H.bsize b).bind k) Q h := ⟨B, hb, hk⟩
end rules

/-- a read-only specification serves for any crash invariant -/
theorem bind_ret (p : HProg α) : p.bind .ret = p := by
  induction p with
  | ret | err | ub => rfl
  | step op k ih => simp only [Prog.step_bind]; congr 1; funext r; exact ih r

end Verif
