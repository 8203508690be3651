import Verif.Cost
import Verif.ReadOnly
/-
Bounds on the cost of a program that starts in a given heap, without proving again that its accesses are in bounds (partial correctness; the specifications without costs
supply the rest, `cev_and`).
-/
namespace Verif

/-- from `c` to `c'` exactly `a` allocations and `f` frees, and at most `x` accesses and `y` copied bytes -/
structure Cost.Upto (c c' : Cost) (a f x y : Nat) : Prop where
  allocs : c'.allocs = c.allocs + a
  frees : c'.frees = c.frees + f
  acc : c'.acc ≤ c.acc + x
  bytes : c'.bytes ≤ c.bytes + y

/-- from `c` to `c'` at most `a` allocations, `f` frees, `x` accesses and `y` copied bytes -/
structure Cost.Max (c c' : Cost) (a f x y : Nat) : Prop where
  allocs : c'.allocs ≤ c.allocs + a
  frees : c'.frees ≤ c.frees + f
  acc : c'.acc ≤ c.acc + x
  bytes : c'.bytes ≤ c.bytes + y

theorem Cost.Upto.max {c c' : Cost} {a f x y : Nat} (h : c.Upto c' a f x y) : c.Max c' a f x y :=
  ⟨Nat.le_of_eq h.allocs, Nat.le_of_eq h.frees, h.acc, h.bytes⟩

theorem Cost.Upto.refl (c : Cost) {x y : Nat} : c.Upto c 0 0 x y := ⟨rfl, rfl, Nat.le_add_right _ _, Nat.le_add_right _ _⟩

theorem Cost.Upto.mono {c c' : Cost} {a f x y x' y' : Nat} (h : c.Upto c' a f x y) (h3 : x ≤ x') (h4 : y ≤ y') : c.Upto c' a f x' y' := by
  obtain ⟨u1, u2, u3, u4⟩ := h
  constructor <;> omega

theorem Cost.Upto.trans {c d e : Cost} {a f x y a' f' x' y' : Nat} (h : c.Upto d a f x y) (h' : d.Upto e a' f' x' y') : c.Upto e (a + a') (f + f') (x + x') (y + y') := by
  obtain ⟨u1, u2, u3, u4⟩ := h
  obtain ⟨v1, v2, v3, v4⟩ := h'
  constructor <;> omega

theorem Cost.Max.refl (c : Cost) {a f x y : Nat} : c.Max c a f x y := ⟨Nat.le_add_right _ _, Nat.le_add_right _ _, Nat.le_add_right _ _, Nat.le_add_right _ _⟩

theorem Cost.Max.mono {c c' : Cost} {a f x y a' f' x' y' : Nat} (h : c.Max c' a f x y) (h1 : a ≤ a') (h2 : f ≤ f') (h3 : x ≤ x') (h4 : y ≤ y') : c.Max c' a' f' x' y' := by
  obtain ⟨u1, u2, u3, u4⟩ := h
  constructor <;> omega

theorem Cost.Max.trans {c d e : Cost} {a f x y a' f' x' y' : Nat} (h : c.Max d a f x y) (h' : d.Max e a' f' x' y') : c.Max e (a + a') (f + f') (x + x') (y + y') := by
  obtain ⟨u1, u2, u3, u4⟩ := h
  obtain ⟨v1, v2, v3, v4⟩ := h'
  constructor <;> omega

variable {α β : Type}

/-- every execution of `p` from heap `h` and cost `c` with a lawful allocator that returns or throws, ends in `Q` (outcome, cost, heap) -/
def cev : HProg α → (Out α → Cost → Heap → Prop) → Cost → Heap → Prop
  | .ret a, Q, c, h => Q (.ok a) c h
  | .err e, Q, c, h => Q (.err e) c h
  | .ub, _, _, _ => True
  | .step (.rd b o n) k, Q, c, h => ∀ B, h.blk b = some B → cev (k (B.rd o n)) Q (c + hcost (.rd b o n)) h
  | .step (.wr b o n v) k, Q, c, h => ∀ B, h.blk b = some B → cev (k ()) Q (c + hcost (.wr b o n v)) (h.set b (B.wr o n v))
  | .step (.rdB b o n) k, Q, c, h => ∀ B, h.blk b = some B → cev (k (B.rdB o n)) Q (c + hcost (.rdB b o n)) h
  | .step (.wrB b o bs) k, Q, c, h => ∀ B, h.blk b = some B → cev (k ()) Q (c + hcost (.wrB b o bs)) (h.set b (B.wrB o bs))
  | .step (.alloc n) k, Q, c, h => (∀ o d, Fresh h o n → cev (k (some o)) Q (c + hcost (.alloc n)) (h.set o ⟨n, d⟩)) ∧ cev (k none) Q (c + hcost (.alloc n)) h
  | .step (.free b) k, Q, c, h => ∀ B, h.blk b = some B → cev (k ()) Q (c + hcost (.free b)) (h.del b)
  | .step (.bsize b) k, Q, c, h => ∀ B, h.blk b = some B → cev (k B.size) Q (c + hcost (.bsize b)) h
  | .step .getBase k, Q, c, h => cev (k h.base) Q (c + hcost .getBase) h
  | .step (.setBase o) k, Q, c, h => cev (k ()) Q (c + hcost (.setBase o)) { h with base := o }

theorem cev_mono {p : HProg α} {Q Q' : Out α → Cost → Heap → Prop} (hQ : ∀ o c h, Q o c h → Q' o c h) : ∀ {c : Cost} {h : Heap}, cev p Q c h → cev p Q' c h := by
  induction p with
  | ret a => exact fun h => hQ _ _ _ h
  | err e => exact fun h => hQ _ _ _ h
  | ub => exact fun h => h
  | step op k ih =>
    intro c h hw
    cases op with
    | alloc n => exact ⟨fun o d hf => ih _ (hw.1 o d hf), ih _ hw.2⟩
    | getBase => exact ih _ hw
    | setBase o => exact ih _ hw
    | free b | bsize b | rd b o n | rdB b o n | wr b o n v | wrB b o bs => exact fun B hB => ih _ (hw B hB)

/-- a specification without costs, and the cost of the executions -/
theorem cev_and {p : HProg α} {Q : Out α → Heap → Prop} {P : Out α → Cost → Heap → Prop} : ∀ {c : Cost} {h : Heap}, wp p Q h → cev p P c h →
    cwp p (fun r c' h' => Q r h' ∧ P r c' h') c h := by
  induction p with
  | ret a => exact fun h1 h2 => ⟨_, _, rfl, h1, h2⟩
  | err e => exact fun h1 h2 => ⟨_, _, rfl, h1, h2⟩
  | ub => exact fun h1 _ => h1
  | step op k ih =>
    intro c h hw he
    cases op with
    | alloc n => exact ⟨hw.1, fun o d hf => ih _ (hw.2.1 o d hf) (he.1 o d hf), ih _ hw.2.2 he.2⟩
    | getBase => exact ih _ hw he
    | setBase o => exact ⟨hw.1, ih _ hw.2 he⟩
    | free b | bsize b => obtain ⟨B, h1, h2⟩ := hw; exact ⟨B, h1, ih _ h2 (he B h1)⟩
    | rd b o n | rdB b o n | wr b o n v | wrB b o bs => obtain ⟨B, h1, h2, h3⟩ := hw; exact ⟨B, h1, h2, ih _ h3 (he B h1)⟩

/-- a bound over all paths -/
theorem cev_every {p : HProg α} {P : Out α → Cost → Prop} : ∀ {c : Cost} {h : Heap}, HEvery p c P → cev p (fun r c' _ => P r c') c h := by
  induction p with
  | ret a => exact fun h => h
  | err e => exact fun h => h
  | ub => exact fun _ => trivial
  | step op k ih =>
    intro c h he
    cases op with
    | alloc n => exact ⟨fun o d hf => ih _ (he _ trivial), ih _ (he _ trivial)⟩
    | getBase => exact ih _ (he _ trivial)
    | setBase o => exact ih _ (he _ trivial)
    | rd b o n => exact fun B _ => ih _ (he _ (B.rd_lt o n))
    | rdB b o n => exact fun B _ => ih _ (he _ (B.rdB_length o n))
    | free b | bsize b | wr b o n v | wrB b o bs => exact fun B _ => ih _ (he _ trivial)

/-- a method that only reads leaves the heap alone -/
theorem cev_ro {p : HProg α} {P : Out α → Cost → Heap → Prop} : ∀ {c : Cost} {h : Heap}, HRo p → cev p P c h → cev p (fun r c' h' => h' = h ∧ P r c' h) c h := by
  induction p with
  | ret a => exact fun _ h => ⟨rfl, h⟩
  | err e => exact fun _ h => ⟨rfl, h⟩
  | ub => exact fun _ _ => trivial
  | step op k ih =>
    intro c h hr he
    cases op with
    | getBase => exact ih _ (hr _) he
    | rd b o n | rdB b o n | bsize b => exact fun B hB => ih _ (hr _) (he B hB)
    | _ => exact hr.elim

theorem cev_bind {p : HProg α} {f : α → HProg β} {Q : Out β → Cost → Heap → Prop} {R : Out α → Cost → Heap → Prop}
    (hk : ∀ a c' h', R (.ok a) c' h' → cev (f a) Q c' h') (he : ∀ e c' h', R (.err e) c' h' → Q (.err e) c' h') :
    ∀ {c : Cost} {h : Heap}, cev p R c h → cev (p.bind f) Q c h := by
  induction p with
  | ret a => exact fun h => hk _ _ _ h
  | err e => exact fun h => he _ _ _ h
  | ub => exact fun _ => trivial
  | step op k ih =>
    intro c h hw
    cases op with
    | alloc n => exact ⟨fun o d hf => ih _ (hw.1 o d hf), ih _ hw.2⟩
    | getBase => exact ih _ hw
    | setBase o => exact ih _ hw
    | free b | bsize b | rd b o n | rdB b o n | wr b o n v | wrB b o bs => exact fun B hB => ih _ (hw B hB)

/-- from a specification without costs -/
theorem cev_wp {p : HProg α} {Q : Out α → Heap → Prop} {P : Out α → Cost → Heap → Prop} : ∀ {c : Cost} {h : Heap}, wp p Q h → cev p P c h →
    cev p (fun r c' h' => Q r h' ∧ P r c' h') c h := by
  induction p with
  | ret a => exact fun h1 h2 => ⟨h1, h2⟩
  | err e => exact fun h1 h2 => ⟨h1, h2⟩
  | ub => exact fun _ _ => trivial
  | step op k ih =>
    intro c h hw he
    cases op with
    | alloc n => exact ⟨fun o d hf => ih _ (hw.2.1 o d hf) (he.1 o d hf), ih _ hw.2.2 he.2⟩
    | getBase => exact ih _ hw he
    | setBase o => exact ih _ hw.2 he
    | free b | bsize b =>
      intro B hB
      obtain ⟨B', h1, h2⟩ := hw
      rw [hB] at h1; cases h1
      exact ih _ h2 (he B hB)
    | rd b o n | rdB b o n | wr b o n v | wrB b o bs =>
      intro B hB
      obtain ⟨B', h1, h2, h3⟩ := hw
      rw [hB] at h1; cases h1
      exact ih _ h3 (he B hB)

theorem cev_cwp {p : HProg α} {P : Out α → Cost → Heap → Prop} : ∀ {c : Cost} {h : Heap}, cwp p P c h → cev p P c h := by
  induction p with
  | ret a => rintro c h ⟨r, c', h1, h2⟩; cases h1; exact h2
  | err e => rintro c h ⟨r, c', h1, h2⟩; cases h1; exact h2
  | ub => exact fun _ => trivial
  | step op k ih =>
    intro c h hw
    cases op with
    | alloc n => exact ⟨fun o d hf => ih _ (hw.2.1 o d hf), ih _ hw.2.2⟩
    | getBase => exact ih _ hw
    | setBase o => exact ih _ hw.2
    | free b | bsize b =>
      intro B hB
      obtain ⟨B', h1, h2⟩ := hw
      rw [hB] at h1; cases h1
      exact ih _ h2
    | rd b o n | rdB b o n | wr b o n v | wrB b o bs =>
      intro B hB
      obtain ⟨B', h1, h2, h3⟩ := hw
      rw [hB] at h1; cases h1
      exact ih _ h3

section rules
variable {Q : Out α → Cost → Heap → Prop} {h : Heap} {b o n : Nat} {B : Block} {c : Cost}
theorem cev_ret {a : α} (hq : Q (.ok a) c h) : cev (.ret a) Q c h := hq
theorem cev_err {e : Err} (hq : Q (.err e) c h) : cev (.err e) Q c h := hq
theorem cev_rd {k : Nat → HProg α} (hb : h.blk b = some B) (hk : cev (k (B.rd o n)) Q (c + { acc := 1 }) h) : cev ((H.rd b o n).bind k) Q c h := by
  intro B' h1
  rw [hb] at h1; cases h1
  exact hk
theorem cev_rd' {k : Nat → HProg α} (hk : ∀ v, v < 256 ^ n → cev (k v) Q (c + { acc := 1 }) h) : cev ((H.rd b o n).bind k) Q c h :=
  fun B _ => hk _ (B.rd_lt o n)
theorem cev_rdB' {k : Bytes → HProg α} (hk : ∀ v : Bytes, v.length = n → cev (k v) Q (c + { acc := 1, bytes := n }) h) : cev ((H.rdB b o n).bind k) Q c h :=
  fun B _ => hk _ (B.rdB_length o n)
theorem cev_bsize' {k : Nat → HProg α} (hk : ∀ v, cev (k v) Q (c + { acc := 1 }) h) : cev ((H.bsize b).bind k) Q c h := fun B _ => hk B.size
theorem cev_alloc {k : Nat → HProg α} (hk : ∀ o d, Fresh h o n → cev (k o) Q (c + { allocs := 1 }) (h.set o ⟨n, d⟩))
    (he : Q (.err .noMem) (c + { allocs := 1 }) h) : cev ((H.alloc n).bind k) Q c h := ⟨hk, he⟩
theorem cev_wr' {v : Nat} {k : Unit → HProg α} (hk : ∀ B, h.blk b = some B → cev (k ()) Q (c + { acc := 1 }) (h.set b (B.wr o n v))) :
    cev ((H.wr b o n v).bind k) Q c h := hk
theorem cev_wrB' {bs : Bytes} {k : Unit → HProg α} (hk : ∀ B, h.blk b = some B → cev (k ()) Q (c + { acc := 1, bytes := bs.length }) (h.set b (B.wrB o bs))) :
    cev ((H.wrB b o bs).bind k) Q c h := hk
theorem cev_free' {k : Unit → HProg α} (hk : ∀ B, h.blk b = some B → cev (k ()) Q (c + { frees := 1 }) (h.del b)) : cev ((H.free b).bind k) Q c h := hk
end rules

end Verif
