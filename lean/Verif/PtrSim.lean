import Verif.PtrMethods
import Verif.PropsSimple
/-
Methods that use pointers across allocations: what is true of them when the pool does not grow.
-/
namespace Verif
open Verif.Simple
variable {α β : Type}

/-- the method as a program over offsets, whatever the age of its pointers -/
def loose : PProg α → Nat → (α → Nat → HProg β) → HProg β
  | .ret a, g, f => f a g
  | .err e, _, _ => .err e
  | .ub, _, _ => .ub
  | .step (.at b) k, g, f => loose (k ⟨b, g⟩) g f
  | .step (.rd p o n) k, g, f => .step (.rd p.blk o n) fun x => loose (k x) g f
  | .step (.wr p o n x) k, g, f => .step (.wr p.blk o n x) fun u => loose (k u) g f
  | .step (.rdB p o n) k, g, f => .step (.rdB p.blk o n) fun x => loose (k x) g f
  | .step (.wrB p o bs) k, g, f => .step (.wrB p.blk o bs) fun u => loose (k u) g f
  | .step (.alloc n) k, g, f => .step (.alloc n) fun r => loose (k r) (g + 1) f
  | .step (.free b) k, g, f => .step (.free b) fun u => loose (k u) g f
  | .step (.bsize b) k, g, f => .step (.bsize b) fun x => loose (k x) g f
  | .step .getBase k, g, f => .step .getBase fun x => loose (k x) g f
  | .step (.setBase o) k, g, f => .step (.setBase o) fun u => loose (k u) g f

theorem loose_bind {γ : Type} {p : PProg α} {q : α → PProg γ} {f : γ → Nat → HProg β} : ∀ {g : Nat}, loose (p.bind q) g f = loose p g fun a g' => loose (q a) g' f := by
  induction p with
  | ret a => intro g; rfl
  | err e => intro g; rfl
  | ub => intro g; rfl
  | step op k ih =>
    intro g
    cases op with
    | «at» b => exact ih _
    | _ => simp only [Prog.step_bind, loose]; congr 1; funext x; exact ih x

/-- the method does what `q` does, as long as no pointer has become invalid -/
def Same (p : PProg α) (q : HProg α) : Prop := ∀ (β : Type) (g : Nat) (f : α → HProg β), loose p g (fun a _ => f a) = q.bind f

theorem lift_same (p : HProg α) : Same (lift p) p := by
  intro β g f
  induction p generalizing g with
  | ret a => rfl
  | err e => rfl
  | ub => rfl
  | step op k ih => cases op <;> (simp only [lift, loose, Prog.step_bind]; congr 1; funext x; exact ih x _)

theorem Same.bind {γ : Type} {p : PProg α} {q : HProg α} {k : α → PProg γ} {k' : α → HProg γ} (hp : Same p q) (hk : ∀ a, Same (k a) (k' a)) : Same (p.bind k) (q.bind k') := by
  intro β g f
  have : (fun a g' => loose (k a) g' fun c _ => f c) = fun a (_ : Nat) => (k' a).bind f := by funext a g'; exact hk a β g' f
  rw [loose_bind, this, hp, Prog.bind_assoc]

theorem Same.ret (a : α) : Same (.ret a) (.ret a) := fun _ _ _ => rfl
theorem Same.err (e : Err) : Same (α := α) (.err e) (.err e) := fun _ _ _ => rfl
theorem Same.ite {c : Prop} [Decidable c] {p p' : PProg α} {q q' : HProg α} (h : Same p q) (h' : Same p' q') : Same (if c then p else p') (if c then q else q') := by
  split <;> assumption

theorem loose_attempt {p : PProg α} : ∀ {g : Nat}, loose (attemptP p) g (fun a _ => .ret a) = attempt (loose p g fun a _ => .ret a) := by
  induction p with
  | ret a => intro g; rfl
  | err e => intro g; rfl
  | ub => intro g; rfl
  | step op k ih =>
    intro g
    cases op with
    | «at» b => exact ih _
    | _ => simp only [attemptP, attempt, Prog.step_bind, Prog.tryCatch, loose]; congr 1; funext x; exact ih x

theorem Same.attempt {p : PProg α} {q : HProg α} (h : Same p q) {g : Nat} : loose (attemptP p) g (fun a _ => .ret a) = Verif.attempt q := by
  rw [loose_attempt, h]
  have : ∀ q : HProg α, (q.bind fun a => .ret a) = q := by
    intro q
    induction q with
    | ret | err | ub => rfl
    | step op k ih => simp only [Prog.step_bind]; congr 1; funext r; exact ih r
  rw [this]

theorem wp_one {op : HOp} {k : HRe op → HProg α} {Q : Out α → Heap → Prop} {h : Heap} (hw : wp (.step op k) Q h) :
    wp (.step op .ret) (fun out h' => ∃ r, out = .ok r ∧ wp (k r) Q h') h := by
  cases op with
  | alloc n => exact ⟨hw.1, fun o d hf => ⟨_, rfl, hw.2.1 o d hf⟩, ⟨_, rfl, hw.2.2⟩⟩
  | getBase => exact ⟨_, rfl, hw⟩
  | setBase => exact ⟨hw.1, _, rfl, hw.2⟩
  | free | bsize => obtain ⟨b, h1, h2⟩ := hw; exact ⟨b, h1, _, rfl, h2⟩
  | rd | wr | rdB | wrB => obtain ⟨b, h1, h2, h3⟩ := hw; exact ⟨b, h1, h2, _, rfl, h3⟩

/-- one step of a method on the heap and on the bytes -/
theorem sim_step {op : HOp} {k : HRe op → HProg α} {Q : Out α → Heap → Prop} {h : Heap} {s : Pool} (hw : wp (.step op k) Q h) (hs : Sim h s) :
    ∃ r s' h', run (compile (.step op .ret)) s = (.ok r, s') ∧ wp (k r) Q h' ∧ Sim h' s' := by
  obtain ⟨out, s', h', h1, ⟨r, rfl, h2⟩, h3⟩ := sim_run (wp_one hw) hs
  exact ⟨r, s', h', h1, h2, h3⟩

theorem run_bind_ret (c : RProg α) (s : Pool) : run (c.bind .ret) s = run c s := by
  rw [run_bind]
  cases h : run c s with | mk r s' => cases r <;> rfl

theorem run_then {c : RProg β} {r : β} {s s' : Pool} (h : run c s = (.ok r, s')) (f : β → RProg α) : run (c.bind f) s = run (f r) s' := by
  rw [run_bind, h]

/-- the size of the pool never shrinks -/
theorem tryAlloc_size {h : Heap} {s : Pool} {n : Nat} (hs : Sim h s) (hn : n ≤ maxAlloc) : s.size ≤ (run (tryAlloc n) s).2.size := by
  obtain ⟨L, hS, -⟩ := hs
  have := hS.toCInv.geo.max
  obtain ⟨o, h1, h2⟩ := rwp_run (tryAlloc_spec hS (n := n) (by omega))
  rcases h2 with ⟨o, -, ⟨k, co, -, -, -, -, -, h3 | h3⟩ | h3⟩ | h3
  · exact Nat.le_of_eq h3.2.2.symm
  · rw [h3.2.2]; exact Nat.le_max_left _ _
  · cases h3.1
  · rw [h3.2]

theorem free_size {h : Heap} {s : Pool} {b : Nat} {B : Block} (hs : Sim h s) (hb : h.blk b = some B) : (run (Simple.free b) s).2.size = s.size := by
  obtain ⟨L, hS, hh⟩ := hs
  obtain ⟨c, hc, rfl, h1, h2, h3⟩ := hh.block hS.toCInv hb
  obtain ⟨A, T, rfl⟩ := List.append_of_mem hc
  obtain ⟨o, -, -, h⟩ := rwp_run (free_spec hS)
  rcases h with h | h
  · rw [h.2]
  · exact h.2.2.2.1


attribute [local irreducible] tryAlloc Simple.free in
/-- the size word is not in a block -/
theorem op_size {op : HOp} {k : HRe op → HProg α} {Q : Out α → Heap → Prop} {h : Heap} {s : Pool} (hw : wp (.step op k) Q h) (hs : Sim h s) :
    s.size ≤ (run (compile (.step op .ret)) s).2.size ∧ ((∀ n, op ≠ .alloc n) → (run (compile (.step op .ret)) s).2.size = s.size) := by
  have hro : ∀ a n, (run (.step (.rd a n) .ret) s).2 = s := by
    intro a n
    simp only [run, forceN_eq]
    split <;> rfl
  have hroB : ∀ a n, (run (.step (.rdB a n) .ret) s).2 = s := by
    intro a n
    simp only [run, forceB_eq]
    split <;> rfl
  have hwr : ∀ a n v, 8 ≤ a → (run (.step (.wr a n v) .ret) s).2.size = s.size := by
    intro a n v ha
    simp only [run, forceN_eq]
    split
    · exact leRd_leWr_disj _ _ _ _ _ _ (Or.inr (by omega))
    · rfl
  have hwrB : ∀ a bs, 8 ≤ a → (run (.step (.wrB a bs) .ret) s).2.size = s.size := by
    intro a bs ha
    simp only [run]
    split
    · exact leRd_bsWr_disj _ _ _ _ _ (Or.inr (by omega))
    · rfl
  have hb : ∀ {b B}, h.blk b = some B → 8 ≤ b := by
    intro b B hB
    obtain ⟨L, hS, hh⟩ := hs
    obtain ⟨c, -, rfl, -⟩ := hh.block hS.toCInv hB
    omega
  cases op with
  | alloc n =>
    refine ⟨?_, fun h => absurd rfl (h n)⟩
    have := tryAlloc_size hs hw.1
    rw [← run_bind_ret] at this
    exact this
  | free b =>
    obtain ⟨B, hB, -⟩ := hw
    have := free_size hs hB
    rw [← run_bind_ret] at this
    exact ⟨Nat.le_of_eq this.symm, fun _ => this⟩
  | bsize b =>
    have : (run (compile (.step (.bsize b) .ret)) s).2 = s := hro _ _
    exact ⟨by rw [this], fun _ => by rw [this]⟩
  | getBase =>
    have : (run (compile (.step .getBase .ret)) s).2 = s := hro _ _
    exact ⟨by rw [this], fun _ => by rw [this]⟩
  | setBase o =>
    have : (run (compile (.step (.setBase o) .ret)) s).2.size = s.size := hwr _ _ _ (by omega)
    exact ⟨Nat.le_of_eq this.symm, fun _ => this⟩
  | rd b o n =>
    have : (run (compile (.step (.rd b o n) .ret)) s).2 = s := hro _ _
    exact ⟨by rw [this], fun _ => by rw [this]⟩
  | rdB b o n =>
    have : (run (compile (.step (.rdB b o n) .ret)) s).2 = s := hroB _ _
    exact ⟨by rw [this], fun _ => by rw [this]⟩
  | wr b o n v =>
    obtain ⟨B, hB, -⟩ := hw
    have : (run (compile (.step (.wr b o n v) .ret)) s).2.size = s.size := hwr _ _ _ (by have := hb hB; omega)
    exact ⟨Nat.le_of_eq this.symm, fun _ => this⟩
  | wrB b o bs =>
    obtain ⟨B, hB, -⟩ := hw
    have : (run (compile (.step (.wrB b o bs) .ret)) s).2.size = s.size := hwrB _ _ (by have := hb hB; omega)
    exact ⟨Nat.le_of_eq this.symm, fun _ => this⟩

/-- the end of a call: either it has used an invalidated pointer, and then the pool has grown since it was `v0` bytes long, or `Q` holds -/
def PtrEnd (Q : Out α → Heap → Prop) (v0 : Nat) (x : Verif.Res α × Pool) : Prop :=
  (x.1 = .ub ∧ v0 < x.2.size) ∨ ∃ out h', x.1 = Out.toRes out ∧ Q out h' ∧ Sim h' x.2

attribute [local irreducible] tryAlloc Simple.free Simple.blockSize Simple.getBase Simple.setBase sub64 in
theorem pointed_sim {Q : Out α → Heap → Prop} {v0 : Nat} {p : PProg α} :
    ∀ {g last : Nat} {h : Heap} {s : Pool}, (last = 0 ∨ v0 < s.size) → v0 ≤ s.size → wp (loose p g fun a _ => .ret a) Q h → Sim h s → PtrEnd Q v0 (run (pointed p s.size g last) s) := by
  induction p with
  | ret a => intro g last h s _ _ hw hs; exact Or.inr ⟨_, _, rfl, hw, hs⟩
  | err e => intro g last h s _ _ hw hs; exact Or.inr ⟨_, _, rfl, hw, hs⟩
  | ub => intro g last h s _ _ hw hs; exact hw.elim
  | step op k ih =>
    intro g last h s hl hv hw hs
    cases op with
    | «at» b => exact ih _ hl hv hw hs
    | alloc n =>
      obtain ⟨r, s', h', h1, h2, h3⟩ := sim_step hw hs
      have hz := (op_size hw hs).1
      rw [h1] at hz
      have hc : compile (.step (.alloc n) .ret) = (tryAlloc n).bind .ret := rfl
      rw [hc, run_bind_ret] at h1
      simp only [pointed]
      rw [run_bind, h1]
      have hg : s'.inb 0 8 := Lock.geo_low (by obtain ⟨L, hS, -⟩ := h3; exact hS.toCInv.geo)
      have e : ∀ f : Nat → RProg α, run (.step (.rd 0 8) f) s' = run (f s'.size) s' := by
        intro f
        simp only [run, if_pos hg, forceN_eq]
        rfl
      simp only
      rw [e]
      simp only at hz
      refine ih r ?_ (by omega) h2 h3
      by_cases hc : s'.size = s.size
      · rw [if_pos hc]; omega
      · rw [if_neg hc]; omega
    | free b =>
      obtain ⟨r, s', h', h1, h2, h3⟩ := sim_step hw hs
      have hz := (op_size hw hs).2 (by intro n h; cases h)
      rw [h1] at hz
      simp only at hz
      have hc : compile (.step (.free b) .ret) = (Simple.free b).bind .ret := rfl
      rw [hc, run_bind_ret] at h1
      simp only [pointed]
      rw [run_then h1, ← hz]
      exact ih r (by omega) (by omega) h2 h3
    | bsize b =>
      obtain ⟨r, s', h', h1, h2, h3⟩ := sim_step hw hs
      have hz := (op_size hw hs).2 (by intro n h; cases h)
      rw [h1] at hz
      simp only at hz
      have hc : compile (.step (.bsize b) .ret) = (Simple.blockSize b).bind .ret := rfl
      rw [hc, run_bind_ret] at h1
      simp only [pointed]
      rw [run_then h1, ← hz]
      exact ih r (by omega) (by omega) h2 h3
    | getBase =>
      obtain ⟨r, s', h', h1, h2, h3⟩ := sim_step hw hs
      have hz := (op_size hw hs).2 (by intro n h; cases h)
      rw [h1] at hz
      simp only at hz
      have hc : compile (.step .getBase .ret) = Simple.getBase.bind .ret := rfl
      rw [hc, run_bind_ret] at h1
      simp only [pointed]
      rw [run_then h1, ← hz]
      exact ih r (by omega) (by omega) h2 h3
    | setBase o =>
      obtain ⟨r, s', h', h1, h2, h3⟩ := sim_step hw hs
      have hz := (op_size hw hs).2 (by intro n h; cases h)
      rw [h1] at hz
      simp only at hz
      have hc : compile (.step (.setBase o) .ret) = (Simple.setBase o).bind .ret := rfl
      rw [hc, run_bind_ret] at h1
      simp only [pointed]
      rw [run_then h1, ← hz]
      exact ih r (by omega) (by omega) h2 h3
    | rd p o n | wr p o n x | rdB p o n | wrB p o bs =>
      simp only [pointed]
      split
      · obtain ⟨r, s', h', h1, h2, h3⟩ := sim_step hw hs
        have hz := (op_size hw hs).2 (by intro n h; cases h)
        rw [h1] at hz
        simp only at hz
        have e : ∀ (rop : ROp) (f : RRe rop → RProg α), run (.step rop f) s = run ((Prog.step rop .ret : RProg (RRe rop)).bind f) s := fun _ _ => rfl
        rw [e, run_bind]
        simp only [compile] at h1
        rw [h1]
        simp only
        rw [← hz]
        exact ih r (by omega) (by omega) h2 h3
      · exact Or.inl ⟨rfl, by show v0 < s.size; omega⟩

theorem withPtrs_sim {p : PProg α} {q : HProg α} (hc : Same p q) {Q : Out (Out α) → Heap → Prop} {h : Heap} {s : Pool} (hw : wp (attempt q) Q h) (hs : Sim h s) :
    PtrEnd Q s.size (run (withPtrs (attemptP p)) s) := by
  have hg : s.inb 0 8 := Lock.geo_low (by obtain ⟨L, hS, -⟩ := hs; exact hS.toCInv.geo)
  have e : ∀ f : Nat → RProg (Out α), run (.step (.rd 0 8) f) s = run (f s.size) s := by
    intro f
    simp only [run, if_pos hg, forceN_eq]
    rfl
  unfold withPtrs
  rw [e]
  refine pointed_sim (Or.inl rfl) (Nat.le_refl _) ?_ hs
  rw [hc.attempt]
  exact hw

end Verif
