import Verif.PropsAtomicVec
/-
C73: AtomicVector never blocks.  The number of steps a method takes, whatever the other processes do, and also when they are suspended or die.
-/
namespace Verif.AtomicVec
open Verif

/-- the count word, AtomicVector.hh 34-36: what size() returns -/
def count (s : Sh) : Nat := leRd s.mem 8 8

/-- The part of an execution during which process `t` is inside one call: from `s` to the last state, `t` itself has taken `n` steps, and the other processes have changed the vector's size `k` times. -/
inductive Takes (sz fuel : Nat) (ok : Sys (8 * sz) → Nat → Op (8 * sz) → Prop) (t : Nat) (s : Sys (8 * sz)) : Nat → Nat → Sys (8 * sz) → Prop
  | refl : Takes sz fuel ok t s 0 0 s
  | own {n k s' s''} : Takes sz fuel ok t s n k s' → Step sz fuel ok s' s'' → s''.th t ≠ s'.th t → s''.th t ≠ none → Takes sz fuel ok t s (n + 1) k s''
  | other {n k s' s''} : Takes sz fuel ok t s n k s' → Step sz fuel ok s' s'' → s''.th t = s'.th t →
      Takes sz fuel ok t s n (if count s''.sh = count s'.sh then k else k + 1) s''

variable {w : Nat} {α β : Type}

/-- at most `m` steps whatever the responses, none of them a compare-and-swap of the count -/
def Plain : VProg w α → Nat → Prop
  | .step (.casCount _ _) _, _ => False
  | .step _ k, m => 1 ≤ m ∧ ∀ v, Plain (k v) (m - 1)
  | _, _ => True

/-- returned, thrown or undefined -/
def Fin : VProg w α → Prop
  | .step _ _ => False
  | _ => True

/-- at most `m` steps to a compare-and-swap of the count that expects `orig`; when it fails, at most 11 to the next one, which expects what it read -/
def Aim : VProg w α → Nat → Nat → Prop
  | .step (.casCount e _) k, orig, m => e = orig ∧ 1 ≤ m ∧ (∀ x, Fin (k (true, x))) ∧ ∀ x, Aim (k (false, x)) x 11
  | .step _ k, orig, m => 1 ≤ m ∧ ∀ v, Aim (k v) orig (m - 1)
  | _, _, _ => True

theorem Plain.mono {p : VProg w α} : ∀ {m m' : Nat}, Plain p m → m ≤ m' → Plain p m' := by
  induction p with
  | ret a | err e | ub => intros; trivial
  | step o k ih =>
    intro m m' h hm
    cases o with
    | casCount e v => exact h.elim
    | loadSize | storeSize v | loadCount | rmw i f | trunc n | view | remap n | maxSize => exact ⟨by have := h.1; omega, fun v => ih v (h.2 v) (by omega)⟩

theorem Plain.bind {p : VProg w α} {f : α → VProg w β} {b : Nat} (hf : ∀ x, Plain (f x) b) : ∀ {m : Nat}, Plain p m → Plain (p.bind f) (m + b) := by
  induction p with
  | ret a => intro m _; exact (hf a).mono (Nat.le_add_left _ _)
  | err e | ub => intros; trivial
  | step o k ih =>
    intro m h
    cases o with
    | casCount e v => exact h.elim
    | loadSize | storeSize v | loadCount | rmw i f | trunc n | view | remap n | maxSize =>
      refine ⟨by have := h.1; omega, fun v => ?_⟩
      have := ih v (h.2 v)
      rwa [show m - 1 + b = m + b - 1 by have := h.1; omega] at this

theorem Aim.mono {p : VProg w α} : ∀ {orig m m' : Nat}, Aim p orig m → m ≤ m' → Aim p orig m' := by
  induction p with
  | ret a | err e | ub => intros; trivial
  | step o k ih =>
    intro orig m m' h hm
    cases o with
    | casCount e v => exact ⟨h.1, by have := h.2.1; omega, h.2.2⟩
    | loadSize | storeSize v | loadCount | rmw i f | trunc n | view | remap n | maxSize => exact ⟨by have := h.1; omega, fun v => ih v (h.2 v) (by omega)⟩

theorem Aim.after {p : VProg w α} {f : α → VProg w β} {orig b : Nat} (hf : ∀ x, Aim (f x) orig b) : ∀ {m : Nat}, Plain p m → Aim (p.bind f) orig (m + b) := by
  induction p with
  | ret a => intro m _; exact (hf a).mono (Nat.le_add_left _ _)
  | err e | ub => intros; trivial
  | step o k ih =>
    intro m h
    cases o with
    | casCount e v => exact h.elim
    | loadSize | storeSize v | loadCount | rmw i f | trunc n | view | remap n | maxSize =>
      refine ⟨by have := h.1; omega, fun v => ?_⟩
      have := ih v (h.2 v)
      rwa [show m - 1 + b = m + b - 1 by have := h.1; omega] at this

theorem checkRemap_plain : Plain (checkRemap : VProg w Unit) 3 := by
  refine ⟨by decide, fun v => ⟨by decide, fun z => ?_⟩⟩
  show Plain (if z ≠ v then V.remap z else .ret ()) 1
  split
  · exact ⟨by decide, fun _ => trivial⟩
  · trivial

theorem poolExpand_plain (n : Nat) : Plain (poolExpand n : VProg w Unit) 7 := by
  refine ⟨by decide, fun mx => ?_⟩
  show Plain (if mx ≠ 0 ∧ roundPage n > mx then .err .noMem else V.view.bind fun v =>
      if roundPage n ≤ v then .ret ()
      else (V.trunc (roundPage n)).bind fun ok => if ok then (V.storeSize (roundPage n)).bind fun _ => checkRemap else .err .noMem) 6
  split
  · trivial
  · refine ⟨by decide, fun v => ?_⟩
    show Plain (if roundPage n ≤ v then .ret ()
      else (V.trunc (roundPage n)).bind fun ok => if ok then (V.storeSize (roundPage n)).bind fun _ => checkRemap else .err .noMem) 5
    split
    · trivial
    · refine ⟨by decide, fun ok => ?_⟩
      show Plain (if ok then (V.storeSize (roundPage n)).bind fun _ => checkRemap else .err .noMem) 4
      cases ok
      · exact trivial
      · exact ⟨by decide, fun _ => checkRemap_plain⟩

theorem expandLoop_aim (n req : Nat) (x : β) : ∀ (fuel orig : Nat), Aim ((expandLoop (w := w) n req fuel orig).bind fun _ => .ret x) orig 11 := by
  intro fuel
  induction fuel with
  | zero =>
    intro orig
    unfold expandLoop
    split <;> trivial
  | succ fuel ih =>
    intro orig
    unfold expandLoop
    split
    · rw [Prog.bind_assoc]
      refine Aim.after (b := 8) (fun _ => ?_) checkRemap_plain
      rw [Prog.bind_assoc]
      refine Aim.after (b := 1) (fun _ => ?_) (poolExpand_plain req)
      exact ⟨rfl, by decide, fun _ => trivial, fun y => ih y⟩
    · trivial

theorem elem_plain (i : Nat) (f : BitVec w → BitVec w) : Plain (elem i f) 5 := by
  refine Plain.bind (b := 2) (f := fun _ => V.loadCount.bind fun c => if c ≤ i then .err .outOfRange else V.rmw i f) (fun _ => ⟨by decide, fun c => ?_⟩) checkRemap_plain
  show Plain (if c ≤ i then .err .outOfRange else V.rmw i f) 1
  split
  · trivial
  · exact ⟨by decide, fun _ => trivial⟩

/-- expand and expand_bits -/
def Op.grows : Op w → Bool
  | .expand _ | .expandBits _ => true
  | _ => false

theorem call_plain (sz fuel : Nat) {op : Op w} (h : op.grows = false) : Plain (call sz fuel op) 5 := by
  have ret : ∀ {γ δ : Type} (p : VProg w γ) (f : γ → δ), Plain p 5 → Plain (p.bind fun x => .ret (f x)) 5 := fun p f hp =>
    Plain.bind (b := 0) (f := fun x => .ret (f x)) (fun _ => trivial) hp
  cases op with
  | load i => exact ret _ _ (elem_plain _ _)
  | store i v => exact ret _ (fun _ => Ret.unit) (elem_plain _ _)
  | exchange i v | cas i e d | add i v | sub i v | and i v | or i v | xor i v => exact ret _ _ (elem_plain _ _)
  | loadBit b | xorBit b => exact ret _ _ (ret _ _ (elem_plain _ _))
  | storeBit b v =>
    refine ret _ _ ?_
    unfold storeBit
    split
    · exact ret _ _ (elem_plain _ _)
    · exact ret _ _ (elem_plain _ _)
  | size => exact ret _ _ ⟨by decide, fun _ => trivial⟩
  | expand n | expandBits n => cases h

/-! ### steps of the system -/

/-- never truncates the file into the header -/
def Cuts : VProg w α → Prop
  | .step (.trunc n) k => 16 ≤ n ∧ ∀ v, Cuts (k v)
  | .step _ k => ∀ v, Cuts (k v)
  | _ => True

theorem Cuts.bind {p : VProg w α} {f : α → VProg w β} (hf : ∀ x, Cuts (f x)) : Cuts p → Cuts (p.bind f) := by
  induction p with
  | ret a => intro _; exact hf a
  | err e | ub => intros; trivial
  | step o k ih =>
    intro h
    cases o with
    | trunc n => exact ⟨h.1, fun v => ih v (h.2 v)⟩
    | casCount e v | loadSize | storeSize v | loadCount | rmw i f | view | remap n | maxSize => exact fun v => ih v (h v)

theorem checkRemap_cuts : Cuts (checkRemap : VProg w Unit) := by
  intro v z
  show Cuts (if z ≠ v then V.remap z else .ret ())
  split
  · exact fun _ => trivial
  · trivial

theorem poolExpand_cuts (n : Nat) : Cuts (poolExpand n : VProg w Unit) := by
  intro mx
  show Cuts (if mx ≠ 0 ∧ roundPage n > mx then .err .noMem else V.view.bind fun v =>
      if roundPage n ≤ v then .ret ()
      else (V.trunc (roundPage n)).bind fun ok => if ok then (V.storeSize (roundPage n)).bind fun _ => checkRemap else .err .noMem)
  split
  · trivial
  · intro v
    show Cuts (if roundPage n ≤ v then .ret ()
      else (V.trunc (roundPage n)).bind fun ok => if ok then (V.storeSize (roundPage n)).bind fun _ => checkRemap else .err .noMem)
    split
    · trivial
    · rename_i hlt
      have h0 : 16 ≤ roundPage n := by
        have : 0 < roundPage n := Nat.lt_of_le_of_lt (Nat.zero_le _) (Nat.not_le.1 hlt)
        revert this
        generalize hr : roundPage n = r
        intro this
        have : 4096 ∣ r := by rw [← hr]; unfold roundPage; exact Nat.dvd_mul_left _ _
        omega
      refine ⟨h0, fun ok => ?_⟩
      show Cuts (if ok then (V.storeSize (roundPage n)).bind fun _ => checkRemap else .err .noMem)
      cases ok
      · exact trivial
      · exact fun _ => checkRemap_cuts

theorem expandLoop_cuts (n req : Nat) : ∀ (fuel orig : Nat), Cuts (expandLoop (w := w) n req fuel orig) := by
  intro fuel
  induction fuel with
  | zero =>
    intro orig
    unfold expandLoop
    split <;> trivial
  | succ fuel ih =>
    intro orig
    unfold expandLoop
    split
    · refine Cuts.bind (fun _ => Cuts.bind (fun _ => ?_) (poolExpand_cuts req)) checkRemap_cuts
      rintro ⟨b, y⟩
      show Cuts (if b = true then .ret () else expandLoop n req fuel y)
      split
      · trivial
      · exact ih y
    · trivial

theorem elem_cuts (i : Nat) (f : BitVec w → BitVec w) : Cuts (elem i f) := by
  refine Cuts.bind (f := fun _ => V.loadCount.bind fun c => if c ≤ i then .err .outOfRange else V.rmw i f) (fun _ c => ?_) checkRemap_cuts
  show Cuts (if c ≤ i then .err .outOfRange else V.rmw i f)
  split
  · trivial
  · exact fun _ => trivial

theorem call_cuts (sz fuel : Nat) (op : Op w) : Cuts (call sz fuel op) := by
  have ret : ∀ {γ δ : Type} (p : VProg w γ) (f : γ → δ), Cuts p → Cuts (p.bind fun x => .ret (f x)) := fun p f hp => Cuts.bind (f := fun x => .ret (f x)) (fun _ => trivial) hp
  cases op with
  | load i => exact ret _ _ (elem_cuts _ _)
  | store i v => exact ret _ (fun _ => Ret.unit) (elem_cuts _ _)
  | exchange i v | cas i e d | add i v | sub i v | and i v | or i v | xor i v => exact ret _ _ (elem_cuts _ _)
  | loadBit b | xorBit b => exact ret _ _ (ret _ _ (elem_cuts _ _))
  | storeBit b v =>
    refine ret _ _ ?_
    unfold storeBit
    split
    · exact ret _ _ (elem_cuts _ _)
    · exact ret _ _ (elem_cuts _ _)
  | size => exact ret _ _ (fun _ => trivial)
  | expand n => exact ret _ (fun _ => Ret.unit) (fun c => expandLoop_cuts _ _ _ _)
  | expandBits n => exact ret _ (fun _ => Ret.unit) (fun c => expandLoop_cuts _ _ _ _)

theorem step_ne (o : VOp w) (k : VRe o → VProg w α) (v : VRe o) : k v ≠ .step o k := by
  have key : ∀ (p : VProg w α) (o : VOp w) (k : VRe o → VProg w α) (v : VRe o), k v = p → p ≠ .step o k := by
    intro p
    induction p with
    | ret a | err e | ub => intro o k v _ h; cases h
    | step o' k' ih =>
      intro o k v h1 h2
      obtain ⟨rfl, h3⟩ := Prog.step.inj h2
      have h3 := eq_of_heq h3
      subst h3
      exact ih v o' k' v rfl (h1.trans rfl)
  exact key _ o k v rfl

variable {sz fuel : Nat} {ok : Sys (8 * sz) → Nat → Op (8 * sz) → Prop}

/-- a step of `t` inside a call -/
theorem own_step {s s' : Sys (8 * sz)} {t : Nat} {op : Op (8 * sz)} {p : VProg (8 * sz) (Ret (8 * sz))} (h : Step sz fuel ok s s') (ht : s.th t = some (op, p)) (h1 : s'.th t ≠ s.th t)
    (h2 : s'.th t ≠ none) : ∃ o k, p = .step o k ∧ ((∃ v sh' p', exec sz o s.sh (s.proc t) = some (v, sh', p') ∧ s'.sh = sh' ∧ s'.th t = some (op, k v)) ∨ s'.th t = some (op, .ub)) := by
  cases h with
  | @call t0 op0 ha hn hok =>
    by_cases e : t = t0
    · subst e; rw [ht] at hn; cases hn
    · exact absurd (upd_ne _ _ e) h1
  | @step t0 op0 o k v sh' p' ha hth hex =>
    by_cases e : t = t0
    · subst e
      rw [ht] at hth
      obtain ⟨rfl, rfl⟩ := Prod.mk.inj (Option.some.inj hth)
      exact ⟨o, k, rfl, Or.inl ⟨v, sh', p', hex, rfl, upd_same _ _ _⟩⟩
    · exact absurd (upd_ne _ _ e) h1
  | @fault t0 op0 o k ha hth hex =>
    by_cases e : t = t0
    · subst e
      rw [ht] at hth
      obtain ⟨rfl, rfl⟩ := Prod.mk.inj (Option.some.inj hth)
      exact ⟨o, k, rfl, Or.inr (upd_same _ _ _)⟩
    · exact absurd (upd_ne _ _ e) h1
  | @ret t0 op0 r ha hth =>
    by_cases e : t = t0
    · subst e; exact absurd (upd_same _ _ _) h2
    · exact absurd (upd_ne _ _ e) h1
  | @throw t0 op0 r ha hth =>
    by_cases e : t = t0
    · subst e; exact absurd (upd_same _ _ _) h2
    · exact absurd (upd_ne _ _ e) h1
  | @die t0 =>
    by_cases e : t = t0
    · subst e; exact absurd (upd_same _ _ _) h2
    · exact absurd (upd_ne _ _ e) h1

/-- what a step does to the header -/
theorem exec_count {o : VOp (8 * sz)} {s s' : Sh} {p p' : Proc} {v : VRe o} (hex : exec sz o s p = some (v, s', p')) (ho : ∀ n, o = .trunc n → 16 ≤ n) (hf : 16 ≤ s.fsize) :
    16 ≤ s'.fsize ∧ ((∀ e x, o ≠ .casCount e x) → count s' = count s) := by
  have at0 : ∀ {a n : Nat} {m : Nat → UInt8} {x : Nat}, (16 ≤ a ∨ a + n ≤ 8) → leRd (leWr m a n x) 8 8 = leRd m 8 8 := fun h =>
    leRd_congr _ _ _ _ (fun i h1 h2 => leWr_out _ _ _ _ _ (by omega))
  have fin : ∀ {r : VRe o × Sh × Proc}, some r = some (v, s', p') → r.2.1 = s' := by
    intro r h
    rw [Option.some.inj h]
  cases o with
  | loadSize | loadCount =>
    simp only [exec] at hex
    split at hex
    · have := fin hex; subst this; exact ⟨hf, fun _ => rfl⟩
    · cases hex
  | storeSize x =>
    simp only [exec] at hex
    split at hex
    · have := fin hex; subst this; exact ⟨hf, fun _ => at0 (Or.inr (by omega))⟩
    · cases hex
  | rmw i g =>
    simp only [exec] at hex
    split at hex
    · have := fin hex; subst this; exact ⟨hf, fun _ => at0 (Or.inl (by omega))⟩
    · cases hex
  | casCount e x =>
    simp only [exec] at hex
    split at hex
    · split at hex
      · have := fin hex; subst this; exact ⟨hf, fun h => absurd rfl (h e x)⟩
      · have := fin hex; subst this; exact ⟨hf, fun h => absurd rfl (h e x)⟩
    · cases hex
  | trunc n =>
    have hn := ho n rfl
    simp only [exec] at hex
    split at hex
    · have := fin hex
      subst this
      refine ⟨hn, fun _ => leRd_congr _ _ _ _ (fun i h1 h2 => ?_)⟩
      show (if i < s.fsize ∧ i < n then s.mem i else 0) = s.mem i
      rw [if_pos ⟨by omega, by omega⟩]
    · have := fin hex; subst this; exact ⟨hf, fun _ => rfl⟩
  | view | remap n | maxSize =>
    simp only [exec] at hex
    have := fin hex
    subst this
    exact ⟨hf, fun _ => rfl⟩

/-- the header stays in the file -/
structure Kept (s : Sys (8 * sz)) : Prop where
  fsize : 16 ≤ s.sh.fsize
  cuts : ∀ t op p, s.th t = some (op, p) → Cuts p

theorem Cuts.step {o : VOp w} {k : VRe o → VProg w α} (h : Cuts (.step o k)) : (∀ n, o = .trunc n → 16 ≤ n) ∧ ∀ v, Cuts (k v) := by
  cases o with
  | trunc n => exact ⟨fun m e => (by cases e; exact h.1), h.2⟩
  | casCount e v | loadSize | storeSize v | loadCount | rmw i f | view | remap n | maxSize => exact ⟨fun m e => (by cases e), h⟩

theorem Kept.step {s s' : Sys (8 * sz)} (h : Kept s) (hs : Step sz fuel ok s s') : Kept s' := by
  have th : ∀ {t0 : Nat} {x : Option (Op (8 * sz) × VProg (8 * sz) (Ret (8 * sz)))}, (∀ op p, x = some (op, p) → Cuts p) → ∀ t op p, upd s.th t0 x t = some (op, p) → Cuts p := by
    intro t0 x hx t op p he
    by_cases e : t = t0
    · subst e; rw [upd_same] at he; exact hx op p he
    · rw [upd_ne _ _ e] at he; exact h.cuts t op p he
  cases hs with
  | @call t0 op0 ha hn hok =>
    refine ⟨h.fsize, th ?_⟩
    intro op p e
    obtain ⟨-, rfl⟩ := Prod.mk.inj (Option.some.inj e)
    exact call_cuts sz fuel op0
  | @step t0 op0 o k v sh' p' ha hth hex =>
    have hc := (h.cuts _ _ _ hth).step
    refine ⟨(exec_count hex hc.1 h.fsize).1, th ?_⟩
    intro op p e
    obtain ⟨-, rfl⟩ := Prod.mk.inj (Option.some.inj e)
    exact hc.2 v
  | @fault t0 op0 o k ha hth hex =>
    refine ⟨h.fsize, th ?_⟩
    intro op p e
    obtain ⟨-, rfl⟩ := Prod.mk.inj (Option.some.inj e)
    trivial
  | @ret t0 op0 r ha hth => exact ⟨h.fsize, th (by intro op p e; cases e)⟩
  | @throw t0 op0 r ha hth => exact ⟨h.fsize, th (by intro op p e; cases e)⟩
  | @die t0 => exact ⟨h.fsize, th (by intro op p e; cases e)⟩

theorem Kept.reach {s s' : Sys (8 * sz)} (h : Kept s) (hr : Reach sz fuel ok s s') : Kept s' := by
  induction hr with
  | refl => exact h
  | step _ hs ih => exact ih.step hs
theorem Takes.reach {t n k : Nat} {s s' : Sys (8 * sz)} (h : Takes sz fuel ok t s n k s') : Reach sz fuel ok s s' := by
  induction h with
  | refl => exact .refl
  | own _ hs _ _ ih => exact .step ih hs
  | other _ hs _ ih => exact .step ih hs

/-- **C73, wait-freedom.** Every call of a method other than expand and expand_bits has returned or thrown after at most five steps of its own (accesses to the shared memory or to the process's mapping), in every
execution: whatever other processes do in between, also when they are suspended or die in the middle of any method. -/
theorem C73_wait_free {t n k : Nat} {s s' : Sys (8 * sz)} {op : Op (8 * sz)} (hop : op.grows = false) (h0 : s.th t = some (op, call sz fuel op)) (h : Takes sz fuel ok t s n k s') : n ≤ 5 := by
  have key : ∃ p m, s'.th t = some (op, p) ∧ n + m ≤ 5 ∧ Plain p m := by
    induction h with
    | refl => exact ⟨_, 5, h0, by omega, call_plain sz fuel hop⟩
    | @other n k s' s'' h hs e ih => rw [e]; exact ih
    | @own n k s' s'' h hs h1 h2 ih =>
      obtain ⟨p, m, hp, hm, hpl⟩ := ih
      obtain ⟨o, kk, rfl, ⟨v, sh', p', -, -, h3⟩ | h3⟩ := own_step hs hp h1 h2
      · cases o with
        | casCount e x => exact hpl.elim
        | loadSize | storeSize x | loadCount | rmw i f | trunc x | view | remap x | maxSize => exact ⟨_, m - 1, h3, by have := hpl.1; omega, hpl.2 v⟩
      · cases o with
        | casCount e x => exact hpl.elim
        | loadSize | storeSize x | loadCount | rmw i f | trunc x | view | remap x | maxSize => exact ⟨_, m - 1, h3, by have := hpl.1; omega, trivial⟩
  obtain ⟨p, m, -, hm, -⟩ := key
  omega

/-- **C73, expand.** A call of expand or expand_bits takes at most 12 steps of its own, and 11 more for every time another process has changed the vector's size during the call: it retries only when another
expand has succeeded. -/
theorem C73_expand {t n k : Nat} {s0 s s' : Sys (8 * sz)} {op : Op (8 * sz)} (hf : 16 ≤ s0.sh.fsize) (hn : ∀ t, s0.th t = none) (hr : Reach sz fuel ok s0 s) (hop : op.grows = true) (h0 : s.th t = some (op, call sz fuel op)) (h : Takes sz fuel ok t s n k s') : n ≤ 12 + 11 * k := by
  obtain ⟨c, req, hc⟩ : ∃ c req, call sz fuel op = V.loadCount.bind fun x => (expandLoop c req fuel x).bind fun _ => .ret Ret.unit := by
    cases op with
    | expand c => exact ⟨c, _, rfl⟩
    | expandBits c => exact ⟨_, _, rfl⟩
    | load | store | exchange | cas | add | sub | and | or | xor | loadBit | storeBit | xorBit | size => cases hop
  have hkept : Kept s0 := ⟨hf, fun t op p e => by rw [hn t] at e; cases e⟩
  have key : (n = 0 ∧ s'.th t = some (op, call sz fuel op)) ∨ (∃ p, s'.th t = some (op, p) ∧ Fin p ∧ n ≤ 12 + 11 * k) ∨
      ∃ p orig m j, s'.th t = some (op, p) ∧ Aim p orig m ∧ n + m ≤ 12 + 11 * j ∧ j ≤ k ∧ (count s'.sh = orig ∨ j + 1 ≤ k) := by
    induction h with
    | refl => exact Or.inl ⟨rfl, h0⟩
    | @other n k s' s'' h hs e ih =>
      rw [e]
      rcases ih with ⟨h1, h2⟩ | ⟨p, h1, h2, h3⟩ | ⟨p, orig, m, j, h1, h2, h3, h4, h5⟩
      · exact Or.inl ⟨h1, h2⟩
      · refine Or.inr (Or.inl ⟨p, h1, h2, ?_⟩)
        split <;> omega
      · refine Or.inr (Or.inr ⟨p, orig, m, j, h1, h2, h3, ?_, ?_⟩)
        · split <;> omega
        · split
          · rename_i e2; rw [e2]; exact h5
          · exact Or.inr (by omega)
    | @own n k s' s'' h hs h1 h2 ih =>
      rcases ih with ⟨rfl, hp⟩ | ⟨p, hp, h4, h5⟩ | ⟨p, orig, m, j, hp, h4, h5, h6, h7⟩
      · rw [hc] at hp
        obtain ⟨o, kk, e, ⟨v, sh', p', hex, hsh, h3⟩ | h3⟩ := own_step hs hp h1 h2
        · obtain ⟨rfl, e2⟩ := Prog.step.inj e
          have e2 := eq_of_heq e2
          subst e2
          refine Or.inr (Or.inr ⟨_, v, 11, 0, h3, expandLoop_aim c req Ret.unit fuel v, by omega, Nat.zero_le _, Or.inl ?_⟩)
          rw [hsh]
          unfold exec at hex
          simp only at hex
          split at hex
          · obtain ⟨e3, e4⟩ := Prod.mk.inj (Option.some.inj hex)
            rw [← e3, ← (Prod.mk.inj e4).1]
            rfl
          · cases hex
        · exact Or.inr (Or.inl ⟨_, h3, trivial, by omega⟩)
      · obtain ⟨o, kk, rfl, -⟩ := own_step hs hp h1 h2
        exact h4.elim
      · obtain ⟨o, kk, rfl, ⟨v, sh', p', hex, hsh, h3⟩ | h3⟩ := own_step hs hp h1 h2
        · have hkp := (hkept.reach hr).reach h.reach
          have hcs := (hkp.cuts _ _ _ hp).step
          have hec := exec_count hex hcs.1 hkp.fsize
          have plain : (∀ e x, o ≠ .casCount e x) → 1 ≤ m ∧ Aim (kk v) orig (m - 1) → (n + 1 = 0 ∧ s''.th t = some (op, call sz fuel op)) ∨ (∃ p, s''.th t = some (op, p) ∧ Fin p ∧ n + 1 ≤ 12 + 11 * k) ∨
              ∃ p orig m j, s''.th t = some (op, p) ∧ Aim p orig m ∧ n + 1 + m ≤ 12 + 11 * j ∧ j ≤ k ∧ (count s''.sh = orig ∨ j + 1 ≤ k) := by
            intro hno hA
            refine Or.inr (Or.inr ⟨_, orig, m - 1, j, h3, hA.2, by omega, h6, ?_⟩)
            rw [hsh, hec.2 hno]
            exact h7
          cases o with
          | casCount e x =>
            obtain ⟨b1, b2, b3, b4⟩ := h4
            subst b1
            simp only [exec] at hex
            split at hex
            · split at hex
              · rename_i hce
                obtain ⟨e3, e4⟩ := Prod.mk.inj (Option.some.inj hex)
                rw [← e3] at h3
                exact Or.inr (Or.inl ⟨_, h3, b3 _, by omega⟩)
              · rename_i hce
                obtain ⟨e3, e4⟩ := Prod.mk.inj (Option.some.inj hex)
                rw [← e3] at h3
                rcases h7 with h7 | h7
                · exact absurd h7 hce
                · refine Or.inr (Or.inr ⟨_, _, 11, j + 1, h3, b4 _, by omega, h7, Or.inl ?_⟩)
                  rw [hsh, ← (Prod.mk.inj e4).1]
                  rfl
            · cases hex
          | loadSize | storeSize x | loadCount | rmw i f | trunc x | view | remap x | maxSize => exact plain (by intro e x h; cases h) ⟨h4.1, h4.2 v⟩
        · refine Or.inr (Or.inl ⟨_, h3, trivial, ?_⟩)
          have : 1 ≤ m := by
            cases o with
            | casCount e x => exact h4.2.1
            | loadSize | storeSize x | loadCount | rmw i f | trunc x | view | remap x | maxSize => exact h4.1
          omega
  rcases key with ⟨h1, -⟩ | ⟨p, -, -, h3⟩ | ⟨p, orig, m, j, -, -, h3, h4, -⟩
  · omega
  · exact h3
  · omega

/-- **C73, never blocked.** A process in the middle of a call can always take its next step, whatever the others are doing or have left behind: there is nothing to wait for. -/
theorem C73_moves {t : Nat} {s : Sys (8 * sz)} {op : Op (8 * sz)} {p : VProg (8 * sz) (Ret (8 * sz))} (ha : s.alive t = true) (ht : s.th t = some (op, p)) (hp : p ≠ .ub) :
    ∃ s', Step sz fuel ok s s' ∧ s'.th t ≠ s.th t := by
  cases p with
  | ub => exact absurd rfl hp
  | ret r => exact ⟨_, .ret ha ht, by rw [ht]; show upd _ _ _ _ ≠ _; rw [upd_same]; intro h; cases h⟩
  | err e => exact ⟨_, .throw ha ht, by rw [ht]; show upd _ _ _ _ ≠ _; rw [upd_same]; intro h; cases h⟩
  | step o k =>
    cases hex : exec sz o s.sh (s.proc t) with
    | none => exact ⟨_, .fault ha ht hex, by rw [ht]; show upd _ _ _ _ ≠ _; rw [upd_same]; intro h; cases h⟩
    | some r =>
      obtain ⟨v, sh', p'⟩ := r
      refine ⟨_, .step ha ht hex, ?_⟩
      rw [ht]
      show upd _ _ _ _ ≠ _
      rw [upd_same]
      intro h
      exact step_ne o k v (Prod.mk.inj (Option.some.inj h)).2

/-! ### a concrete execution -/

/-- `t` is alive and about to take a step inside a method -/
def busy (s : Sys w) (t : Nat) : Bool :=
  match s.alive t, s.th t with
  | true, some (_, .step _ _) => true
  | _, _ => false

theorem busy_act {s : Sys (8 * sz)} {t : Nat} (h : busy s t = true) : Step sz fuel ok s (act sz fuel s t none) ∧ (act sz fuel s t none).th t ≠ s.th t ∧ (act sz fuel s t none).th t ≠ none ∧
    ∀ t', t' ≠ t → (act sz fuel s t none).th t' = s.th t' := by
  unfold busy at h
  split at h
  · rename_i op o k h1 h2
    cases h3 : exec sz o s.sh (s.proc t) with
    | none =>
      simp only [act, h1, h2, h3]
      refine ⟨.fault h1 h2 h3, ?_, ?_, fun t' e => upd_ne _ _ e⟩
      · rw [upd_same]; intro h; cases h
      · rw [upd_same]; intro h; cases h
    | some y =>
      obtain ⟨v, sh', p'⟩ := y
      simp only [act, h1, h2, h3]
      refine ⟨.step h1 h2 h3, ?_, ?_, fun t' e => upd_ne _ _ e⟩
      · rw [upd_same]; intro h; exact step_ne o k v (Prod.mk.inj (Option.some.inj h)).2
      · rw [upd_same]; intro h; cases h
  · cases h

/-- a schedule of busy processes: how many steps process `t` has taken, and how often the others have changed the count -/
def follow (sz fuel t : Nat) : List Nat → Sys (8 * sz) → Nat → Nat → Option (Nat × Nat × Sys (8 * sz))
  | [], s, n, k => some (n, k, s)
  | t' :: l, s, n, k =>
    if busy s t' then
      (if t' = t then follow sz fuel t l (act sz fuel s t' none) (n + 1) k
      else follow sz fuel t l (act sz fuel s t' none) n (if count (act sz fuel s t' none).sh = count s.sh then k else k + 1))
    else none

theorem follow_takes {t : Nat} {s0 : Sys (8 * sz)} : ∀ (l : List Nat) {s s' : Sys (8 * sz)} {n k n' k' : Nat}, Takes sz fuel ok t s0 n k s → follow sz fuel t l s n k = some (n', k', s') →
    Takes sz fuel ok t s0 n' k' s' := by
  intro l
  induction l with
  | nil =>
    intro s s' n k n' k' h e
    obtain ⟨e1, e2⟩ := Prod.mk.inj (Option.some.inj e)
    obtain ⟨e2, e3⟩ := Prod.mk.inj e2
    subst e1; subst e2; subst e3
    exact h
  | cons t' l ih =>
    intro s s' n k n' k' h e
    unfold follow at e
    by_cases hb : busy s t' = true
    · rw [if_pos hb] at e
      obtain ⟨h1, h2, h3, h4⟩ := busy_act (fuel := fuel) (ok := ok) hb
      by_cases ht : t' = t
      · rw [if_pos ht] at e
        subst ht
        exact ih (.own h h1 h2 h3) e
      · rw [if_neg ht] at e
        exact ih (.other h h1 (h4 t (Ne.symm ht))) e
    · rw [if_neg hb] at e
      cases e

/-- processes 0 and 1 have called expand(10) and expand(5) on an empty vector -/
def duel : Sys (8 * 8) := acts 8 3 [(0, some (.expand 10), 0), (1, some (.expand 5), 0)] (sys0 8)

/-- process 1's compare-and-swap comes between process 0's load of the count and its compare-and-swap, which fails: process 0 takes 11 steps, of which 5 are the second try -/
example : Reach 8 3 (fun _ _ _ => True) (sys0 8) duel ∧ duel.th 0 = some (.expand 10, call 8 3 (.expand 10)) ∧
    ∃ s', Takes 8 3 (fun _ _ _ => True) 0 duel 11 1 s' ∧ count s'.sh = 10 ∧ busy s' 0 = false := by
  have h : ((follow 8 3 0 [0, 0, 0, 1, 1, 1, 1, 1, 1, 0, 0, 0, 0, 0, 0, 0, 0] duel 0 0).map fun x => (x.1, x.2.1, count x.2.2.sh, busy x.2.2 0)) = some (11, 1, 10, false) := by decide +kernel
  refine ⟨acts_reach _ .refl, rfl, ?_⟩
  cases hf : follow 8 3 0 [0, 0, 0, 1, 1, 1, 1, 1, 1, 0, 0, 0, 0, 0, 0, 0, 0] duel 0 0 with
  | none => rw [hf] at h; cases h
  | some x =>
    obtain ⟨n, k, s'⟩ := x
    rw [hf] at h
    obtain ⟨e1, f1⟩ := Prod.mk.inj (Option.some.inj h)
    obtain ⟨e2, f2⟩ := Prod.mk.inj f1
    obtain ⟨e3, e4⟩ := Prod.mk.inj f2
    dsimp only at e1 e2 e3 e4
    subst e1; subst e2
    exact ⟨s', follow_takes _ .refl hf, e3, e4⟩
end Verif.AtomicVec
