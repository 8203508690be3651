import Verif.AtomicVecSpec
import Verif.SimpleOps
/-
AtomicVector: representation in memory, rely/guarantee reasoning about single methods, and the invariant of the system.
-/
namespace Verif.AtomicVec
open Verif
variable {sz : Nat}

/-- abstract shared state: the vector, the size word, the file size, the OS limit -/
structure G (w : Nat) where
  a : List (BitVec w)
  Z : Nat
  F : Nat
  lim : Nat

/-- well-formedness -/
structure GOk (sz : Nat) (g : G (8 * sz)) : Prop where
  pos : 0 < sz
  min : 4096 ≤ g.Z
  zf : g.Z ≤ g.F
  fl : g.F < 9223372036854775808
  ll : g.lim < 9223372036854775808
  fit : 16 + g.a.length * sz ≤ g.Z

/-- memory shows `g` -/
structure Rep (sz : Nat) (s : Sh) (g : G (8 * sz)) : Prop where
  ok : GOk sz g
  size : leRd s.mem 0 8 = g.Z
  file : s.fsize = g.F
  lim : s.lim = g.lim
  count : leRd s.mem 8 8 = g.a.length
  elem : ∀ i (h : i < g.a.length), BitVec.ofNat (8 * sz) (leRd s.mem (16 + i * sz) sz) = g.a[i]
  zero : ∀ j, 16 + g.a.length * sz ≤ j → s.mem j = 0

/-- precondition of a step in terms of the abstract state -/
def apre (sz : Nat) : VOp (8 * sz) → G (8 * sz) → Proc → Prop
  | .storeSize v, g, _ => g.Z ≤ v ∧ v ≤ g.F
  | .casCount e n, g, _ => g.a.length = e → e ≤ n ∧ 16 + n * sz ≤ g.Z
  | .rmw i _, g, p => i < g.a.length ∧ 16 + i * sz + sz ≤ p.view
  | .trunc n, g, _ => n ≤ g.lim → g.Z ≤ n
  | .remap n, _, _ => 4096 ≤ n
  | _, _, _ => True

/-- effect of a step in terms of the abstract state -/
def apost (sz : Nat) : (o : VOp (8 * sz)) → G (8 * sz) → Proc → VRe o × G (8 * sz) × Proc
  | .loadSize, g, p => (g.Z, g, p)
  | .storeSize v, g, p => ((), { g with Z := v }, p)
  | .loadCount, g, p => (g.a.length, g, p)
  | .casCount e n, g, p =>
      if g.a.length = e then ((true, e), { g with a := g.a ++ List.replicate (n - g.a.length) 0 }, p) else ((false, g.a.length), g, p)
  | .rmw i f, g, p => (g.a.getD i 0, { g with a := g.a.set i (f (g.a.getD i 0)) }, p)
  | .trunc n, g, p => if n ≤ g.lim then (true, { g with F := n }, p) else (false, g, p)
  | .view, g, p => (p.view, g, p)
  | .remap n, g, p => ((), g, { p with view := n })
  | .maxSize, g, p => (p.maxSize, g, p)

theorem leRd_zero {f : Nat → UInt8} {a n : Nat} (h : ∀ i, a ≤ i → i < a + n → f i = 0) : leRd f a n = 0 := by
  induction n generalizing a with
  | zero => rfl
  | succ n ih =>
    have e1 : f a = 0 := h a (Nat.le_refl _) (by omega)
    have e2 := ih (a := a + 1) (fun i h1 h2 => h i (by omega) (by omega))
    simp only [leRd, e1, e2]; rfl

theorem exec_sim {s : Sh} {g : G (8 * sz)} {p : Proc} (r : Rep sz s g) (hv : 4096 ≤ p.view) (o : VOp (8 * sz)) (hp : apre sz o g p) :
    ∃ s', exec sz o s p = some ((apost sz o g p).1, s', (apost sz o g p).2.2) ∧ Rep sz s' (apost sz o g p).2.1 := by
  have hm := r.ok.min
  have hz := r.ok.zf
  have hfl := r.ok.fl
  have hfit := r.ok.fit
  have hf := r.file
  have m0 : mapped s p 0 8 = true := by simp only [mapped, decide_eq_true_eq]; omega
  have m8 : mapped s p 8 8 = true := by simp only [mapped, decide_eq_true_eq]; omega
  cases o with
  | loadSize => exact ⟨s, by simp only [exec, m0, if_true, r.size]; rfl, r⟩
  | loadCount => exact ⟨s, by simp only [exec, m8, if_true, r.count]; rfl, r⟩
  | view => exact ⟨s, rfl, r⟩
  | remap n => exact ⟨s, rfl, r⟩
  | maxSize => exact ⟨s, rfl, r⟩
  | storeSize v =>
    obtain ⟨h1, h2⟩ := hp
    refine ⟨{ s with mem := leWr s.mem 0 8 v }, by simp only [exec, m0, if_true]; rfl, ⟨⟨r.ok.pos, ?_, ?_, hfl, r.ok.ll, ?_⟩, ?_, hf, r.lim, ?_, ?_, ?_⟩⟩
    · show 4096 ≤ v; omega
    · exact h2
    · show 16 + g.a.length * sz ≤ v; omega
    · show leRd (leWr s.mem 0 8 v) 0 8 = v
      rw [leRd_leWr_same]; exact Nat.mod_eq_of_lt (by show v < 18446744073709551616; omega)
    · show leRd (leWr s.mem 0 8 v) 8 8 = _
      rw [leRd_leWr_disj _ _ _ _ _ _ (by omega)]; exact r.count
    · intro i h
      show BitVec.ofNat _ (leRd (leWr s.mem 0 8 v) (16 + i * sz) sz) = _
      rw [leRd_leWr_disj _ _ _ _ _ _ (by omega)]; exact r.elem i h
    · intro j hj
      show leWr s.mem 0 8 v j = 0
      rw [leWr_out _ _ _ _ _ (by have : 16 + g.a.length * sz ≤ j := hj; omega)]; exact r.zero j hj
  | casCount e n =>
    by_cases he : g.a.length = e
    · obtain ⟨h1, h2⟩ := hp he
      have hlen : (g.a ++ List.replicate (n - g.a.length) (0 : BitVec (8 * sz))).length = n := by
        rw [List.length_append, List.length_replicate]; omega
      refine ⟨{ s with mem := leWr s.mem 8 8 n }, ?_, ?_⟩
      · simp only [exec, m8, if_true, r.count, if_pos he, apost]
      simp only [apost, if_pos he]
      refine ⟨⟨r.ok.pos, hm, hz, hfl, r.ok.ll, by rw [hlen]; exact h2⟩, ?_, hf, r.lim, ?_, ?_, ?_⟩
      · show leRd (leWr s.mem 8 8 n) 0 8 = _
        rw [leRd_leWr_disj _ _ _ _ _ _ (by omega)]; exact r.size
      · show leRd (leWr s.mem 8 8 n) 8 8 = _
        rw [leRd_leWr_same, hlen]
        refine Nat.mod_eq_of_lt ?_
        show n < 18446744073709551616
        have : n * 1 ≤ n * sz := Nat.mul_le_mul_left n r.ok.pos
        omega
      · intro i h
        show BitVec.ofNat _ (leRd (leWr s.mem 8 8 n) (16 + i * sz) sz) = _
        rw [leRd_leWr_disj _ _ _ _ _ _ (by omega)]
        by_cases hi : i < g.a.length
        · rw [List.getElem_append_left hi]; exact r.elem i hi
        · rw [List.getElem_append_right (by omega), List.getElem_replicate]
          rw [leRd_zero]
          · rfl
          · intro j hj _
            refine r.zero j ?_
            have : g.a.length * sz ≤ i * sz := Nat.mul_le_mul_right sz (by omega)
            omega
      · intro j hj
        rw [hlen] at hj
        show leWr s.mem 8 8 n j = 0
        rw [leWr_out _ _ _ _ _ (by omega)]
        refine r.zero j ?_
        have : g.a.length * sz ≤ n * sz := Nat.mul_le_mul_right sz (by omega)
        omega
    · refine ⟨s, ?_, ?_⟩
      · simp only [exec, m8, if_true, r.count, if_neg he, apost]
      · simp only [apost, if_neg he]; exact r
  | rmw i f =>
    obtain ⟨h1, h2⟩ := hp
    have hi : i * sz + sz ≤ g.a.length * sz := by
      rw [← Nat.succ_mul]; exact Nat.mul_le_mul_right sz h1
    have m : mapped s p (16 + i * sz) sz = true := by simp only [mapped, decide_eq_true_eq]; omega
    have hg : g.a.getD i 0 = g.a[i] := by rw [List.getD_eq_getElem?_getD, List.getElem?_eq_getElem h1]; rfl
    refine ⟨{ s with mem := leWr s.mem (16 + i * sz) sz (f g.a[i]).toNat }, ?_, ?_⟩
    · simp only [exec, m, if_true, r.elem i h1, apost, hg]
    simp only [apost, hg]
    refine ⟨⟨r.ok.pos, hm, hz, hfl, r.ok.ll, by simpa using hfit⟩, ?_, hf, r.lim, ?_, ?_, ?_⟩
    · show leRd (leWr s.mem _ _ _) 0 8 = _
      rw [leRd_leWr_disj _ _ _ _ _ _ (by omega)]; exact r.size
    · show leRd (leWr s.mem _ _ _) 8 8 = _
      rw [leRd_leWr_disj _ _ _ _ _ _ (by omega), List.length_set]; exact r.count
    · intro j hj
      show BitVec.ofNat _ (leRd (leWr s.mem (16 + i * sz) sz _) (16 + j * sz) sz) = _
      rw [List.getElem_set]
      split
      · rename_i e; subst e
        rw [leRd_leWr_same, Nat.mod_eq_of_lt, BitVec.ofNat_toNat, BitVec.setWidth_eq]
        rw [show 256 ^ sz = 2 ^ (8 * sz) by rw [Nat.pow_mul]]
        exact BitVec.isLt _
      · rename_i e
        have : i * sz + sz ≤ j * sz ∨ j * sz + sz ≤ i * sz := by
          rw [← Nat.succ_mul, ← Nat.succ_mul]
          rcases Nat.lt_or_gt_of_ne e with h | h
          · exact Or.inl (Nat.mul_le_mul_right sz h)
          · exact Or.inr (Nat.mul_le_mul_right sz h)
        rw [leRd_leWr_disj _ _ _ _ _ _ (by omega)]
        exact r.elem j (by simpa using hj)
    · intro j hj
      rw [List.length_set] at hj
      show leWr s.mem _ _ _ j = 0
      rw [leWr_out _ _ _ _ _ (by omega)]
      exact r.zero j hj
  | trunc n =>
    by_cases hl : n ≤ g.lim
    · have hn := hp hl
      refine ⟨{ s with mem := fun i => if i < s.fsize ∧ i < n then s.mem i else 0, fsize := n }, ?_, ?_⟩
      · simp only [exec, r.lim, if_pos hl, apost]
      simp only [apost, if_pos hl]
      have hsame : ∀ i, i < g.Z → (if i < s.fsize ∧ i < n then s.mem i else 0) = s.mem i := by
        intro i hi; rw [if_pos (by omega)]
      refine ⟨⟨r.ok.pos, hm, hn, by have := r.ok.ll; show n < _; omega, r.ok.ll, hfit⟩, ?_, rfl, r.lim, ?_, ?_, ?_⟩
      · rw [← r.size]; exact leRd_congr _ _ _ _ fun i _ h => hsame i (by omega)
      · show _ = g.a.length
        rw [← r.count]; exact leRd_congr _ _ _ _ fun i _ h => hsame i (by omega)
      · intro i h
        have hi : i * sz + sz ≤ g.a.length * sz := by rw [← Nat.succ_mul]; exact Nat.mul_le_mul_right sz h
        refine Eq.trans ?_ (r.elem i h)
        congr 1
        exact leRd_congr _ _ _ _ fun i _ h => hsame i (by omega)
      · intro j hj
        show (if _ then _ else _) = _
        split
        · exact r.zero j hj
        · rfl
    · refine ⟨s, ?_, ?_⟩
      · simp only [exec, r.lim, if_neg hl, apost]
      · simp only [apost, if_neg hl]; exact r

/-! ### Rely/guarantee -/

variable {w : Nat}

/-- does the method grow the vector? -/
def Op.isExp : Op w → Bool
  | .expand _ => true
  | .expandBits _ => true
  | _ => false

/-- the element a method touches -/
def Op.idx : Op w → Option Nat
  | .load i | .store i _ | .exchange i _ | .cas i _ _ | .add i _ | .sub i _ | .and i _ | .or i _ | .xor i _ => some i
  | .loadBit b | .storeBit b _ | .xorBit b => some (b / w)
  | _ => none

/-- sizes that fit in size_t arithmetic -/
def Op.ok (sz : Nat) : Op w → Prop
  | .expand n => 16 + n * sz + 4095 < W64
  | .expandBits n => n + (w - 1) < W64 ∧ 16 + (n + w - 1) / w * sz + 4095 < W64
  | _ => True

/-- what the other processes may do while `op` runs -/
structure Rely (op : Op w) (g g' : G w) : Prop where
  z : g.Z ≤ g'.Z
  len : g.a.length ≤ g'.a.length
  lim : g'.lim = g.lim
  exp : op.isExp = true → g'.a.length = g.a.length ∧ g'.Z = g.Z ∧ g'.F = g.F
  idx : ∀ i, op.idx = some i → g.a.length ≤ i → g'.a.length = g.a.length

/-- what `op` may do -/
structure Guar (op : Op w) (g g' : G w) : Prop where
  z : g.Z ≤ g'.Z
  len : g.a.length ≤ g'.a.length
  lim : g'.lim = g.lim
  exp : op.isExp = false → g'.a.length = g.a.length ∧ g'.Z = g.Z ∧ g'.F = g.F

theorem Guar.refl (op : Op w) (g : G w) : Guar op g g := ⟨Nat.le_refl _, Nat.le_refl _, rfl, fun _ => ⟨rfl, rfl, rfl⟩⟩

def Stable (op : Op w) (J : G w → Prop) : Prop := ∀ g g', Rely op g g' → J g → J g'

/-- the step either leaves the vector alone or is the instant at which the call takes effect -/
def LinOk (op : Op w) (g : G w) (τ : Option (Out (Ret w))) (g' : G w) (τ' : Option (Out (Ret w))) : Prop :=
  (τ' = τ ∧ g'.a = g.a) ∨ (τ = none ∧ ∃ r, τ' = some r ∧ Spec g.a op r g'.a)

def twp (sz : Nat) (op : Op (8 * sz)) : VProg (8 * sz) (Ret (8 * sz)) → Option (Out (Ret (8 * sz))) → Proc → (G (8 * sz) → Prop) → Prop
  | .ret r, τ, p, _ => τ = some (.ok r) ∧ 4096 ≤ p.view
  | .err e, τ, p, _ => τ = some (.err e) ∧ 4096 ≤ p.view
  | .ub, _, _, _ => False
  | .step o k, τ, p, J => 4096 ≤ p.view ∧ ∀ g, GOk sz g → J g → apre sz o g p ∧ Guar op g (apost sz o g p).2.1 ∧
      ∃ τ', LinOk op g τ (apost sz o g p).2.1 τ' ∧ ∃ J', Stable op J' ∧ J' (apost sz o g p).2.1 ∧
        twp sz op (k (apost sz o g p).1) τ' (apost sz o g p).2.2 J'

/-- the knowledge that element `i`, if it exists, is mapped -/
def Sees (sz i v : Nat) (g : G w) : Prop := i < g.a.length → 16 + i * sz + sz ≤ v

theorem sees_stable {op : Op w} {i v : Nat} (h : op.idx = some i) : Stable op (Sees sz i v) := by
  intro g g' hr hJ hi
  by_cases hl : g.a.length ≤ i
  · have := hr.idx i h hl; omega
  · exact hJ (by omega)

theorem sees_now {i : Nat} {g : G (8 * sz)} (h : GOk sz g) : Sees sz i g.Z g := by
  intro hi
  have h1 : i * sz + sz ≤ g.a.length * sz := by rw [← Nat.succ_mul]; exact Nat.mul_le_mul_right sz hi
  have := h.fit
  omega

theorem stay {op : Op w} {g : G w} {τ : Option (Out (Ret w))} : LinOk op g τ g τ := Or.inl ⟨rfl, rfl⟩

/-- element methods -/
theorem elem_twp {op : Op (8 * sz)} {i : Nat} {f : BitVec (8 * sz) → BitVec (8 * sz)} {res : BitVec (8 * sz) → Ret (8 * sz)} (hidx : op.idx = some i)
    (hexp : op.isExp = false) (hspec : ∀ a r a', OnElem a i f res r a' → Spec a op r a') {p : Proc} (hv : 4096 ≤ p.view) :
    twp sz op ((elem i f).bind fun x => .ret (res x)) none p (fun _ => True) := by
  have tail : ∀ p : Proc, 4096 ≤ p.view → twp sz op (V.loadCount.bind fun c =>
      (if c ≤ i then (.err .outOfRange : VProg (8 * sz) _) else V.rmw i f).bind fun x => .ret (res x)) none p (Sees sz i p.view) := by
    intro p hv
    refine ⟨hv, fun g hg hJ => ⟨trivial, Guar.refl _ _, ?_⟩⟩
    by_cases hc : g.a.length ≤ i
    · refine ⟨some (.err .outOfRange), Or.inr ⟨rfl, _, rfl, hspec _ _ _ (Or.inl ⟨hc, rfl, rfl⟩)⟩, fun _ => True, fun _ _ _ _ => trivial, trivial, ?_⟩
      show twp sz op ((if g.a.length ≤ i then (.err .outOfRange : VProg (8 * sz) _) else V.rmw i f).bind fun x => .ret (res x)) _ _ _
      rw [if_pos hc]
      exact ⟨rfl, hv⟩
    · refine ⟨none, stay, fun g => Sees sz i p.view g ∧ i < g.a.length, ?_, ⟨hJ, by show i < g.a.length; omega⟩, ?_⟩
      · intro g1 g2 hr h
        exact ⟨sees_stable hidx g1 g2 hr h.1, Nat.lt_of_lt_of_le h.2 hr.len⟩
      show twp sz op ((if g.a.length ≤ i then (.err .outOfRange : VProg (8 * sz) _) else V.rmw i f).bind fun x => .ret (res x)) _ _ _
      rw [if_neg hc]
      refine ⟨hv, fun g hg hJ => ⟨⟨hJ.2, hJ.1 hJ.2⟩, ⟨Nat.le_refl _, by simp [apost], rfl, fun _ => ⟨by simp [apost], rfl, rfl⟩⟩, ?_⟩⟩
      refine ⟨some (.ok (res (g.a.getD i 0))), Or.inr ⟨rfl, _, rfl, hspec _ _ _ (Or.inr ⟨hJ.2, ?_, ?_⟩)⟩, fun _ => True, fun _ _ _ _ => trivial, trivial, rfl, hv⟩
      · rw [List.getD_eq_getElem?_getD, List.getElem?_eq_getElem hJ.2]; rfl
      · simp only [apost]; rw [List.getD_eq_getElem?_getD, List.getElem?_eq_getElem hJ.2]; rfl
  unfold elem checkRemap
  simp only [Prog.bind_assoc]
  refine ⟨hv, fun g hg _ => ⟨trivial, Guar.refl _ _, none, stay, fun _ => True, fun _ _ _ _ => trivial, trivial, ?_⟩⟩
  refine ⟨hv, fun g hg _ => ⟨trivial, Guar.refl _ _, none, stay, Sees sz i g.Z, sees_stable hidx, sees_now hg, ?_⟩⟩
  show twp sz op ((if g.Z ≠ p.view then V.remap g.Z else (.ret () : VProg (8 * sz) Unit)).bind fun _ => _) none p _
  have hZ := hg.min
  split
  · refine ⟨hv, fun g2 hg2 hJ => ⟨hZ, Guar.refl _ _, none, stay, Sees sz i g.Z, sees_stable hidx, hJ, ?_⟩⟩
    exact tail { p with view := g.Z } hZ
  · rename_i h
    have h : g.Z = p.view := by simpa using h
    rw [h]
    exact tail p hv

/-- knowledge of the only process that is growing the vector -/
theorem exp_stable {op : Op w} (h : op.isExp = true) (P : Nat → Nat → Nat → Prop) : Stable op (fun g => P g.a.length g.Z g.F) := by
  intro g g' hr hJ
  obtain ⟨h1, h2, h3⟩ := hr.exp h
  simp only [h1, h2, h3]; exact hJ

/-- check_size_and_remap by the growing process: the mapping is then exactly as long as the size word says -/
theorem exp_remap {op : Op (8 * sz)} (he : op.isExp = true) (P : Nat → Nat → Nat → Prop) {k : Unit → VProg (8 * sz) (Ret (8 * sz))} {p : Proc} (hv : 4096 ≤ p.view)
    (hk : ∀ v, 4096 ≤ v → twp sz op (k ()) none { p with view := v } (fun g => P g.a.length g.Z g.F ∧ g.Z = v)) :
    twp sz op (checkRemap.bind k) none p (fun g => P g.a.length g.Z g.F) := by
  unfold checkRemap
  simp only [Prog.bind_assoc]
  refine ⟨hv, fun g hg hJ => ⟨trivial, Guar.refl _ _, none, stay, fun g => P g.a.length g.Z g.F, exp_stable he P, hJ, ?_⟩⟩
  refine ⟨hv, fun g hg hJ => ⟨trivial, Guar.refl _ _, none, stay, fun g' => P g'.a.length g'.Z g'.F ∧ g'.Z = g.Z, exp_stable he (fun a b c => P a b c ∧ b = g.Z), ⟨hJ, rfl⟩, ?_⟩⟩
  show twp sz op ((if g.Z ≠ p.view then V.remap g.Z else (.ret () : VProg (8 * sz) Unit)).bind k) none p _
  have hZ := hg.min
  split
  · exact ⟨hv, fun g2 hg2 hJ => ⟨hZ, Guar.refl _ _, none, stay, _, exp_stable he (fun a b c => P a b c ∧ b = g.Z), hJ, hk g.Z hZ⟩⟩
  · rename_i h
    have h : g.Z = p.view := by simpa using h
    have := hk p.view hv
    rw [h]
    exact this

/-- growing -/
theorem expand_twp {op : Op (8 * sz)} {n fuel : Nat} (he : op.isExp = true) (hf : 0 < fuel)
    (hspec : ∀ a r a', OnExpand a n r a' → Spec a op r a') (hn : 16 + n * sz + 4095 < W64) {p : Proc} (hv : 4096 ≤ p.view) :
    twp sz op ((expand sz fuel n).bind fun _ => .ret .unit) none p (fun _ => True) := by
  obtain ⟨fuel, rfl⟩ : ∃ k, fuel = k + 1 := ⟨fuel - 1, by omega⟩
  unfold expand
  refine ⟨hv, fun g hg _ => ⟨trivial, Guar.refl _ _, ?_⟩⟩
  by_cases hc : g.a.length < n
  · refine ⟨none, stay, fun g' => g'.a.length = g.a.length, exp_stable he (fun a _ _ => a = g.a.length), rfl, ?_⟩
    generalize hcd : g.a.length = c at *
    show twp sz op ((expandLoop n ((16 + n * sz) % W64) (fuel + 1) g.a.length).bind _) none p _
    rw [hcd]
    simp only [expandLoop, if_pos hc, Prog.bind_assoc, Nat.mod_eq_of_lt (show 16 + n * sz < W64 by omega)]
    have hr := Simple.roundPage_le (n := 16 + n * sz) (by omega)
    generalize hns : roundPage (16 + n * sz) = ns at hr
    -- the final compare-exchange
    have fin : ∀ p : Proc, 4096 ≤ p.view → ∀ P : Nat → Nat → Nat → Prop, (∀ a b c', P a b c' → a = c ∧ ns ≤ b) →
        twp sz op ((V.casCount c n).bind fun r => (if r.1 = true then (.ret () : VProg (8 * sz) Unit) else expandLoop n (16 + n * sz) fuel r.2).bind fun _ => .ret .unit)
          none p (fun g => P g.a.length g.Z g.F) := by
      intro p hv P hP
      refine ⟨hv, fun g hg hJ => ?_⟩
      obtain ⟨h1, h2⟩ := hP _ _ _ hJ
      have e : apost sz (.casCount c n) g p = ((true, c), { g with a := g.a ++ List.replicate (n - g.a.length) 0 }, p) := by
        simp only [apost, if_pos h1]
      rw [e]
      refine ⟨fun _ => ⟨by omega, by omega⟩, ⟨Nat.le_refl _, by simp, rfl, fun h => by rw [he] at h; cases h⟩, some (.ok .unit), ?_, fun _ => True, fun _ _ _ _ => trivial, trivial, rfl, hv⟩
      exact Or.inr ⟨rfl, _, rfl, hspec _ _ _ (Or.inl ⟨rfl, rfl⟩)⟩
    refine exp_remap he (fun a _ _ => a = c) hv ?_
    intro v hv2
    unfold poolExpand
    simp only [Prog.bind_assoc, hns]
    have fail : ∀ g : G (8 * sz), g.a.length = c → LinOk op g none g (some (.err .noMem)) := by
      intro g h
      exact Or.inr ⟨rfl, _, rfl, hspec _ _ _ (Or.inr ⟨by omega, rfl, rfl⟩)⟩
    refine ⟨hv2, fun g1 hg1 hJ1 => ⟨trivial, Guar.refl _ _, ?_⟩⟩
    by_cases hmx : p.maxSize ≠ 0 ∧ ns > p.maxSize
    · refine ⟨_, fail g1 hJ1.1, fun _ => True, fun _ _ _ _ => trivial, trivial, ?_⟩
      show twp sz op ((if p.maxSize ≠ 0 ∧ ns > p.maxSize then (.err .noMem : VProg (8 * sz) Unit) else _).bind _) _ _ _
      rw [if_pos hmx]
      exact ⟨rfl, hv2⟩
    refine ⟨none, stay, _, exp_stable he (fun a b _ => a = c ∧ b = v), hJ1, ?_⟩
    show twp sz op ((if p.maxSize ≠ 0 ∧ ns > p.maxSize then (.err .noMem : VProg (8 * sz) Unit) else _).bind _) _ _ _
    rw [if_neg hmx]
    simp only [Prog.bind_assoc]
    refine ⟨hv2, fun g2 hg2 hJ2 => ⟨trivial, Guar.refl _ _, none, stay, _, exp_stable he (fun a b _ => a = c ∧ b = v), hJ2, ?_⟩⟩
    show twp sz op ((if ns ≤ v then (.ret () : VProg (8 * sz) Unit) else _).bind _) _ _ _
    by_cases hle : ns ≤ v
    · rw [if_pos hle]
      exact fin { p with view := v } hv2 (fun a b _ => a = c ∧ b = v) (fun a b _ h => ⟨h.1, by omega⟩)
    rw [if_neg hle]
    simp only [Prog.bind_assoc]
    show twp sz op _ none { p with view := v } _
    refine ⟨hv2, fun g3 hg3 hJ3 => ⟨fun _ => by omega, ?_⟩⟩
    by_cases hl : ns ≤ g3.lim
    · have e : apost sz (.trunc ns) g3 { p with view := v } = (true, { g3 with F := ns }, { p with view := v }) := by simp only [apost, if_pos hl]
      rw [e]
      refine ⟨⟨Nat.le_refl _, Nat.le_refl _, rfl, fun h => by rw [he] at h; cases h⟩, none, stay, fun g => g.a.length = c ∧ g.Z = v ∧ g.F = ns,
        exp_stable he (fun a b d => a = c ∧ b = v ∧ d = ns), ⟨hJ3.1, hJ3.2, rfl⟩, ?_⟩
      refine ⟨hv2, fun g4 hg4 hJ4 => ⟨⟨by omega, by omega⟩, ⟨by show g4.Z ≤ ns; omega, Nat.le_refl _, rfl, fun h => by rw [he] at h; cases h⟩, none, stay,
        fun g => g.a.length = c ∧ g.Z = ns, exp_stable he (fun a b _ => a = c ∧ b = ns), ⟨hJ4.1, rfl⟩, ?_⟩⟩
      refine exp_remap he (fun a b _ => a = c ∧ b = ns) hv2 ?_
      intro v2 hv3
      exact fin { p with view := v2 } hv3 (fun a b _ => (a = c ∧ b = ns) ∧ b = v2) (fun a b _ h => ⟨h.1.1, by omega⟩)
    · have e : apost sz (.trunc ns) g3 { p with view := v } = (false, g3, { p with view := v }) := by simp only [apost, if_neg hl]
      rw [e]
      exact ⟨Guar.refl _ _, _, fail g3 hJ3.1, fun _ => True, fun _ _ _ _ => trivial, trivial, rfl, hv2⟩
  · refine ⟨some (.ok .unit), Or.inr ⟨rfl, _, rfl, hspec _ _ _ (Or.inl ⟨rfl, ?_⟩)⟩, fun _ => True, fun _ _ _ _ => trivial, trivial, ?_⟩
    · show g.a = _
      rw [show n - g.a.length = 0 by omega]; simp
    · show twp sz op ((expandLoop n ((16 + n * sz) % W64) (fuel + 1) g.a.length).bind _) _ p _
      simp only [expandLoop, if_neg hc]
      exact ⟨rfl, hv⟩

end Verif.AtomicVec
