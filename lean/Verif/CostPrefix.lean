import Verif.CostHash
import Verif.PropsPrefixTree
/-
C71: what the methods of PrefixTree cost (README, "Time complexity", PrefixTree).
-/
namespace Verif
open PrefixTree (Val CVal Check RType isZero isNaN)

namespace PrefixTree
attribute [local irreducible] Block.rd Block.rdB

/-! ### Bounds over all paths -/

/-- the nodes passed -/
def Fol.path : Fol → List Addr
  | .val _ ns => ns
  | .node _ _ ns => ns
  | .stuck _ _ ns _ _ => ns

/-- the bytes of the key that are left -/
def Fol.rest : Fol → Nat
  | .stuck _ _ _ _ k => k.length + 1
  | _ => 0

theorem follow_every : ∀ (k : Bytes) (par nd : Addr) (ns : List Addr), HEvery (follow k par nd ns) {} fun o e => ({} : Cost).Upto e 0 0 (3 * k.length) 0 ∧
    ∀ f, o = .ok f → f.rest ≤ k.length ∧ f.path.length ≤ ns.length + k.length := by
  intro k
  induction k with
  | nil =>
    intro par nd ns
    refine ⟨.refl _, ?_⟩
    rintro f ⟨⟩
    exact ⟨Nat.le_refl _, Nat.le_refl _⟩
  | cons b k ih =>
    intro par nd ns
    unfold follow
    have fin : ∀ (e : Cost) (f : Fol), ({} : Cost).Upto e 0 0 3 0 → f.rest ≤ k.length + 1 → f.path = ns → (({} : Cost).Upto e 0 0 (3 * (b :: k).length) 0 ∧
        ∀ f', Out.ok f = .ok f' → f'.rest ≤ (b :: k).length ∧ f'.path.length ≤ ns.length + (b :: k).length) := by
      intro e f u h1 h2
      refine ⟨u.mono (by simp; omega) (Nat.le_refl _), ?_⟩
      rintro f' ⟨⟩
      rw [h2]
      exact ⟨h1, by simp⟩
    intro s _ e _
    simp only [Prog.ret_bind]
    split
    · exact fin _ _ (by constructor <;> simp [hcost]) (Nat.le_refl _) rfl
    · intro c _
      simp only [Prog.ret_bind]
      split
      · exact fin _ _ (by constructor <;> simp [hcost]) (Nat.le_refl _) rfl
      · split
        · split
          · exact fin _ _ (by constructor <;> simp [hcost]) (Nat.zero_le _) rfl
          · exact fin _ _ (by constructor <;> simp [hcost]) (Nat.le_refl _) rfl
        · refine (ih nd (c, 0) ((c, 0) :: ns)).from.mono ?_
          rintro o c' ⟨e', rfl, u, h⟩
          obtain ⟨u1, u2, u3, u4⟩ := u
          simp at u1 u2 u3 u4
          refine ⟨by constructor <;> simp [hcost] <;> omega, fun f hf => ?_⟩
          have := h f hf
          simp at this ⊢
          omega

theorem traverse_every (base : Nat) (k : Bytes) : HEvery (traverse base k) {} fun o e => ({} : Cost).Upto e 0 0 (3 * k.length) 0 ∧
    ∀ t, o = .ok t → t.2.length ≤ k.length + 1 := by
  unfold traverse
  simp only [Prog.bind_def]
  refine every_then (follow_every k (0, 0) (root base) [root base]) ?_ ?_
  · rintro f e ⟨u, h⟩
    rw [Cost.zero_add]
    have := (h f rfl).2
    cases f with
    | val a ns => exact ⟨u, by rintro t ⟨⟩; simp [Fol.path] at this; show ns.length ≤ _; omega⟩
    | node a b ns => exact ⟨u, by rintro t ⟨⟩; simp [Fol.path] at this; show ns.length ≤ _; omega⟩
    | stuck a b ns c d => exact ⟨u, by rintro t ⟨⟩; simp [Fol.path] at this; show ns.length ≤ _; omega⟩
  · rintro x e ⟨u, -⟩
    rw [Cost.zero_add]
    exact ⟨u, by rintro t ⟨⟩⟩

theorem zeroSlots_every (b o : Nat) : ∀ n x, HEvery (zeroSlots b o n x) {} fun _ e => e = { acc := n } := by
  intro n
  induction n with
  | zero => intro x; exact rfl
  | succ n ih =>
    intro x _ _
    refine (ih (x + 1)).from.mono ?_
    rintro _ _ ⟨e, rfl, rfl⟩
    ext <;> simp [hcost]; omega

theorem copySlots_every (old new : Addr) (os ns : Nat) : ∀ n x, HEvery (copySlots old new os ns n x) {} fun _ e => e = { acc := 2 * n } := by
  intro n
  induction n with
  | zero => intro x; exact rfl
  | succ n ih =>
    intro x _ _ _ _
    refine (ih (x + 1)).from.mono ?_
    rintro _ _ ⟨e, rfl, rfl⟩
    ext <;> simp [hcost]; omega

theorem fillSlots_every {nd : Addr} {o s e s' e' : Nat} {lo : Bool} (h1 : s < 256) (h2 : e < 256) (h3 : s' < 256) (h4 : e' < 256) :
    HEvery (fillSlots nd o s e s' e' lo) {} fun _ c => ({} : Cost).Upto c 0 0 768 0 := by
  unfold fillSlots
  split
  · simp only [Prog.bind_def]
    refine every_then (zeroSlots_every _ _ _ _) ?_ ?_
    · rintro _ _ rfl
      refine (copySlots_every _ _ _ _ _ _).from.mono ?_
      rintro _ _ ⟨_, rfl, rfl⟩
      constructor <;> simp; omega
    · rintro _ _ rfl; constructor <;> simp; omega
  · simp only [Prog.bind_def]
    refine every_then (copySlots_every _ _ _ _ _ _) ?_ ?_
    · rintro _ _ rfl
      refine (zeroSlots_every _ _ _ _).from.mono ?_
      rintro _ _ ⟨_, rfl, rfl⟩
      constructor <;> simp; omega
    · rintro _ _ rfl; constructor <;> simp; omega

theorem regrow_every {par nd : Addr} {s e s' e' : Nat} {lo : Bool} (h1 : s < 256) (h2 : e < 256) (h3 : s' < 256) (h4 : e' < 256) :
    HEvery (regrow par nd s e s' e' lo) {} fun _ c => ({} : Cost).Max c 1 1 776 0 := by
  unfold regrow
  intro ps _ v _ r _
  cases r with
  | none => constructor <;> simp [hcost]
  | some o =>
    intro _ _ _ _ _ _ _ _
    simp only [Prog.ret_bind]
    refine every_then (fillSlots_every h1 h2 h3 h4) ?_ ?_
    · rintro _ c ⟨u1, u2, u3, u4⟩
      intro _ _ _ _ _ _
      simp at u1 u2 u3 u4
      constructor <;> simp [hcost] <;> omega
    · rintro _ c ⟨u1, u2, u3, u4⟩
      simp at u1 u2 u3 u4
      constructor <;> simp [hcost] <;> omega

theorem extend_every (par nd : Addr) (b : UInt8) : HEvery (extend par nd b.toNat) {} fun _ c => ({} : Cost).Max c 1 1 778 0 := by
  unfold extend
  intro s hs e he
  have hb := b.toNat_lt
  have hs' : s < 256 := hs
  have he' : e < 256 := he
  simp only [Prog.ret_bind]
  split
  · refine (regrow_every hs' he' hb he').from.mono ?_
    rintro _ _ ⟨c, rfl, u1, u2, u3, u4⟩
    simp at u1 u2 u3 u4
    constructor <;> simp [hcost] <;> omega
  · split
    · refine (regrow_every hs' he' hs' hb).from.mono ?_
      rintro _ _ ⟨c, rfl, u1, u2, u3, u4⟩
      simp at u1 u2 u3 u4
      constructor <;> simp [hcost] <;> omega
    · constructor <;> simp [hcost]

theorem chain_every (base : Nat) : ∀ (k : Bytes) (nd : Addr) (b : UInt8), HEvery (chain base nd b k) {} fun _ c => ({} : Cost).Max c k.length 0 (10 * k.length + 1) 0 := by
  intro k
  induction k with
  | nil => intro nd b _ _; constructor <;> simp [hcost]
  | cons b' k ih =>
    intro nd b s _ v _ r _
    cases r with
    | none => constructor <;> simp [hcost] ; omega
    | some o =>
      intro _ _ _ _ _ _ _ _ _ _ _ _ _ _ _ _
      refine (ih (o, 0) b').from.mono ?_
      rintro _ _ ⟨c, rfl, u1, u2, u3, u4⟩
      simp at u1 u2 u3 u4
      constructor <;> simp [hcost] <;> omega

theorem addItems_every (b d : Nat) : HEvery (addItems b d) {} fun _ e => e = { acc := 2 } := by
  intro _ _ _ _; rfl
theorem addNodes_every (b d : Nat) : HEvery (addNodes b d) {} fun _ e => e = { acc := 2 } := by
  intro _ _ _ _; rfl

theorem makeWord_every (v : Val) : HEvery (makeWord v) {} fun _ e => ({} : Cost).Max e 1 0 1 (match v with
    | .str d => d.length
    | _ => 0) := by
  cases v with
  | str d =>
    simp only [makeWord]
    split
    · constructor <;> simp
    · split
      · constructor <;> simp
      · intro r _
        cases r with
        | none => constructor <;> simp [hcost]
        | some o => intro _ _; constructor <;> simp [hcost]
  | int x =>
    simp only [makeWord]
    split
    · constructor <;> simp
    · intro r _
      cases r with
      | none => constructor <;> simp [hcost]
      | some o => intro _ _; constructor <;> simp [hcost]
  | bool b => constructor <;> simp
  | null => constructor <;> simp
  | dbl d => trivial

theorem hasChildren_every (nd : Addr) : ∀ n x, HEvery (hasChildren nd n x) {} fun _ e => ({} : Cost).Upto e 0 0 n 0 := by
  intro n
  induction n with
  | zero => intro x; exact .refl _
  | succ n ih =>
    intro x c _
    simp only [Prog.ret_bind]
    split
    · constructor <;> simp [hcost]
    · refine (ih (x + 1)).from.mono ?_
      rintro _ _ ⟨e, rfl, u1, u2, u3, u4⟩
      simp at u1 u2 u3 u4
      constructor <;> simp [hcost] <;> omega

theorem prune_every (base : Nat) : ∀ (ns : List Addr), HEvery (prune base ns) {} fun _ e => ({} : Cost).Max e 0 (ns.length - 1) (264 * (ns.length - 1)) 0 := by
  intro ns
  induction ns with
  | nil => exact .refl _
  | cons nd st ih =>
    cases st with
    | nil => exact .refl _
    | cons par st =>
      intro s _ e he
      have he' : @LT.lt Nat instLTNat e 256 := he
      simp only [Prog.ret_bind]
      refine every_then (hasChildren_every nd (e + 1 - s) 0) ?_ ?_
      · rintro has c ⟨u1, u2, u3, u4⟩
        simp at u1 u2 u3 u4
        cases has with
        | true => constructor <;> simp [hcost] <;> omega
        | false =>
          intro _ _ _ _ v _ _ _ _ _ _ _ _ _
          simp only [Prog.ret_bind]
          split
          · constructor <;> simp [hcost] <;> omega
          · refine ih.from.mono ?_
            rintro _ _ ⟨c', rfl, w1, w2, w3, w4⟩
            simp at w1 w2 w3 w4
            constructor <;> simp [hcost] <;> omega
      · rintro _ c ⟨u1, u2, u3, u4⟩
        simp at u1 u2 u3 u4
        constructor <;> simp [hcost] <;> omega

theorem storeIncr_every (a : Addr) (c : Nat) (v : BitVec 64) : HEvery (storeIncr a c v) {} fun _ e => ({} : Cost).Max e 1 (if typeOf c = 3 then 1 else 0) 2 0 := by
  unfold storeIncr
  split
  · intro _ _
    simp only [Prog.ret_bind]
    split
    · intro _ _; constructor <;> simp [hcost]
    · constructor <;> simp [hcost]
  · split
    · intro _ _; constructor <;> simp [hcost]
    · intro r _
      cases r with
      | none => constructor <;> simp [hcost]
      | some o => intro _ _ _ _; constructor <;> simp [hcost]

theorem storeIncrDbl_every (a : Addr) (o : Nat) (x : BitVec 64) : HEvery (storeIncrDbl a o x) {} fun _ e => ({} : Cost).Max e 1 (if o = 0 then 0 else 1) 2 0 := by
  unfold storeIncrDbl
  split
  · intro _ _
    simp only [Prog.ret_bind, freeBuf]
    split
    · rename_i h; intro _ _; constructor <;> simp [hcost]
    · constructor <;> simp [hcost]
  · split
    · intro _ _; constructor <;> simp [hcost]
    · intro r _
      cases r with
      | none => constructor <;> simp [hcost]
      | some o => intro _ _ _ _; constructor <;> simp [hcost]

theorem sumSlots_every {f : Nat → HProg Nat} (hf : ∀ c, HEvery (f c) {} fun o e => ({} : Cost).Upto e 0 0 e.acc 0 ∧ ∀ n, o = .ok n → e.acc ≤ 258 * n) (nd : Addr) :
    ∀ n x, HEvery (sumSlots f nd n x) {} fun o e => ({} : Cost).Upto e 0 0 e.acc 0 ∧ ∀ r, o = .ok r → e.acc ≤ n + 258 * r := by
  intro n
  induction n with
  | zero => intro x; exact ⟨.refl _, fun _ _ => Nat.zero_le _⟩
  | succ n ih =>
    intro x c _
    simp only [Prog.ret_bind]
    refine every_then (hf c) ?_ ?_
    · rintro a e ⟨u, h⟩
      refine every_then (ih (x + 1)) ?_ ?_
      · rintro r e' ⟨u', h'⟩
        have h1 := h a rfl
        have h2 := h' r rfl
        obtain ⟨u1, u2, u3, u4⟩ := u
        obtain ⟨v1, v2, v3, v4⟩ := u'
        simp at u1 u2 u3 u4 v1 v2 v3 v4
        refine ⟨by constructor <;> simp [hcost] <;> omega, ?_⟩
        rintro _ ⟨⟩
        simp [hcost]
        omega
      · rintro _ e' ⟨u', -⟩
        obtain ⟨u1, u2, u3, u4⟩ := u
        obtain ⟨v1, v2, v3, v4⟩ := u'
        simp at u1 u2 u3 u4 v1 v2 v3 v4
        exact ⟨by constructor <;> simp [hcost] <;> omega, by rintro _ ⟨⟩⟩
    · rintro _ e ⟨u, h⟩
      obtain ⟨u1, u2, u3, u4⟩ := u
      simp at u1 u2 u3 u4
      exact ⟨by constructor <;> simp [hcost] <;> omega, by rintro _ ⟨⟩⟩

theorem sumNode_every {f : Nat → HProg Nat} (hf : ∀ c, HEvery (f c) {} fun o e => ({} : Cost).Upto e 0 0 e.acc 0 ∧ ∀ n, o = .ok n → e.acc ≤ 258 * n) (nd : Addr) :
    HEvery (sumNode f nd) {} fun o e => ({} : Cost).Upto e 0 0 e.acc 0 ∧ ∀ r, o = .ok r → e.acc ≤ 258 + 258 * r := by
  intro s _ e he
  have he' : @LT.lt Nat instLTNat e 256 := he
  simp only [Prog.ret_bind]
  refine (sumSlots_every hf nd (e + 1 - s) 0).from.mono ?_
  rintro o _ ⟨c, rfl, u, h⟩
  obtain ⟨u1, u2, u3, u4⟩ := u
  simp at u1 u2 u3 u4
  refine ⟨by constructor <;> simp [hcost] <;> omega, fun r hr => ?_⟩
  have := h r hr
  simp [hcost]
  omega

theorem nodesFor_every : ∀ (fuel c : Nat), HEvery (nodesFor fuel c) {} fun o e => ({} : Cost).Upto e 0 0 e.acc 0 ∧ ∀ n, o = .ok n → e.acc ≤ 258 * n := by
  intro fuel
  induction fuel with
  | zero => intro c; trivial
  | succ f ih =>
    intro c
    unfold nodesFor
    split
    · exact ⟨.refl _, fun _ _ => Nat.zero_le _⟩
    · simp only [Prog.bind_def]
      refine every_then (sumNode_every ih (c, 0)) ?_ ?_
      · rintro r e ⟨u, h⟩
        rw [Cost.zero_add]
        refine ⟨u, ?_⟩
        rintro _ ⟨⟩
        have := h r rfl
        omega
      · rintro _ e ⟨u, h⟩
        rw [Cost.zero_add]
        exact ⟨u, by rintro _ ⟨⟩⟩

theorem traverseSlot_every (base : Nat) (k : Bytes) : HEvery (traverseSlot base k) {} fun _ e => ({} : Cost).Upto e 0 0 (3 * k.length + 1) 0 := by
  unfold traverseSlot
  split
  · exact .refl _
  · simp only [Prog.bind_def]
    refine every_then (follow_every k (0, 0) (root base) [root base]) ?_ ?_
    · rintro f e ⟨⟨u1, u2, u3, u4⟩, -⟩
      simp at u1 u2 u3 u4
      cases f with
      | val a ns => constructor <;> simp <;> omega
      | node a b ns => intro _ _; constructor <;> simp [hcost] <;> omega
      | stuck a b ns c d => constructor <;> simp <;> omega
    · rintro _ e ⟨⟨u1, u2, u3, u4⟩, -⟩
      simp at u1 u2 u3 u4
      constructor <;> simp <;> omega

/-- nodes_for_prefix: reads only, and at most 258 accesses for each node that it counts -/
theorem nodesForPrefix_every (base : Nat) (k : Bytes) : HEvery (nodesForPrefix base k) {} fun o e => ({} : Cost).Upto e 0 0 e.acc 0 ∧ ∀ n, o = .ok n → e.acc ≤ 3 * k.length + 2 + 258 * n := by
  unfold nodesForPrefix
  split
  · simp only [Prog.bind_def]
    refine every_then (traverseSlot_every base k) ?_ ?_
    · rintro a e ⟨u1, u2, u3, u4⟩
      simp at u1 u2 u3 u4
      cases a with
      | none => exact ⟨by constructor <;> simp <;> omega, by rintro _ ⟨⟩; simp; omega⟩
      | some a =>
        intro c _
        simp only [Prog.ret_bind]
        refine (nodesFor_every maxSteps c).from.mono ?_
        rintro o _ ⟨e', rfl, w, h⟩
        obtain ⟨w1, w2, w3, w4⟩ := w
        simp at w1 w2 w3 w4
        refine ⟨by constructor <;> simp [hcost] <;> omega, fun r hr => ?_⟩
        have := h r hr
        simp [hcost]
        omega
    · rintro _ e ⟨u1, u2, u3, u4⟩
      simp at u1 u2 u3 u4
      exact ⟨by constructor <;> simp <;> omega, by rintro _ ⟨⟩⟩
  · simp only [Prog.bind_def]
    refine every_then (sumNode_every (nodesFor_every maxSteps) (root base)) ?_ ?_
    · rintro r e ⟨u, h⟩
      rw [Cost.zero_add]
      refine ⟨u, ?_⟩
      rintro _ ⟨⟩
      have := h r rfl
      omega
    · rintro _ e ⟨u, h⟩
      rw [Cost.zero_add]
      exact ⟨u, by rintro _ ⟨⟩⟩

/-! ### clear -/

/-- accesses in proportion to frees -/
abbrev Paid (n : Nat) (e : Cost) : Prop := e.allocs = 0 ∧ e.bytes = 0 ∧ e.acc ≤ n + 1030 * e.frees

theorem eachSlot_every {f : Addr → HProg Unit} (hf : ∀ a, HEvery (f a) {} fun o e => o = .ok () ∧ Paid 4 e) (nd : Addr) : ∀ n x, HEvery (eachSlot f nd n x) {} fun o e => o = .ok () ∧ Paid (4 * n) e := by
  intro n
  induction n with
  | zero => intro x; exact ⟨rfl, rfl, rfl, Nat.zero_le _⟩
  | succ n ih =>
    intro x
    unfold eachSlot
    simp only [Prog.bind_def]
    refine every_then (hf _) ?_ ?_
    · rintro _ e ⟨-, u1, u2, u3⟩
      refine (ih (x + 1)).from.mono ?_
      rintro _ _ ⟨e', rfl, h0, w1, w2, w3⟩
      exact ⟨h0, by simp; omega, by simp; omega, by simp; omega⟩
    · rintro _ e ⟨⟨⟩, -⟩

theorem clearNode_every {f : Addr → HProg Unit} (hf : ∀ a, HEvery (f a) {} fun o e => o = .ok () ∧ Paid 4 e) (nd : Addr) : HEvery (clearNodeWith f nd) {} fun o e => o = .ok () ∧ Paid 1030 e := by
  unfold clearNodeWith
  simp only [Prog.bind_def]
  refine every_then (hf _) ?_ ?_
  · rintro _ c ⟨-, u1, u2, u3⟩ s _ e he
    have he' : @LT.lt Nat instLTNat e 256 := he
    simp only [Prog.ret_bind]
    refine (eachSlot_every hf nd (e + 1 - s) 0).from.mono ?_
    rintro _ _ ⟨e', rfl, h0, w1, w2, w3⟩
    exact ⟨h0, by simp [hcost]; omega, by simp [hcost]; omega, by simp [hcost]; omega⟩
  · rintro _ e ⟨⟨⟩, -⟩

theorem clearSlot_every (base : Nat) : ∀ (fuel : Nat) (a : Addr), HEvery (clearSlot base fuel a) {} fun o e => o = .ok () ∧ Paid 4 e := by
  intro fuel
  induction fuel with
  | zero => intro a; trivial
  | succ f ih =>
    intro a
    unfold clearSlot
    intro c _
    simp only [Prog.ret_bind]
    split
    · exact ⟨rfl, rfl, rfl, by simp [hcost]⟩
    · split
      · refine every_then (clearNode_every ih (valOf c, 0)) ?_ ?_
        · rintro _ e ⟨-, u1, u2, u3⟩ _ _ _ _ _ _ _ _
          exact ⟨rfl, by simp [hcost]; omega, by simp [hcost]; omega, by simp [hcost]; omega⟩
        · rintro _ e ⟨⟨⟩, -⟩
      · split
        · intro _ _
          simp only [Prog.ret_bind, freeBuf]
          split
          · intro _ _ _ _ _ _; exact ⟨rfl, rfl, rfl, by simp [hcost]⟩
          · intro _ _ _ _; exact ⟨rfl, rfl, rfl, by simp [hcost]⟩
        · split
          · exact ⟨rfl, rfl, rfl, by simp [hcost]⟩
          · intro _ _ _ _ _ _; exact ⟨rfl, rfl, rfl, by simp [hcost]⟩

/-- clear: at most 1030 accesses for each free and for the root -/
theorem clear_every (base : Nat) : HEvery (clear base) {} fun o e => o = .ok () ∧ Paid 1030 e := clearNode_every (clearSlot_every base maxSteps) (root base)

end PrefixTree
end Verif
