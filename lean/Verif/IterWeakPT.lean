import Verif.IterWeak
import Verif.PrefixTreeStep
/-
PrefixTree: an iteration during which the tree changes.
-/
namespace Verif.PrefixTree
open Verif PT

/-- the method an iterator calls, PrefixTree.cc 1453-1466 (begin, line 636) and 1491-1501 (++); both call next_key_value; it takes the lock -/
inductive NOp
  | next (k : Option Bytes)

/-- what it returns: the pair the iterator now holds, or none at the end -/
abbrev NRe : NOp → Type
  | .next _ => Option (Bytes × Val)

/-- its body -/
def nimpl (base : Nat) : (op : NOp) → HProg (NRe op)
  | .next k => iterNext base k

abbrev NProg (α : Type) := CallProg NOp NRe α

/-- one call -/
def nNext (k : Option Bytes) : NProg (Option (Bytes × Val)) := call1 (NOp.next k)

/-- for (it = begin; it != end; ++it) visit(*it), given up after `n` calls; the flag says that the end was reached -/
def walkC : Nat → Option Bytes → NProg (List (Bytes × Val) × Bool)
  | 0, _ => .ret ([], false)
  | n + 1, k => (nNext k).bind fun r => match r with
    | none => .ret ([], true)
    | some x => (walkC n (some x.1)).bind fun l => .ret (x :: l.1, l.2)

/-- call number i finds a tree in state `S i` -/
def Seq (base : Nat) (F : Nat → Option Block) (S : Nat → State) (W : Nat → Heap) : Prop := ∀ i, PrefixTree.Holds base F (S i) (W i)

/-- the walk from `k` whose calls are i, i+1, …: what each call returns is next in the tree it finds -/
inductive Walk (S : Nat → State) : Nat → Option Bytes → List (Bytes × Val) → Bool → Prop
  | stop {i k} : Walk S i k [] false
  | fin {i k} : Succ (S i).m k none → Walk S i k [] true
  | more {i k x l f} : Succ (S i).m k (some x) → Walk S (i + 1) (some x.1) l f → Walk S i k (x :: l) f

variable {base : Nat} {F : Nat → Option Block} {S : Nat → State} {W : Nat → Heap}

theorem next_call (h : Seq base F S W) {i : Nat} {k : Option Bytes} (hk : ∀ k', k = some k' → Start (S i) k') {β : Type} {p : Option (Bytes × Val) → NProg β} {Q : Out β → Nat → Prop}
    (hp : ∀ r, Succ (S i).m k r → iwp (nimpl base) W (p r) Q (i + 1)) : iwp (nimpl base) W ((nNext k).bind p) Q i := by
  obtain ⟨⟨g, ni, nn, t, hm, -, -, htt⟩, -, -⟩ := h i
  have hs := (iterNext_spec (I := fun _ => True) t (k := k) (fun k' e => t.start hm htt (hk k' e))).wp
  refine wp_mono ?_ hs
  rintro out h' ⟨rfl, r, rfl, hr⟩
  rw [hm] at hr
  exact ⟨rfl, Or.inr ⟨r, rfl, hp r (succ_iter hr)⟩⟩

theorem succ_mem {m : Map} {k : Option Bytes} {x : Bytes × Val} (h : Succ m k (some x)) : m x.1 = some x.2 := by
  cases k with
  | none => exact h.1
  | some k => exact h.1

theorem walkC_spec (h : Seq base F S W) {cur : Nat → Option Bytes} (hc : ∀ i x, Succ (S i).m (cur i) (some x) → cur (i + 1) = some x.1 ∧ Start (S (i + 1)) x.1) : ∀ (n : Nat) (k : Option Bytes) (i : Nat), k = cur i → (∀ k', k = some k' → Start (S i) k') →
    iwp (nimpl base) W (walkC n k) (fun out i' => ∃ l f, out = .ok (l, f) ∧ Walk S i k l f ∧ i' = i + l.length + (if f then 1 else 0) ∧ (f = false → l.length = n)) i := by
  intro n
  induction n with
  | zero => intro k i _ _; exact ⟨[], false, rfl, .stop, rfl, fun _ => rfl⟩
  | succ n ih =>
    intro k i hcur hk
    unfold walkC
    refine next_call h hk ?_
    intro r hr
    cases r with
    | none => exact ⟨[], true, rfl, .fin hr, rfl, fun h => by cases h⟩
    | some x =>
      obtain ⟨h1, h2⟩ := hc i x (hcur ▸ hr)
      refine iwp_bind ?_
      refine iwp_mono ?_ (ih (some x.1) (i + 1) h1.symm ?_)
      · rintro out i' ⟨l, f, rfl, h1, rfl, h2⟩
        refine Or.inr ⟨_, rfl, x :: l, f, rfl, .more hr h1, ?_, ?_⟩
        · rw [List.length_cons]; omega
        · intro hf; rw [List.length_cons, h2 hf]
      · rintro k' e
        injection e with e; subst e
        exact h2

theorem Walk.after {i : Nat} {k : Option Bytes} {l : List (Bytes × Val)} {f : Bool} (w : Walk S i k l f) : ∀ x ∈ l, After k x.1 := by
  induction w with
  | stop => intro x hx; cases hx
  | fin => intro x hx; cases hx
  | @more i k x l f h1 h2 ih =>
    intro y hy
    have hx : After k x.1 := by
      cases k with
      | none => trivial
      | some k => exact h1.2.2.1
    rcases List.mem_cons.1 hy with rfl | hy
    · exact hx
    · have := ih y hy
      cases k with
      | none => trivial
      | some k => exact List.lt_trans hx this

theorem Walk.sorted {i : Nat} {k : Option Bytes} {l : List (Bytes × Val)} {f : Bool} (w : Walk S i k l f) : (l.map Prod.fst).Pairwise (· < ·) := by
  induction w with
  | stop => exact List.Pairwise.nil
  | fin => exact List.Pairwise.nil
  | @more i k x l f h1 h2 ih =>
    refine List.Pairwise.cons ?_ ih
    intro k' hk
    obtain ⟨y, hy, rfl⟩ := List.mem_map.1 hk
    exact h2.after y hy

theorem Walk.was {i : Nat} {k : Option Bytes} {l : List (Bytes × Val)} {f : Bool} (w : Walk S i k l f) : ∀ t x, l[t]? = some x → (S (i + t)).m x.1 = some x.2 := by
  induction w with
  | stop => intro t x h; simp at h
  | fin => intro t x h; simp at h
  | @more i k x l f h1 h2 ih =>
    intro t y hy
    cases t with
    | zero => simp at hy; subst hy; exact succ_mem h1
    | succ t =>
      rw [List.getElem?_cons_succ] at hy
      have := ih t y hy
      rwa [show i + 1 + t = i + (t + 1) by omega] at this

/-- a key that is there from call i up to the call that passes it is visited, with the value it has at that call -/
theorem Walk.all {i : Nat} {k : Option Bytes} {l : List (Bytes × Val)} {f : Bool} (w : Walk S i k l f) {q : Bytes} (hq : After k q) (hp : ∀ j, i ≤ j → j < i + l.length + (if f then 1 else 0) → (S j).m q ≠ none)
    (hf : f = true ∨ ∃ x ∈ l, q ≤ x.1) : q ∈ l.map Prod.fst := by
  induction w with
  | stop =>
    rcases hf with hf | ⟨x, hx, -⟩
    · cases hf
    · cases hx
  | @fin i k h1 =>
    exfalso
    have h2 := hp i (Nat.le_refl _) (by simp)
    cases k with
    | none => exact h2 (h1 q)
    | some k => exact h1 q h2 hq
  | @more i k x l f h1 h2 ih =>
    have hi := hp i (Nat.le_refl _) (by rw [List.length_cons]; omega)
    have hle : x.1 ≤ q := by
      cases k with
      | none => exact h1.2.2 q hi
      | some k => exact h1.2.2.2 q hi hq
    by_cases e : q = x.1
    · subst e; exact List.mem_cons_self
    · have hlt : x.1 < q := List.not_le.1 fun h => e (List.le_antisymm h hle)
      refine List.mem_cons_of_mem _ (ih hlt ?_ ?_)
      · intro j h3 h4
        exact hp j (by omega) (by rw [List.length_cons]; omega)
      · rcases hf with hf | ⟨y, hy, h5⟩
        · exact Or.inl hf
        · rcases List.mem_cons.1 hy with rfl | hy
          · exact absurd hlt (List.not_lt.2 h5)
          · exact Or.inr ⟨y, hy, h5⟩

theorem Walk.steps' {i : Nat} {k : Option Bytes} {l : List (Bytes × Val)} {f : Bool} (w : Walk S i k l f) : ∀ t x, l[t]? = some x → Succ (S (i + t)).m (if t = 0 then k else (l[t - 1]?).map Prod.fst) (some x) := by
  induction w with
  | stop => intro t x h; simp at h
  | fin => intro t x h; simp at h
  | @more i k x l f h1 h2 ih =>
    intro t y hy
    cases t with
    | zero => simp at hy; subst hy; exact h1
    | succ t =>
      rw [List.getElem?_cons_succ] at hy
      have := ih t y hy
      rw [show i + 1 + t = i + (t + 1) by omega] at this
      rw [if_neg (by omega), Nat.add_sub_cancel]
      cases t with
      | zero => exact this
      | succ t =>
        rw [if_neg (by omega), Nat.add_sub_cancel] at this
        rw [List.getElem?_cons_succ]
        exact this

theorem Walk.steps {l : List (Bytes × Val)} {f : Bool} (w : Walk S 0 none l f) : ∀ t x, l[t]? = some x → Succ (S t).m (if t = 0 then none else (l[t - 1]?).map Prod.fst) (some x) := by
  intro t x h
  have := w.steps' t x h
  rwa [Nat.zero_add] at this

theorem succ_unique {m : Map} {k : Option Bytes} {x y : Bytes × Val} (h1 : Succ m k (some x)) (h2 : Succ m k (some y)) : x = y := by
  obtain ⟨kx, vx⟩ := x
  obtain ⟨ky, vy⟩ := y
  have e : kx = ky := by
    cases k with
    | none => exact List.le_antisymm (h1.2.2 ky h2.2.1) (h2.2.2 kx h1.2.1)
    | some k => exact List.le_antisymm (h1.2.2.2 ky h2.2.1 h2.2.2.1) (h2.2.2.2 kx h1.2.1 h1.2.2.1)
  subst e
  have a := succ_mem h1
  have b := succ_mem h2
  rw [Prod.mk.injEq]
  exact ⟨rfl, Option.some.inj (a.symm.trans b)⟩

end Verif.PrefixTree
