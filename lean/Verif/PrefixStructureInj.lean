import Verif.PrefixStructure
import Mathlib.Tactic.IntervalCases
/-
The text of get_structure determines the tree: PrefixTree.cc 1331-1430.
-/
namespace Verif.PrefixTree
open Verif

/-- what may follow the text of a subtree: nothing, a comma or a closing parenthesis -/
def Stop : Bytes → Prop
  | [] => True
  | c :: _ => c = 44 ∨ c = 41

theorem cut_at : ∀ {a b x y : Bytes}, (∀ c ∈ a, c ≠ 44 ∧ c ≠ 41) → (∀ c ∈ b, c ≠ 44 ∧ c ≠ 41) → Stop x → Stop y → a ++ x = b ++ y → a = b ∧ x = y
  | [], [], _, _, _, _, _, _, h => ⟨rfl, h⟩
  | [], c :: b, x, y, _, hb, hx, _, h => by
    have h : x = c :: (b ++ y) := h
    subst h
    have := hb c (by simp)
    rcases hx with h | h
    · exact absurd h this.1
    · exact absurd h this.2
  | c :: a, [], x, y, ha, _, _, hy, h => by
    have h : c :: (a ++ x) = y := h
    subst h
    have := ha c (by simp)
    rcases hy with h | h
    · exact absurd h this.1
    · exact absurd h this.2
  | c :: a, d :: b, x, y, ha, hb, hx, hy, h => by
    have h : c :: (a ++ x) = d :: (b ++ y) := h
    injection h with h1 h2
    obtain ⟨h3, h4⟩ := cut_at (fun c hc => ha c (by simp [hc])) (fun c hc => hb c (by simp [hc])) hx hy h2
    exact ⟨by rw [h1, h3], h4⟩

/-! ### numbers -/

/-- value of a hexadecimal digit -/
def unhex (c : UInt8) : Nat := if c < 58 then c.toNat - 48 else c.toNat - 55

theorem unhex_digit : ∀ a : Fin 16, unhex (digit16 a.1) = a.1 := by decide +kernel

theorem hex2_inj {a b : Nat} (ha : a < 256) (hb : b < 256) (h : hex2 a = hex2 b) : a = b := by
  unfold hex2 at h
  injection h with h1 h2
  injection h2 with h2 _
  have e : ∀ n m, digit16 (n % 16) = digit16 (m % 16) → n % 16 = m % 16 := fun n m hh => by
    have h3 := unhex_digit ⟨n % 16, by omega⟩
    have h4 := unhex_digit ⟨m % 16, by omega⟩
    simp only at h3 h4
    rw [← h3, ← h4, hh]
  have := e _ _ h1
  have := e _ _ h2
  omega

theorem hex2_append {a b : Nat} {x y : Bytes} (ha : a < 256) (hb : b < 256) (h : hex2 a ++ x = hex2 b ++ y) : a = b ∧ x = y := by
  obtain ⟨h1, h2⟩ := List.append_inj h rfl
  exact ⟨hex2_inj ha hb h1, h2⟩

/-- value of a string of decimal digits -/
def num (d : Bytes) : Nat := d.foldl (fun a c => 10 * a + (c.toNat - 48)) 0

theorem num_decN : ∀ (f n : Nat), n < 10 ^ f → 0 < f → num (decN f n) = n := by
  intro f
  induction f with
  | zero => intro n _ h0; omega
  | succ f ih =>
    intro n hn _
    unfold decN
    split
    · have : (UInt8.ofNat (48 + n)).toNat = (48 + n) % 256 := UInt8.toNat_ofNat'
      simp only [num, List.foldl_cons, List.foldl_nil]
      omega
    · have h1 : (UInt8.ofNat (48 + n % 10)).toNat = (48 + n % 10) % 256 := UInt8.toNat_ofNat'
      have h2 : n / 10 < 10 ^ f := by rw [Nat.pow_succ] at hn; omega
      have h3 : 0 < f := by
        rcases Nat.eq_zero_or_pos f with h | h
        · subst h; simp at h2; omega
        · exact h
      have h4 := ih _ h2 h3
      unfold num at h4 ⊢
      rw [List.foldl_append, h4, List.foldl_cons, List.foldl_nil]
      omega

theorem decN_chars : ∀ (f n : Nat), ∀ c ∈ decN f n, 48 ≤ c.toNat ∧ c.toNat ≤ 57 := by
  intro f
  induction f with
  | zero => intro n c hc; cases hc
  | succ f ih =>
    intro n c hc
    unfold decN at hc
    split at hc
    · rw [List.mem_singleton] at hc
      have : (UInt8.ofNat (48 + n)).toNat = (48 + n) % 256 := UInt8.toNat_ofNat'
      rw [hc]; omega
    · rw [List.mem_append, List.mem_singleton] at hc
      rcases hc with hc | hc
      · exact ih _ c hc
      · have : (UInt8.ofNat (48 + n % 10)).toNat = (48 + n % 10) % 256 := UInt8.toNat_ofNat'
        rw [hc]; omega

theorem dec_chars (x : BitVec 64) : ∀ c ∈ dec x, c ≠ 44 ∧ c ≠ 41 := by
  intro c hc
  unfold dec at hc
  rw [List.mem_append] at hc
  rcases hc with hc | hc
  · split at hc
    · rw [List.mem_singleton] at hc; subst hc; decide
    · cases hc
  · have := decN_chars _ _ c hc
    constructor
    · rintro rfl; exact absurd this (by decide)
    · rintro rfl; exact absurd this (by decide)

theorem dec_inj {x y : BitVec 64} (h : dec x = dec y) : x = y := by
  have hx := x.toInt_lt
  have hx' := x.le_toInt
  have hy := y.toInt_lt
  have hy' := y.le_toInt
  have no : ∀ n r, decN 20 n = (45 : UInt8) :: r → False := fun n r e => by
    have := decN_chars 20 n 45 (by rw [e]; simp)
    exact absurd this (by decide)
  have e : ∀ a b : Nat, a < 10 ^ 20 → b < 10 ^ 20 → decN 20 a = decN 20 b → a = b := fun a b ha hb hh => by
    rw [← num_decN 20 a ha (by omega), ← num_decN 20 b hb (by omega), hh]
  apply BitVec.eq_of_toInt_eq
  unfold dec at h
  have ha : x.toInt.natAbs < 10 ^ 20 := by norm_num at *; omega
  have hb : y.toInt.natAbs < 10 ^ 20 := by norm_num at *; omega
  split at h <;> split at h
  · have := e _ _ ha hb (by simpa using h); omega
  · exact (no _ _ (by simpa using h.symm)).elim
  · exact (no _ _ (by simpa using h)).elim
  · have := e _ _ ha hb (by simpa using h); omega

/-! ### strings -/

theorem esc_append : ∀ {d e x y : Bytes}, esc d ++ 34 :: x = esc e ++ 34 :: y → d = e ∧ x = y
  | [], [], x, y, h => ⟨rfl, by injection h⟩
  | [], b :: e, x, y, h => by
    unfold esc at h
    split at h
    · simp at h
    · rename_i hb
      simp only [List.nil_append, List.cons_append] at h
      injection h with h _
      subst h
      exact absurd rfl hb
  | b :: d, [], x, y, h => by
    unfold esc at h
    split at h
    · simp at h
    · rename_i hb
      simp only [List.nil_append, List.cons_append] at h
      injection h with h _
      subst h
      exact absurd rfl hb
  | b :: d, c :: e, x, y, h => by
    unfold esc at h
    split at h <;> split at h
    · simp only [List.append_assoc, List.cons_append, List.nil_append] at h
      injection h with _ h
      injection h with _ h
      obtain ⟨h1, h2⟩ := hex2_append b.toNat_lt c.toNat_lt h
      obtain ⟨h3, h4⟩ := esc_append h2
      exact ⟨by rw [UInt8.toNat_inj.1 h1, h3], h4⟩
    · rename_i hb
      simp only [List.append_assoc, List.cons_append, List.nil_append] at h
      injection h with h _
      subst h
      exact absurd rfl hb
    · rename_i hb _
      simp only [List.append_assoc, List.cons_append, List.nil_append] at h
      injection h with h _
      subst h
      exact absurd rfl hb
    · simp only [List.append_assoc, List.cons_append, List.nil_append] at h
      injection h with h1 h
      obtain ⟨h3, h4⟩ := esc_append h
      exact ⟨by rw [h1, h3], h4⟩

/-! ### values -/

/-- %lg on the doubles of `D`: no comma and no parenthesis, and two of them are not printed alike -/
structure FmtOk (fmt : BitVec 64 → Bytes) (D : BitVec 64 → Prop) : Prop where
  chars : ∀ d, D d → ∀ c ∈ fmt d, c ≠ 44 ∧ c ≠ 41
  inj : ∀ d e, D d → D e → fmt d = fmt e → d = e

/-- what `drawVal` needs of a value -/
def ValOk (D : BitVec 64 → Prop) : Option (Bool × Val) → Prop
  | some (b, .dbl d) => D d ∧ (b = false → d = 0)
  | _ => True

theorem drawVal_append {fmt : BitVec 64 → Bytes} {D : BitVec 64 → Prop} (hf : FmtOk fmt D) {a b : Option (Bool × Val)} (ha : ValOk D a) (hb : ValOk D b) {x y : Bytes}
    (hx : Stop x) (hy : Stop y) (h : drawVal fmt a ++ x = drawVal fmt b ++ y) : a.map Prod.snd = b.map Prod.snd ∧ x = y := by
  have key : ∀ c d : Bytes, (∀ z ∈ c, z ≠ 44 ∧ z ≠ 41) → (∀ z ∈ d, z ≠ 44 ∧ z ≠ 41) → c ++ x = d ++ y → c = d ∧ x = y := fun c d hc hd hh => cut_at hc hd hx hy hh
  rcases a with _ | ⟨ba, va⟩ <;> rcases b with _ | ⟨bb, vb⟩
  · simp only [drawVal, List.cons_append, List.nil_append] at h
    injection h with _ h
    exact ⟨rfl, h⟩
  · cases vb with
    | str d => cases bb <;> simp [drawVal] at h
    | int d => cases bb <;> simp [drawVal] at h
    | dbl d => cases bb <;> simp [drawVal] at h
    | bool d => cases d <;> simp [drawVal] at h
    | null => simp [drawVal] at h
  · cases va with
    | str d => cases ba <;> simp [drawVal] at h
    | int d => cases ba <;> simp [drawVal] at h
    | dbl d => cases ba <;> simp [drawVal] at h
    | bool d => cases d <;> simp [drawVal] at h
    | null => simp [drawVal] at h
  · cases va with
    | str d =>
      cases vb with
      | str e =>
        simp only [drawVal, List.append_assoc, List.cons_append, List.nil_append] at h
        injection h with _ h
        injection h with _ h
        obtain ⟨h1, h2⟩ := esc_append h
        exact ⟨by rw [h1]; rfl, h2⟩
      | int e => cases ba <;> cases bb <;> simp [drawVal] at h
      | dbl e => cases ba <;> cases bb <;> simp [drawVal] at h
      | bool e => cases ba <;> cases e <;> simp [drawVal] at h
      | null => cases ba <;> simp [drawVal] at h
    | int d =>
      cases vb with
      | int e =>
        simp only [drawVal, List.cons_append] at h
        injection h with _ h
        obtain ⟨h1, h2⟩ := key _ _ (dec_chars d) (dec_chars e) h
        exact ⟨by rw [dec_inj h1]; rfl, h2⟩
      | str e => cases ba <;> cases bb <;> simp [drawVal] at h
      | dbl e => cases ba <;> cases bb <;> simp [drawVal] at h
      | bool e => cases ba <;> cases e <;> simp [drawVal] at h
      | null => cases ba <;> simp [drawVal] at h
    | dbl d =>
      cases vb with
      | dbl e =>
        obtain ⟨hd, hd0⟩ := ha
        obtain ⟨he, he0⟩ := hb
        cases ba <;> cases bb
        · simp only [drawVal] at h
          simp at h
          rw [hd0 rfl, he0 rfl]; exact ⟨rfl, by simpa using h⟩
        · simp [drawVal] at h
        · simp [drawVal] at h
        · simp only [drawVal, if_pos, List.cons_append] at h
          injection h with _ h
          obtain ⟨h1, h2⟩ := key _ _ (hf.chars d hd) (hf.chars e he) h
          exact ⟨by rw [hf.inj d e hd he h1], h2⟩
      | str e => cases ba <;> cases bb <;> simp [drawVal] at h
      | int e => cases ba <;> cases bb <;> simp [drawVal] at h
      | bool e => cases ba <;> cases e <;> simp [drawVal] at h
      | null => cases ba <;> simp [drawVal] at h
    | bool d =>
      cases vb with
      | bool e => cases d <;> cases e <;> simp [drawVal] at h <;> exact ⟨rfl, h⟩
      | str e => cases d <;> cases bb <;> simp [drawVal] at h
      | int e => cases d <;> cases bb <;> simp [drawVal] at h
      | dbl e => cases d <;> cases bb <;> simp [drawVal] at h
      | null => cases d <;> simp [drawVal] at h
    | null =>
      cases vb with
      | null => simp [drawVal] at h; exact ⟨rfl, h⟩
      | bool e => cases e <;> simp [drawVal] at h
      | str e => cases bb <;> simp [drawVal] at h
      | int e => cases bb <;> simp [drawVal] at h
      | dbl e => cases bb <;> simp [drawVal] at h

/-! ### trees -/

/-- the shape of a tree: the children of a node are in its range, and nothing is below what is no node -/
structure Tidy (D : BitVec 64 → Prop) (T : Shape) : Prop where
  below : ∀ q r, T.nd q = none → r ≠ [] → T.nd (q ++ r) = none ∧ T.vl (q ++ r) = none
  range : ∀ q s e p, T.nd q = some (s, e, p) → s ≤ e ∧ e < 256 ∧ p < 256
  out : ∀ q s e p b r, T.nd q = some (s, e, p) → (b.toNat < s ∨ e < b.toNat) → T.nd (q ++ b :: r) = none ∧ T.vl (q ++ b :: r) = none
  val : ∀ q, ValOk D (T.vl q)

/-- fewer than `n` levels below `q` -/
def Low (T : Shape) (q : Bytes) (n : Nat) : Prop := 0 < n ∧ ∀ r, T.nd (q ++ r) ≠ none → r.length + 1 < n

theorem Low.child {T : Shape} {q : Bytes} {n : Nat} (h : Low T q (n + 1)) (b : UInt8) (hn : T.nd q ≠ none) : Low T (q ++ [b]) n := by
  have h0 := h.2 [] (by rwa [List.append_nil])
  refine ⟨by simp at h0; omega, fun r hr => ?_⟩
  have := h.2 ([b] ++ r) (by rw [← List.append_assoc]; exact hr)
  simp at this ⊢; omega

/-- the two shapes agree at `q` and below -/
def Same (T U : Shape) (q : Bytes) : Prop := ∀ r, T.nd (q ++ r) = U.nd (q ++ r) ∧ (T.vl (q ++ r)).map Prod.snd = (U.vl (q ++ r)).map Prod.snd

theorem kids_stop (f : Bytes → Bytes) (T : Shape) (q : Bytes) (X : Bytes) : ∀ n x, Stop (kids f T q n x ++ 41 :: X)
  | 0, _ => Or.inr rfl
  | n + 1, x => by
    unfold kids
    split
    · exact kids_stop f T q X n (x + 1)
    · exact Or.inl rfl

/-- the children from `x` on do not begin with an earlier one -/
theorem kids_later (f : Bytes → Bytes) (T : Shape) (q X r : Bytes) {x : Nat} : ∀ n z, x < z → z + n ≤ 256 → kids f T q n z ++ 41 :: X ≠ 44 :: (hex2 x ++ r)
  | 0, z, _, _ => by simp [kids]
  | n + 1, z, h1, h2 => by
    unfold kids
    split
    · exact kids_later f T q X r n (z + 1) (by omega) (by omega)
    · intro h
      simp only [List.append_assoc, List.cons_append, List.nil_append] at h
      injection h with _ h
      have := (hex2_append (by omega) (by omega) h).1
      omega

section
variable {D : BitVec 64 → Prop} {T U : Shape}

theorem kids_same {f g : Bytes → Bytes} (hT : Tidy D T) (hU : Tidy D U) {q X Y : Bytes}
    (hf : ∀ (b : UInt8) x y, Stop x → Stop y → f (q ++ [b]) ++ x = g (q ++ [b]) ++ y → Same T U (q ++ [b]) ∧ x = y) :
    ∀ n x, x + n ≤ 256 → kids f T q n x ++ 41 :: X = kids g U q n x ++ 41 :: Y → (∀ b : UInt8, x ≤ b.toNat → b.toNat < x + n → Same T U (q ++ [b])) ∧ X = Y := by
  have nothing : ∀ (V : Shape), Tidy D V → ∀ p : Bytes, ((V.nd p).isNone && (V.vl p).isNone) = true → ∀ r, V.nd (p ++ r) = none ∧ V.vl (p ++ r) = none := by
    intro V hV p hp r
    rw [Bool.and_eq_true, Option.isNone_iff_eq_none, Option.isNone_iff_eq_none] at hp
    by_cases hr : r = []
    · subst hr; rw [List.append_nil]; exact hp
    · exact hV.below p r hp.1 hr
  intro n
  induction n with
  | zero => intro x _ h; exact ⟨fun b h1 h2 => by omega, by injection h⟩
  | succ n ih =>
    intro x hx h
    have hb : (UInt8.ofNat x).toNat = x := by
      have : (UInt8.ofNat x).toNat = x % 256 := UInt8.toNat_ofNat'
      omega
    have split_b : Same T U (q ++ [UInt8.ofNat x]) → (∀ b : UInt8, x + 1 ≤ b.toNat → b.toNat < x + 1 + n → Same T U (q ++ [b])) →
        ∀ b : UInt8, x ≤ b.toNat → b.toNat < x + (n + 1) → Same T U (q ++ [b]) := by
      intro h1 h2 b h3 h4
      by_cases h5 : b.toNat = x
      · have : b = UInt8.ofNat x := UInt8.toNat_inj.1 (by rw [hb, h5])
        rw [this]; exact h1
      · exact h2 b (by omega) (by omega)
    unfold kids at h
    split at h <;> split at h
    · rename_i h1 h2
      obtain ⟨h3, h4⟩ := ih (x + 1) (by omega) (by simpa using h)
      refine ⟨split_b (fun r => ?_) h3, h4⟩
      rw [(nothing T hT _ h1 r).1, (nothing T hT _ h1 r).2, (nothing U hU _ h2 r).1, (nothing U hU _ h2 r).2]
      exact ⟨rfl, rfl⟩
    · exfalso
      simp only [List.append_assoc, List.cons_append, List.nil_append] at h
      exact kids_later f T q X _ n (x + 1) (Nat.lt_succ_self x) (by omega) h
    · exfalso
      simp only [List.append_assoc, List.cons_append, List.nil_append] at h
      exact kids_later g U q Y _ n (x + 1) (Nat.lt_succ_self x) (by omega) h.symm
    · simp only [List.append_assoc, List.cons_append, List.nil_append] at h
      injection h with _ h
      obtain ⟨-, h⟩ := hex2_append (by omega) (by omega) h
      injection h with _ h
      obtain ⟨h1, h2⟩ := hf _ _ _ (kids_stop f T q X n (x + 1)) (kids_stop g U q Y n (x + 1)) h
      obtain ⟨h3, h4⟩ := ih (x + 1) (by omega) h2
      exact ⟨split_b h1 h3, h4⟩

theorem drawVal_head (fmt : BitVec 64 → Bytes) (a : Option (Bool × Val)) (x r : Bytes) : drawVal fmt a ++ x ≠ 40 :: r := by
  rcases a with _ | ⟨b, v⟩
  · simp [drawVal]
  · cases v with
    | str d => cases b <;> simp [drawVal]
    | int d => cases b <;> simp [drawVal]
    | dbl d => cases b <;> simp [drawVal]
    | bool d => cases d <;> simp [drawVal]
    | null => simp [drawVal]

/-- the text of a subtree says where it ends, and what the subtree is -/
theorem draw_same {fmt : BitVec 64 → Bytes} (hf : FmtOk fmt D) (hT : Tidy D T) (hU : Tidy D U) :
    ∀ n q x y, Low T q n → Low U q n → Stop x → Stop y → draw fmt T n q ++ x = draw fmt U n q ++ y → Same T U q ∧ x = y := by
  intro n
  induction n with
  | zero => intro q x y h1; exact absurd h1.1 (by omega)
  | succ n ih =>
    intro q x y lT lU hx hy h
    unfold draw at h
    cases h1 : T.nd q with
    | none =>
      cases h2 : U.nd q with
      | none =>
        rw [h1, h2] at h
        obtain ⟨h3, h4⟩ := drawVal_append hf (hT.val q) (hU.val q) hx hy h
        refine ⟨fun r => ?_, h4⟩
        by_cases hr : r = []
        · subst hr; rw [List.append_nil, h1, h2]; exact ⟨rfl, h3⟩
        · rw [(hT.below q r h1 hr).1, (hT.below q r h1 hr).2, (hU.below q r h2 hr).1, (hU.below q r h2 hr).2]
          exact ⟨rfl, rfl⟩
      | some k =>
        obtain ⟨s', e', p'⟩ := k
        rw [h1, h2] at h
        simp only [List.append_assoc, List.cons_append, List.nil_append] at h
        exact absurd h (drawVal_head _ _ _ _)
    | some k =>
      obtain ⟨s, e, p⟩ := k
      cases h2 : U.nd q with
      | none =>
        rw [h1, h2] at h
        simp only [List.append_assoc, List.cons_append, List.nil_append] at h
        exact absurd h.symm (drawVal_head _ _ _ _)
      | some k =>
        obtain ⟨s', e', p'⟩ := k
        obtain ⟨r1, r2, r3⟩ := hT.range q s e p h1
        obtain ⟨r4, r5, r6⟩ := hU.range q s' e' p' h2
        rw [h1, h2] at h
        simp only [List.append_assoc, List.cons_append, List.nil_append] at h
        have k1 := (List.cons.inj (List.cons.inj h).2).2
        obtain ⟨e1, k2⟩ := hex2_append (by omega) (by omega) k1
        have k3 := (List.cons.inj k2).2
        obtain ⟨e2, k4⟩ := hex2_append (by omega) (by omega) k3
        have k5 := (List.cons.inj (List.cons.inj k4).2).2
        obtain ⟨e3, k6⟩ := hex2_append (by omega) (by omega) k5
        have k7 := (List.cons.inj k6).2
        clear h k1 k2 k3 k4 k5 k6
        subst e1 e2 e3
        rename' k7 => h
        obtain ⟨h3, h⟩ := drawVal_append hf (hT.val q) (hU.val q) (kids_stop _ T q x _ _) (kids_stop _ U q y _ _) h
        obtain ⟨h4, h5⟩ := kids_same hT hU (fun b x y hx hy hh => ih (q ++ [b]) x y (lT.child b (by rw [h1]; simp)) (lU.child b (by rw [h2]; simp)) hx hy hh) _ _ (by omega) h
        refine ⟨fun r => ?_, h5⟩
        cases r with
        | nil => rw [List.append_nil, h1, h2]; exact ⟨rfl, h3⟩
        | cons b r =>
          by_cases hb : b.toNat < s ∨ e < b.toNat
          · rw [(hT.out q s e p b r h1 hb).1, (hT.out q s e p b r h1 hb).2, (hU.out q s e p b r h2 hb).1, (hU.out q s e p b r h2 hb).2]
            exact ⟨rfl, rfl⟩
          · have := h4 b (by omega) (by omega) r
            rwa [List.append_assoc] at this

end
end Verif.PrefixTree
