import Verif.CostPrefix
/-
C71: costs that depend on what the tree holds.
-/
namespace Verif
open PrefixTree (Val CVal Check RType isZero isNaN)

namespace PT
/-- the bytes of a string value -/
def vlen : Option Val → Nat
  | some (.str d) => d.length
  | _ => 0

/-- the accesses of a check -/
def checkAcc : Option Check → Nat
  | none => 0
  | some (k, _) => 3 * k.length + 3

/-- the bytes that a check copies -/
def checkBytes (m : Map) : Option Check → Nat
  | none => 0
  | some (k, _) => vlen (m k)
end PT
open PT

theorem cev_rdB {α : Type} {Q : Out α → Cost → Heap → Prop} {h : Heap} {b o n : Nat} {B : Block} {c : Cost} {k : Bytes → HProg α} (hb : h.blk b = some B)
    (hk : cev (k (B.rdB o n)) Q (c + { acc := 1, bytes := n }) h) : cev ((H.rdB b o n).bind k) Q c h := by
  intro B' h1
  rw [hb] at h1; cases h1
  exact hk
theorem cev_bsize {α : Type} {Q : Out α → Cost → Heap → Prop} {h : Heap} {b : Nat} {B : Block} {c : Cost} {k : Nat → HProg α} (hb : h.blk b = some B)
    (hk : cev (k B.size) Q (c + { acc := 1 }) h) : cev ((H.bsize b).bind k) Q c h := by
  intro B' h1
  rw [hb] at h1; cases h1
  exact hk

/-- `p` and then `f`, where a bound over all paths of `p` is known -/
theorem cev_then {α β : Type} {p : HProg α} {f : α → HProg β} {Q : Out β → Cost → Heap → Prop} {c : Cost} {h : Heap} {P : Out α → Cost → Prop}
    (hp : HEvery p {} P) (hk : ∀ a e h', P (.ok a) e → cev (f a) Q (c + e) h') (he : ∀ x e h', P (.err x) e → Q (.err x) (c + e) h') : cev (p.bind f) Q c h := by
  refine cev_bind (R := fun o c' _ => ∃ e, c' = c + e ∧ P o e) ?_ ?_ (cev_every hp.from)
  · rintro a _ h' ⟨e, rfl, h⟩; exact hk a e h' h
  · rintro a _ h' ⟨e, rfl, h⟩; exact he a e h' h

theorem cev_from {α : Type} {p : HProg α} {P : Out α → Cost → Prop} {c : Cost} {h : Heap} (hp : HEvery p {} P) : cev p (fun o c' _ => ∃ e, c' = c + e ∧ P o e) c h := cev_every hp.from

theorem cev_tryCatch {α : Type} {p : HProg α} {f : Err → HProg α} {Q : Out α → Cost → Heap → Prop} : ∀ {c : Cost} {h : Heap},
    cev p (fun o c' h' => (∀ a, o = .ok a → Q (.ok a) c' h') ∧ ∀ e, o = .err e → cev (f e) Q c' h') c h → cev (p.tryCatch f) Q c h := by
  induction p with
  | ret a => exact fun h => h.1 a rfl
  | err e => exact fun h => h.2 e rfl
  | ub => exact fun _ => trivial
  | step op k ih =>
    intro c h he
    cases op with
    | alloc n => exact ⟨fun o d hf => ih _ (he.1 o d hf), ih _ he.2⟩
    | getBase => exact ih _ he
    | setBase o => exact ih _ he
    | free b | bsize b | rd b o n | rdB b o n | wr b o n v | wrB b o bs => exact fun B hB => ih _ (he B hB)

namespace PrefixTree
attribute [local irreducible] Block.rd Block.rdB
section
variable {base : Nat} {F : Nat → Option Block} {g : G} {ni nn : Nat} {h : Heap} {c : Cost}

theorem lookup_cost {w : Nat} {v : Val} (e : Enc h w v) : cev (lookup w) (fun _ c' h' => h' = h ∧ c.Upto c' 0 0 2 (vlen (some v))) c h := by
  refine cev_ro (P := fun _ c' _ => c.Upto c' 0 0 2 (vlen (some v))) (ro_lookup w) ?_
  obtain ⟨hc, h0, hw, hb⟩ := e
  unfold lookup
  split
  · exact .refl _
  split
  · rename_i ht
    split
    · rename_i hv
      have hbf : buf w = valOf w := by unfold buf; rw [if_pos (Or.inl ht)]
      rw [hbf] at hb
      obtain ⟨B, hB, ho⟩ := hb hv
      simp only [Prog.bind_def]
      refine cev_bsize hB ?_
      refine cev_rdB hB ?_
      refine cev_ret ?_
      have hs : B.size = vlen (some v) := by
        cases v with
        | str d => exact ho.1
        | bool b => exact ho.elim
        | null => exact ho.elim
        | int x =>
          rcases hw with ⟨-, hw⟩ | hw
          · rw [hw, intWord_eq] at ht; unfold typeOf at ht; omega
          · unfold typeOf at ht; omega
        | dbl x =>
          rcases hw with ⟨hw, -⟩ | hw
          · rw [hw] at ht; simp [typeOf] at ht
          · unfold typeOf at ht; omega
      constructor <;> simp
      omega
    · exact .refl _
  split
  · exact .refl _
  split
  · exact .refl _
  split
  · intro _ _; constructor <;> simp [hcost]
  split
  · split
    · exact .refl _
    · intro _ _; constructor <;> simp [hcost]
  split
  · split
    · exact .refl _
    · exact .refl _
  · exact .refl _

/-- the search for a key and a look at its slot -/
theorem slot_cost (t : Tr base F g ni nn h) (k : Bytes) {α : Type} {f : Option Addr × List Addr → HProg α} {Q : Out α → Cost → Heap → Prop}
    (h1 : ∀ a ns c', SlotAt g k a → ns.length ≤ k.length + 1 → c.Upto c' 0 0 (3 * k.length) 0 → cev (f (some a, ns)) Q c' h)
    (h2 : ∀ ns c', c.Upto c' 0 0 (3 * k.length) 0 → cev (f (none, ns)) Q c' h) : cev ((traverse base k).bind f) Q c h := by
  refine cev_bind ?_ ?_ (cev_wp (traverse_spec (I := fun _ => True) t k).wp (cev_from (c := c) (traverse_every base k)))
  · rintro r c' h' ⟨⟨rfl, h3⟩, e, rfl, ⟨u1, u2, u3, u4⟩, h4⟩
    simp at u1 u2 u3 u4
    have u : c.Upto (c + e) 0 0 (3 * k.length) 0 := by constructor <;> simp <;> omega
    rcases h3 with ⟨a, ns, h5, h6, -⟩ | ⟨ns, h5, -⟩
    · cases h5; exact h1 a ns _ h6 (h4 _ rfl) u
    · cases h5; exact h2 ns _ u
  · rintro x c' h' ⟨⟨rfl, h3⟩, -⟩
    rcases h3 with ⟨a, ns, h5, -⟩ | ⟨ns, h5, -⟩ <;> cases h5

theorem read_cost (t : Tr base F g ni nn h) {k : Bytes} {a : Addr} (hs : SlotAt g k a) {α : Type} {f : Nat → HProg α} {Q : Out α → Cost → Heap → Prop}
    (h1 : cev (f (cw (g.vl k))) Q (c + { acc := 1 }) h) : cev ((H.rd64 a.1 a.2).bind f) Q c h := by
  obtain ⟨B, hB, -, hrd⟩ := t.slot_rd hs
  refine cev_rd hB ?_
  rw [hrd]; exact h1

theorem executeCheck_cost (t : Tr base F g ni nn h) (ck : Check) :
    cev (executeCheck base ck) (fun _ c' h' => h' = h ∧ c.Upto c' 0 0 (3 * ck.1.length + 3) (vlen (g.kv ck.1))) c h := by
  unfold executeCheck
  simp only [Prog.bind_def]
  refine slot_cost t ck.1 ?_ ?_
  · intro a ns c' hs _ u
    refine read_cost t hs ?_
    obtain ⟨u1, u2, u3, u4⟩ := u
    cases hq : g.vl ck.1 with
    | none =>
      rw [cw_none, if_neg (by simp)]
      exact ⟨rfl, by constructor <;> simp <;> omega⟩
    | some wv =>
      obtain ⟨w, v⟩ := wv
      have he := (t.val _ _ _ hq).1
      rw [cw_some, if_pos he.type_ok.2.2, kv_of hq]
      refine cev_bind (R := fun _ c2 h' => h' = h ∧ (c' + { acc := 1 }).Upto c2 0 0 2 (vlen (some v))) ?_ ?_ (lookup_cost he)
      · rintro _ c2 h' ⟨rfl, w1, w2, w3, w4⟩
        simp at w1 w2 w3 w4
        exact ⟨rfl, by constructor <;> omega⟩
      · rintro _ c2 h' ⟨rfl, w1, w2, w3, w4⟩
        simp at w1 w2 w3 w4
        exact ⟨rfl, by constructor <;> omega⟩
  · rintro ns c' ⟨u1, u2, u3, u4⟩
    exact ⟨rfl, by constructor <;> omega⟩

theorem checkOk_cost (t : Tr base F g ni nn h) (ck : Option Check) :
    cev (checkOk base ck) (fun _ c' h' => h' = h ∧ c.Upto c' 0 0 (checkAcc ck) (checkBytes g.kv ck)) c h := by
  cases ck with
  | none => exact ⟨rfl, .refl _⟩
  | some ck => exact executeCheck_cost t ck

theorem at_cost (t : Tr base F g ni nn h) (k : Bytes) : cev («at» base k) (fun _ c' h' => h' = h ∧ c.Upto c' 0 0 (3 * k.length + 3) (vlen (g.kv k))) c h := by
  unfold «at»
  simp only [Prog.bind_def]
  refine slot_cost t k ?_ ?_
  · intro a ns c' hs _ u
    refine read_cost t hs ?_
    obtain ⟨u1, u2, u3, u4⟩ := u
    cases hq : g.vl k with
    | none =>
      rw [cw_none, if_pos rfl]
      exact ⟨rfl, by constructor <;> simp <;> omega⟩
    | some wv =>
      obtain ⟨w, v⟩ := wv
      have he := (t.val _ _ _ hq).1
      rw [cw_some, if_neg he.type_ok.2.2, kv_of hq]
      refine cev_mono ?_ (lookup_cost he)
      rintro _ c2 h' ⟨rfl, w1, w2, w3, w4⟩
      simp at w1 w2 w3 w4
      exact ⟨rfl, by constructor <;> omega⟩
  · rintro ns c' ⟨u1, u2, u3, u4⟩
    exact ⟨rfl, by constructor <;> omega⟩

theorem type_cost (t : Tr base F g ni nn h) (k : Bytes) : cev (type base k) (fun _ c' h' => h' = h ∧ c.Upto c' 0 0 (3 * k.length + 1) 0) c h := by
  unfold type
  simp only [Prog.bind_def]
  refine slot_cost t k ?_ ?_
  · intro a ns c' hs _ u
    refine read_cost t hs ?_
    obtain ⟨u1, u2, u3, u4⟩ := u
    have : h = h ∧ c.Upto (c' + { acc := 1 }) 0 0 (3 * k.length + 1) 0 := ⟨rfl, by constructor <;> simp <;> omega⟩
    repeat' split
    all_goals exact this
  · rintro ns c' ⟨u1, u2, u3, u4⟩
    exact ⟨rfl, by constructor <;> omega⟩

theorem exists_cost (t : Tr base F g ni nn h) (k : Bytes) : cev (existsKey base k) (fun _ c' h' => h' = h ∧ c.Upto c' 0 0 (3 * k.length) 0) c h := by
  unfold existsKey
  simp only [Prog.bind_def]
  refine slot_cost t k ?_ ?_
  · intro a ns c' hs _ u; exact ⟨rfl, u⟩
  · intro ns c' u; exact ⟨rfl, u⟩

/-! ### Writing -/

/-- clearing the value slot of a key: one free at most, and none if the key is absent -/
theorem clearVal_cost (t : Tr base F g ni nn h) {q : Bytes} {a : Addr} (hs : SlotAt g q a) (f : Nat) :
    cev (clearSlot base (f + 1) a) (fun _ c' _ => c.Max c' 0 (if g.vl q = none then 0 else 1) 4 0) c h := by
  unfold clearSlot
  simp only [Prog.bind_def]
  refine read_cost t hs ?_
  cases hq : g.vl q with
  | none =>
    rw [cw_none, if_pos rfl]
    show Cost.Max _ _ _ _ _ _
    constructor <;> simp
  | some wv =>
    obtain ⟨w, v⟩ := wv
    obtain ⟨ht0, ht7, hc0⟩ := (t.val _ _ _ hq).1.type_ok
    rw [cw_some, if_neg hc0, if_neg ht0]
    simp only [reduceCtorEq, if_false]
    have fin : ∀ (c' : Cost) (h' : Heap), c.Max c' 0 1 2 0 → cev (addItems base minusOne) (fun _ c'' _ => c.Max c'' 0 1 4 0) c' h' := by
      rintro c' h' ⟨u1, u2, u3, u4⟩
      refine cev_mono ?_ (cev_from (addItems_every base minusOne))
      rintro _ _ _ ⟨e, rfl, rfl⟩
      constructor <;> simp <;> omega
    split
    · refine cev_wr' ?_
      intro B _
      unfold freeBuf
      split
      · refine cev_free' ?_
        intro B2 _
        refine fin _ _ ?_
        constructor <;> simp
      · refine fin _ _ ?_
        constructor <;> simp
    · refine cev_wr' ?_
      intro B _
      refine fin _ _ ?_
      constructor <;> simp

theorem storeVal_cost (t : Tr base F g ni nn h) {q : Bytes} {a : Addr} (hs : SlotAt g q a) (v : Val) :
    cev (storeVal base a v) (fun _ c' _ => c.Max c' 1 (if g.vl q = none then 0 else 1) 8 (vlen (some v))) c h := by
  obtain ⟨n, hn⟩ := maxSteps_succ
  unfold storeVal
  rw [hn]
  simp only [Prog.bind_def]
  refine cev_bind ?_ ?_ (clearVal_cost (c := c) t hs n)
  · rintro _ c1 h1 ⟨u1, u2, u3, u4⟩
    refine cev_then (makeWord_every v) ?_ ?_
    · rintro w e h2 ⟨w1, w2, w3, w4⟩
      simp at w1 w2 w3
      have w4' : e.bytes ≤ vlen (some v) := by cases v <;> simpa [vlen] using w4
      refine cev_wr' ?_
      intro B _
      refine cev_mono ?_ (cev_from (addItems_every base 1))
      rintro _ _ _ ⟨e, rfl, rfl⟩
      constructor <;> simp <;> omega
    · rintro w e h2 ⟨w1, w2, w3, w4⟩
      simp at w1 w2 w3
      have w4' : e.bytes ≤ vlen (some v) := by cases v <;> simpa [vlen] using w4
      constructor <;> simp <;> omega
  · rintro _ c1 h1 ⟨u1, u2, u3, u4⟩
    constructor <;> omega

theorem storeDbl_cost (t : Tr base F g ni nn h) {q : Bytes} {a : Addr} (hs : SlotAt g q a) (d : BitVec 64) :
    cev (storeDbl base a d) (fun _ c' _ => c.Max c' 1 (if g.vl q = none then 0 else 1) 9 0) c h := by
  obtain ⟨n, hn⟩ := maxSteps_succ
  unfold storeDbl
  rw [hn]
  simp only [Prog.bind_def]
  refine read_cost t hs ?_
  split
  · refine cev_bind ?_ ?_ (clearVal_cost t hs n)
    · rintro _ c1 h1 ⟨u1, u2, u3, u4⟩
      simp at u1 u2 u3 u4
      refine cev_wr' ?_
      intro B _
      refine cev_mono ?_ (cev_from (addItems_every base 1))
      rintro _ _ _ ⟨e, rfl, rfl⟩
      constructor <;> simp <;> omega
    · rintro _ c1 h1 ⟨u1, u2, u3, u4⟩
      simp at u1 u2 u3 u4
      constructor <;> omega
  · split
    · refine cev_wr' ?_
      intro B _
      split
      · intro B2 _
        show Cost.Max _ _ _ _ _ _
        constructor <;> simp [hcost]
      · show Cost.Max _ _ _ _ _ _
        constructor <;> simp
    · refine cev_alloc ?_ ?_
      · intro o dd hf
        refine cev_wr' ?_
        intro B _
        have ho := t.fresh_not_own hf
        have t2 := (t.foreign (B := ⟨8, dd⟩) ho).foreign (x := o) (B := B.wr 0 8 d.toNat) ho
        refine cev_bind ?_ ?_ (clearVal_cost t2 hs n)
        · rintro _ c1 h1 ⟨u1, u2, u3, u4⟩
          simp at u1 u2 u3 u4
          refine cev_wr' ?_
          intro B _
          refine cev_mono ?_ (cev_from (addItems_every base 1))
          rintro _ _ _ ⟨e, rfl, rfl⟩
          constructor <;> simp <;> omega
        · rintro _ c1 h1 ⟨u1, u2, u3, u4⟩
          simp at u1 u2 u3 u4
          constructor <;> omega
      · constructor <;> simp

theorem store_cost (t : Tr base F g ni nn h) {q : Bytes} {a : Addr} (hs : SlotAt g q a) (v : Val) :
    cev (store base a v) (fun _ c' _ => c.Max c' 1 (if g.vl q = none then 0 else 1) 9 (vlen (some v))) c h := by
  have gen : ∀ v, cev (storeVal base a v) (fun _ c' _ => c.Max c' 1 (if g.vl q = none then 0 else 1) 9 (vlen (some v))) c h := by
    intro v
    refine cev_mono ?_ (storeVal_cost t hs v)
    rintro _ _ _ u
    exact u.mono (Nat.le_refl _) (Nat.le_refl _) (by omega) (Nat.le_refl _)
  cases v with
  | dbl d => exact storeDbl_cost t hs d
  | str d => exact gen _
  | int d => exact gen _
  | bool d => exact gen _
  | null => exact gen _

/-- making the slot of a key: an allocation for each byte at most and one free at most, and neither if the key is present -/
theorem traverseCreate_cost (t : Tr base F g ni nn h) (k : Bytes) :
    cev (traverseCreate base k) (fun _ c' _ => c.Max c' k.length 1 (13 * k.length + 779) 0 ∧ (g.vl k ≠ none → c.Upto c' 0 0 (3 * k.length) 0)) c h := by
  unfold traverseCreate
  simp only [Prog.bind_def]
  refine cev_bind ?_ ?_ (cev_wp (follow_root (I := fun _ => True) t k).wp (cev_from (c := c) (follow_every k (0, 0) (root base) [root base])))
  · rintro f c1 h' ⟨⟨rfl, f', h1, h2⟩, e, rfl, ⟨u1, u2, u3, u4⟩, h3⟩
    cases h1
    simp at u1 u2 u3 u4
    have hr := (h3 f rfl).1
    have none : (c.Max (c + e) k.length 1 (13 * k.length + 779) 0 ∧ (g.vl k ≠ none → c.Upto (c + e) 0 0 (3 * k.length) 0)) :=
      ⟨by constructor <;> simp <;> omega, fun _ => by constructor <;> simp <;> omega⟩
    cases f with
    | val a ns => exact none
    | node p nd ns => exact none
    | stuck p nd ns b k' =>
      obtain ⟨_, _, -, -, -, -, -, -, -, hv, -⟩ := h2
      simp [Fol.rest] at hr
      refine cev_then (extend_every p nd b) ?_ ?_
      · rintro nd' e2 h4 ⟨w1, w2, w3, w4⟩
        simp at w1 w2 w3 w4
        refine cev_mono ?_ (cev_from (chain_every base k' nd' b))
        rintro _ _ _ ⟨e3, rfl, v1, v2, v3, v4⟩
        simp at v1 v2 v3 v4
        exact ⟨by constructor <;> simp <;> omega, fun h => absurd hv h⟩
      · rintro _ e2 h4 ⟨w1, w2, w3, w4⟩
        simp at w1 w2 w3 w4
        exact ⟨by constructor <;> simp <;> omega, fun h => absurd hv h⟩
  · rintro x c1 h' ⟨⟨-, f, h1, -⟩, -⟩
    cases h1

/-- the slot of a key, made if need be -/
theorem make_cost (t : Tr base F g ni nn h) (k : Bytes) {α : Type} {f : Addr → HProg α} {Q : Out α → Cost → Heap → Prop}
    (h1 : ∀ g' nn' h' a c', Tr base F g' ni nn' h' → g'.vl = g.vl → SlotAt g' k a →
      c.Max c' k.length 1 (13 * k.length + 779) 0 → (g.vl k ≠ none → c.Upto c' 0 0 (3 * k.length) 0) → cev (f a) Q c' h')
    (h2 : ∀ c' h', c.Max c' k.length 1 (13 * k.length + 779) 0 → g.vl k = none → Q (.err .noMem) c' h') :
    cev ((traverseCreate base k).bind f) Q c h := by
  refine cev_bind ?_ ?_ (cev_wp (traverseCreate_spec (P := fun _ => True) t trivial k).wp (traverseCreate_cost (c := c) t k))
  · rintro a c' h' ⟨⟨g', nn', t', hg, -, h3 | ⟨h3, -⟩, -⟩, u, u'⟩
    · obtain ⟨a', h3, hs⟩ := h3
      cases h3
      exact h1 g' nn' h' a c' t' hg.vl hs u u'
    · cases h3
  · rintro e c' h' ⟨⟨g', nn', t', hg, -, h3 | ⟨h3, h4⟩, -⟩, u, u'⟩
    · obtain ⟨a', h3, hs⟩ := h3; cases h3
    · cases h3; exact h2 _ _ u h4

/-- what insert costs, from `c` on -/
structure InsertCost (g : G) (k : Bytes) (v : Val) (ck : Option Check) (o : Out Bool) (c c' : Cost) : Prop where
  all : c.Max c' (k.length + 1) 1 (13 * k.length + checkAcc ck + 788) (vlen (some v) + checkBytes g.kv ck)
  refused : o = .ok false → c'.allocs = c.allocs ∧ c'.frees = c.frees
  there : g.vl k ≠ none → c'.allocs ≤ c.allocs + 1 ∧ c'.acc ≤ c.acc + 3 * k.length + checkAcc ck + 9

theorem insert_cost (t : Tr base F g ni nn h) (k : Bytes) (v : Val) (ck : Option Check) :
    cev (insert base k v ck) (fun o c' _ => InsertCost g k v ck o c c') c h := by
  unfold insert
  simp only [Prog.bind_def]
  refine cev_bind ?_ ?_ (checkOk_cost (c := c) t ck)
  · rintro go c1 h' ⟨rfl, u1, u2, u3, u4⟩
    cases go with
    | false =>
      rw [if_neg (by simp)]
      exact ⟨by constructor <;> omega, fun _ => ⟨by omega, by omega⟩, fun _ => ⟨by omega, by omega⟩⟩
    | true =>
      rw [if_pos rfl]
      refine make_cost t k ?_ ?_
      · intro g' nn' h2 a c2 t' hv hs w w'
        have hc := store_cost (c := c2) t' hs v
        rw [hv] at hc
        refine cev_bind (R := fun _ c' _ => c2.Max c' 1 (if g.vl k = none then 0 else 1) 9 (vlen (some v))) ?_ ?_ hc
        · rintro _ c3 h3 ⟨v1, v2, v3, v4⟩
          obtain ⟨w1, w2, w3, w4⟩ := w
          refine ⟨?_, (fun h => by cases h), fun h => ?_⟩
          · by_cases h : g.vl k = none
            · rw [if_pos h] at v2
              constructor <;> omega
            · rw [if_neg h] at v2
              obtain ⟨x1, x2, x3, x4⟩ := w' h
              constructor <;> omega
          · obtain ⟨x1, x2, x3, x4⟩ := w' h
            constructor <;> omega
        · rintro _ c3 h3 ⟨v1, v2, v3, v4⟩
          obtain ⟨w1, w2, w3, w4⟩ := w
          refine ⟨?_, (fun h => by cases h), fun h => ?_⟩
          · by_cases h : g.vl k = none
            · rw [if_pos h] at v2
              constructor <;> omega
            · rw [if_neg h] at v2
              obtain ⟨x1, x2, x3, x4⟩ := w' h
              constructor <;> omega
          · obtain ⟨x1, x2, x3, x4⟩ := w' h
            constructor <;> omega
      · rintro c2 h2 ⟨w1, w2, w3, w4⟩ hv
        have hall : c.Max c2 (k.length + 1) 1 (13 * k.length + checkAcc ck + 788) (vlen (some v) + checkBytes g.kv ck) :=
          ⟨by omega, by omega, Nat.le_trans w3 (Nat.le_trans (Nat.add_le_add_right u3 _) (by simp only [Nat.add_assoc]; omega)), by omega⟩
        exact ⟨hall, (fun h => by cases h), fun h => absurd hv h⟩
  · rintro x c1 h' ⟨rfl, u1, u2, u3, u4⟩
    exact ⟨by constructor <;> omega, fun _ => ⟨by omega, by omega⟩, fun _ => ⟨by omega, by omega⟩⟩

theorem typeOf_zero : typeOf 0 = 0 := rfl

/-- incr: an allocation for each byte and one more at most, and one free at most -/
theorem incrInt_cost (t : Tr base F g ni nn h) (k : Bytes) (d : BitVec 64) :
    cev (incrInt base k d) (fun _ c' _ => c.Max c' (k.length + 1) 1 (13 * k.length + 785) 0 ∧ (g.vl k ≠ none → c'.allocs ≤ c.allocs + 1 ∧ c'.acc ≤ c.acc + 3 * k.length + 6)) c h := by
  unfold incrInt
  simp only [Prog.bind_def]
  refine make_cost t k ?_ ?_
  · intro g' nn' h2 a c2 t' hv hs w w'
    refine read_cost t' hs ?_
    rw [hv]
    have h0 : g.vl k = none → typeOf (cw (g.vl k)) = 0 := by intro h; rw [h]; rfl
    generalize cw (g.vl k) = x at *
    have fin : ∀ e : Cost, e.allocs ≤ 1 → e.frees ≤ (if typeOf x = 3 then 1 else 0) → e.acc ≤ 6 → e.bytes = 0 →
        (c.Max (c2 + e) (k.length + 1) 1 (13 * k.length + 785) 0 ∧ (g.vl k ≠ none → (c2 + e).allocs ≤ c.allocs + 1 ∧ (c2 + e).acc ≤ c.acc + 3 * k.length + 6)) := by
      intro e e1 e2 e3 e4
      obtain ⟨w1, w2, w3, w4⟩ := w
      refine ⟨?_, fun h => ?_⟩
      · by_cases h : g.vl k = none
        · rw [h0 h, if_neg (by decide)] at e2
          constructor <;> simp <;> omega
        · obtain ⟨x1, x2, x3, x4⟩ := w' h
          have : e.frees ≤ 1 := by split at e2 <;> omega
          constructor <;> simp <;> omega
      · obtain ⟨x1, x2, x3, x4⟩ := w' h
        constructor <;> simp <;> omega
    split
    · refine cev_then (storeIncr_every a x _) ?_ ?_ <;>
      · rintro _ e _ ⟨v1, v2, v3, v4⟩
        simp at v1 v3 v4
        have v2' : e.frees ≤ (if typeOf x = 3 then 1 else 0) := by simpa using v2
        rw [Cost.add_assoc]
        refine fin _ ?_ ?_ ?_ ?_ <;> simp <;> omega
    · split
      · refine cev_rd' ?_
        intro y _
        refine cev_then (storeIncr_every a x _) ?_ ?_ <;>
        · rintro _ e _ ⟨v1, v2, v3, v4⟩
          simp at v1 v3 v4
          have v2' : e.frees ≤ (if typeOf x = 3 then 1 else 0) := by simpa using v2
          rw [Cost.add_assoc, Cost.add_assoc]
          refine fin _ ?_ ?_ ?_ ?_ <;> simp <;> omega
      · split
        · refine cev_then (addItems_every base 1) ?_ ?_
          · rintro _ _ _ rfl
            refine cev_then (storeIncr_every a x _) ?_ ?_ <;>
            · rintro _ e _ ⟨v1, v2, v3, v4⟩
              simp at v1 v3 v4
              have v2' : e.frees ≤ (if typeOf x = 3 then 1 else 0) := by simpa using v2
              rw [Cost.add_assoc, Cost.add_assoc]
              refine fin _ ?_ ?_ ?_ ?_ <;> simp <;> omega
          · rintro _ _ _ rfl
            rw [Cost.add_assoc]
            refine fin _ ?_ ?_ ?_ ?_ <;> simp
        · refine fin _ ?_ ?_ ?_ ?_ <;> simp
  · rintro c2 h2 ⟨w1, w2, w3, w4⟩ hv
    exact ⟨⟨by omega, by omega, Nat.le_trans w3 (Nat.add_le_add_left (Nat.add_le_add_left (by decide) _) _), by omega⟩, fun h => absurd hv h⟩

theorem incrDbl_cost (add : BitVec 64 → BitVec 64 → BitVec 64) (t : Tr base F g ni nn h) (k : Bytes) (d : BitVec 64) :
    cev (incrDbl add base k d) (fun _ c' _ => c.Max c' (k.length + 1) 1 (13 * k.length + 785) 0 ∧ (g.vl k ≠ none → c'.allocs ≤ c.allocs + 1 ∧ c'.acc ≤ c.acc + 3 * k.length + 6)) c h := by
  unfold incrDbl
  simp only [Prog.bind_def]
  refine make_cost t k ?_ ?_
  · intro g' nn' h2 a c2 t' hv hs w w'
    refine read_cost t' hs ?_
    rw [hv]
    have h0 : g.vl k = none → cw (g.vl k) = 0 := by intro h; rw [h]; rfl
    generalize cw (g.vl k) = x at *
    have fin : ∀ e : Cost, e.allocs ≤ 1 → e.frees ≤ (if x = 0 then 0 else 1) → e.acc ≤ 6 → e.bytes = 0 →
        (c.Max (c2 + e) (k.length + 1) 1 (13 * k.length + 785) 0 ∧ (g.vl k ≠ none → (c2 + e).allocs ≤ c.allocs + 1 ∧ (c2 + e).acc ≤ c.acc + 3 * k.length + 6)) := by
      intro e e1 e2 e3 e4
      obtain ⟨w1, w2, w3, w4⟩ := w
      refine ⟨?_, fun h => ?_⟩
      · by_cases h : g.vl k = none
        · rw [if_pos (h0 h)] at e2
          constructor <;> simp <;> omega
        · obtain ⟨x1, x2, x3, x4⟩ := w' h
          have : e.frees ≤ 1 := by split at e2 <;> omega
          constructor <;> simp <;> omega
      · obtain ⟨x1, x2, x3, x4⟩ := w' h
        constructor <;> simp <;> omega
    split
    · rename_i ht
      have hx : x ≠ 0 := by rintro rfl; exact absurd ht (by decide)
      split
      · refine cev_then (storeIncrDbl_every a 0 _) ?_ ?_ <;>
        · rintro _ e _ ⟨v1, v2, v3, v4⟩
          simp at v1 v2 v3 v4
          rw [Cost.add_assoc]
          refine fin _ ?_ ?_ ?_ ?_ <;> simp <;> omega
      · refine cev_rd' ?_
        intro y _
        refine cev_then (storeIncrDbl_every a (valOf x) _) ?_ ?_ <;>
        · rintro _ e _ ⟨v1, v2, v3, v4⟩
          have v2' : e.frees ≤ 1 := by split at v2 <;> simp at v2 <;> omega
          simp at v1 v3 v4
          rw [Cost.add_assoc, Cost.add_assoc]
          refine fin _ ?_ ?_ ?_ ?_ <;> simp [hx] <;> omega
    · split
      · split
        · refine cev_wr' ?_
          intro B _
          refine cev_then (addItems_every base 1) ?_ ?_ <;>
          · rintro _ _ _ rfl
            rw [Cost.add_assoc, Cost.add_assoc]
            refine fin _ ?_ ?_ ?_ ?_ <;> simp
        · refine cev_alloc ?_ ?_
          · intro o dd _
            refine cev_wr' ?_
            intro B _
            refine cev_wr' ?_
            intro B2 _
            refine cev_then (addItems_every base 1) ?_ ?_ <;>
            · rintro _ _ _ rfl
              rw [Cost.add_assoc, Cost.add_assoc, Cost.add_assoc, Cost.add_assoc]
              refine fin _ ?_ ?_ ?_ ?_ <;> simp
          · rw [Cost.add_assoc]
            refine fin _ ?_ ?_ ?_ ?_ <;> simp
      · refine fin _ ?_ ?_ ?_ ?_ <;> simp
  · rintro c2 h2 ⟨w1, w2, w3, w4⟩ hv
    exact ⟨⟨by omega, by omega, Nat.le_trans w3 (Nat.add_le_add_left (Nat.add_le_add_left (by decide) _) _), by omega⟩, fun h => absurd hv h⟩

/-- erase: a free for each byte and one more at most, and none if it returns false -/
theorem erase_cost (t : Tr base F g ni nn h) (k : Bytes) (ck : Option Check) :
    cev (erase base k ck) (fun o c' _ => c.Max c' 0 (k.length + 1) (267 * k.length + checkAcc ck + 4) (checkBytes g.kv ck) ∧ (o = .ok false → c'.frees = c.frees)) c h := by
  obtain ⟨n, hn⟩ := maxSteps_succ
  unfold erase
  rw [hn]
  simp only [Prog.bind_def]
  refine cev_bind ?_ ?_ (checkOk_cost (c := c) t ck)
  · rintro go c1 h' ⟨rfl, u1, u2, u3, u4⟩
    cases go with
    | false =>
      rw [if_neg (by simp)]
      exact ⟨by constructor <;> omega, fun _ => by omega⟩
    | true =>
      rw [if_pos rfl]
      refine slot_cost t k ?_ ?_
      · rintro a ns c2 hs hns ⟨w1, w2, w3, w4⟩
        refine cev_bind ?_ ?_ (clearVal_cost (c := c2) t hs n)
        · rintro _ c3 h3 ⟨v1, v2, v3, v4⟩
          have v2' : c3.frees ≤ c2.frees + 1 := by split at v2 <;> omega
          refine cev_then (prune_every base ns) ?_ ?_ <;>
          · rintro _ e _ ⟨x1, x2, x3, x4⟩
            simp at x1 x2 x3 x4
            exact ⟨by constructor <;> simp <;> omega, by rintro ⟨⟩⟩
        · rintro _ c3 h3 ⟨v1, v2, v3, v4⟩
          have v2' : c3.frees ≤ c2.frees + 1 := by split at v2 <;> omega
          exact ⟨by constructor <;> omega, by rintro ⟨⟩⟩
      · rintro ns c2 ⟨w1, w2, w3, w4⟩
        exact ⟨by constructor <;> omega, fun _ => by omega⟩
  · rintro x c1 h' ⟨rfl, u1, u2, u3, u4⟩
    exact ⟨by constructor <;> omega, fun _ => by omega⟩

end
end PrefixTree
end Verif
