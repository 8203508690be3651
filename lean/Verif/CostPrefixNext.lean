import Verif.CostPrefixOps
/-
C71: what searches for the next key, iterators and clear cost.
-/
namespace Verif
open PrefixTree (Val CVal Check RType isZero isNaN)
open PT

theorem cev_both {α : Type} {p : HProg α} {P P' : Out α → Cost → Heap → Prop} : ∀ {c : Cost} {h : Heap}, cev p P c h → cev p P' c h → cev p (fun o c h => P o c h ∧ P' o c h) c h := by
  induction p with
  | ret a => exact fun h1 h2 => ⟨h1, h2⟩
  | err e => exact fun h1 h2 => ⟨h1, h2⟩
  | ub => exact fun _ _ => trivial
  | step op k ih =>
    intro c h he he'
    cases op with
    | alloc n => exact ⟨fun o d hf => ih _ (he.1 o d hf) (he'.1 o d hf), ih _ he.2 he'.2⟩
    | getBase => exact ih _ he he'
    | setBase o => exact ih _ he he'
    | free b | bsize b | rd b o n | rdB b o n | wr b o n v | wrB b o bs => exact fun B hB => ih _ (he B hB) (he' B hB)

namespace PrefixTree
attribute [local irreducible] Block.rd Block.rdB
section
variable {base : Nat} {F : Nat → Option Block} {g : G} {ni nn : Nat} {h : Heap} {c : Cost}

/-! ### The search for the next key -/

theorem Tr.word_in (t : Tr base F g ni nn h) {p : Bytes} {b : UInt8} {hd : Hd} (hp : g.nd p = some hd) (hw : g.word (p ++ [b]) ≠ 0) : hd.s ≤ b.toNat ∧ b.toNat ≤ hd.e := by
  have key : InRange g (p ++ [b]) := by
    cases hq : g.nd (p ++ [b]) with
    | some hd' => exact (t.child _ _ _ hq).2.2.2.2.2
    | none =>
      cases hv : g.vl (p ++ [b]) with
      | none => exact absurd (t.word_zero.2 ⟨hq, hv⟩) hw
      | some cv => obtain ⟨c, v⟩ := cv; exact (t.val _ _ _ hv).2 hq
  obtain ⟨p', b', hp', e, h1, h2, h3⟩ := key
  obtain ⟨rfl, rfl⟩ := snoc_inj e
  rw [hp] at h1; cases h1
  exact ⟨h2, h3⟩

/-- something is left in the node at p from slot `i` on -/
def Left (g : G) (p : Bytes) (i : Option Nat) : Prop := ∃ b : UInt8, (∀ j, i = some j → j ≤ b.toNat) ∧ g.word (p ++ [b]) ≠ 0

/-- accesses for the rest of a node -/
def rest : Option Nat → Nat
  | none => 770
  | some j => 3 * (256 - j)

theorem Tr.tight_left (t : Tr base F g ni nn h) (ht : Tight g) {p : Bytes} (h1 : p ≠ []) (h2 : g.nd p ≠ none) : Left g p none := by
  obtain ⟨b, hb⟩ := ht p h1 h2
  refine ⟨b, (by intro j h; cases h), fun hw => ?_⟩
  obtain ⟨h3, h4⟩ := t.word_zero.1 hw
  rcases hb with hb | hb
  · exact hb h3
  · exact hb (kv_none.2 h4)

/-- in a node where something is left the search only goes down -/
theorem scan_left_cost (t : Tr base F g ni nn h) (ht : Tight g) : ∀ (fuel : Nat) (st : List Addr) (p : Bytes) (i : Option Nat) (c : Cost), Stack g p st → Left g p i →
    cev (scan fuel st i) (fun o c' _ => ∃ v st' i', o = .ok (some (v, st', i')) ∧ st.length ≤ st'.length ∧ c.Upto c' 0 0 (rest i + 775 * (st'.length - st.length)) 0) c h := by
  intro fuel
  induction fuel with
  | zero => intro st p i c _ _; exact trivial
  | succ fuel ih =>
    intro st p i c hst hl
    obtain ⟨hd, st0, hpn, rfl⟩ := hst.head
    obtain ⟨B, hB, hn⟩ := t.node p hd hpn
    have hlt := hn.lt
    obtain ⟨b, hb1, hb2⟩ := hl
    obtain ⟨h1, h2⟩ := t.word_in hpn hb2
    cases i with
    | none =>
      unfold scan
      simp only [Prog.bind_def]
      refine cev_rd (B := B) hB ?_
      split
      · exact ⟨_, _, _, rfl, Nat.le_refl _, by constructor <;> simp [rest]⟩
      · refine cev_rd (B := B) hB ?_
        rw [show B.rd hd.off 1 = hd.s from hn.s]
        refine cev_mono ?_ (ih _ p (some hd.s) _ hst ⟨b, (by rintro j ⟨⟩; exact h1), hb2⟩)
        rintro o c' _ ⟨v, st', i', e1, e2, u1, u2, u3, u4⟩
        simp only [rest] at u3
        simp at u1 u2 u3 u4
        simp only [List.length_cons] at *
        exact ⟨v, st', i', e1, e2, by constructor <;> (try simp only [rest]) <;> omega⟩
    | some i =>
      have hi := hb1 i rfl
      have hbl := b.toNat_lt
      unfold scan
      simp only [Prog.bind_def]
      refine cev_rd (B := B) hB ?_
      rw [show B.rd hd.off 1 = hd.s from hn.s]
      refine cev_rd (B := B) hB ?_
      rw [show B.rd (hd.off + 1) 1 = hd.e from hn.e]
      rw [if_neg (by omega : ¬ hd.e < max i hd.s)]
      have hm : (UInt8.ofNat (max i hd.s)).toNat = max i hd.s := by
        have : (UInt8.ofNat (max i hd.s)).toNat = (max i hd.s) % 256 := UInt8.toNat_ofNat'
        omega
      refine cev_rd (B := B) hB ?_
      have hw := hn.ch (UInt8.ofNat (max i hd.s)) (by omega) (by omega)
      rw [hm] at hw
      rw [show B.rd (slotOf (hd.o, hd.off) hd.s (max i hd.s)).2 8 = g.word (p ++ [UInt8.ofNat (max i hd.s)]) from hw]
      split
      · rename_i hz
        have hne : b.toNat ≠ max i hd.s := by
          intro e
          rw [← e, UInt8.ofNat_toNat] at hz
          exact hb2 hz
        refine cev_mono ?_ (ih _ p (some (max i hd.s + 1)) _ hst ⟨b, (by rintro j ⟨⟩; omega), hb2⟩)
        rintro o c' _ ⟨v, st', i', e1, e2, u1, u2, u3, u4⟩
        simp only [rest] at u3
        simp at u1 u2 u3 u4
        simp only [List.length_cons] at *
        exact ⟨v, st', i', e1, e2, by constructor <;> (try simp only [rest]) <;> omega⟩
      · rename_i hz
        split
        · exact ⟨_, _, _, rfl, Nat.le_refl _, by constructor <;> simp [rest] <;> omega⟩
        · rename_i hty
          rw [ne_eq, Classical.not_not, t.word_node] at hty
          have h3 : g.nd (p ++ [UInt8.ofNat (max i hd.s)]) ≠ none := by
            rcases hty with h3 | h3
            · exact h3
            · intro h4; exact hz (t.word_zero.2 ⟨h4, h3⟩)
          obtain ⟨hd', h4⟩ := Option.ne_none_iff_exists'.1 h3
          have hw' : g.word (p ++ [UInt8.ofNat (max i hd.s)]) = hd'.o := by unfold G.word; rw [h4]
          obtain ⟨hoff, -, hal, -⟩ := t.child _ _ _ h4
          have hval : valOf hd'.o = hd'.o := by unfold valOf; omega
          rw [hw', hval, show ((hd'.o, 0) : Addr) = (hd'.o, hd'.off) by rw [hoff]]
          refine cev_mono ?_ (ih _ _ none _ (.snoc _ _ _ hd' hst h4) (t.tight_left ht snoc_ne_nil h3))
          rintro o c' _ ⟨v, st', i', e1, e2, u1, u2, u3, u4⟩
          simp only [rest] at u3
          simp at u1 u2 u3 u4
          simp only [List.length_cons] at *
          exact ⟨v, st', i', e1, by omega, by constructor <;> (try simp only [rest]) <;> omega⟩

/-- the nodes above the result -/
def high : Out (Option (Nat × List Addr × Option Nat)) → Nat
  | .ok (some (_, st, _)) => st.length
  | _ => 0

theorem scan_cost (t : Tr base F g ni nn h) (ht : Tight g) : ∀ (fuel : Nat) (st : List Addr) (p : Bytes) (i : Nat) (c : Cost), Stack g p st →
    cev (scan fuel st (some i)) (fun o c' _ => c.Upto c' 0 0 (3 * (256 - i) + 3 + 775 * st.length + 775 * high o) 0) c h := by
  intro fuel
  induction fuel with
  | zero => intro st p i c _; exact trivial
  | succ fuel ih =>
    intro st p i c hst
    obtain ⟨hd, st0, hpn, rfl⟩ := hst.head
    obtain ⟨B, hB, hn⟩ := t.node p hd hpn
    have hlt := hn.lt
    unfold scan
    simp only [Prog.bind_def]
    refine cev_rd (B := B) hB ?_
    rw [show B.rd hd.off 1 = hd.s from hn.s]
    refine cev_rd (B := B) hB ?_
    rw [show B.rd (hd.off + 1) 1 = hd.e from hn.e]
    split
    · rename_i he
      rcases hst.inv with ⟨rfl, rfl⟩ | ⟨p', b, rfl, hs⟩
      · refine cev_ret ?_; constructor <;> simp <;> omega
      · obtain ⟨hp, st', hpn', rfl⟩ := hs.head
        simp only
        refine cev_rd (B := B) hB ?_
        refine cev_mono ?_ (ih _ p' _ _ hs)
        rintro o c' _ ⟨u1, u2, u3, u4⟩
        simp at u1 u2 u3 u4
        generalize high o = x at *
        simp only [List.length_cons] at *
        constructor <;> omega
    · rename_i he
      have hm : (UInt8.ofNat (max i hd.s)).toNat = max i hd.s := by
        have : (UInt8.ofNat (max i hd.s)).toNat = (max i hd.s) % 256 := UInt8.toNat_ofNat'
        omega
      refine cev_rd (B := B) hB ?_
      have hw := hn.ch (UInt8.ofNat (max i hd.s)) (by omega) (by omega)
      rw [hm] at hw
      rw [show B.rd (slotOf (hd.o, hd.off) hd.s (max i hd.s)).2 8 = g.word (p ++ [UInt8.ofNat (max i hd.s)]) from hw]
      split
      · refine cev_mono ?_ (ih _ p (max i hd.s + 1) _ hst)
        rintro o c' _ ⟨u1, u2, u3, u4⟩
        simp at u1 u2 u3 u4
        generalize high o = x at *
        simp only [List.length_cons] at *
        constructor <;> omega
      · rename_i hz
        split
        · refine cev_ret ?_; constructor <;> simp <;> omega
        · rename_i hty
          rw [ne_eq, Classical.not_not, t.word_node] at hty
          have h3 : g.nd (p ++ [UInt8.ofNat (max i hd.s)]) ≠ none := by
            rcases hty with h3 | h3
            · exact h3
            · intro h4; exact hz (t.word_zero.2 ⟨h4, h3⟩)
          obtain ⟨hd', h4⟩ := Option.ne_none_iff_exists'.1 h3
          have hw' : g.word (p ++ [UInt8.ofNat (max i hd.s)]) = hd'.o := by unfold G.word; rw [h4]
          obtain ⟨hoff, -, hal, -⟩ := t.child _ _ _ h4
          have hval : valOf hd'.o = hd'.o := by unfold valOf; omega
          rw [hw', hval, show ((hd'.o, 0) : Addr) = (hd'.o, hd'.off) by rw [hoff]]
          refine cev_mono ?_ (scan_left_cost t ht _ _ _ none _ (.snoc _ _ _ hd' hst h4) (t.tight_left ht snoc_ne_nil h3))
          rintro o c' _ ⟨v, st', i', rfl, e2, u1, u2, u3, u4⟩
          simp only [rest, high] at *
          simp at u1 u2 u3 u4
          simp only [List.length_cons] at *
          constructor <;> omega

theorem seek_every : ∀ (k : Bytes) (nd : Addr) (st : List Addr), HEvery (seek k nd st) {} fun o e => ({} : Cost).Upto e 0 0 (3 * k.length) 0 ∧
    ∀ r, o = .ok r → r.1.length ≤ st.length + k.length + 1 := by
  intro k
  induction k with
  | nil => intro nd st; exact ⟨.refl _, by rintro r ⟨⟩; simp⟩
  | cons b k ih =>
    intro nd st
    unfold seek
    simp only [Prog.bind_def]
    intro s hs
    show Every _ _ (if b.toNat < s then _ else _) _ _
    split
    · exact ⟨by constructor <;> simp [hcost] <;> omega, by rintro r ⟨⟩; simp⟩
    · intro e he
      show Every _ _ (if e < b.toNat then _ else _) _ _
      split
      · exact ⟨by constructor <;> simp [hcost] <;> omega, by rintro r ⟨⟩; simp⟩
      · intro x hx
        show Every _ _ (if typeOf x ≠ 0 then _ else _) _ _
        split
        · exact ⟨by constructor <;> simp [hcost] <;> omega, by rintro r ⟨⟩; simp⟩
        · refine ((ih (x, 0) (nd :: st)).from).mono ?_
          rintro o c' ⟨d, rfl, ⟨u1, u2, u3, u4⟩, u5⟩
          simp at u1 u2 u3 u4
          refine ⟨by constructor <;> simp [hcost] <;> omega, ?_⟩
          intro r hr
          have := u5 r hr
          simp only [List.length_cons] at *
          omega

theorem pathOf_every : ∀ st : List Addr, HEvery (pathOf st) {} fun o e => e = { acc := st.length - 1 } ∧ ∃ k, o = .ok k ∧ k.length = st.length - 1 := by
  intro st
  induction st with
  | nil => exact ⟨rfl, [], rfl, rfl⟩
  | cons nd st ih =>
    cases st with
    | nil => exact ⟨rfl, [], rfl, rfl⟩
    | cons nd' st =>
      unfold pathOf
      simp only [Prog.bind_def]
      refine every_then ih ?_ ?_
      · rintro k e ⟨rfl, k', h1, h2⟩
        cases h1
        intro v hv
        refine ⟨?_, _, rfl, ?_⟩
        · ext <;> simp [hcost]
        · simp at h2 ⊢; omega
      · rintro x e ⟨-, k', h1, -⟩; cases h1

theorem found_every (st : List Addr) (i : Option Nat) : HEvery (found st i) {} fun o e => e = { acc := st.length - 1 } ∧ ∃ k, o = .ok k ∧ st.length ≤ k.length + 1 := by
  unfold found
  simp only [Prog.bind_def]
  refine every_then (pathOf_every st) ?_ ?_
  · rintro k e ⟨rfl, k', h1, h2⟩
    cases h1
    cases i with
    | none => exact ⟨by ext <;> simp, _, rfl, by omega⟩
    | some i => exact ⟨by ext <;> simp, _, rfl, by simp; omega⟩
  · rintro x e ⟨-, k', h1, -⟩; cases h1

/-- the length of the key in a result -/
def klen {α : Type} : Out (Bytes × α) → Nat
  | .ok (k, _) => k.length + 1
  | .err _ => 0

theorem nextFrom_cost (t : Tr base F g ni nn h) (ht : Tight g) {p : Bytes} {st : List Addr} (s : Stack g p st) (i : Nat) :
    cev (nextFrom st i) (fun o c' _ => c.Upto c' 0 0 (771 + 775 * st.length + 776 * klen o) 0) c h := by
  unfold nextFrom
  simp only [Prog.bind_def]
  refine cev_bind ?_ ?_ (scan_cost t ht maxSteps st p i c s)
  · rintro r c' h' ⟨u1, u2, u3, u4⟩
    rcases r with - | ⟨v, st', i'⟩
    · simp only [high] at u3
      refine cev_err ?_; constructor <;> (try simp only [klen]) <;> omega
    · simp only [high] at u3
      refine cev_then (found_every st' i') ?_ ?_
      · rintro k e h2 ⟨rfl, k', h1, h2⟩
        cases h1
        refine cev_ret ?_; constructor <;> simp [klen] <;> omega
      · rintro x e h2 ⟨-, k', h1, -⟩; cases h1
  · rintro x c' h' ⟨u1, u2, u3, u4⟩
    simp only [high] at u3
    show c.Upto c' 0 0 (771 + 775 * st.length + 776 * 0) 0
    constructor <;> omega

/-- the length of the key where a search starts -/
def olen : Option Bytes → Nat
  | none => 0
  | some k => k.length

theorem nextRaw_cost (t : Tr base F g ni nn h) (ht : Tight g) {k : Option Bytes} (hs : ∀ k', k = some k' → Safe g k') :
    cev (nextRaw base k) (fun o c' _ => c.Upto c' 0 0 (1547 + 778 * olen k + 776 * klen o) 0) c h := by
  cases k with
  | none =>
    unfold nextRaw
    simp only [Prog.bind_def]
    refine cev_rd' ?_
    intro v _
    split
    · refine cev_ret ?_; constructor <;> simp <;> omega
    · refine cev_mono ?_ (nextFrom_cost t ht (.root _ t.root) 0)
      rintro o c' _ ⟨u1, u2, u3, u4⟩
      simp at u1 u2 u3 u4
      constructor <;> simp [olen] <;> omega
  | some k =>
    unfold nextRaw
    simp only [Prog.bind_def]
    refine cev_bind ?_ ?_ (cev_wp (seek_spec (I := fun _ => True) t k [] (rootHd base) [] t.root (.root _ t.root) (hs k rfl)).wp (cev_from (c := c) (seek_every k _ [])))
    · rintro r c' h' ⟨⟨rfl, st', i, p', h1, h2, -⟩, e, rfl, ⟨u1, u2, u3, u4⟩, u5⟩
      cases h1
      have u5 := u5 _ rfl
      refine cev_mono ?_ (nextFrom_cost t ht h2 i)
      rintro o c' _ ⟨w1, w2, w3, w4⟩
      simp at u1 u2 u3 u4 w1 w2 w3 w4 u5
      constructor <;> (try simp only [olen]) <;> omega
    · rintro x c' h' ⟨⟨rfl, st', i, p', h1, -⟩, -⟩; cases h1

theorem nextKey_cost (t : Tr base F g ni nn h) (ht : Tight g) {k : Option Bytes} (hs : ∀ k', k = some k' → Safe g k') :
    cev (nextKey base k) (fun o c' _ => c.Upto c' 0 0 (1547 + 778 * olen k + 776 * (match o with | .ok k' => k'.length + 1 | .err _ => 0)) 0) c h := by
  unfold nextKey
  simp only [Prog.bind_def]
  refine cev_bind ?_ ?_ (nextRaw_cost t ht hs)
  · rintro ⟨k', w⟩ c' h' u; exact u
  · rintro x c' h' u; exact u

/-- the bytes of the value in a result -/
def rlen : Out (Bytes × Val) → Nat
  | .ok (_, v) => vlen (some v)
  | .err _ => 0

theorem nextKV_cost (t : Tr base F g ni nn h) (ht : Tight g) {k : Option Bytes} (hs : ∀ k', k = some k' → Safe g k') :
    cev (nextKV base k) (fun o c' _ => c.Upto c' 0 0 (1549 + 778 * olen k + 776 * klen o) (rlen o)) c h := by
  unfold nextKV
  simp only [Prog.bind_def]
  refine cev_bind ?_ ?_ (cev_wp (nextRaw_spec (I := fun _ => True) t hs).wp (nextRaw_cost (c := c) t ht hs))
  · rintro r c' h' ⟨⟨rfl, h1⟩, u1, u2, u3, u4⟩
    rcases h1 with ⟨k', w, v, h1, h2, -⟩ | ⟨h1, -⟩
    · cases h1
      refine cev_bind ?_ ?_ (cev_wp (lookup_spec (I := fun _ => True) (t.val _ _ _ h2).1).wp (lookup_cost (c := c') (t.val _ _ _ h2).1))
      · rintro v' c2 h3 ⟨⟨-, h4⟩, -, w1, w2, w3, w4⟩
        cases h4
        simp only [klen] at u3
        refine cev_ret ?_; constructor <;> (try simp only [klen, rlen]) <;> omega
      · rintro x c2 h3 ⟨⟨-, h4⟩, -⟩; cases h4
    · cases h1
  · rintro x c' h' ⟨-, u1, u2, u3, u4⟩
    show c.Upto c' 0 0 (1549 + 778 * olen k + 776 * 0) 0
    simp only [klen] at u3
    constructor <;> omega

/-! ### Iterators -/

/-- the length of the key in an iterator -/
def ilen : Out (Option (Bytes × Val)) → Nat
  | .ok (some (k, _)) => k.length + 1
  | _ => 0

/-- the bytes of the value in an iterator -/
def iby : Out (Option (Bytes × Val)) → Nat
  | .ok (some (_, v)) => vlen (some v)
  | _ => 0

attribute [local irreducible] cev in
theorem iterNext_cost (t : Tr base F g ni nn h) (ht : Tight g) {k : Option Bytes} (hs : ∀ k', k = some k' → Safe g k') :
    cev (iterNext base k) (fun o c' _ => c.Upto c' 0 0 (1549 + 778 * olen k + 776 * ilen o) (iby o)) c h := by
  unfold iterNext orEnd
  refine cev_tryCatch ?_
  refine cev_bind ?_ ?_ (nextKV_cost t ht hs)
  · rintro ⟨k', v⟩ c' h' u
    refine cev_ret ⟨?_, (by intro e he; cases he)⟩
    rintro a ⟨⟩
    exact u
  · rintro x c' h' ⟨u1, u2, u3, u4⟩
    simp only [klen, rlen] at u3 u4
    refine ⟨(by intro a ha; cases ha), ?_⟩
    rintro e ⟨⟩
    split
    · refine cev_ret ?_; constructor <;> (try simp only [ilen, iby]) <;> omega
    · refine cev_err ?_; constructor <;> (try simp only [ilen, iby]) <;> omega

attribute [local irreducible] cev in
theorem find_cost (t : Tr base F g ni nn h) (k : Bytes) :
    cev (find base k) (fun _ c' h' => h' = h ∧ c.Upto c' 0 0 (3 * k.length + 3) (vlen (g.kv k))) c h := by
  unfold find orEnd
  refine cev_tryCatch ?_
  refine cev_bind (R := fun _ c' h' => h' = h ∧ c.Upto c' 0 0 (3 * k.length + 3) (vlen (g.kv k))) ?_ ?_
    (cev_bind (R := fun _ c' h' => h' = h ∧ c.Upto c' 0 0 (3 * k.length + 3) (vlen (g.kv k))) ?_ ?_ (at_cost t k))
  · rintro a c' h' u
    refine cev_ret ⟨?_, (by intro e he; cases he)⟩
    rintro a ⟨⟩
    exact u
  · rintro x c' h' u
    refine ⟨(by intro a ha; cases ha), ?_⟩
    rintro e ⟨⟩
    split
    · exact cev_ret u
    · exact cev_err u
  · rintro a c' h' u; exact cev_ret u
  · rintro x c' h' u; exact u

/-- lower_bound: find, and if the key is not there, upper_bound -/
theorem lowerBound_cost (t : Tr base F g ni nn h) (ht : Tight g) {k : Bytes} (hs : Safe g k) :
    cev (lowerBound base k) (fun o c' _ => c.Upto c' 0 0 (1552 + 781 * k.length + 776 * ilen o) (iby o)) c h := by
  unfold lowerBound
  simp only [Prog.bind_def]
  refine cev_bind ?_ ?_ (cev_wp (find_spec (I := fun _ => True) t k).wp (find_cost (c := c) t k))
  · rintro r c' h' ⟨⟨rfl, h1⟩, -, u1, u2, u3, u4⟩
    injection h1 with h1
    cases hk : g.kv k with
    | none =>
      rw [hk] at h1 u4
      subst h1
      refine cev_mono ?_ (iterNext_cost t ht (k := some k) (by rintro k' ⟨⟩; exact hs))
      rintro o c2 _ ⟨w1, w2, w3, w4⟩
      simp only [olen, vlen] at *
      constructor <;> omega
    | some v =>
      rw [hk] at h1 u4
      subst h1
      refine cev_ret ?_
      constructor <;> (try simp only [ilen, iby]) <;> omega
  · rintro x c' h' ⟨⟨-, h1⟩, -⟩; cases h1

/-! ### clear -/

/-- without allocations, no more frees than blocks that have disappeared -/
theorem frees_cost {α : Type} (p : HProg α) : ∀ (c : Cost) (h : Heap), cev p (fun _ c' h' => c.allocs ≤ c'.allocs ∧ (c'.allocs = c.allocs →
    (∀ x, h.blk x = none → h'.blk x = none) ∧ ∀ L : List Nat, (∀ x, h.blk x ≠ none → h'.blk x = none → x ∈ L) → c'.frees ≤ c.frees + L.length)) c h := by
  induction p with
  | ret a => intro c h; exact ⟨Nat.le_refl _, fun _ => ⟨fun _ h => h, fun L _ => Nat.le_add_right _ _⟩⟩
  | err e => intro c h; exact ⟨Nat.le_refl _, fun _ => ⟨fun _ h => h, fun L _ => Nat.le_add_right _ _⟩⟩
  | ub => intro c h; exact trivial
  | step op k ih =>
    intro c h
    have keep : ∀ (d : Cost) (h1 : Heap) (v), d.allocs = 0 → d.frees = 0 → (∀ x, h1.blk x = none ↔ h.blk x = none) →
        cev (k v) (fun _ c' h' => c.allocs ≤ c'.allocs ∧ (c'.allocs = c.allocs →
          (∀ x, h.blk x = none → h'.blk x = none) ∧ ∀ L : List Nat, (∀ x, h.blk x ≠ none → h'.blk x = none → x ∈ L) → c'.frees ≤ c.frees + L.length)) (c + d) h1 := by
      intro d h1 v d1 d2 hh
      refine cev_mono ?_ (ih v (c + d) h1)
      rintro o c' h' ⟨e1, e2⟩
      simp [d1, d2] at e1 e2
      refine ⟨e1, fun e => ?_⟩
      obtain ⟨e3, e4⟩ := e2 e
      exact ⟨fun x hx => e3 x ((hh x).2 hx), fun L hL => e4 L fun x h1 h2 => hL x (fun h3 => h1 ((hh x).2 h3)) h2⟩
    have set_iff : ∀ b B' B, h.blk b = some B → ∀ x, (h.set b B').blk x = none ↔ h.blk x = none := by
      intro b B' B hB x
      by_cases e : x = b
      · subst e; rw [Heap.set_same, hB]; simp
      · rw [Heap.set_ne _ _ _ _ e]
    cases op with
    | alloc n =>
      have key : ∀ (v : Option Nat) (h1 : Heap), cev (k v) (fun _ c' h' => c.allocs ≤ c'.allocs ∧ (c'.allocs = c.allocs →
          (∀ x, h.blk x = none → h'.blk x = none) ∧ ∀ L : List Nat, (∀ x, h.blk x ≠ none → h'.blk x = none → x ∈ L) → c'.frees ≤ c.frees + L.length)) (c + hcost (.alloc n)) h1 := by
        intro v h1
        refine cev_mono ?_ (ih v _ h1)
        rintro o c' h' ⟨e1, -⟩
        simp [hcost] at e1
        exact ⟨by omega, fun e => by omega⟩
      exact ⟨fun o d _ => key _ _, key _ _⟩
    | free b =>
      intro B hB
      refine cev_mono ?_ (ih () _ _)
      rintro o c' h' ⟨e1, e2⟩
      simp [hcost] at e1 e2
      refine ⟨e1, fun e => ?_⟩
      obtain ⟨e3, e4⟩ := e2 e
      have hd : ∀ x, x ≠ b → (h.del b).blk x = h.blk x := fun x hx => Heap.del_ne _ _ _ hx
      have hb : h'.blk b = none := e3 b (Heap.del_same _ _)
      refine ⟨fun x hx => ?_, fun L hL => ?_⟩
      · by_cases e : x = b
        · rw [e]; exact hb
        · exact e3 x (by rw [hd x e]; exact hx)
      · have hm : b ∈ L := hL b (by rw [hB]; simp) hb
        have := e4 (L.erase b) (by
          intro x h1 h2
          by_cases e : x = b
          · subst e; rw [Heap.del_same] at h1; exact absurd rfl h1
          · rw [hd x e] at h1
            exact (List.mem_erase_of_ne e).2 (hL x h1 h2))
        have hl := List.length_erase_of_mem hm
        have := List.length_pos_of_mem hm
        omega
    | getBase => exact keep _ h _ rfl rfl fun _ => Iff.rfl
    | setBase o => exact keep _ _ _ rfl rfl fun _ => Iff.rfl
    | bsize b => exact fun B _ => keep _ h _ rfl rfl fun _ => Iff.rfl
    | rd b o n => exact fun B _ => keep _ h _ rfl rfl fun _ => Iff.rfl
    | rdB b o n => exact fun B _ => keep _ h _ rfl rfl fun _ => Iff.rfl
    | wr b o n v => exact fun B hB => keep _ _ _ rfl rfl (set_iff b _ B hB)
    | wrB b o bs => exact fun B hB => keep _ _ _ rfl rfl (set_iff b _ B hB)

/-- clear frees each node but the root and each buffer once at most -/
theorem clear_cost (t : Tr base F g ni nn h) :
    cev (clear base) (fun _ c' _ => c'.allocs = c.allocs ∧ c'.bytes = c.bytes ∧ c'.acc + 1030 * c.frees ≤ c.acc + 1030 * (c'.frees + 1) ∧
      ∀ n m, Card g.nd n → Card g.vl m → c'.frees + 1 ≤ c.frees + n + m) c h := by
  refine cev_mono ?_ (cev_wp (clear_spec (P := fun _ => True) t (fun _ _ => trivial)).wp (cev_both (cev_from (c := c) (clear_every base)) (frees_cost (clear base) c h)))
  rintro o c' h' ⟨⟨-, g', ni', nn', t', h1, h2, -, -⟩, ⟨e, rfl, -, ⟨w1, w2, w3⟩⟩, -, h4⟩
  simp only [Cost.add_allocs, Cost.add_frees, Cost.add_acc, Cost.add_bytes] at *
  obtain ⟨h5, h6⟩ := h4 (by omega)
  refine ⟨by omega, by omega, by omega, ?_⟩
  rintro n m ⟨l, l1, l2, rfl⟩ ⟨l', l1', l2', rfl⟩
  have hroot : [] ∈ l := (l2 []).2 (by rw [t.root]; simp)
  have hvl : ∀ q, g'.vl q = none := fun q => kv_none.1 (h1 q)
  have key := h6 ((l.erase []).map (addr g) ++ l'.map fun q => buf (cw (g.vl q))) ?_
  · rw [List.length_append, List.length_map, List.length_map, List.length_erase_of_mem hroot] at key
    have := List.length_pos_of_mem hroot
    omega
  · intro x hx hx'
    have hno' : ∀ w, ¬ Own g' x w := by
      intro w ho
      obtain ⟨B, hB⟩ := t'.own_live ho
      rw [hB] at hx'; cases hx'
    have hF : F x = none := by rw [← t'.frame x hno']; exact hx'
    have hown : ∃ w, Own g x w := by
      refine Classical.byContradiction fun hn => hx ?_
      rw [t.frame x (fun w hw => hn ⟨w, hw⟩)]; exact hF
    obtain ⟨⟨b, q⟩, ho⟩ := hown
    rw [List.mem_append, List.mem_map, List.mem_map]
    cases b with
    | true =>
      obtain ⟨hd, hq, rfl⟩ := ho
      left
      have hne : q ≠ [] := by
        rintro rfl
        rw [t.root] at hq; cases hq
        exact hno' (true, []) ⟨_, t'.root, rfl⟩
      exact ⟨q, (List.mem_erase_of_ne hne).2 ((l2 q).2 (by rw [hq]; simp)), by unfold addr; rw [if_neg hne, hq]⟩
    | false =>
      obtain ⟨w, v, hq, rfl, -⟩ := ho
      right
      exact ⟨q, (l2' q).2 (by rw [hq]; simp), by rw [hq]; rfl⟩

end
end PrefixTree
end Verif
