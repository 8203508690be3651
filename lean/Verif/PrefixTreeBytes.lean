import Verif.PrefixTreeNodes
import Verif.PrefixTreeStep
/-
bytes_for_prefix.
-/
namespace Verif.PrefixTree
open Verif
attribute [local irreducible] Block.rd Block.rdB

/-- the sum of a weight over a set of paths -/
def SumP (S : Bytes → Prop) (w : Bytes → Nat) (n : Nat) : Prop := ∃ l : List Bytes, l.Nodup ∧ (∀ p, p ∈ l ↔ S p) ∧ (l.map w).sum = n

theorem SumP.none {S : Bytes → Prop} {w : Bytes → Nat} (h : ∀ p, ¬ S p) : SumP S w 0 := ⟨[], List.nodup_nil, fun p => by simp [h p], rfl⟩
theorem SumP.one {S : Bytes → Prop} {w : Bytes → Nat} {q : Bytes} (h : ∀ p, S p ↔ p = q) : SumP S w (w q) := ⟨[q], by simp, fun p => by simp [h p], by simp⟩
theorem SumP.union {S S1 S2 : Bytes → Prop} {w : Bytes → Nat} {n m : Nat} (h1 : SumP S1 w n) (h2 : SumP S2 w m) (hd : ∀ p, S1 p → S2 p → False) (h : ∀ p, S p ↔ (S1 p ∨ S2 p)) :
    SumP S w (n + m) := by
  obtain ⟨l, a1, a2, rfl⟩ := h1
  obtain ⟨l', b1, b2, rfl⟩ := h2
  refine ⟨l ++ l', ?_, ?_, by simp⟩
  · rw [List.nodup_append]
    refine ⟨a1, b1, ?_⟩
    rintro x hx y hy rfl
    exact hd x ((a2 x).1 hx) ((b2 x).1 hy)
  · intro p; rw [List.mem_append, a2, b2, h]

/-- bytes counted for a value in a leaf, without its slot -/
def leafB : Cell → Nat
  | none => 0
  | some (c, v) => if typeOf c = 1 then (match v with | .str s => s.length | _ => 0) else if typeOf c = 3 ∨ typeOf c = 4 then 8 else 0

/-- bytes counted for a path, without its slot -/
def pathB (g : G) (r : Bytes) : Nat :=
  match g.nd r with
  | some hd => 16 + 8 * (hd.e + 1 - hd.s)
  | none => leafB (g.vl r)

/-- nodes and values at or below q -/
def There (g : G) (q r : Bytes) : Prop := q <+: r ∧ (g.nd r ≠ none ∨ g.vl r ≠ none)

section
variable {base : Nat} {F : Nat → Option Block} {g : G} {ni nn : Nat} {h : Heap} {I : Heap → Prop}

/-- a value below a path that has no node sits at that path -/
theorem Tr.leafAt (t : Tr base F g ni nn h) {q r : Bytes} (hq : g.nd q = none) (h1 : q <+: r) (h2 : g.nd r ≠ none ∨ g.vl r ≠ none) : r = q ∧ g.vl q ≠ none := by
  obtain ⟨s, rfl⟩ := h1
  rcases h2 with h2 | h2
  · exact absurd hq (t.parent (r := s) h2)
  rcases List.eq_nil_or_concat s with rfl | ⟨s', b, rfl⟩
  · exact ⟨by simp, by simpa using h2⟩
  · exfalso
    have : q ++ s'.concat b = (q ++ s') ++ [b] := by simp
    rw [this] at h2
    cases hv : g.vl (q ++ s' ++ [b]) with
    | none => exact h2 hv
    | some cv =>
      obtain ⟨c, v⟩ := cv
      by_cases hn : g.nd (q ++ s' ++ [b]) = none
      · obtain ⟨p', b', hp, h3, h4, -⟩ := (t.val _ c v hv).2 hn
        obtain ⟨h5, -⟩ := snoc_inj h3
        rw [← h5] at h4
        exact t.parent (r := s') (by rw [h4]; simp) hq
      · rw [List.append_assoc] at hn
        exact t.parent (r := s' ++ [b]) hn hq

theorem sumSlots_bytes (t : Tr base F g ni nn h) {f : Nat → HProg Nat} {q : Bytes} {hd : Hd} (hq : g.nd q = some hd)
    (hf : ∀ b : UInt8, wpI I (f (g.word (q ++ [b]))) (fun out h' => h' = h ∧ ∃ n, out = .ok (8 + n) ∧ SumP (There g (q ++ [b])) (pathB g) n) h) :
    ∀ n x, x + n = hd.e + 1 - hd.s → wpI I (sumSlots f (hd.o, hd.off) n x) (fun out h' => h' = h ∧ ∃ m, out = .ok (8 * n + m) ∧
      SumP (fun r => ∃ b : UInt8, hd.s + x ≤ b.toNat ∧ There g (q ++ [b]) r) (pathB g) m) h := by
  obtain ⟨B, hB, hn⟩ := t.node q hd hq
  have hle := hn.le
  have hlt := hn.lt
  intro n
  induction n with
  | zero =>
    intro x hx
    refine ⟨rfl, 0, rfl, SumP.none ?_⟩
    rintro r ⟨b, h1, h2, h3⟩
    obtain ⟨h4, h5⟩ := t.outside (b := b) hq (Or.inr (by omega))
    exact (t.leafAt h4 h2 h3).2 h5
  | succ n ih =>
    intro x hx
    have hb : (UInt8.ofNat (hd.s + x)).toNat = hd.s + x := by
      have : (UInt8.ofNat (hd.s + x)).toNat = (hd.s + x) % 256 := UInt8.toNat_ofNat'
      omega
    have hsz := hn.size
    unfold sumSlots
    simp only [Prog.bind_def]
    refine wpI_rd (B := B) hB (by show hd.off + 16 + 8 * x + 8 ≤ _; omega) ?_
    have hch := hn.ch (UInt8.ofNat (hd.s + x)) (by omega) (by omega)
    rw [hb, Nat.add_sub_cancel_left] at hch
    rw [hch]
    refine wpI_bind_of (hf _) ?_ (by rintro e h' ⟨-, _, h1, -⟩; cases h1)
    rintro a h' ⟨rfl, a', h1, h2⟩
    injection h1 with h1; subst h1
    refine wpI_bind_of (ih (x + 1) (by omega)) ?_ (by rintro e h' ⟨-, _, h1, -⟩; cases h1)
    rintro m h' ⟨rfl, m', h3, h4⟩
    injection h3 with h3; subst h3
    refine ⟨rfl, a' + m', by show Out.ok _ = Out.ok _; congr 1; omega, h2.union h4 ?_ ?_⟩
    · rintro p ⟨h5, -⟩ ⟨b, h6, h7, -⟩
      have := snoc_prefix h5 h7
      subst this; omega
    · intro p
      constructor
      · rintro ⟨b, h5, h6⟩
        by_cases e : b.toNat = hd.s + x
        · have : b = UInt8.ofNat (hd.s + x) := toNat_inj (by omega)
          subst this; exact Or.inl h6
        · exact Or.inr ⟨b, by omega, h6⟩
      · rintro (h5 | ⟨b, h5, h6⟩)
        · exact ⟨_, by omega, h5⟩
        · exact ⟨b, by omega, h6⟩

theorem sumNode_bytes (t : Tr base F g ni nn h) {f : Nat → HProg Nat} {q : Bytes} {hd : Hd} (hq : g.nd q = some hd)
    (hf : ∀ b : UInt8, wpI I (f (g.word (q ++ [b]))) (fun out h' => h' = h ∧ ∃ n, out = .ok (8 + n) ∧ SumP (There g (q ++ [b])) (pathB g) n) h) :
    wpI I (sumNode f (hd.o, hd.off)) (fun out h' => h' = h ∧ ∃ r, out = .ok r ∧ SumP (There g q) (pathB g) (16 + r)) h := by
  obtain ⟨B, hB, hn⟩ := t.node q hd hq
  have hsz := lt_size hn
  unfold sumNode
  simp only [Prog.bind_def, Prog.bind_assoc]
  refine wpI_rd (B := B) hB (by show hd.off + 1 ≤ _; omega) ?_
  rw [show B.rd hd.off 1 = hd.s from hn.s]
  refine wpI_rd (B := B) hB (by show hd.off + 1 + 1 ≤ _; omega) ?_
  rw [show B.rd (hd.off + 1) 1 = hd.e from hn.e]
  refine wpI_mono (fun _ h => h) ?_ (sumSlots_bytes t hq hf _ 0 (by omega))
  rintro out h' ⟨rfl, m', rfl, h4⟩
  have hw : pathB g q = 16 + 8 * (hd.e + 1 - hd.s) := by unfold pathB; rw [hq]
  refine ⟨rfl, _, rfl, ?_⟩
  rw [show 16 + (8 * (hd.e + 1 - hd.s) + m') = pathB g q + m' by omega]
  refine (SumP.one (S := fun p => p = q) (fun _ => Iff.rfl)).union h4 ?_ ?_
  · rintro p rfl ⟨b, -, h5, -⟩
    exact not_prefix_self h5
  · intro p
    constructor
    · rintro ⟨h5, h6⟩
      rcases prefix_cases h5 with h7 | ⟨b, h7⟩
      · exact Or.inl h7
      · refine Or.inr ⟨b, ?_, h7, h6⟩
        refine Classical.byContradiction fun h8 => ?_
        obtain ⟨h9, h10⟩ := t.outside (b := b) hq (Or.inl (by omega))
        exact (t.leafAt h9 h7 h6).2 h10
    · rintro (rfl | ⟨b, -, h5, h6⟩)
      · exact ⟨List.prefix_refl _, by rw [hq]; simp⟩
      · exact ⟨prefix_of_snoc h5, h6⟩

/-- no leaf holds the empty string -/
def NoEmptyLeaf (g : G) : Prop := ∀ q c, g.nd q = none → g.vl q ≠ some (c, .str [])

theorem leaf_bytes {c : Nat} {v : Val} (he : Enc h c v) (hz : v ≠ .str []) (f : Nat) :
    wpI I (bytesFor (f + 1) c) (fun out h' => h' = h ∧ out = .ok (8 + leafB (some (c, v)))) h := by
  obtain ⟨hlt, hne0, hw, hbuf⟩ := he
  have hb : ∀ ty, c % 8 = ty → ty = 1 ∨ ty = 3 ∨ ty = 4 → 8 ≤ c → ∃ B, h.blk (valOf c) = some B ∧ BufOk B v := by
    intro ty h1 h2 h3
    have h4 : buf c = valOf c := by unfold buf; rw [if_pos (by unfold typeOf; omega)]
    rw [h4] at hbuf
    exact hbuf (by unfold valOf; omega)
  unfold bytesFor
  rw [if_neg (show ¬ typeOf c = 0 from hne0)]
  cases v with
  | str v =>
    have hv : v ≠ [] := fun e => hz (by rw [e])
    rcases hw with ⟨-, h1⟩ | ⟨h1, h2, rfl⟩ | ⟨h1, h2⟩
    · exact absurd h1 hv
    · have ht : typeOf (shortWord v) = 6 := by unfold typeOf; have := shortWord_low h2; omega
      simp only [ht, leafB]
      exact ⟨rfl, rfl⟩
    · obtain ⟨B, hB, h5, h6⟩ := hb 1 h1 (Or.inl rfl) h2
      have ht : typeOf c = 1 := h1
      rw [if_pos ht]
      simp only [leafB, if_pos ht, ← h5]
      exact wpI_bsize hB ⟨rfl, rfl⟩
  | int v =>
    rcases hw with ⟨h1, rfl⟩ | ⟨h1, h2⟩
    · have ht : typeOf (intWord v) = 2 := by unfold typeOf; rw [intWord_eq]; omega
      simp only [ht, leafB]
      exact ⟨rfl, rfl⟩
    · have ht : typeOf c = 3 := h1
      simp only [ht, leafB]
      exact ⟨rfl, rfl⟩
  | dbl d =>
    have ht : typeOf c = 4 := by rcases hw with ⟨rfl, -⟩ | ⟨h1, -⟩; · rfl
                                 · exact h1
    simp only [ht, leafB]
    exact ⟨rfl, rfl⟩
  | bool b =>
    have ht : typeOf c = 5 := by rw [show c = if b then 13 else 5 from hw]; cases b <;> rfl
    simp only [ht, leafB]
    exact ⟨rfl, rfl⟩
  | null =>
    have ht : typeOf c = 5 := by rw [show c = 21 from hw]; rfl
    simp only [ht, leafB]
    exact ⟨rfl, rfl⟩

theorem bytesFor_spec (t : Tr base F g ni nn h) (hne : NoEmptyLeaf g) : ∀ (f : Nat) (p : Bytes) (b : UInt8), Deep g (p ++ [b]) f →
    wpI I (bytesFor f (g.word (p ++ [b]))) (fun out h' => h' = h ∧ ∃ n, out = .ok (8 + n) ∧ SumP (There g (p ++ [b])) (pathB g) n) h := by
  intro f
  induction f with
  | zero => intro p b hd; exact absurd hd.1 (by omega)
  | succ f ih =>
    intro p b hdeep
    cases hq : g.nd (p ++ [b]) with
    | none =>
      cases hv : g.vl (p ++ [b]) with
      | none =>
        unfold bytesFor
        have : g.word (p ++ [b]) = 0 := t.word_zero.2 ⟨hq, hv⟩
        rw [this, if_pos (by rfl), if_pos rfl]
        refine ⟨rfl, 0, rfl, SumP.none ?_⟩
        rintro r ⟨h1, h2⟩
        exact (t.leafAt hq h1 h2).2 hv
      | some cv =>
        obtain ⟨c, v⟩ := cv
        have hw : g.word (p ++ [b]) = c := by unfold G.word; rw [hq, hv]; rfl
        rw [hw]
        refine wpI_mono (fun _ h => h) ?_ (leaf_bytes (t.val _ c v hv).1 (fun e => hne _ c hq (e ▸ hv)) f)
        rintro out h' ⟨h1, h2⟩
        refine ⟨h1, leafB (some (c, v)), h2, ?_⟩
        have : pathB g (p ++ [b]) = leafB (some (c, v)) := by unfold pathB; rw [hq, hv]
        rw [← this]
        refine SumP.one fun r => ⟨fun h3 => (t.leafAt hq h3.1 h3.2).1, ?_⟩
        rintro rfl
        exact ⟨List.prefix_refl _, Or.inr (by rw [hv]; simp)⟩
    | some hd =>
      have hw : g.word (p ++ [b]) = hd.o := by unfold G.word; rw [hq]
      unfold bytesFor
      rw [if_pos (by rw [t.word_node, hq]; simp), if_neg (by rw [t.word_zero, hq]; simp), hw]
      obtain ⟨hoff, -⟩ := t.child p b hd hq
      rw [show ((hd.o, 0) : Addr) = (hd.o, hd.off) by rw [hoff]]
      refine wpI_bind_of (sumNode_bytes t hq (fun b' => ih _ b' ?_)) ?_ (by rintro e h' ⟨-, _, h1, -⟩; cases h1)
      case refine_2 =>
        rintro a h' ⟨rfl, r, h1, h2⟩
        injection h1 with h1; subst h1
        exact ⟨rfl, 16 + a, by show Out.ok _ = Out.ok _; congr 1; omega, h2⟩
      have h1 := hdeep.2 [] (by rw [List.append_nil, hq]; simp)
      refine ⟨by simp at h1; omega, fun r hr => ?_⟩
      have := hdeep.2 ([b'] ++ r) (by rw [← List.append_assoc]; exact hr)
      simp at this ⊢; omega

/-- the slot, and everything at or below the prefix -/
theorem bytesForPrefix_spec (t : Tr base F g ni nn h) (hne : NoEmptyLeaf g) (k : Bytes) :
    wpI I (bytesForPrefix base k) (fun out h' => h' = h ∧ ((out = .ok 0 ∧ k ≠ [] ∧ ∀ r, ¬ There g k r) ∨
      ∃ n, out = .ok ((if k = [] then 0 else 8) + n) ∧ SumP (There g k) (pathB g) n)) h := by
  unfold bytesForPrefix
  split
  · rename_i hk
    obtain ⟨p, b, rfl⟩ := exists_snoc hk
    simp only [Prog.bind_def]
    unfold traverseSlot
    rw [show (p ++ [b]).getLast? = some b by simp]
    simp only [Prog.bind_def, Prog.bind_assoc]
    refine wpI_bind_of (follow_root t _) ?_ (by rintro e h' ⟨-, f, h1, -⟩; cases h1)
    rintro a h' ⟨rfl, f, h1, h2⟩
    injection h1 with h1; subst h1
    have key : ∀ hp, g.nd p = some hp → hp.s ≤ b.toNat → b.toNat ≤ hp.e →
        wpI I ((H.rd64 (slotOf (hp.o, hp.off) hp.s b.toNat).1 (slotOf (hp.o, hp.off) hp.s b.toNat).2).bind fun c => bytesFor maxSteps c)
          (fun out h'' => h'' = h' ∧ ((out = .ok 0 ∧ p ++ [b] ≠ [] ∧ ∀ r, ¬ There g (p ++ [b]) r) ∨
            ∃ n, out = .ok (8 + n) ∧ SumP (There g (p ++ [b])) (pathB g) n)) h' := by
      intro hp h3 h4 h5
      obtain ⟨B, hB, hn⟩ := t.node p hp h3
      refine wpI_rd (B := B) hB (ch_size hn h4 h5) ?_
      rw [show B.rd (slotOf (hp.o, hp.off) hp.s b.toNat).2 8 = g.word (p ++ [b]) from hn.ch b h4 h5]
      refine wpI_mono (fun _ h => h) ?_ (bytesFor_spec t hne _ _ _ (t.deep _ (by rw [maxSteps_eq]; omega)))
      rintro out h' ⟨h1, n, h2, h3⟩
      exact ⟨h1, Or.inr ⟨n, h2, h3⟩⟩
    cases a with
    | val a ns =>
      obtain ⟨p', b', hp, h0, h3, h4, h5, rfl, -⟩ := h2
      obtain ⟨rfl, rfl⟩ := snoc_inj h0
      exact key hp h3 h4 h5
    | node par nd ns =>
      obtain ⟨hd, h3, rfl, h4, -⟩ := h2
      obtain ⟨hp, h5, rfl⟩ := h4 p b rfl
      obtain ⟨B, hB, hn⟩ := t.node p hp h5
      have hsz := lt_size hn
      obtain ⟨-, -, -, -, -, p', b', hp', h6, h7, h8, h9⟩ := t.child p b hd h3
      obtain ⟨rfl, rfl⟩ := snoc_inj h6
      rw [h5] at h7; cases h7
      simp only [Prog.bind_assoc]
      refine wpI_rd (B := B) hB (by show hp.off + 1 ≤ _; omega) ?_
      rw [show B.rd hp.off 1 = hp.s from hn.s]
      exact key hp h5 h8 h9
    | stuck par nd ns b' k' =>
      obtain ⟨p', hd, -, -, -, -, -, -, h3, h4, -⟩ := h2
      refine ⟨rfl, Or.inl ⟨rfl, snoc_ne_nil, ?_⟩⟩
      rintro r ⟨h5, h6⟩
      exact (t.leafAt h3 h5 h6).2 h4
  · rename_i hk
    rw [ne_eq, Classical.not_not] at hk
    subst hk
    refine wpI_bind_of (sumNode_bytes t t.root (fun b => bytesFor_spec t hne _ _ _ (t.deep _ (by rw [maxSteps_eq]; omega)))) ?_ (by rintro e h' ⟨-, _, h1, -⟩; cases h1)
    rintro a h' ⟨rfl, r, h1, h2⟩
    injection h1 with h1; subst h1
    exact ⟨rfl, Or.inr ⟨16 + a, by show Out.ok _ = Out.ok _; rw [if_pos rfl]; congr 1; omega, h2⟩⟩

/-! ### the blocks of a tree -/

/-- the blocks that belong to a path: its node, its value's buffer -/
def ownB (g : G) (p : Bytes) : List Nat :=
  (match g.nd p with | some hd => [hd.o] | none => []) ++ (match g.vl p with | some (c, _) => if buf c = 0 then [] else [buf c] | none => [])

theorem mem_ownB {g : G} {p : Bytes} {x : Nat} : x ∈ ownB g p ↔ Own g x (true, p) ∨ Own g x (false, p) := by
  unfold ownB
  rw [List.mem_append]
  refine or_congr ?_ ?_
  · cases hn : g.nd p with
    | none => simp [Own, hn]
    | some hd => simp [Own, hn, eq_comm]
  · cases hv : g.vl p with
    | none => simp [Own, hv]
    | some cv =>
      obtain ⟨c, v⟩ := cv
      by_cases hb : buf c = 0
      · simp only [hb, if_true, List.not_mem_nil, false_iff]
        rintro ⟨c', v', h1, h2, h3⟩
        rw [hv] at h1; injection h1 with h1
        have := congrArg Prod.fst h1
        simp only at this; subst this
        exact h3 (h2 ▸ hb)
      · simp only [hb, if_false, List.mem_singleton]
        constructor
        · rintro rfl; exact ⟨c, v, hv, rfl, hb⟩
        · rintro ⟨c', v', h1, h2, h3⟩
          rw [hv] at h1; injection h1 with h1
          have := congrArg Prod.fst h1
          simp only at this; subst this
          exact h2.symm

/-- the blocks of `h` that are not in `F`, each once -/
def Held (h : Heap) (F : Nat → Option Block) (L : List Nat) : Prop := L.Nodup ∧ ∀ x, x ∈ L ↔ h.blk x ≠ none ∧ F x = none

/-- their size -/
def sizeIn (h : Heap) (L : List Nat) : Nat := (L.map fun x => match h.blk x with | some B => B.size | none => 0).sum

theorem Tr.held (t : Tr base F g ni nn h) {l : List Bytes} (hl : l.Nodup) (hm : ∀ p, p ∈ l ↔ There g [] p) : Held h F (l.flatMap (ownB g)) := by
  refine ⟨?_, ?_⟩
  · rw [List.nodup_flatMap]
    refine ⟨?_, ?_⟩
    · intro p _
      unfold ownB
      rw [List.nodup_append]
      refine ⟨by cases g.nd p <;> simp, by rcases g.vl p with _ | ⟨c, v⟩; · simp
                                           · by_cases hb : buf c = 0 <;> simp [hb], ?_⟩
      rintro x hx y hy rfl
      have h1 : Own g x (true, p) := by
        cases hn : g.nd p with
        | none => simp [hn] at hx
        | some hd => simp [hn] at hx; exact ⟨hd, hn, hx.symm⟩
      have h2 : Own g x (false, p) := by
        cases hv : g.vl p with
        | none => simp [hv] at hy
        | some cv =>
          obtain ⟨c, v⟩ := cv
          by_cases hb : buf c = 0
          · simp [hv, hb] at hy
          · simp [hv, hb] at hy; exact ⟨c, v, hv, hy.symm, hy ▸ hb⟩
      have := t.uniq x _ _ h1 h2
      cases this
    · refine hl.imp_of_mem ?_
      intro p p' _ _ hne x hx hx'
      rcases mem_ownB.1 hx with h1 | h1 <;> rcases mem_ownB.1 hx' with h2 | h2 <;> (have := t.uniq x _ _ h1 h2; cases this)
      · exact hne rfl
      · exact hne rfl
  · intro x
    rw [List.mem_flatMap]
    constructor
    · rintro ⟨p, -, h1⟩
      rcases mem_ownB.1 h1 with h1 | h1 <;> exact ⟨by obtain ⟨B, hB⟩ := t.own_live h1; rw [hB]; simp, t.excl x _ h1⟩
    · rintro ⟨h1, h2⟩
      have : ∃ w, Own g x w := by
        refine Classical.byContradiction fun hc => ?_
        have := t.frame x (fun w hw => hc ⟨w, hw⟩)
        rw [h2] at this; exact h1 this
      obtain ⟨⟨b, p⟩, ho⟩ := this
      refine ⟨p, (hm p).2 ⟨List.nil_prefix, ?_⟩, mem_ownB.2 ?_⟩
      · cases b with
        | true => obtain ⟨hd, h3, -⟩ := ho; exact Or.inl (by rw [h3]; simp)
        | false => obtain ⟨c, v, h3, -⟩ := ho; exact Or.inr (by rw [h3]; simp)
      · cases b with
        | true => exact Or.inl ho
        | false => exact Or.inr ho

theorem sizeIn_flatMap (h : Heap) (f : Bytes → List Nat) (l : List Bytes) : sizeIn h (l.flatMap f) = (l.map fun p => sizeIn h (f p)).sum := by
  induction l with
  | nil => rfl
  | cons p l ih =>
    simp only [sizeIn, List.flatMap_cons, List.map_append, List.sum_append, List.map_cons, List.sum_cons] at ih ⊢
    rw [ih]

/-- bytes of a value's buffer -/
def bufB (h : Heap) : Cell → Nat
  | none => 0
  | some (c, _) => if buf c = 0 then 0 else match h.blk (buf c) with | some B => B.size | none => 0

theorem Tr.sizeIn_own (t : Tr base F g ni nn h) (p : Bytes) : sizeIn h (ownB g p) = (match g.nd p with | some hd => hd.off + 16 + 8 * (hd.e + 1 - hd.s) | none => 0) + bufB h (g.vl p) := by
  unfold ownB sizeIn
  rw [List.map_append, List.sum_append]
  congr 1
  · cases hn : g.nd p with
    | none => rfl
    | some hd =>
      obtain ⟨B, hB, hn⟩ := t.node p hd hn
      simp [hB, hn.size]
  · cases hv : g.vl p with
    | none => rfl
    | some cv =>
      obtain ⟨c, v⟩ := cv
      by_cases hb : buf c = 0 <;> simp [bufB, hb]

/-- a leaf value's bytes are those of its buffer, except for 0.0 -/
theorem leafB_eq {c : Nat} {v : Val} (he : Enc h c v) (hz : v ≠ .dbl 0#64) : leafB (some (c, v)) = bufB h (some (c, v)) := by
  obtain ⟨hlt, hne0, hw, hbuf⟩ := he
  have hb : ∀ ty, c % 8 = ty → ty = 1 ∨ ty = 3 ∨ ty = 4 → 8 ≤ c → buf c ≠ 0 := by
    intro ty h1 h2 h3
    have h4 : buf c = valOf c := by unfold buf; rw [if_pos (by unfold typeOf; omega)]
    rw [h4]
    unfold valOf; omega
  simp only [leafB, bufB]
  by_cases hb0 : buf c = 0
  · rw [if_pos hb0]
    cases v with
    | str v =>
      rcases hw with ⟨rfl, rfl⟩ | ⟨h1, h2, rfl⟩ | ⟨h1, h2⟩
      · rfl
      · have ht : typeOf (shortWord v) = 6 := by unfold typeOf; have := shortWord_low h2; omega
        simp [ht]
      · exact absurd hb0 (hb 1 h1 (Or.inl rfl) h2)
    | int v =>
      rcases hw with ⟨h1, rfl⟩ | ⟨h1, h2⟩
      · have ht : typeOf (intWord v) = 2 := by unfold typeOf; rw [intWord_eq]; omega
        simp [ht]
      · exact absurd hb0 (hb 3 h1 (Or.inr (Or.inl rfl)) h2)
    | dbl d =>
      rcases hw with ⟨rfl, rfl⟩ | ⟨h1, h2⟩
      · exact absurd rfl hz
      · exact absurd hb0 (hb 4 h1 (Or.inr (Or.inr rfl)) h2)
    | bool b => rw [show c = if b then 13 else 5 from hw]; cases b <;> rfl
    | null => rw [show c = 21 from hw]; rfl
  · rw [if_neg hb0]
    obtain ⟨B, hB, hv⟩ := hbuf hb0
    rw [hB]
    have ht : typeOf c = 1 ∨ typeOf c = 3 ∨ typeOf c = 4 := by
      refine Classical.byContradiction fun hc => hb0 ?_
      unfold buf; rw [if_neg hc]
    cases v with
    | str v =>
      rcases hw with ⟨rfl, rfl⟩ | ⟨h1, h2, rfl⟩ | ⟨h1, h2⟩
      · exact absurd rfl hb0
      · have ht : typeOf (shortWord v) = 6 := by unfold typeOf; have := shortWord_low h2; omega
        omega
      · rw [if_pos (show typeOf c = 1 from h1)]; exact hv.1.symm
    | int v =>
      rcases hw with ⟨h1, rfl⟩ | ⟨h1, h2⟩
      · have ht : typeOf (intWord v) = 2 := by unfold typeOf; rw [intWord_eq]; omega
        omega
      · have : typeOf c = 3 := h1
        simp only [this]; exact hv.1.symm
    | dbl d =>
      rcases hw with ⟨rfl, rfl⟩ | ⟨h1, h2⟩
      · exact absurd rfl hz
      · have : typeOf c = 4 := h1
        simp only [this]; exact hv.1.symm
    | bool b => exact hv.elim
    | null => exact hv.elim

theorem sum_add (f f' : Bytes → Nat) (l : List Bytes) : (l.map fun p => f p + f' p).sum = (l.map f).sum + (l.map f').sum := by
  induction l with
  | nil => rfl
  | cons p l ih => simp only [List.map_cons, List.sum_cons, ih]; omega

theorem sum_root {l : List Bytes} (hn : l.Nodup) : (l.map fun p => if p = [] then 16 else 0).sum = if [] ∈ l then 16 else 0 := by
  induction l with
  | nil => rfl
  | cons p l ih =>
    obtain ⟨h1, h2⟩ := List.nodup_cons.1 hn
    simp only [List.map_cons, List.sum_cons, ih h2, List.mem_cons]
    by_cases e : p = []
    · subst e; simp [h1]
    · simp [e, Ne.symm e]

theorem sum_zero {f : Bytes → Nat} {l : List Bytes} (h : ∀ p ∈ l, f p = 0) : (l.map f).sum = 0 := by
  induction l with
  | nil => rfl
  | cons p l ih => simp only [List.map_cons, List.sum_cons, h p (by simp), ih fun q hq => h q (by simp [hq])]

/-- what bytes_for_prefix("") leaves out: the counters of the tree (16 bytes), and the buffers of values whose key has a node -/
theorem Tr.total (t : Tr base F g ni nn h) (hz : ∀ q c, g.nd q = none → g.vl q ≠ some (c, .dbl 0#64)) {n : Nat} (hs : SumP (There g []) (pathB g) n) :
    ∃ L, Held h F L ∧ n + 16 ≤ sizeIn h L ∧ ((∀ p, g.nd p ≠ none → bufB h (g.vl p) = 0) → n + 16 = sizeIn h L) := by
  obtain ⟨l, h1, h2, rfl⟩ := hs
  have key : sizeIn h (l.flatMap (ownB g)) = (l.map (pathB g)).sum + 16 + (l.map fun p => if g.nd p ≠ none then bufB h (g.vl p) else 0).sum := by
    rw [sizeIn_flatMap]
    have e1 : (fun p => sizeIn h (ownB g p)) = fun p => (pathB g p + if p = [] then 16 else 0) + if g.nd p ≠ none then bufB h (g.vl p) else 0 := by
      funext p
      rw [t.sizeIn_own]
      cases hn : g.nd p with
      | some hd =>
        simp only [pathB, hn]
        have : hd.off = if p = [] then 16 else 0 := by
          by_cases e : p = []
          · subst e; rw [t.root] at hn; cases hn; rfl
          · obtain ⟨p', b, rfl⟩ := exists_snoc e
            rw [if_neg e]; exact (t.child _ _ _ hn).1
        rw [this]
        simp; omega
      | none =>
        have : p ≠ [] := by rintro rfl; rw [t.root] at hn; cases hn
        simp only [pathB, hn, if_neg this]
        simp only [ne_eq, not_true_eq_false, if_false, Nat.add_zero, Nat.zero_add]
        cases hv : g.vl p with
        | none => rfl
        | some cv =>
          obtain ⟨c, v⟩ := cv
          exact (leafB_eq (t.val _ _ _ hv).1 (fun e => hz p c hn (e ▸ hv))).symm
    rw [e1, sum_add, sum_add, sum_root h1, if_pos ((h2 []).2 ⟨List.nil_prefix, Or.inl (by rw [t.root]; simp)⟩)]
  refine ⟨_, t.held h1 h2, by omega, fun hi => ?_⟩
  rw [key, sum_zero (f := fun p => if g.nd p ≠ none then bufB h (g.vl p) else 0)]
  · intro p _
    show (if g.nd p ≠ none then bufB h (g.vl p) else 0) = 0
    by_cases e : g.nd p = none
    · simp [e]
    · rw [if_pos e]; exact hi p e

end
end Verif.PrefixTree
