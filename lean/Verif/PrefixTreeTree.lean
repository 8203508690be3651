import Verif.PrefixTree
import Verif.WpI
/-
The representation of a prefix tree in the heap, and how single stores change it.

A tree is described by two functions on paths (byte strings): `nd p`, the node at path p, and `vl k`, the contents word and the value of key k.
-/
namespace Verif.PrefixTree
open Verif
attribute [local irreducible] Block.rd Block.rdB

/-- a node: block, offset in the block (16 for the root, else 0), start, end, parent_slot -/
structure Hd where
  o : Nat
  off : Nat
  s : Nat
  e : Nat
  ps : Nat

abbrev Cell := Option (Nat × Val)

structure G where
  nd : Bytes → Option Hd
  vl : Bytes → Cell

/-- contents word of a value slot -/
def cw : Cell → Nat
  | none => 0
  | some (c, _) => c

@[simp] theorem cw_none : cw none = 0 := rfl
@[simp] theorem cw_some (c : Nat) (v : Val) : cw (some (c, v)) = c := rfl

/-- contents of the child slot for path q -/
def G.word (g : G) (q : Bytes) : Nat :=
  match g.nd q with
  | some hd => hd.o
  | none => cw (g.vl q)

/-- out-of-line buffer of a contents word, 0 if none -/
def buf (c : Nat) : Nat := if typeOf c = 1 ∨ typeOf c = 3 ∨ typeOf c = 4 then valOf c else 0

/-- `c` can be the contents word of value `v` -/
def WordOk (c : Nat) : Val → Prop
  | .str v => (c = 1 ∧ v = []) ∨ (0 < v.length ∧ v.length < 8 ∧ c = shortWord v) ∨ (c % 8 = 1 ∧ 8 ≤ c)
  | .int v => (fits v = true ∧ c = intWord v) ∨ (c % 8 = 3 ∧ 8 ≤ c)
  | .dbl d => (c = 4 ∧ d = 0#64) ∨ (c % 8 = 4 ∧ 8 ≤ c)
  | .bool b => c = if b then 13 else 5
  | .null => c = 21

/-- the buffer `B` holds the value -/
def BufOk (B : Block) : Val → Prop
  | .str v => B.size = v.length ∧ B.rdB 0 v.length = v
  | .int v => B.size = 8 ∧ B.rd 0 8 = v.toNat
  | .dbl d => B.size = 8 ∧ B.rd 0 8 = d.toNat
  | .bool _ => False
  | .null => False

/-- the contents word `c` stands for `v` -/
def Enc (h : Heap) (c : Nat) (v : Val) : Prop :=
  c < W64 ∧ c % 8 ≠ 0 ∧ WordOk c v ∧ (buf c ≠ 0 → ∃ B, h.blk (buf c) = some B ∧ BufOk B v)

theorem Enc.congr {h h' : Heap} {c : Nat} {v : Val} (e : Enc h c v) (hh : buf c ≠ 0 → h'.blk (buf c) = h.blk (buf c)) : Enc h' c v := by
  refine ⟨e.1, e.2.1, e.2.2.1, fun hb => ?_⟩
  rw [hh hb]; exact e.2.2.2 hb

/-- the block of a node, given the contents of its value field and of its child slots -/
structure NodeBlk (B : Block) (hd : Hd) (w : Nat) (ch : UInt8 → Nat) : Prop where
  size : B.size = hd.off + 16 + 8 * (hd.e + 1 - hd.s)
  le : hd.s ≤ hd.e
  lt : hd.e < 256
  s : B.rd hd.off 1 = hd.s
  e : B.rd (hd.off + 1) 1 = hd.e
  ps : B.rd (hd.off + 2) 1 = hd.ps
  v : B.rd (hd.off + 8) 8 = w
  ch : ∀ b : UInt8, hd.s ≤ b.toNat → b.toNat ≤ hd.e → B.rd (hd.off + 16 + 8 * (b.toNat - hd.s)) 8 = ch b

/-- path q is a child slot of an existing node -/
def InRange (g : G) (q : Bytes) : Prop := ∃ p b hp, q = p ++ [b] ∧ g.nd p = some hp ∧ hp.s ≤ b.toNat ∧ b.toNat ≤ hp.e

/-- owners of a block: the node at a path (true), or the value of a key (false) -/
def Own (g : G) (x : Nat) : Bool × Bytes → Prop
  | (true, p) => ∃ hd, g.nd p = some hd ∧ hd.o = x
  | (false, q) => ∃ c v, g.vl q = some (c, v) ∧ buf c = x ∧ x ≠ 0

def rootHd (base : Nat) : Hd := ⟨base, 16, 0, 255, 0⟩

/-- The heap holds the tree `g` at `base`, with the numbers `ni` and `nn` in its two counters, and besides it exactly the blocks `F`. -/
structure Tr (base : Nat) (F : Nat → Option Block) (g : G) (ni nn : Nat) (h : Heap) : Prop where
  bpos : base ≠ 0
  root : g.nd [] = some (rootHd base)
  cnt : ∃ B, h.blk base = some B ∧ B.rd 0 8 = ni % W64 ∧ B.rd 8 8 = nn % W64
  node : ∀ p hd, g.nd p = some hd → ∃ B, h.blk hd.o = some B ∧ NodeBlk B hd (cw (g.vl p)) (fun b => g.word (p ++ [b]))
  child : ∀ p b hd, g.nd (p ++ [b]) = some hd → hd.off = 0 ∧ hd.ps = b.toNat ∧ hd.o % 8 = 0 ∧ hd.o ≠ 0 ∧ hd.o < W64 ∧ InRange g (p ++ [b])
  val : ∀ q c v, g.vl q = some (c, v) → Enc h c v ∧ (g.nd q = none → InRange g q)
  uniq : ∀ x w w', Own g x w → Own g x w' → w = w'
  frame : ∀ x, (∀ w, ¬ Own g x w) → h.blk x = F x
  excl : ∀ x w, Own g x w → F x = none

theorem snoc_inj {α : Type} {p p' : List α} {b b' : α} (h : p ++ [b] = p' ++ [b']) : p = p' ∧ b = b' := by
  obtain ⟨h1, h2⟩ := List.append_inj' h rfl
  exact ⟨h1, by simpa using h2⟩

theorem snoc_ne_nil {α : Type} {p : List α} {b : α} : p ++ [b] ≠ [] := by simp

/-- every nonempty path is p ++ [b] -/
theorem exists_snoc {α : Type} {q : List α} (h : q ≠ []) : ∃ p b, q = p ++ [b] := by
  rcases List.eq_nil_or_concat q with h1 | ⟨p, b, h1⟩
  · exact absurd h1 h
  · exact ⟨p, b, by simpa using h1⟩

/-- address of the value slot of key q -/
def SlotAt (g : G) (q : Bytes) (a : Addr) : Prop :=
  (∃ hd, g.nd q = some hd ∧ a = (hd.o, hd.off + 8)) ∨
  (g.nd q = none ∧ ∃ p b hp, q = p ++ [b] ∧ g.nd p = some hp ∧ hp.s ≤ b.toNat ∧ b.toNat ≤ hp.e ∧ a = slotOf (hp.o, hp.off) hp.s b.toNat)

def G.setV (g : G) (q : Bytes) (w : Cell) : G := { g with vl := fun r => if r = q then w else g.vl r }
def G.setN (g : G) (q : Bytes) (n : Option Hd) : G := { g with nd := fun r => if r = q then n else g.nd r }

@[simp] theorem setV_nd (g : G) (q : Bytes) (w : Cell) : (g.setV q w).nd = g.nd := rfl
@[simp] theorem setN_vl (g : G) (q : Bytes) (n : Option Hd) : (g.setN q n).vl = g.vl := rfl
@[simp] theorem setV_vl_same (g : G) (q : Bytes) (w : Cell) : (g.setV q w).vl q = w := by simp [G.setV]
theorem setV_vl_ne (g : G) {q r : Bytes} (w : Cell) (h : r ≠ q) : (g.setV q w).vl r = g.vl r := by simp [G.setV, h]
@[simp] theorem setN_nd_same (g : G) (q : Bytes) (n : Option Hd) : (g.setN q n).nd q = n := by simp [G.setN]
theorem setN_nd_ne (g : G) {q r : Bytes} (n : Option Hd) (h : r ≠ q) : (g.setN q n).nd r = g.nd r := by simp [G.setN, h]

def fset (F : Nat → Option Block) (x : Nat) (b : Option Block) : Nat → Option Block := fun y => if y = x then b else F y

theorem fset_same {F : Nat → Option Block} {x : Nat} {b : Option Block} : fset F x b x = b := by simp [fset]
theorem fset_ne {F : Nat → Option Block} {x y : Nat} {b : Option Block} (h : y ≠ x) : fset F x b y = F y := by simp [fset, h]

section
variable {base : Nat} {F : Nat → Option Block} {g : G} {ni nn : Nat} {h : Heap}

theorem Tr.own_live (t : Tr base F g ni nn h) {x : Nat} {w : Bool × Bytes} (ho : Own g x w) : ∃ B, h.blk x = some B := by
  obtain ⟨b, p⟩ := w
  cases b with
  | true =>
    obtain ⟨hd, h1, rfl⟩ := ho
    obtain ⟨B, h2, -⟩ := t.node p hd h1
    exact ⟨B, h2⟩
  | false =>
    obtain ⟨c, v, h1, h2, h3⟩ := ho
    obtain ⟨B, h4, -⟩ := (t.val p c v h1).1.2.2.2 (by rw [h2]; exact h3)
    exact ⟨B, by rw [← h2]; exact h4⟩

theorem Tr.fresh_not_own (t : Tr base F g ni nn h) {o n : Nat} (hf : Fresh h o n) : ∀ w, ¬ Own g o w := by
  intro w ho
  obtain ⟨B, h1⟩ := t.own_live ho
  rw [hf.none] at h1; cases h1

theorem Tr.foreign_not_own (t : Tr base F g ni nn h) {x : Nat} (hx : F x ≠ none) : ∀ w, ¬ Own g x w :=
  fun w ho => hx (t.excl x w ho)

theorem Tr.base_own (t : Tr base F g ni nn h) : Own g base (true, []) := ⟨_, t.root, rfl⟩

/-- parents of nodes are nodes -/
theorem Tr.parent (t : Tr base F g ni nn h) {p r : Bytes} (hn : g.nd (p ++ r) ≠ none) : g.nd p ≠ none := by
  induction hr : r.length generalizing r with
  | zero => rw [List.length_eq_zero_iff] at hr; subst hr; simpa using hn
  | succ n ih =>
    have hne : r ≠ [] := by intro h; rw [h] at hr; simp at hr
    obtain ⟨r', b, rfl⟩ := exists_snoc hne
    obtain ⟨hd, h1⟩ := Option.ne_none_iff_exists'.1 hn
    rw [← List.append_assoc] at h1
    obtain ⟨-, -, -, -, -, p', b', hp, h2, h3, -⟩ := t.child _ _ _ h1
    obtain ⟨rfl, rfl⟩ := snoc_inj h2
    refine ih (r := r') (by rw [h3]; simp) (by simpa using hr)

/-- nothing lies below a path without a node -/
theorem Tr.below (t : Tr base F g ni nn h) {p r : Bytes} (hn : g.nd p = none) (hr : r ≠ []) : g.nd (p ++ r) = none ∧ g.vl (p ++ r) = none := by
  have h1 : g.nd (p ++ r) = none := by
    cases h : g.nd (p ++ r) with
    | none => rfl
    | some hd => exact absurd hn (t.parent (r := r) (by rw [h]; simp))
  refine ⟨h1, ?_⟩
  cases h : g.vl (p ++ r) with
  | none => rfl
  | some cv =>
    obtain ⟨p', b, hp, h2, h3, -⟩ := (t.val _ _ _ h).2 h1
    obtain ⟨r', b', rfl⟩ := exists_snoc hr
    rw [← List.append_assoc] at h2
    obtain ⟨rfl, rfl⟩ := snoc_inj h2
    exact absurd hn (t.parent (r := r') (by rw [h3]; simp))

/-- nothing lies out of the range of a node -/
theorem Tr.outside (t : Tr base F g ni nn h) {p : Bytes} {b : UInt8} {hd : Hd} (hn : g.nd p = some hd) (hb : b.toNat < hd.s ∨ hd.e < b.toNat) :
    g.nd (p ++ [b]) = none ∧ g.vl (p ++ [b]) = none := by
  have h1 : g.nd (p ++ [b]) = none := by
    cases h : g.nd (p ++ [b]) with
    | none => rfl
    | some hd' =>
      obtain ⟨-, -, -, -, -, p', b', hp, h2, h3, h4, h5⟩ := t.child _ _ _ h
      obtain ⟨rfl, rfl⟩ := snoc_inj h2
      rw [hn] at h3; cases h3; omega
  refine ⟨h1, ?_⟩
  cases h : g.vl (p ++ [b]) with
  | none => rfl
  | some cv =>
    obtain ⟨p', b', hp, h2, h3, h4, h5⟩ := (t.val _ _ _ h).2 h1
    obtain ⟨rfl, rfl⟩ := snoc_inj h2
    rw [hn] at h3; cases h3; omega

theorem Tr.cw_lt (t : Tr base F g ni nn h) (q : Bytes) : cw (g.vl q) < W64 := by
  cases hq : g.vl q with
  | none => simp
  | some cv => exact (t.val q cv.1 cv.2 hq).1.1

theorem Tr.cw_zero (t : Tr base F g ni nn h) (q : Bytes) : cw (g.vl q) = 0 ↔ g.vl q = none := by
  cases hq : g.vl q with
  | none => simp
  | some cv =>
    have := (t.val q cv.1 cv.2 hq).1.2.1
    constructor
    · intro h; rw [show cw (some cv) = cv.1 from rfl] at h; rw [h] at this; simp at this
    · intro h; cases h

/-- writing a block that belongs to nobody in the tree -/
theorem Tr.foreign (t : Tr base F g ni nn h) {x : Nat} {B : Block} (hx : ∀ w, ¬ Own g x w) : Tr base (fset F x (some B)) g ni nn (h.set x B) := by
  have hne : ∀ y w, Own g y w → y ≠ x := fun y w ho e => hx w (e ▸ ho)
  refine ⟨t.bpos, t.root, ?_, ?_, t.child, ?_, t.uniq, ?_, ?_⟩
  · rw [Heap.set_ne _ _ _ _ (hne _ _ t.base_own)]; exact t.cnt
  · intro p hd hp
    rw [Heap.set_ne _ _ _ _ (hne _ (true, p) ⟨hd, hp, rfl⟩)]; exact t.node p hd hp
  · intro q c v hq
    obtain ⟨h1, h2⟩ := t.val q c v hq
    exact ⟨h1.congr fun hb => Heap.set_ne _ _ _ _ (hne _ (false, q) ⟨c, v, hq, rfl, hb⟩), h2⟩
  · intro y hy
    by_cases e : y = x
    · subst e; rw [Heap.set_same, fset_same]
    · rw [Heap.set_ne _ _ _ _ e, fset_ne e]; exact t.frame y hy
  · intro y w ho
    rw [fset_ne (hne y w ho)]; exact t.excl y w ho

/-- freeing a block that belongs to nobody in the tree -/
theorem Tr.unforeign (t : Tr base F g ni nn h) {x : Nat} (hx : ∀ w, ¬ Own g x w) : Tr base (fset F x none) g ni nn (h.del x) := by
  have hne : ∀ y w, Own g y w → y ≠ x := fun y w ho e => hx w (e ▸ ho)
  refine ⟨t.bpos, t.root, ?_, ?_, t.child, ?_, t.uniq, ?_, ?_⟩
  · rw [Heap.del_ne _ _ _ (hne _ _ t.base_own)]; exact t.cnt
  · intro p hd hp
    rw [Heap.del_ne _ _ _ (hne _ (true, p) ⟨hd, hp, rfl⟩)]; exact t.node p hd hp
  · intro q c v hq
    obtain ⟨h1, h2⟩ := t.val q c v hq
    exact ⟨h1.congr fun hb => Heap.del_ne _ _ _ (hne _ (false, q) ⟨c, v, hq, rfl, hb⟩), h2⟩
  · intro y hy
    by_cases e : y = x
    · subst e; rw [Heap.del_same, fset_same]
    · rw [Heap.del_ne _ _ _ e, fset_ne e]; exact t.frame y hy
  · intro y w ho
    rw [fset_ne (hne y w ho)]; exact t.excl y w ho

/-- two different nodes have different blocks -/
theorem Tr.nd_ne (t : Tr base F g ni nn h) {p p' : Bytes} {hd hd' : Hd} (h1 : g.nd p = some hd) (h2 : g.nd p' = some hd') (hne : p ≠ p') : hd.o ≠ hd'.o := by
  intro e
  have := t.uniq hd.o (true, p) (true, p') ⟨hd, h1, rfl⟩ ⟨hd', h2, e.symm⟩
  injection this with _ h; exact hne h

/-- a node's block is not a value's buffer -/
theorem Tr.nd_buf (t : Tr base F g ni nn h) {p q : Bytes} {hd : Hd} {c : Nat} {v : Val} (h1 : g.nd p = some hd) (h2 : g.vl q = some (c, v)) (hb : buf c ≠ 0) :
    buf c ≠ hd.o := by
  intro e
  have := t.uniq hd.o (true, p) (false, q) ⟨hd, h1, rfl⟩ ⟨c, v, h2, e, e ▸ hb⟩
  cases this

theorem Tr.buf_ne (t : Tr base F g ni nn h) {q q' : Bytes} {c c' : Nat} {v v' : Val} (h1 : g.vl q = some (c, v)) (h2 : g.vl q' = some (c', v')) (hb : buf c ≠ 0)
    (hne : q ≠ q') : buf c ≠ buf c' := by
  intro e
  have := t.uniq (buf c) (false, q) (false, q') ⟨c, v, h1, rfl, hb⟩ ⟨c', v', h2, e.symm, hb⟩
  injection this with _ h; exact hne h

/-- the counters -/
theorem Tr.items (t : Tr base F g ni nn h) {B : Block} (hB : h.blk base = some B) (ni' : Nat) : Tr base F g ni' nn (h.set base (B.wr 0 8 ni')) := by
  obtain ⟨B', h1, h2, h3⟩ := t.cnt
  rw [hB] at h1; cases h1
  refine ⟨t.bpos, t.root, ?_, ?_, t.child, ?_, t.uniq, ?_, t.excl⟩
  · exact ⟨_, Heap.set_same _ _ _, Block.rd_wr_same _ _ _ _, by rw [Block.rd_wr_disj _ _ _ _ _ _ (by omega)]; exact h3⟩
  · intro p hd hp
    by_cases e : p = []
    · subst e
      rw [t.root] at hp; cases hp
      obtain ⟨B', h4, h5⟩ := t.node [] _ t.root
      rw [show (rootHd base).o = base from rfl, hB] at h4; cases h4
      refine ⟨_, Heap.set_same _ _ _, ?_⟩
      refine ⟨h5.size, h5.le, h5.lt, ?_, ?_, ?_, ?_, ?_⟩
      · rw [Block.rd_wr_disj _ _ _ _ _ _ (by simp [rootHd])]; exact h5.s
      · rw [Block.rd_wr_disj _ _ _ _ _ _ (by simp [rootHd])]; exact h5.e
      · rw [Block.rd_wr_disj _ _ _ _ _ _ (by simp [rootHd])]; exact h5.ps
      · rw [Block.rd_wr_disj _ _ _ _ _ _ (by simp [rootHd])]; exact h5.v
      · intro b hb1 hb2
        rw [Block.rd_wr_disj _ _ _ _ _ _ (by simp only [rootHd]; omega)]; exact h5.ch b hb1 hb2
    · rw [Heap.set_ne _ _ _ _ (show hd.o ≠ base from t.nd_ne hp t.root e)]; exact t.node p hd hp
  · intro q c v hq
    obtain ⟨h4, h5⟩ := t.val q c v hq
    exact ⟨h4.congr fun hb => Heap.set_ne _ _ _ _ (t.nd_buf t.root hq hb), h5⟩
  · intro x hx
    rw [Heap.set_ne _ _ _ _ (show x ≠ base from fun e => hx (true, []) (by subst e; exact t.base_own))]; exact t.frame x hx

theorem Tr.nodes (t : Tr base F g ni nn h) {B : Block} (hB : h.blk base = some B) (nn' : Nat) : Tr base F g ni nn' (h.set base (B.wr 8 8 nn')) := by
  obtain ⟨B', h1, h2, h3⟩ := t.cnt
  rw [hB] at h1; cases h1
  refine ⟨t.bpos, t.root, ?_, ?_, t.child, ?_, t.uniq, ?_, t.excl⟩
  · exact ⟨_, Heap.set_same _ _ _, by rw [Block.rd_wr_disj _ _ _ _ _ _ (by omega)]; exact h2, Block.rd_wr_same _ _ _ _⟩
  · intro p hd hp
    by_cases e : p = []
    · subst e
      rw [t.root] at hp; cases hp
      obtain ⟨B', h4, h5⟩ := t.node [] _ t.root
      rw [show (rootHd base).o = base from rfl, hB] at h4; cases h4
      refine ⟨_, Heap.set_same _ _ _, ?_⟩
      refine ⟨h5.size, h5.le, h5.lt, ?_, ?_, ?_, ?_, ?_⟩
      · rw [Block.rd_wr_disj _ _ _ _ _ _ (by simp [rootHd])]; exact h5.s
      · rw [Block.rd_wr_disj _ _ _ _ _ _ (by simp [rootHd])]; exact h5.e
      · rw [Block.rd_wr_disj _ _ _ _ _ _ (by simp [rootHd])]; exact h5.ps
      · rw [Block.rd_wr_disj _ _ _ _ _ _ (by simp [rootHd])]; exact h5.v
      · intro b hb1 hb2
        rw [Block.rd_wr_disj _ _ _ _ _ _ (by simp only [rootHd]; omega)]; exact h5.ch b hb1 hb2
    · rw [Heap.set_ne _ _ _ _ (show hd.o ≠ base from t.nd_ne hp t.root e)]; exact t.node p hd hp
  · intro q c v hq
    obtain ⟨h4, h5⟩ := t.val q c v hq
    exact ⟨h4.congr fun hb => Heap.set_ne _ _ _ _ (t.nd_buf t.root hq hb), h5⟩
  · intro x hx
    rw [Heap.set_ne _ _ _ _ (show x ≠ base from fun e => hx (true, []) (by subst e; exact t.base_own))]; exact t.frame x hx

/-- node blocks: stores to the value field and to a child slot -/
theorem NodeBlk.setv {B : Block} {hd : Hd} {w : Nat} {ch : UInt8 → Nat} (n : NodeBlk B hd w ch) {x : Nat} (hx : x < W64) : NodeBlk (B.wr (hd.off + 8) 8 x) hd x ch := by
  refine ⟨n.size, n.le, n.lt, ?_, ?_, ?_, Block.rd_wr_same8 _ _ _ hx, ?_⟩
  · rw [Block.rd_wr_disj _ _ _ _ _ _ (by omega)]; exact n.s
  · rw [Block.rd_wr_disj _ _ _ _ _ _ (by omega)]; exact n.e
  · rw [Block.rd_wr_disj _ _ _ _ _ _ (by omega)]; exact n.ps
  · intro b h1 h2
    rw [Block.rd_wr_disj _ _ _ _ _ _ (by omega)]; exact n.ch b h1 h2

theorem toNat_inj {a b : UInt8} (h : a.toNat = b.toNat) : a = b := UInt8.toNat_inj.1 h

theorem NodeBlk.setch {B : Block} {hd : Hd} {w : Nat} {ch : UInt8 → Nat} (n : NodeBlk B hd w ch) {b : UInt8} {x : Nat} (hx : x < W64) (h1 : hd.s ≤ b.toNat) :
    NodeBlk (B.wr (hd.off + 16 + 8 * (b.toNat - hd.s)) 8 x) hd w (fun b' => if b' = b then x else ch b') := by
  refine ⟨n.size, n.le, n.lt, ?_, ?_, ?_, ?_, ?_⟩
  · rw [Block.rd_wr_disj _ _ _ _ _ _ (by omega)]; exact n.s
  · rw [Block.rd_wr_disj _ _ _ _ _ _ (by omega)]; exact n.e
  · rw [Block.rd_wr_disj _ _ _ _ _ _ (by omega)]; exact n.ps
  · rw [Block.rd_wr_disj _ _ _ _ _ _ (by omega)]; exact n.v
  · intro b' h3 h4
    by_cases e : b' = b
    · subst e; rw [if_pos rfl]; exact Block.rd_wr_same8 _ _ _ hx
    · have : b'.toNat ≠ b.toNat := fun h => e (toNat_inj h)
      rw [if_neg e, Block.rd_wr_disj _ _ _ _ _ _ (by omega)]; exact n.ch b' h3 h4

/-- counters survive stores beyond offset 16 -/
theorem cnt_wr {B : Block} {a x ni nn : Nat} (ha : 16 ≤ a) (h : B.rd 0 8 = ni % W64 ∧ B.rd 8 8 = nn % W64) :
    (B.wr a 8 x).rd 0 8 = ni % W64 ∧ (B.wr a 8 x).rd 8 8 = nn % W64 := by
  rw [Block.rd_wr_disj _ _ _ _ _ _ (by omega), Block.rd_wr_disj _ _ _ _ _ _ (by omega)]; exact h

theorem NodeBlk.ext {B : Block} {hd : Hd} {w w' : Nat} {ch ch' : UInt8 → Nat} (n : NodeBlk B hd w ch) (h1 : w = w')
    (h2 : ∀ b, hd.s ≤ b.toNat → b.toNat ≤ hd.e → ch b = ch' b) : NodeBlk B hd w' ch' :=
  ⟨n.size, n.le, n.lt, n.s, n.e, n.ps, h1 ▸ n.v, fun b h3 h4 => (n.ch b h3 h4).trans (h2 b h3 h4)⟩

/-- a node that is the root has the counters before it -/
theorem Tr.cnt_of (t : Tr base F g ni nn h) {p : Bytes} {hd : Hd} (hp : g.nd p = some hd) {B : Block} (hB : h.blk hd.o = some B) {a x : Nat} (ha : hd.off + 8 ≤ a) :
    ∃ B', (h.set hd.o (B.wr a 8 x)).blk base = some B' ∧ B'.rd 0 8 = ni % W64 ∧ B'.rd 8 8 = nn % W64 := by
  obtain ⟨B0, h1, h2⟩ := t.cnt
  by_cases e : p = []
  · subst e
    rw [t.root] at hp; cases hp
    have hb : (rootHd base).o = base := rfl
    rw [hb, h1] at hB; cases hB
    exact ⟨_, Heap.set_same _ _ _, cnt_wr (by simp [rootHd] at ha; omega) h2⟩
  · refine ⟨B0, ?_, h2⟩
    rw [Heap.set_ne _ _ _ _ (show base ≠ hd.o from t.nd_ne t.root hp (fun h => e h.symm))]; exact h1

/-- what becomes of the other blocks when the value cell `w` is replaced by `w'` -/
def swapF (F : Nat → Option Block) (h : Heap) (w w' : Cell) : Nat → Option Block :=
  fun x => if x ≠ 0 ∧ x = buf (cw w') then none else if x ≠ 0 ∧ x = buf (cw w) then h.blk x else F x

theorem buf_zero : buf 0 = 0 := rfl

theorem word_setV_ne {q r : Bytes} {w : Cell} (hne : r ≠ q) : (g.setV q w).word r = g.word r := by
  unfold G.word; rw [setV_nd, setV_vl_ne _ _ hne]

/-- **store to a value slot** -/
theorem Tr.set (t : Tr base F g ni nn h) {q : Bytes} {a : Addr} (hs : SlotAt g q a) (w : Cell)
    (hw : ∀ c v, w = some (c, v) → Enc h c v ∧ (buf c ≠ 0 → buf c = buf (cw (g.vl q)) ∨ F (buf c) ≠ none)) :
    ∃ B, h.blk a.1 = some B ∧ a.2 + 8 ≤ B.size ∧ Tr base (swapF F h (g.vl q) w) (g.setV q w) ni nn (h.set a.1 (B.wr a.2 8 (cw w))) := by
  have hwlt : cw w < W64 := by
    cases w with
    | none => simp
    | some cv => exact (hw cv.1 cv.2 rfl).1.1
  -- the node that holds the slot
  have key : ∃ p hd B, g.nd p = some hd ∧ h.blk hd.o = some B ∧ a.1 = hd.o ∧ a.2 + 8 ≤ B.size ∧ hd.off + 8 ≤ a.2 ∧
      NodeBlk (B.wr a.2 8 (cw w)) hd (cw ((g.setV q w).vl p)) (fun b => (g.setV q w).word (p ++ [b])) := by
    rcases hs with ⟨hd, h1, rfl⟩ | ⟨h0, p, b, hp, rfl, h1, h2, h3, rfl⟩
    · obtain ⟨B, h4, h5⟩ := t.node q hd h1
      refine ⟨q, hd, B, h1, h4, rfl, ?_, Nat.le_refl _, ?_⟩
      · show hd.off + 8 + 8 ≤ B.size; have := h5.size; omega
      · refine (h5.setv hwlt).ext (by rw [setV_vl_same]) ?_
        intro b _ _
        exact (word_setV_ne (by intro e; have := congrArg List.length e; simp at this)).symm
    · obtain ⟨B, h4, h5⟩ := t.node p hp h1
      refine ⟨p, hp, B, h1, h4, rfl, ?_, ?_, ?_⟩
      · show hp.off + 16 + 8 * (b.toNat - hp.s) + 8 ≤ B.size
        have := h5.size; have := h5.le; omega
      · show hp.off + 8 ≤ hp.off + 16 + 8 * (b.toNat - hp.s); omega
      · refine (h5.setch hwlt h2).ext ?_ ?_
        · rw [setV_vl_ne _ _ (by intro e; have := congrArg List.length e; simp at this)]
        · intro b' _ _
          by_cases e : b' = b
          · subst e; rw [if_pos rfl]; unfold G.word; rw [setV_nd, h0, setV_vl_same]
          · rw [if_neg e, word_setV_ne (fun h => e (snoc_inj h).2)]
  obtain ⟨p0, hd0, B, hp0, hB, ha, hsz, hoff, hnb⟩ := key
  refine ⟨B, by rw [ha]; exact hB, hsz, ?_⟩
  rw [ha]
  -- owners after the store
  have hown : ∀ x o, Own (g.setV q w) x o → (Own g x o ∧ o ≠ (false, q)) ∨ (o = (false, q) ∧ x = buf (cw w) ∧ x ≠ 0) := by
    rintro x ⟨b, r⟩ ho
    cases b with
    | true => exact Or.inl ⟨ho, by simp⟩
    | false =>
      obtain ⟨c, v, h1, h2, h3⟩ := ho
      by_cases e : r = q
      · subst e; rw [setV_vl_same] at h1; exact Or.inr ⟨rfl, by rw [h1]; exact h2.symm, h3⟩
      · rw [setV_vl_ne _ _ e] at h1; exact Or.inl ⟨⟨c, v, h1, h2, h3⟩, by simp [e]⟩
  -- the buffer of the new value
  have hnew : ∀ x, x ≠ 0 → x = buf (cw w) → ∀ o, Own g x o → o = (false, q) := by
    intro x hx hxb o ho
    cases w with
    | none => rw [cw_none, buf_zero] at hxb; exact absurd hxb hx
    | some cv =>
      have hxb' : x = buf cv.1 := hxb
      rcases (hw cv.1 cv.2 rfl).2 (by rw [← hxb']; exact hx) with h1 | h1
      · rw [← hxb'] at h1
        cases hq : g.vl q with
        | none => rw [hq, cw_none, buf_zero] at h1; exact absurd h1 hx
        | some cv' =>
          rw [hq] at h1
          exact t.uniq x o (false, q) ho ⟨cv'.1, cv'.2, hq, h1.symm, hx⟩
      · rw [← hxb'] at h1
        exact absurd (t.excl x o ho) h1
  refine ⟨t.bpos, t.root, t.cnt_of hp0 hB hoff, ?_, ?_, ?_, ?_, ?_, ?_⟩
  · intro p hd hp
    by_cases e : p = p0
    · subst e
      rw [setV_nd] at hp; rw [hp0] at hp; cases hp
      exact ⟨_, Heap.set_same _ _ _, hnb⟩
    · rw [Heap.set_ne _ _ _ _ (t.nd_ne hp hp0 e)]
      obtain ⟨B', h1, h2⟩ := t.node p hd hp
      refine ⟨B', h1, ?_⟩
      refine h2.ext ?_ ?_
      · by_cases e' : p = q
        · exfalso
          subst e'
          rcases hs with ⟨hd', h3, h4⟩ | ⟨h3, -⟩
          · rw [setV_nd] at hp; rw [hp] at h3; cases h3
            rw [h4] at ha
            exact t.nd_ne hp hp0 e ha
          · rw [setV_nd] at hp; rw [hp] at h3; cases h3
        · rw [setV_vl_ne _ _ e']
      · intro b _ _
        by_cases e' : p ++ [b] = q
        · subst e'
          rcases hs with ⟨hd', h3, h4⟩ | ⟨h3, p', b', hp', h4, h5, h6, h7, h8⟩
          · unfold G.word; rw [setV_nd, h3]
          · exfalso
            obtain ⟨rfl, rfl⟩ := snoc_inj h4
            rw [setV_nd] at hp; rw [hp] at h5; cases h5
            rw [h8] at ha
            exact t.nd_ne hp hp0 e ha
        · rw [word_setV_ne e']
  · exact t.child
  · intro r c v hr
    by_cases e : r = q
    · subst e
      rw [setV_vl_same] at hr
      have h1 := (hw c v hr).1
      refine ⟨h1.congr fun hb => Heap.set_ne _ _ _ _ ?_, ?_⟩
      · intro e
        have := hnew (buf c) hb (by rw [hr]; rfl) (true, p0) ⟨hd0, hp0, e.symm⟩
        cases this
      · intro hn
        rcases hs with ⟨hd', h3, h4⟩ | ⟨h3, p', b', hp', h4, h5, h6, h7, h8⟩
        · rw [setV_nd] at hn; rw [hn] at h3; cases h3
        · exact ⟨p', b', hp', h4, h5, h6, h7⟩
    · rw [setV_vl_ne _ _ e] at hr
      obtain ⟨h1, h2⟩ := t.val r c v hr
      exact ⟨h1.congr fun hb => Heap.set_ne _ _ _ _ (t.nd_buf hp0 hr hb), h2⟩
  · intro x o o' ho ho'
    rcases hown x o ho with ⟨h1, h2⟩ | ⟨h1, h2, h3⟩ <;> rcases hown x o' ho' with ⟨h4, h5⟩ | ⟨h4, h5, h6⟩
    · exact t.uniq x o o' h1 h4
    · exact absurd (hnew x h6 h5 o h1) h2
    · exact absurd (hnew x h3 h2 o' h4) h5
    · rw [h1, h4]
  · intro x hx
    have hx0 : x ≠ hd0.o := fun e => hx (true, p0) ⟨hd0, hp0, e.symm⟩
    rw [Heap.set_ne _ _ _ _ hx0]
    unfold swapF
    rw [if_neg]
    · split
      · rfl
      · rename_i h1
        refine t.frame x ?_
        rintro ⟨b, r⟩ ho
        refine hx (b, r) ?_
        cases b with
        | true => exact ho
        | false =>
          obtain ⟨c, v, h2, h3, h4⟩ := ho
          by_cases e : r = q
          · subst e
            exact absurd ⟨h4, by rw [h2]; exact h3.symm⟩ h1
          · exact ⟨c, v, by rw [setV_vl_ne _ _ e]; exact h2, h3, h4⟩
    · rintro ⟨h1, h2⟩
      cases w with
      | none => exact h1 (by rw [h2]; rfl)
      | some cv => exact hx (false, q) ⟨cv.1, cv.2, setV_vl_same _ _ _, h2.symm, h1⟩
  · intro x o ho
    unfold swapF
    rcases hown x o ho with ⟨h1, h2⟩ | ⟨h1, h2, h3⟩
    · split
      · rfl
      · split
        · rename_i h3 h4
          exfalso
          cases hq : g.vl q with
          | none => rw [hq] at h4; exact h4.1 h4.2
          | some cv =>
            rw [hq] at h4
            exact h2 (t.uniq x o (false, q) h1 ⟨cv.1, cv.2, hq, h4.2.symm, h4.1⟩)
        · exact t.excl x o h1
    · rw [if_pos ⟨h3, h2⟩]

/-- **store into the buffer of a value** -/
theorem Tr.setBuf (t : Tr base F g ni nn h) {q : Bytes} {c : Nat} {v v' : Val} (hq : g.vl q = some (c, v)) (hb : buf c ≠ 0) {B : Block}
    (hw : WordOk c v') (hB : BufOk B v') : Tr base F (g.setV q (some (c, v'))) ni nn (h.set (buf c) B) := by
  have he := (t.val q c v hq).1
  have hne : ∀ p hd, g.nd p = some hd → hd.o ≠ buf c := fun p hd hp e => t.nd_buf hp hq hb e.symm
  have hown : ∀ x o, Own (g.setV q (some (c, v'))) x o ↔ Own g x o := by
    rintro x ⟨b, r⟩
    cases b with
    | true => exact Iff.rfl
    | false =>
      by_cases e : r = q
      · subst e
        simp only [Own, setV_vl_same, hq, Option.some.injEq, Prod.mk.injEq]
        constructor
        · rintro ⟨c', v'', ⟨rfl, rfl⟩, h1⟩; exact ⟨c, v, ⟨rfl, rfl⟩, h1⟩
        · rintro ⟨c', v'', ⟨rfl, rfl⟩, h1⟩; exact ⟨c, v', ⟨rfl, rfl⟩, h1⟩
      · simp only [Own, setV_vl_ne _ _ e]
  have hvl : ∀ r, cw ((g.setV q (some (c, v'))).vl r) = cw (g.vl r) := by
    intro r
    by_cases e : r = q
    · subst e; rw [setV_vl_same, hq]; rfl
    · rw [setV_vl_ne _ _ e]
  have hwd : ∀ r, (g.setV q (some (c, v'))).word r = g.word r := by
    intro r; unfold G.word; rw [setV_nd, hvl]
  refine ⟨t.bpos, t.root, ?_, ?_, t.child, ?_, ?_, ?_, ?_⟩
  · rw [Heap.set_ne _ _ _ _ (show base ≠ buf c from hne [] _ t.root)]; exact t.cnt
  · intro p hd hp
    rw [Heap.set_ne _ _ _ _ (hne p hd hp)]
    obtain ⟨B', h1, h2⟩ := t.node p hd hp
    exact ⟨B', h1, h2.ext (hvl p).symm fun b _ _ => (hwd _).symm⟩
  · intro r c' v'' hr
    by_cases e : r = q
    · subst e
      rw [setV_vl_same] at hr
      injection hr with hr; injection hr with h1 h2; subst h1; subst h2
      refine ⟨⟨he.1, he.2.1, hw, fun _ => ⟨B, Heap.set_same _ _ _, hB⟩⟩, (t.val r c v hq).2⟩
    · rw [setV_vl_ne _ _ e] at hr
      obtain ⟨h1, h2⟩ := t.val r c' v'' hr
      exact ⟨h1.congr fun hb' => Heap.set_ne _ _ _ _ (t.buf_ne hr hq hb' e), h2⟩
  · intro x o o' h1 h2; exact t.uniq x o o' ((hown x o).1 h1) ((hown x o').1 h2)
  · intro x hx
    rw [Heap.set_ne _ _ _ _ (fun e => hx (false, q) ((hown _ _).2 ⟨c, v, hq, e.symm, e ▸ hb⟩))]
    exact t.frame x fun o ho => hx o ((hown x o).2 ho)
  · intro x o ho; exact t.excl x o ((hown x o).1 ho)

/-- what becomes of the other blocks when the node `n` is replaced by `n'` -/
def swapN (F : Nat → Option Block) (h : Heap) (n n' : Option Hd) : Nat → Option Block :=
  fun x => if n'.any (fun hd => hd.o = x) then none else if n.any (fun hd => hd.o = x) then h.blk x else F x

theorem word_setN_ne {q r : Bytes} {n : Option Hd} (hne : r ≠ q) : (g.setN q n).word r = g.word r := by
  unfold G.word; rw [setN_vl, setN_nd_ne _ _ hne]

/-- **store to a child slot that links, replaces or unlinks a node** -/
theorem Tr.setNode (t : Tr base F g ni nn h) {p : Bytes} {b : UInt8} {hp : Hd} (hpn : g.nd p = some hp) (h1 : hp.s ≤ b.toNat) (h2 : b.toNat ≤ hp.e) (n' : Option Hd)
    (hn : n' = none → ∀ b', g.nd (p ++ [b] ++ [b']) = none ∧ g.vl (p ++ [b] ++ [b']) = none)
    (hs : ∀ hd, n' = some hd → hd.off = 0 ∧ hd.ps = b.toNat ∧ hd.o % 8 = 0 ∧ hd.o ≠ 0 ∧ hd.o < W64 ∧
      (∃ B, F hd.o = some B ∧ NodeBlk B hd (cw (g.vl (p ++ [b]))) (fun b' => g.word (p ++ [b] ++ [b']))) ∧
      ∀ b', g.nd (p ++ [b] ++ [b']) ≠ none ∨ g.vl (p ++ [b] ++ [b']) ≠ none → hd.s ≤ b'.toNat ∧ b'.toNat ≤ hd.e) :
    ∃ B, h.blk hp.o = some B ∧ hp.off + 16 + 8 * (b.toNat - hp.s) + 8 ≤ B.size ∧
      Tr base (swapN F h (g.nd (p ++ [b])) n') (g.setN (p ++ [b]) n') ni nn
        (h.set hp.o (B.wr (hp.off + 16 + 8 * (b.toNat - hp.s)) 8 ((g.setN (p ++ [b]) n').word (p ++ [b])))) := by
  obtain ⟨B, hB, hnb⟩ := t.node p hp hpn
  have hpq : p ≠ p ++ [b] := by intro e; have := congrArg List.length e; simp at this
  have hwlt : (g.setN (p ++ [b]) n').word (p ++ [b]) < W64 := by
    unfold G.word; rw [setN_nd_same]
    cases n' with
    | none => exact t.cw_lt _
    | some hd => exact (hs hd rfl).2.2.2.2.1
  have hwz : ∀ r, r ≠ p ++ [b] → (g.setN (p ++ [b]) n').word r = g.word r := fun r hr => word_setN_ne hr
  refine ⟨B, hB, by have := hnb.size; have := hnb.le; omega, ?_⟩
  -- the new node's block belongs to nobody
  have hfor : ∀ hd, n' = some hd → ∀ o, ¬ Own g hd.o o := by
    intro hd hd' o
    obtain ⟨-, -, -, -, -, ⟨B', h3, -⟩, -⟩ := hs hd hd'
    exact t.foreign_not_own (by rw [h3]; simp) o
  have hown : ∀ x o, Own (g.setN (p ++ [b]) n') x o → (Own g x o ∧ o ≠ (true, p ++ [b])) ∨ (o = (true, p ++ [b]) ∧ ∃ hd, n' = some hd ∧ hd.o = x) := by
    rintro x ⟨bb, r⟩ ho
    cases bb with
    | false => exact Or.inl ⟨ho, by simp⟩
    | true =>
      obtain ⟨hd, h3, h4⟩ := ho
      by_cases e : r = p ++ [b]
      · subst e; rw [setN_nd_same] at h3; exact Or.inr ⟨rfl, hd, h3, h4⟩
      · rw [setN_nd_ne _ _ e] at h3; exact Or.inl ⟨⟨hd, h3, h4⟩, by simp [e]⟩
  have hpo : Own g hp.o (true, p) := ⟨hp, hpn, rfl⟩
  refine ⟨t.bpos, ?_, t.cnt_of hpn hB (by omega), ?_, ?_, ?_, ?_, ?_, ?_⟩
  · rw [setN_nd_ne _ _ (by simp)]; exact t.root
  · intro r hd hr
    by_cases e : r = p
    · subst e
      rw [setN_nd_ne _ _ hpq, hpn] at hr; cases hr
      refine ⟨_, Heap.set_same _ _ _, ?_⟩
      refine (hnb.setch hwlt h1).ext rfl ?_
      intro b' _ _
      by_cases e : b' = b
      · subst e; rw [if_pos rfl]
      · rw [if_neg e, hwz _ (fun h => e (snoc_inj h).2)]
    · by_cases e' : r = p ++ [b]
      · subst e'
        rw [setN_nd_same] at hr
        obtain ⟨-, -, -, -, -, ⟨B', h3, h4⟩, -⟩ := hs hd hr
        have hne : hd.o ≠ hp.o := fun e => hfor hd hr (true, p) (e ▸ hpo)
        refine ⟨B', ?_, ?_⟩
        · rw [Heap.set_ne _ _ _ _ hne, t.frame _ (hfor hd hr)]; exact h3
        · refine h4.ext rfl ?_
          intro b' _ _
          exact (hwz _ (by intro e; have := congrArg List.length e; simp at this)).symm
      · rw [setN_nd_ne _ _ e'] at hr
        rw [Heap.set_ne _ _ _ _ (t.nd_ne hr hpn e)]
        obtain ⟨B', h3, h4⟩ := t.node r hd hr
        refine ⟨B', h3, h4.ext rfl ?_⟩
        intro b' _ _
        exact (hwz _ (fun h => e (snoc_inj h).1)).symm
  · intro r b' hd hr
    have hrange : ∀ r b', InRange g (r ++ [b']) → (r = p ++ [b] → ∀ hd, n' = some hd → hd.s ≤ b'.toNat ∧ b'.toNat ≤ hd.e) → (r = p ++ [b] → n' ≠ none) →
        InRange (g.setN (p ++ [b]) n') (r ++ [b']) := by
      rintro r b' ⟨p', b'', hp', h3, h4, h5, h6⟩ h7 h8
      obtain ⟨rfl, rfl⟩ := snoc_inj h3
      by_cases e : r = p ++ [b]
      · obtain ⟨hd, h9⟩ := Option.ne_none_iff_exists'.1 (h8 e)
        obtain ⟨h10, h11⟩ := h7 e hd h9
        exact ⟨r, b', hd, rfl, by rw [e, setN_nd_same]; exact h9, h10, h11⟩
      · exact ⟨r, b', hp', rfl, by rw [setN_nd_ne _ _ e]; exact h4, h5, h6⟩
    by_cases e : r ++ [b'] = p ++ [b]
    · rw [e, setN_nd_same] at hr
      obtain ⟨rfl, rfl⟩ := snoc_inj e
      obtain ⟨h3, h4, h5, h6, h7, -⟩ := hs hd hr
      refine ⟨h3, h4, h5, h6, h7, ⟨r, b', hp, rfl, ?_, h1, h2⟩⟩
      rw [setN_nd_ne _ _ hpq]; exact hpn
    · rw [setN_nd_ne _ _ e] at hr
      obtain ⟨h3, h4, h5, h6, h7, h8⟩ := t.child r b' hd hr
      refine ⟨h3, h4, h5, h6, h7, hrange r b' h8 ?_ ?_⟩
      · rintro rfl hd' hd''
        exact (hs hd' hd'').2.2.2.2.2.2 b' (Or.inl (by rw [hr]; simp))
      · rintro rfl h9
        have := (hn h9 b').1
        rw [hr] at this; cases this
  · intro r c v hr
    obtain ⟨h3, h4⟩ := t.val r c v hr
    refine ⟨h3.congr fun hb => Heap.set_ne _ _ _ _ (t.nd_buf hpn hr hb), ?_⟩
    intro hnone
    by_cases e : r = p ++ [b]
    · subst e
      exact ⟨p, b, hp, rfl, by rw [setN_nd_ne _ _ hpq]; exact hpn, h1, h2⟩
    · rw [setN_nd_ne _ _ e] at hnone
      obtain ⟨p', b', hp', rfl, h6, h7, h8⟩ := h4 hnone
      by_cases e2 : p' = p ++ [b]
      · subst e2
        have hr' : g.vl (p ++ [b] ++ [b']) = some (c, v) := hr
        cases hn' : n' with
        | none => have := (hn hn' b').2; rw [hr'] at this; cases this
        | some hd =>
          obtain ⟨h10, h11⟩ := (hs hd hn').2.2.2.2.2.2 b' (Or.inr (by rw [hr']; simp))
          exact ⟨_, b', hd, rfl, setN_nd_same _ _ _, h10, h11⟩
      · exact ⟨p', b', hp', rfl, by rw [setN_nd_ne _ _ e2]; exact h6, h7, h8⟩
  · intro x o o' ho ho'
    rcases hown x o ho with ⟨h3, h4⟩ | ⟨h3, hd, h5, rfl⟩ <;> rcases hown _ o' ho' with ⟨h6, h7⟩ | ⟨h6, hd', h8, h9⟩
    · exact t.uniq x o o' h3 h6
    · exact absurd (h9 ▸ h3) (hfor hd' h8 o)
    · exact absurd h6 (hfor hd h5 o')
    · rw [h3, h6]
  · intro x hx
    rw [Heap.set_ne _ _ _ _ (fun e => hx (true, p) ⟨hp, by rw [setN_nd_ne _ _ hpq]; exact hpn, e.symm⟩)]
    unfold swapN
    rw [if_neg]
    · split
      · rfl
      · rename_i h3
        refine t.frame x ?_
        rintro ⟨bb, r⟩ ho
        refine hx (bb, r) ?_
        cases bb with
        | false => exact ho
        | true =>
          obtain ⟨hd, h4, h5⟩ := ho
          by_cases e : r = p ++ [b]
          · subst e; rw [h4] at h3; simp [h5] at h3
          · exact ⟨hd, by rw [setN_nd_ne _ _ e]; exact h4, h5⟩
    · intro h3
      cases n' with
      | none => simp at h3
      | some hd => exact hx (true, p ++ [b]) ⟨hd, setN_nd_same _ _ _, by simpa using h3⟩
  · intro x o ho
    unfold swapN
    rcases hown x o ho with ⟨h3, h4⟩ | ⟨h3, hd, h5, h6⟩
    · split
      · rfl
      · split
        · rename_i h5 h6
          exfalso
          cases hq : g.nd (p ++ [b]) with
          | none => rw [hq] at h6; simp at h6
          | some hd => rw [hq] at h6; exact h4 (t.uniq x o _ h3 ⟨hd, hq, by simpa using h6⟩)
        · exact t.excl x o h3
    · rw [h5, if_pos (by simpa using h6)]

end
end Verif.PrefixTree
