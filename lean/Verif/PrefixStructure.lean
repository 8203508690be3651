import Verif.PrefixTreeNodes
import Verif.PrefixTreeMore
/-
PrefixTree::get_structure (PrefixTree.cc 840-843, 1331-1430): the program, and the text it returns of a tree.
-/
namespace Verif.PrefixTree
open Verif
attribute [local irreducible] Block.rd Block.rdB

/-! ### characters -/

/-- an uppercase hexadecimal digit -/
def digit16 (n : Nat) : UInt8 := if n < 10 then UInt8.ofNat (48 + n) else UInt8.ofNat (55 + n)

/-- printf %02hhX -/
def hex2 (n : Nat) : Bytes := [digit16 (n / 16 % 16), digit16 (n % 16)]

/-- should_escape_char_for_structure, PrefixTree.cc 1331-1334 (char is signed or not: bytes above 0x7E are escaped either way) -/
def escaped (b : UInt8) : Bool := b == 44 || b == 34 || b == 92 || b ≤ 32 || 126 < b

/-- the characters of a string, 1373-1379 and 1389-1396 -/
def esc : Bytes → Bytes
  | [] => []
  | b :: d => (if escaped b then ([92, 120] : Bytes) ++ hex2 b.toNat else [b]) ++ esc d

/-- decimal digits; `f` is the greatest number of them -/
def decN : Nat → Nat → Bytes
  | 0, _ => []
  | f + 1, n => if n < 10 then [UInt8.ofNat (48 + n)] else decN f (n / 10) ++ [UInt8.ofNat (48 + n % 10)]

/-- printf PRId64 -/
def dec (x : BitVec 64) : Bytes := (if x.toInt < 0 then ([45] : Bytes) else []) ++ decN 20 x.toInt.natAbs

/-! ### the program; `fmt` is printf %lg -/

/-- get_structure_for_contents for contents that are no subnode: PrefixTree.cc 1364-1430 -/
def contentsText (fmt : BitVec 64 → Bytes) (c : Nat) : HProg Bytes :=
  if typeOf c = 1 then
    (if valOf c = 0 then pure [83, 34, 34] else do
      let n ← H.bsize (valOf c)
      let d ← H.rdB (valOf c) 0 n
      pure (([83, 34] : Bytes) ++ esc d ++ [34]))
  else if typeOf c = 6 then pure (([115, 34] : Bytes) ++ esc (unpackBytes c ((c >>> 3) &&& 7) 56) ++ [34])
  else if typeOf c = 2 then pure (105 :: dec (intOf c))
  else if typeOf c = 3 then do
    let x ← H.rd64 (valOf c) 0
    pure (73 :: dec (BitVec.ofNat 64 x))
  else if typeOf c = 4 then
    (if valOf c = 0 then pure [100, 48] else do
      let x ← H.rd64 (valOf c) 0
      pure (68 :: fmt (BitVec.ofNat 64 x)))
  else if typeOf c = 5 then
    (if valOf c >>> 3 = 0 then pure [102, 97, 108, 115, 101]
    else if valOf c >>> 3 = 1 then pure [116, 114, 117, 101]
    else if valOf c >>> 3 = 2 then pure [110, 117, 108, 108]
    else .err .invalidArg)
  else .err .invalidArg

/-- the loop over the child slots, PrefixTree.cc 1351-1358 (start and end are read once here) -/
def structSlots (f : Nat → HProg Bytes) (nd : Addr) (s : Nat) : Nat → Nat → HProg Bytes
  | 0, _ => pure []
  | n + 1, x => do
    let c ← H.rd64 nd.1 (nd.2 + 16 + 8 * x)
    if c = 0 then structSlots f nd s n (x + 1)
    else do
      let c' ← H.rd64 nd.1 (nd.2 + 16 + 8 * x)
      let a ← f c'
      let r ← structSlots f nd s n (x + 1)
      pure (([44] : Bytes) ++ hex2 (x + s) ++ [58] ++ a ++ r)

/-- the text of a node, PrefixTree.cc 1345-1361 -/
def structNode (f : Nat → HProg Bytes) (nd : Addr) : HProg Bytes := do
  let s ← H.rd8 nd.1 nd.2
  let e ← H.rd8 nd.1 (nd.2 + 1)
  let p ← H.rd8 nd.1 (nd.2 + 2)
  let v ← H.rd64 nd.1 (nd.2 + 8)
  let a ← f v
  let r ← structSlots f nd s (e + 1 - s) 0
  pure (([40, 91] : Bytes) ++ hex2 s ++ [44] ++ hex2 e ++ [93, 64] ++ hex2 p ++ [43] ++ a ++ r ++ [41])

/-- PrefixTree::get_structure_for_contents, PrefixTree.cc 1336-1430 -/
def structOf (fmt : BitVec 64 → Bytes) : Nat → Nat → HProg Bytes
  | 0, _ => .ub
  | fuel + 1, c =>
    if typeOf c = 0 then (if c = 0 then pure [35] else structNode (structOf fmt fuel) (c, 0))
    else contentsText fmt c

/-- PrefixTree::get_structure, PrefixTree.cc 840-843: as for a subnode at the root (whose offset is a multiple of 8 and not 0).  It takes no lock. -/
def getStructure (fmt : BitVec 64 → Bytes) (base : Nat) : HProg Bytes := structNode (structOf fmt maxSteps) (root base)

/-! ### the text of a tree -/

/-- the shape of a tree: start, end and parent slot of the node at a path, and value of a key, with a mark if it is in a buffer -/
structure Shape where
  nd : Bytes → Option (Nat × Nat × Nat)
  vl : Bytes → Option (Bool × Val)

/-- the text of a value -/
def drawVal (fmt : BitVec 64 → Bytes) : Option (Bool × Val) → Bytes
  | none => [35]
  | some (b, .str d) => ([if b then 83 else 115, 34] : Bytes) ++ esc d ++ [34]
  | some (b, .int x) => (if b then 73 else 105) :: dec x
  | some (b, .dbl x) => if b then 68 :: fmt x else [100, 48]
  | some (_, .bool true) => [116, 114, 117, 101]
  | some (_, .bool false) => [102, 97, 108, 115, 101]
  | some (_, .null) => [110, 117, 108, 108]

/-- the children `x`, `x + 1`, …, `x + n - 1` of the node at `q` -/
def kids (f : Bytes → Bytes) (T : Shape) (q : Bytes) : Nat → Nat → Bytes
  | 0, _ => []
  | n + 1, x => (if (T.nd (q ++ [UInt8.ofNat x])).isNone && (T.vl (q ++ [UInt8.ofNat x])).isNone then [] else ([44] : Bytes) ++ hex2 x ++ [58] ++ f (q ++ [UInt8.ofNat x])) ++ kids f T q n (x + 1)

/-- the text of what is at the path `q` and below; `n` is more than the depth -/
def draw (fmt : BitVec 64 → Bytes) (T : Shape) : Nat → Bytes → Bytes
  | 0, _ => []
  | n + 1, q => match T.nd q with
    | none => drawVal fmt (T.vl q)
    | some (s, e, p) => ([40, 91] : Bytes) ++ hex2 s ++ [44] ++ hex2 e ++ [93, 64] ++ hex2 p ++ [43] ++ drawVal fmt (T.vl q) ++ kids (draw fmt T n) T q (e + 1 - s) s ++ [41]

/-- is the value of this contents word in a buffer (or an empty string, which is shown like one)? -/
def boxed (c : Nat) : Bool := typeOf c = 1 || typeOf c = 3 || (typeOf c = 4 && c ≠ 4)

/-- the shape of a tree -/
def G.shape (g : G) : Shape := ⟨fun q => (g.nd q).map fun hd => (hd.s, hd.e, hd.ps), fun q => (g.vl q).map fun x => (boxed x.1, x.2)⟩

section
variable {base : Nat} {F : Nat → Option Block} {g : G} {ni nn : Nat} {h : Heap} {I : Heap → Prop} {fmt : BitVec 64 → Bytes}

theorem contentsText_spec {c : Nat} {v : Val} (e : Enc h c v) : wpI I (contentsText fmt c) (fun o h' => h' = h ∧ o = .ok (drawVal fmt (some (boxed c, v)))) h := by
  obtain ⟨hc, h0, hw, hb⟩ := e
  have hbuf : ∀ t, c % 8 = t → (t = 1 ∨ t = 3 ∨ t = 4) → 8 ≤ c → buf c = valOf c ∧ valOf c ≠ 0 ∧ ∃ B, h.blk (valOf c) = some B ∧ BufOk B v := by
    intro t ht h1 h2
    have h3 : buf c = valOf c := by unfold buf typeOf; rw [ht, if_pos h1]
    have h4 : valOf c ≠ 0 := by unfold valOf; omega
    rw [h3] at hb
    exact ⟨h3, h4, hb h4⟩
  unfold contentsText boxed
  simp only [Prog.bind_def]
  cases v with
  | str v =>
    rcases hw with ⟨rfl, rfl⟩ | ⟨h1, h2, rfl⟩ | ⟨h1, h2⟩
    · exact ⟨rfl, rfl⟩
    · have ht : typeOf (shortWord v) = 6 := by unfold typeOf; have := shortWord_low h2; omega
      rw [ht, if_neg (by omega), if_pos rfl, shortWord_unpack h2]
      exact ⟨rfl, rfl⟩
    · obtain ⟨-, h4, B, hB, h5, h6⟩ := hbuf 1 h1 (Or.inl rfl) h2
      have ht : typeOf c = 1 := h1
      rw [ht, if_pos rfl, if_neg h4]
      refine wpI_bsize hB ?_
      refine wpI_rdB hB (by omega) ?_
      rw [h5, h6]; exact ⟨rfl, rfl⟩
  | int v =>
    rcases hw with ⟨h1, rfl⟩ | ⟨h1, h2⟩
    · have ht : typeOf (intWord v) = 2 := by unfold typeOf; rw [intWord_eq]; omega
      rw [ht, if_neg (by omega), if_neg (by omega), if_pos rfl, intOf_intWord h1]
      exact ⟨rfl, rfl⟩
    · obtain ⟨-, h4, B, hB, h5, h6⟩ := hbuf 3 h1 (Or.inr (Or.inl rfl)) h2
      have ht : typeOf c = 3 := h1
      rw [ht, if_neg (by omega), if_neg (by omega), if_neg (by omega), if_pos rfl]
      refine wpI_rd hB (by omega) ?_
      rw [h6]; exact ⟨rfl, by simp [drawVal]⟩
  | dbl d =>
    rcases hw with ⟨rfl, rfl⟩ | ⟨h1, h2⟩
    · exact ⟨rfl, rfl⟩
    · obtain ⟨-, h4, B, hB, h5, h6⟩ := hbuf 4 h1 (Or.inr (Or.inr rfl)) h2
      have ht : typeOf c = 4 := h1
      rw [ht, if_neg (by omega), if_neg (by omega), if_neg (by omega), if_neg (by omega), if_pos rfl, if_neg h4]
      refine wpI_rd hB (by omega) ?_
      rw [h6]; exact ⟨rfl, by simp [drawVal, show c ≠ 4 by omega]⟩
  | bool b =>
    cases b <;> (obtain rfl := hw; exact ⟨rfl, rfl⟩)
  | null =>
    obtain rfl := hw
    exact ⟨rfl, rfl⟩

theorem structSlots_spec (t : Tr base F g ni nn h) {f : Nat → HProg Bytes} {d : Bytes → Bytes} {q : Bytes} {hd : Hd} (hq : g.nd q = some hd)
    (hf : ∀ b : UInt8, wpI I (f (g.word (q ++ [b]))) (fun out h' => h' = h ∧ out = .ok (d (q ++ [b]))) h) :
    ∀ n x, x + n = hd.e + 1 - hd.s → wpI I (structSlots f (hd.o, hd.off) hd.s n x) (fun out h' => h' = h ∧ out = .ok (kids d g.shape q n (hd.s + x))) h := by
  obtain ⟨B, hB, hn⟩ := t.node q hd hq
  have hle := hn.le
  have hlt := hn.lt
  intro n
  induction n with
  | zero => intro x hx; exact ⟨rfl, rfl⟩
  | succ n ih =>
    intro x hx
    have hb : (UInt8.ofNat (hd.s + x)).toNat = hd.s + x := by
      have : (UInt8.ofNat (hd.s + x)).toNat = (hd.s + x) % 256 := UInt8.toNat_ofNat'
      omega
    have hsz := hn.size
    have hch := hn.ch (UInt8.ofNat (hd.s + x)) (by omega) (by omega)
    rw [hb, Nat.add_sub_cancel_left] at hch
    have hempty : ((g.shape.nd (q ++ [UInt8.ofNat (hd.s + x)])).isNone && (g.shape.vl (q ++ [UInt8.ofNat (hd.s + x)])).isNone) = true ↔ g.word (q ++ [UInt8.ofNat (hd.s + x)]) = 0 := by
      rw [t.word_zero]
      simp [G.shape]
    unfold structSlots kids
    simp only [Prog.bind_def]
    refine wpI_rd (B := B) hB (by show hd.off + 16 + 8 * x + 8 ≤ _; omega) ?_
    rw [hch]
    split
    · rename_i h0
      rw [if_pos (hempty.2 h0)]
      exact ih (x + 1) (by omega)
    · rename_i h0
      rw [if_neg (fun h => h0 (hempty.1 h))]
      refine wpI_rd (B := B) hB (by show hd.off + 16 + 8 * x + 8 ≤ _; omega) ?_
      rw [hch]
      refine wpI_bind_of (hf _) ?_ (by rintro e h' ⟨-, h1⟩; cases h1)
      rintro a h' ⟨rfl, h1⟩
      injection h1 with h1; subst h1
      refine wpI_bind_of (ih (x + 1) (by omega)) ?_ (by rintro e h' ⟨-, h1⟩; cases h1)
      rintro r h' ⟨rfl, h1⟩
      injection h1 with h1; subst h1
      exact ⟨rfl, by rw [Nat.add_comm x hd.s]; rfl⟩

theorem structNode_spec (t : Tr base F g ni nn h) {f : Nat} {q : Bytes} {hd : Hd} (hq : g.nd q = some hd)
    (hf : ∀ b : UInt8, wpI I (structOf fmt f (g.word (q ++ [b]))) (fun out h' => h' = h ∧ out = .ok (draw fmt g.shape f (q ++ [b]))) h) (h0 : 0 < f) :
    wpI I (structNode (structOf fmt f) (hd.o, hd.off)) (fun out h' => h' = h ∧ out = .ok (draw fmt g.shape (f + 1) q)) h := by
  obtain ⟨B, hB, hn⟩ := t.node q hd hq
  have hsz := lt_size hn
  have hs2 := hn.size
  unfold structNode draw
  simp only [Prog.bind_def, Prog.bind_assoc]
  rw [show g.shape.nd q = some (hd.s, hd.e, hd.ps) by simp [G.shape, hq]]
  refine wpI_rd (B := B) hB (by show hd.off + 1 ≤ _; omega) ?_
  rw [show B.rd hd.off 1 = hd.s from hn.s]
  refine wpI_rd (B := B) hB (by show hd.off + 1 + 1 ≤ _; omega) ?_
  rw [show B.rd (hd.off + 1) 1 = hd.e from hn.e]
  refine wpI_rd (B := B) hB (by show hd.off + 2 + 1 ≤ _; omega) ?_
  rw [show B.rd (hd.off + 2) 1 = hd.ps from hn.ps]
  refine wpI_rd (B := B) hB (by show hd.off + 8 + 8 ≤ _; omega) ?_
  rw [show B.rd (hd.off + 8) 8 = cw (g.vl q) from hn.v]
  have hv : wpI I (structOf fmt f (cw (g.vl q))) (fun out h' => h' = h ∧ out = .ok (drawVal fmt (g.shape.vl q))) h := by
    obtain ⟨f, rfl⟩ := Nat.exists_eq_succ_of_ne_zero (Nat.pos_iff_ne_zero.1 h0)
    unfold structOf
    cases hv : g.vl q with
    | none => exact ⟨rfl, by simp [G.shape, hv, drawVal]⟩
    | some x =>
      obtain ⟨c, v⟩ := x
      have he := (t.val q c v hv).1
      rw [if_neg (show typeOf (cw (some (c, v))) ≠ 0 from he.2.1), show g.shape.vl q = some (boxed c, v) by simp [G.shape, hv]]
      exact contentsText_spec he
  refine wpI_bind_of hv ?_ (by rintro e h' ⟨-, h1⟩; cases h1)
  rintro a h' ⟨rfl, h1⟩
  injection h1 with h1; subst h1
  refine wpI_bind_of (structSlots_spec t hq hf _ 0 (by omega)) ?_ (by rintro e h' ⟨-, h1⟩; cases h1)
  rintro r h' ⟨rfl, h1⟩
  injection h1 with h1; subst h1
  exact ⟨rfl, rfl⟩

theorem structOf_spec (t : Tr base F g ni nn h) : ∀ (f : Nat) (p : Bytes) (b : UInt8), Deep g (p ++ [b]) f →
    wpI I (structOf fmt f (g.word (p ++ [b]))) (fun out h' => h' = h ∧ out = .ok (draw fmt g.shape f (p ++ [b]))) h := by
  intro f
  induction f with
  | zero => intro p b hd; exact absurd hd.1 (by omega)
  | succ f ih =>
    intro p b hdeep
    unfold structOf
    cases hq : g.nd (p ++ [b]) with
    | none =>
      have hw : g.word (p ++ [b]) = cw (g.vl (p ++ [b])) := by unfold G.word; rw [hq]
      unfold draw
      rw [show g.shape.nd (p ++ [b]) = none by simp [G.shape, hq], hw]
      cases hv : g.vl (p ++ [b]) with
      | none => exact ⟨rfl, by simp [G.shape, hv, drawVal]⟩
      | some x =>
        obtain ⟨c, v⟩ := x
        have he := (t.val _ c v hv).1
        rw [if_neg (show typeOf (cw (some (c, v))) ≠ 0 from he.2.1), show g.shape.vl (p ++ [b]) = some (boxed c, v) by simp [G.shape, hv]]
        exact contentsText_spec he
    | some hd =>
      have hw : g.word (p ++ [b]) = hd.o := by unfold G.word; rw [hq]
      obtain ⟨hoff, -, h8, h0, -⟩ := t.child p b hd hq
      rw [hw, if_pos (show typeOf hd.o = 0 from h8), if_neg h0]
      rw [show ((hd.o, 0) : Addr) = (hd.o, hd.off) by rw [hoff]]
      have h1 := hdeep.2 [] (by rw [List.append_nil, hq]; simp)
      refine structNode_spec t hq (fun b' => ih _ b' ?_) (by simp at h1; omega)
      refine ⟨by simp at h1; omega, fun r hr => ?_⟩
      have := hdeep.2 ([b'] ++ r) (by rw [← List.append_assoc]; exact hr)
      simp at this ⊢; omega

theorem getStructure_spec (t : Tr base F g ni nn h) : wpI I (getStructure fmt base) (fun out h' => h' = h ∧ out = .ok (draw fmt g.shape (maxSteps + 1) [])) h :=
  structNode_spec t t.root (fun b => structOf_spec t _ _ _ (t.deep _ (by rw [maxSteps_eq]; omega))) (by rw [maxSteps_eq]; omega)

end
end Verif.PrefixTree
