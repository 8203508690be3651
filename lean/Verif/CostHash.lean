import Verif.CostSem
import Verif.PropsHashTable
/-
C65: what the methods of HashTable cost (README, "Time complexity", HashTable).
-/
namespace Verif
open HashTable (Pairs get put del keys Check)

namespace HashTable
attribute [local irreducible] Block.rd Block.rdB

section
variable {h : Heap} {base slots bits cnt : Nat} {bk : Nat → Bk} {lk : List Nat} {G : Nat → Option Block} {hash : Bytes → Nat} {k v : Bytes} {c : Cost} {R : Type}

/-! ### Parts without loops -/

theorem keyMatches_every (b o : Nat) (k : Bytes) : HEvery (keyMatches b o k) {} fun _ e => ({} : Cost).Upto e 0 0 3 k.length := by
  intro v _
  show Every hresp hcost (if v = k.length then (H.rd64 b o).bind fun ko => (H.rdB ko 0 k.length).bind fun d => .ret (decide (d = k)) else .ret false) _ _
  split
  · intro _ _ _ _; constructor <;> simp [hcost]
  · constructor <;> simp [hcost]

theorem locate_every (b o : Nat) : HEvery (locate b o) {} fun _ e => e = { acc := 3 } := by
  intro _ _ _ _ _ _; rfl

theorem bumpCount_every (b : Nat) : HEvery (bumpCount b) {} fun _ e => e = { acc := 2 } := by
  intro _ _ _ _; rfl

theorem dropCount_every (b : Nat) : HEvery (dropCount b) {} fun _ e => e = { acc := 2 } := by
  intro _ _ _ _; rfl

theorem newNum_every (N : Num R) (b o : Nat) (k : Bytes) : HEvery (newNum N b o k) {} fun _ e => ({} : Cost).Upto e 1 0 4 k.length := by
  intro r _
  cases r with
  | none => constructor <;> simp [hcost]
  | some _ => intro _ _ _ _ _ _ _ _; constructor <;> simp [hcost]

theorem bump_every (N : Num R) (b o n : Nat) : HEvery (bump N b o n) {} fun _ e => ({} : Cost).Upto e 0 0 3 0 := by
  unfold bump
  split
  · intro _ _ _ _ _ _; constructor <;> simp [hcost]
  · constructor <;> simp

theorem unlinkIv_every (sl so p cur : Nat) : HEvery (unlinkIv sl so p cur) {} fun _ e => e = { acc := 2 } := by
  intro nx _
  show Every hresp hcost (if p ≠ 0 then H.wr64 p 0 nx else H.wr64 sl so nx) _ _
  split
  · intro _ _; rfl
  · intro _ _; rfl

theorem unchain_every (sl so : Nat) : HEvery (unchain sl so) {} fun _ e => ({} : Cost).Max e 0 1 6 0 := by
  intro io _
  show Every hresp hcost (if io ≠ 0 then (H.rd64 (oddBlk io) (io % 2)).bind fun nx => if nx = 0 then (H.rd64 (oddBlk io) (io % 2 + 8)).bind fun a =>
    (H.wr64 sl so a).bind fun _ => (H.rd64 (oddBlk io) (io % 2 + 16)).bind fun b => (H.wr64 sl (so + 8) b).bind fun _ => H.free io else .ret () else .ret ()) _ _
  split
  · intro nx _
    show Every hresp hcost (if nx = 0 then (H.rd64 (oddBlk io) (io % 2 + 8)).bind fun a =>
      (H.wr64 sl so a).bind fun _ => (H.rd64 (oddBlk io) (io % 2 + 16)).bind fun b => (H.wr64 sl (so + 8) b).bind fun _ => H.free io else .ret ()) _ _
    split
    · intro _ _ _ _ _ _ _ _ _ _; constructor <;> simp [hcost]
    · constructor <;> simp [hcost]
  · constructor <;> simp [hcost]

/-! ### Searching -/

theorem walkList_cost (k : Bytes) (cs : List Ent) : ∀ (fuel p : Nat) (c : Cost), Seg h cs 0 →
    cev (walkList k fuel p (headIv cs 0)) (fun _ c' h' => h' = h ∧ c.Upto c' 0 0 (4 * cs.length) (k.length * cs.length)) c h := by
  induction cs with
  | nil =>
    intro fuel p c _
    cases fuel with
    | zero => trivial
    | succ n => exact ⟨rfl, .refl _⟩
  | cons e t ih =>
    intro fuel p c hs
    cases fuel with
    | zero => trivial
    | succ f =>
      obtain ⟨⟨B, b1, b2, b3, b4, b5⟩, hs2⟩ := hs
      show cev (walkList k (f + 1) p e.iv) _ c h
      unfold walkList
      split
      · exact ⟨rfl, .refl _⟩
      · refine cev_bind (R := fun _ c' h' => h' = h ∧ c.Upto c' 0 0 3 k.length) ?_ ?_ (cev_mono ?_ (cev_ro ro_keyMatches (cev_every (keyMatches_every e.iv 8 k).from)))
        · rintro m c1 h' ⟨rfl, u⟩
          split
          · exact ⟨rfl, u.mono (by simp; omega) (by simp [Nat.mul_add])⟩
          · refine cev_rd b1 ?_
            rw [b3]
            refine cev_mono ?_ (ih f e.iv _ hs2)
            rintro _ c2 _ ⟨rfl, w⟩
            refine ⟨rfl, ?_⟩
            obtain ⟨u1, u2, u3, u4⟩ := u
            obtain ⟨w1, w2, w3, w4⟩ := w
            simp at w1 w2 w3 w4
            constructor <;> simp [Nat.mul_add] <;> omega
        · rintro e c1 h' ⟨rfl, u⟩
          exact ⟨rfl, u.mono (by simp; omega) (by simp [Nat.mul_add])⟩
        · rintro _ c1 _ ⟨rfl, e', rfl, u⟩
          obtain ⟨u1, u2, u3, u4⟩ := u
          simp at u1 u2 u3 u4
          exact ⟨rfl, by constructor <;> simp only [Cost.add_allocs, Cost.add_frees, Cost.add_acc, Cost.add_bytes] <;> omega⟩

/-- the search for a key: reads only, at most 4 accesses for each item of the slot -/
theorem walkTables_cost (r : Rep h base slots bits cnt bk lk G) (k : Bytes) {n : Nat} (hn : (bk (hash k % 2 ^ bits)).c.length = n) :
    cev (walkTables hash base k) (fun _ c' h' => h' = h ∧ c.Upto c' 0 0 (4 * n + 6) (k.length * n)) c h := by
  obtain ⟨B0, h0, hs0, hb1, hb2, hb3⟩ := r.b0
  obtain ⟨BS, hS, hsS, hsl⟩ := r.slot (Nat.mod_lt (hash k) (Nat.two_pow_pos bits))
  refine cev_mono (Q := fun _ c' h' => h' = h ∧ c.Upto c' 0 0 (4 * n + 6) (k.length * n)) (fun _ _ _ h => h) ?_
  unfold walkTables slotOff
  simp only [Prog.bind_def, Prog.pure_def]
  refine cev_rd h0 ?_
  rw [hb2, if_neg r.sl.1]
  refine cev_rd h0 ?_
  rw [hb1]
  generalize hash k % 2 ^ bits = i at *
  refine cev_rd hS ?_
  have hbk := r.ok i
  rcases hsl with ⟨hc, hw⟩ | ⟨hd, e, hc, hw1, hw2⟩ | ⟨hd, e, t, hc, htn, hw⟩
  · rw [hw, if_pos rfl]
    exact ⟨rfl, by constructor <;> simp; omega⟩
  · have he : e ∈ (bk i).c := by rw [hc]; exact List.mem_singleton.2 rfl
    have ho := (hbk.off _ (mem_foot.2 (Or.inl ⟨e, he, rfl⟩))).1
    have hn1 : n = 1 := by rw [← hn, hc]; rfl
    subst hn1
    rw [hw1, if_neg ho.ne, if_pos ho.even]
    refine cev_bind (R := fun _ c' h' => h' = h ∧ c.Upto c' 0 0 6 k.length) ?_ ?_ (cev_mono ?_ (cev_ro ro_keyMatches (cev_every (keyMatches_every _ _ k).from)))
    · rintro m c1 h' ⟨rfl, u⟩
      split
      · refine cev_bind (R := fun _ c' h'' => h'' = h' ∧ c.Upto c' 0 0 9 k.length) ?_ ?_ (cev_mono ?_ (cev_ro ro_locate (cev_every (locate_every _ _).from)))
        · rintro m c1 h' ⟨rfl, u⟩; exact ⟨rfl, u.mono (by simp) (by simp)⟩
        · rintro m c1 h' ⟨rfl, u⟩; exact ⟨rfl, u.mono (by simp) (by simp)⟩
        · rintro _ c1 _ ⟨rfl, e', rfl, rfl⟩
          obtain ⟨u1, u2, u3, u4⟩ := u
          exact ⟨rfl, by constructor <;> simp only [Cost.add_allocs, Cost.add_frees, Cost.add_acc, Cost.add_bytes] <;> omega⟩
      · exact ⟨rfl, u.mono (by simp) (by simp)⟩
    · rintro m c1 h' ⟨rfl, u⟩; exact ⟨rfl, u.mono (by simp) (by simp)⟩
    · rintro _ c1 _ ⟨rfl, e', rfl, u⟩
      obtain ⟨u1, u2, u3, u4⟩ := u
      simp at u1 u2 u3 u4
      exact ⟨rfl, by constructor <;> simp only [Cost.add_allocs, Cost.add_frees, Cost.add_acc, Cost.add_bytes] <;> omega⟩
  · have he : e ∈ (bk i).c := by rw [hc]; exact List.mem_cons_self
    have ho := (hbk.off _ (mem_foot.2 (Or.inr ⟨hd, e, he, rfl⟩))).1
    have he2 := ho.even
    rw [hw, if_neg (by omega), if_neg (by omega), Nat.add_sub_cancel]
    refine cev_bind (R := fun _ c' h' => h' = h ∧ c.Upto c' 0 0 (4 * n + 3) (k.length * n)) ?_ ?_ ?_ (p := walkList k maxNodes 0 e.iv)
    · rintro w c1 h' ⟨rfl, u⟩
      split
      · refine cev_bind (R := fun _ c' h'' => h'' = h' ∧ c.Upto c' 0 0 (4 * n + 6) (k.length * n)) ?_ ?_ (cev_mono ?_ (cev_ro ro_locate (cev_every (locate_every _ _).from)))
        · rintro m c1 h' ⟨rfl, u⟩; exact ⟨rfl, u⟩
        · rintro m c1 h' ⟨rfl, u⟩; exact ⟨rfl, u⟩
        · rintro _ c1 _ ⟨rfl, e', rfl, rfl⟩
          obtain ⟨u1, u2, u3, u4⟩ := u
          exact ⟨rfl, by constructor <;> simp only [Cost.add_allocs, Cost.add_frees, Cost.add_acc, Cost.add_bytes] <;> omega⟩
      · exact ⟨rfl, u.mono (by omega) (Nat.le_refl _)⟩
    · rintro m c1 h' ⟨rfl, u⟩; exact ⟨rfl, u.mono (by omega) (Nat.le_refl _)⟩
    · have := walkList_cost k (bk i).c maxNodes 0 (c + { acc := 1 } + { acc := 1 } + { acc := 1 }) (hbk.seg hd)
      rw [hn, hc] at this
      refine cev_mono ?_ this
      rintro _ c1 _ ⟨rfl, u⟩
      obtain ⟨u1, u2, u3, u4⟩ := u
      simp at u1 u2 u3 u4
      exact ⟨rfl, by constructor <;> omega⟩

theorem executeCheck_ro (ck : Check) : HRo (executeCheck hash base ck) := by
  refine HRo.bind ro_walkTables fun r => ?_
  obtain ⟨ck, cv⟩ := ck
  cases r with
  | none => exact .ret
  | some l =>
    cases cv with
    | none => exact .ret
    | some v => exact HRo.ite .ret (HRo.bind .rdB fun _ => .ret)

/-- the bytes of a check's value -/
def valLen : Option Bytes → Nat
  | none => 0
  | some v => v.length

theorem executeCheck_cost (r : Rep h base slots bits cnt bk lk G) (ck : Check) {n : Nat} (hn : (bk (hash ck.1 % 2 ^ bits)).c.length = n) :
    cev (executeCheck hash base ck) (fun _ c' h' => h' = h ∧ c.Upto c' 0 0 (4 * n + 7) (ck.1.length * n + valLen ck.2)) c h := by
  unfold executeCheck
  refine cev_bind ?_ ?_ (walkTables_cost (c := c) r ck.1 hn)
  · rintro l c1 h' ⟨rfl, u⟩
    have u' := u.mono (show 4 * n + 6 ≤ 4 * n + 7 by omega) (show ck.1.length * n ≤ ck.1.length * n + valLen ck.2 by omega)
    obtain ⟨ck, cv⟩ := ck
    cases l with
    | none => exact ⟨rfl, u'⟩
    | some l =>
      cases cv with
      | none => exact ⟨rfl, u'⟩
      | some v =>
        show cev (if v.length ≠ l.2.2 then Prog.ret false else (H.rdB l.1 l.2.1 v.length).bind fun d => Prog.ret (decide (d = v))) _ _ _
        split
        · exact ⟨rfl, u'⟩
        · refine cev_rdB' ?_
          intro d hd
          refine ⟨rfl, ?_⟩
          obtain ⟨u1, u2, u3, u4⟩ := u
          constructor <;> simp [valLen] at * <;> omega
  · rintro e c1 h' ⟨rfl, u⟩
    exact ⟨rfl, u.mono (by omega) (by omega)⟩

/-- the items that share the slot of the check's key -/
def chkLen (bk : Nat → Bk) (hash : Bytes → Nat) (bits : Nat) : Option Check → Nat
  | none => 0
  | some ck => (bk (hash ck.1 % 2 ^ bits)).c.length

/-- the bytes that a check compares -/
def chkBytes (n : Nat) : Option Check → Nat
  | none => 0
  | some ck => ck.1.length * n + valLen ck.2

theorem checkOk_cost (r : Rep h base slots bits cnt bk lk G) (ck : Option Check) :
    cev (checkOk hash base ck) (fun _ c' h' => h' = h ∧ c.Upto c' 0 0 (4 * chkLen bk hash bits ck + 7) (chkBytes (chkLen bk hash bits ck) ck)) c h := by
  cases ck with
  | none => exact ⟨rfl, .refl _⟩
  | some ck => exact executeCheck_cost r ck rfl

/-! ### insert -/

/-- the cost of an insertion: one allocation, or up to three and no free -/
structure LinkCost (c c' : Cost) (x y : Nat) : Prop where
  low : c.allocs ≤ c'.allocs
  allocs : c'.allocs ≤ c.allocs + 2
  frees : (c'.frees = c.frees + 1 ∧ c'.allocs = c.allocs) ∨ c'.frees = c.frees
  acc : c'.acc ≤ c.acc + x
  bytes : c'.bytes ≤ c.bytes + y

theorem link_cost (r : Rep h base slots bits cnt bk lk G) (k : Bytes) (kv : Nat) {n : Nat} (hn : (bk (hash k % 2 ^ bits)).c.length = n) :
    cev (link base slots (slotOff hash k bits) kv k) (fun _ c' _ => LinkCost c c' (4 * n + 16) (k.length * n)) c h := by
  obtain ⟨BS, hS, hsS, hsl⟩ := r.slot (Nat.mod_lt (hash k) (Nat.two_pow_pos bits))
  unfold link slotOff
  simp only [Prog.bind_def, Prog.pure_def]
  generalize hash k % 2 ^ bits = i at *
  refine cev_rd hS ?_
  have hbk := r.ok i
  rcases hsl with ⟨hc, hw⟩ | ⟨hd, e, hc, hw1, hw2⟩ | ⟨hd, e, t, hc, htn, hw⟩
  · rw [hw, if_pos rfl]
    refine cev_every ?_
    intro _ _ _ _ _ _ _ _
    constructor <;> simp [hcost]
    omega
  · have he : e ∈ (bk i).c := by rw [hc]; exact List.mem_singleton.2 rfl
    have ho := (hbk.off _ (mem_foot.2 (Or.inl ⟨e, he, rfl⟩))).1
    have hn1 : n = 1 := by rw [← hn, hc]; rfl
    subst hn1
    rw [hw1, if_neg ho.ne, if_pos ho.even]
    refine cev_every (every_then (keyMatches_every slots (16 * i) k) ?_ ?_)
    · rintro m e' ⟨u1, u2, u3, u4⟩
      simp at u1 u2 u3 u4
      cases m with
      | true =>
        intro _ _ _ _ _ _ _ _
        constructor <;> simp [hcost, u1, u2] <;> omega
      | false =>
        intro a _
        cases a with
        | none => constructor <;> simp [hcost, u1, u2] <;> omega
        | some a =>
          intro b _
          cases b with
          | none => constructor <;> simp [hcost, u1, u2] <;> omega
          | some b =>
            intro _ _ _ _ _ _ _ _ _ _ _ _ _ _ _ _ _ _ _ _ _ _ _ _
            constructor <;> simp [hcost, u1, u2] <;> omega
    · rintro x e' ⟨u1, u2, u3, u4⟩
      simp at u1 u2 u3 u4
      constructor <;> simp [u1, u2] <;> omega
  · have he : e ∈ (bk i).c := by rw [hc]; exact List.mem_cons_self
    have ho := (hbk.off _ (mem_foot.2 (Or.inr ⟨hd, e, he, rfl⟩))).1
    have he2 := ho.even
    rw [hw, if_neg (by omega), if_neg (by omega), Nat.add_sub_cancel]
    refine cev_bind (R := fun _ c' h' => h' = h ∧ (c + { acc := 1 }).Upto c' 0 0 (4 * n) (k.length * n)) ?_ ?_ ?_ (p := walkList k maxNodes 0 e.iv)
    · rintro w c1 h' ⟨rfl, u1, u2, u3, u4⟩
      simp at u1 u2 u3 u4
      refine cev_every ?_
      by_cases hw2 : w.2 ≠ 0
      · rw [if_pos hw2]
        intro _ _ _ _ _ _ _ _
        constructor <;> simp [hcost] <;> omega
      · rw [if_neg hw2]
        intro a _
        cases a with
        | none => constructor <;> simp [hcost] <;> omega
        | some a =>
          intro _ _ _ _ _ _ _ _ _ _ _ _
          constructor <;> simp [hcost] <;> omega
    · rintro x c1 h' ⟨rfl, u1, u2, u3, u4⟩
      simp at u1 u2 u3 u4
      constructor <;> omega
    · have := walkList_cost k (bk i).c maxNodes 0 (c + { acc := 1 }) (hbk.seg hd)
      rw [hn, hc] at this
      exact this

/-- the cost of insert: nothing is allocated or freed if the check fails; otherwise the new block, and two more blocks or one free -/
structure InsertCost (out : Out Bool) (c c' : Cost) (x y : Nat) : Prop where
  unchanged : out = .ok false → c'.allocs = c.allocs ∧ c'.frees = c.frees
  allocs : c'.allocs ≤ c.allocs + 3
  low : out = .ok true → c.allocs + 1 ≤ c'.allocs
  frees : (c'.frees = c.frees + 1 ∧ c'.allocs = c.allocs + 1) ∨ c'.frees = c.frees
  acc : c'.acc ≤ c.acc + x
  bytes : c'.bytes ≤ c.bytes + y

theorem insert_cost (r : Rep h base slots bits cnt bk lk G) (k v : Bytes) (ck : Option Check) {n n' : Nat} (hn : (bk (hash k % 2 ^ bits)).c.length = n)
    (hn' : chkLen bk hash bits ck = n') :
    cev (insert hash base k v ck) (fun out c' _ => InsertCost out c c' (4 * n + 4 * n' + 30) (k.length + v.length + k.length * n + chkBytes n' ck)) c h := by
  unfold insert
  simp only [Prog.bind_def, Prog.pure_def]
  refine cev_bind ?_ ?_ (checkOk_cost (c := c) r ck)
  rotate_left
  · rintro e c1 h' ⟨rfl, u⟩
    rw [hn'] at u
    obtain ⟨u1, u2, u3, u4⟩ := u
    exact ⟨by simp, by omega, by simp, Or.inr u2, by omega, by omega⟩
  rintro go c1 h' ⟨rfl, u⟩
  rw [hn'] at u
  obtain ⟨u1, u2, u3, u4⟩ := u
  cases go with
  | false =>
    exact ⟨fun _ => ⟨u1, u2⟩, by omega, by simp, Or.inr u2, by omega, by omega⟩
  | true =>
    rw [if_pos rfl]
    refine cev_alloc ?_ ?_
    · intro kv d hf
      have hb := hf.none
      have r1 := fun B : Block => r.leak (B := B) hb
      refine cev_wrB' ?_
      intro B hB
      refine cev_wrB' ?_
      intro B' hB'
      rw [Heap.set_set, Heap.set_set]
      have r2 := r1 (B'.wrB k.length v)
      obtain ⟨B0, h0, hs0, hb1, hb2, hb3⟩ := r2.b0
      refine cev_rd h0 ?_
      refine cev_rd h0 ?_
      rw [hb1, hb2]
      refine cev_bind ?_ ?_ (link_cost r2 k kv hn)
      · rintro _ c2 h2 ⟨w0, w1, w2, w3, w4⟩
        simp at w0 w1 w2 w3 w4
        exact cev_ret ⟨by simp, by omega, by omega, by omega, by omega, by omega⟩
      · rintro e c2 h2 ⟨w0, w1, w2, w3, w4⟩
        simp at w0 w1 w2 w3 w4
        exact ⟨by simp, by omega, by simp, by omega, by omega, by omega⟩
    · exact ⟨by simp, by simp [u1], by simp, Or.inr (by simp [u2]), by simp; omega, by simp; omega⟩

/-! ### incr -/

theorem incr_cost (r : Rep h base slots bits cnt bk lk G) (k : Bytes) (N : Num R) {n : Nat} (hn : (bk (hash k % 2 ^ bits)).c.length = n) :
    cev (incr hash base k N) (fun _ c' _ => c'.frees = c.frees ∧ c.Max c' 3 0 (4 * n + 25) (k.length * n + k.length)) c h := by
  obtain ⟨B0, h0, hs0, hb1, hb2, hb3⟩ := r.b0
  obtain ⟨BS, hS, hsS, hsl⟩ := r.slot (Nat.mod_lt (hash k) (Nat.two_pow_pos bits))
  unfold incr slotOff
  simp only [Prog.bind_def, Prog.pure_def]
  refine cev_rd h0 ?_
  refine cev_rd h0 ?_
  rw [hb1, hb2]
  generalize hash k % 2 ^ bits = i at *
  refine cev_rd hS ?_
  have hbk := r.ok i
  have fin : ∀ {c2 : Cost} {a f x y : Nat}, c2.frees = c.frees → c.Max c2 a f x y → a ≤ 3 → x ≤ 4 * n + 25 → y ≤ k.length * n + k.length →
      c2.frees = c.frees ∧ c.Max c2 3 0 (4 * n + 25) (k.length * n + k.length) := by
    intro c2 a f x y hf u h1 h3 h4
    obtain ⟨u1, u2, u3, u4⟩ := u
    exact ⟨hf, by constructor <;> omega⟩
  rcases hsl with ⟨hc, hw⟩ | ⟨hd, e, hc, hw1, hw2⟩ | ⟨hd, e, t, hc, htn, hw⟩
  · rw [hw, if_pos rfl]
    refine cev_every (every_then (newNum_every N slots (16 * i) k) ?_ ?_)
    · rintro _ e' ⟨u1, u2, u3, u4⟩
      simp at u1 u2 u3 u4
      intro _ _ _ _
      refine ⟨by simp [hcost, u2], ?_⟩
      constructor <;> simp [hcost, u1, u2] <;> omega
    · rintro _ e' ⟨u1, u2, u3, u4⟩
      simp at u1 u2 u3 u4
      refine ⟨by simp [u2], ?_⟩
      constructor <;> simp [u1, u2] <;> omega
  · have he : e ∈ (bk i).c := by rw [hc]; exact List.mem_singleton.2 rfl
    have ho := (hbk.off _ (mem_foot.2 (Or.inl ⟨e, he, rfl⟩))).1
    have hn1 : n = 1 := by rw [← hn, hc]; rfl
    subst hn1
    rw [hw1, if_neg ho.ne, if_pos ho.even]
    refine cev_every (every_then (keyMatches_every slots (16 * i) k) ?_ ?_)
    · rintro m e' ⟨u1, u2, u3, u4⟩
      simp at u1 u2 u3 u4
      cases m with
      | true =>
        rw [if_pos rfl]
        refine every_then (locate_every _ _) ?_ ?_
        · rintro l _ rfl
          refine ((bump_every N _ _ _).from).mono ?_
          rintro _ _ ⟨e'', rfl, v1, v2, v3, v4⟩
          simp at v1 v2 v3 v4
          refine ⟨by simp [u2, v2], ?_⟩
          constructor <;> simp [u1, u2, v1, v2] <;> omega
        · rintro l _ rfl
          refine ⟨by simp [u2], ?_⟩
          constructor <;> simp [u1, u2] <;> omega
      | false =>
        intro a _
        cases a with
        | none =>
          refine ⟨by simp [hcost, u2], ?_⟩
          constructor <;> simp [hcost, u1, u2] <;> omega
        | some a =>
          intro b _
          cases b with
          | none =>
            refine ⟨by simp [hcost, u2], ?_⟩
            constructor <;> simp [hcost, u1, u2] <;> omega
          | some b =>
            intro _ _
            simp only [Prog.ret_bind]
            refine every_then (newNum_every N b 8 k) ?_ ?_
            · rintro _ e'' ⟨v1, v2, v3, v4⟩
              simp at v1 v2 v3 v4
              intro _ _ _ _ _ _ _ _ _ _ _ _ _ _ _ _ _ _
              refine ⟨by simp [hcost, u2, v2], ?_⟩
              constructor <;> simp [hcost, u1, u2, v1, v2] <;> omega
            · rintro _ e'' ⟨v1, v2, v3, v4⟩
              simp at v1 v2 v3 v4
              refine ⟨by simp [hcost, u2, v2], ?_⟩
              constructor <;> simp [hcost, u1, u2, v1, v2] <;> omega
    · rintro x e' ⟨u1, u2, u3, u4⟩
      simp at u1 u2 u3 u4
      refine ⟨by simp [u2], ?_⟩
      constructor <;> simp [u1, u2] <;> omega
  · have he : e ∈ (bk i).c := by rw [hc]; exact List.mem_cons_self
    have ho := (hbk.off _ (mem_foot.2 (Or.inr ⟨hd, e, he, rfl⟩))).1
    have he2 := ho.even
    rw [hw, if_neg (by omega), if_neg (by omega), Nat.add_sub_cancel]
    refine cev_bind (R := fun _ c' h' => h' = h ∧ (c + { acc := 1 } + { acc := 1 } + { acc := 1 }).Upto c' 0 0 (4 * n) (k.length * n)) ?_ ?_ ?_ (p := walkList k maxNodes 0 e.iv)
    · rintro w c1 h' ⟨rfl, u1, u2, u3, u4⟩
      simp at u1 u2 u3 u4
      refine cev_every ?_
      by_cases hw2 : w.2 ≠ 0
      · rw [if_pos hw2]
        refine every_then (locate_every _ _) ?_ ?_
        · rintro l _ rfl
          refine ((bump_every N _ _ _).from).mono ?_
          rintro _ _ ⟨e'', rfl, v1, v2, v3, v4⟩
          simp at v1 v2 v3 v4
          refine ⟨by simp [u2, v2], ?_⟩
          constructor <;> simp [u1, u2, v1, v2] <;> omega
        · rintro l _ rfl
          refine ⟨by simp [u2], ?_⟩
          constructor <;> simp [u1, u2] <;> omega
      · rw [if_neg hw2]
        intro a _
        cases a with
        | none =>
          refine ⟨by simp [hcost, u2], ?_⟩
          constructor <;> simp [hcost, u1, u2] <;> omega
        | some a =>
          intro _ _ _ _
          simp only [Prog.ret_bind]
          refine every_then (newNum_every N a 8 k) ?_ ?_
          · rintro _ e'' ⟨v1, v2, v3, v4⟩
            simp at v1 v2 v3 v4
            intro _ _ _ _
            refine ⟨by simp [hcost, u2, v2], ?_⟩
            constructor <;> simp [hcost, u1, u2, v1, v2] <;> omega
          · rintro _ e'' ⟨v1, v2, v3, v4⟩
            simp at v1 v2 v3 v4
            refine ⟨by simp [hcost, u2, v2], ?_⟩
            constructor <;> simp [hcost, u1, u2, v1, v2] <;> omega
    · rintro x c1 h' ⟨rfl, u1, u2, u3, u4⟩
      simp at u1 u2 u3 u4
      exact ⟨u2, by constructor <;> omega⟩
    · have := walkList_cost k (bk i).c maxNodes 0 (c + { acc := 1 } + { acc := 1 } + { acc := 1 }) (hbk.seg hd)
      rw [hn, hc] at this
      exact this

/-! ### erase -/

/-- the cost of erase: nothing if the key stays, otherwise 1 to 3 frees -/
structure EraseCost (out : Out Bool) (c c' : Cost) (x y : Nat) : Prop where
  allocs : c'.allocs = c.allocs
  frees : c'.frees ≤ c.frees + 3
  gone : out = .ok true → c.frees + 1 ≤ c'.frees
  stays : out = .ok false → c'.frees = c.frees
  acc : c'.acc ≤ c.acc + x
  bytes : c'.bytes ≤ c.bytes + y

theorem erase_cost (r : Rep h base slots bits cnt bk lk G) (k : Bytes) (ck : Option Check) {n n' : Nat} (hn : (bk (hash k % 2 ^ bits)).c.length = n)
    (hn' : chkLen bk hash bits ck = n') :
    cev (erase hash base k ck) (fun out c' _ => EraseCost out c c' (4 * n + 4 * n' + 25) (k.length * n + chkBytes n' ck)) c h := by
  unfold erase slotOff
  simp only [Prog.bind_def, Prog.pure_def]
  refine cev_bind ?_ ?_ (checkOk_cost (c := c) r ck)
  rotate_left
  · rintro e c1 h' ⟨rfl, u⟩
    rw [hn'] at u
    obtain ⟨u1, u2, u3, u4⟩ := u
    exact ⟨by omega, by omega, by simp, by simp, by omega, by omega⟩
  rintro go c1 h' ⟨rfl, u⟩
  rw [hn'] at u
  obtain ⟨u1, u2, u3, u4⟩ := u
  cases go with
  | false => exact ⟨by omega, by omega, by simp, fun _ => u2, by omega, by omega⟩
  | true =>
    rw [if_pos rfl]
    obtain ⟨B0, h0, hs0, hb1, hb2, hb3⟩ := r.b0
    obtain ⟨BS, hS, hsS, hsl⟩ := r.slot (Nat.mod_lt (hash k) (Nat.two_pow_pos bits))
    refine cev_rd h0 ?_
    refine cev_rd h0 ?_
    rw [hb1, hb2]
    generalize hash k % 2 ^ bits = i at *
    refine cev_rd hS ?_
    have hbk := r.ok i
    rcases hsl with ⟨hc, hw⟩ | ⟨hd, e, hc, hw1, hw2⟩ | ⟨hd, e, t, hc, htn, hw⟩
    · rw [hw, if_pos rfl]
      exact ⟨by simp [u1], by simp [u2], by simp, by simp [u2], by simp; omega, by simp; omega⟩
    · have he : e ∈ (bk i).c := by rw [hc]; exact List.mem_singleton.2 rfl
      have ho := (hbk.off _ (mem_foot.2 (Or.inl ⟨e, he, rfl⟩))).1
      have hn1 : n = 1 := by rw [← hn, hc]; rfl
      subst hn1
      rw [hw1, if_neg ho.ne, if_pos ho.even]
      refine cev_every (every_then (keyMatches_every slots (16 * i) k) ?_ ?_)
      · rintro m e' ⟨v1, v2, v3, v4⟩
        simp at v1 v2 v3 v4
        cases m with
        | true =>
          intro _ _ _ _ _ _ _ _ _ _ _ _
          exact ⟨by simp [hcost, u1, v1], by simp [hcost, u2, v2], by simp [hcost, u2, v2], by simp, by simp [hcost]; omega, by simp [hcost]; omega⟩
        | false => exact ⟨by simp [u1, v1], by simp [u2, v2], by simp, by simp [u2, v2], by simp; omega, by simp; omega⟩
      · rintro m e' ⟨v1, v2, v3, v4⟩
        simp at v1 v2 v3 v4
        exact ⟨by simp [u1, v1], by simp [u2, v2], by simp, by simp, by simp; omega, by simp; omega⟩
    · have he : e ∈ (bk i).c := by rw [hc]; exact List.mem_cons_self
      have ho := (hbk.off _ (mem_foot.2 (Or.inr ⟨hd, e, he, rfl⟩))).1
      have he2 := ho.even
      rw [hw, if_neg (by omega), if_neg (by omega), Nat.add_sub_cancel]
      refine cev_bind (R := fun _ c' h'' => h'' = h' ∧ (c1 + { acc := 1 } + { acc := 1 } + { acc := 1 }).Upto c' 0 0 (4 * n) (k.length * n)) ?_ ?_ ?_ (p := walkList k maxNodes 0 e.iv)
      · rintro w c2 h' ⟨rfl, v1, v2, v3, v4⟩
        simp at v1 v2 v3 v4
        refine cev_every ?_
        by_cases hw2 : w.2 ≠ 0
        · rw [if_pos hw2]
          refine every_then (unlinkIv_every _ _ _ _) ?_ ?_
          · rintro _ _ rfl
            intro _ _ _ _ _ _
            simp only [Prog.ret_bind]
            refine every_then (unchain_every _ _) ?_ ?_
            · rintro _ e'' ⟨w1, w2, w3, w4⟩
              simp at w1 w2 w3 w4
              intro _ _ _ _
              exact ⟨by simp [hcost, u1, v1]; omega, by simp [hcost, u2, v2]; omega, by simp [hcost, u2, v2]; omega, by simp, by simp [hcost]; omega, by simp [hcost]; omega⟩
            · rintro _ e'' ⟨w1, w2, w3, w4⟩
              simp at w1 w2 w3 w4
              exact ⟨by simp [hcost, u1, v1]; omega, by simp [hcost, u2, v2]; omega, by simp, by simp, by simp [hcost]; omega, by simp [hcost]; omega⟩
          · rintro _ _ rfl
            exact ⟨by simp [u1, v1], by simp [u2, v2], by simp, by simp, by simp; omega, by simp; omega⟩
        · rw [if_neg hw2]
          exact ⟨by omega, by omega, by simp, fun _ => by omega, by omega, by omega⟩
      · rintro x c2 h' ⟨rfl, v1, v2, v3, v4⟩
        simp at v1 v2 v3 v4
        exact ⟨by omega, by omega, by simp, by simp, by omega, by omega⟩
      · have := walkList_cost k (bk i).c maxNodes 0 (c1 + { acc := 1 } + { acc := 1 } + { acc := 1 }) (hbk.seg hd)
        rw [hn, hc] at this
        exact this


/-! ### clear -/

theorem freeChain_cost (cs : List Ent) : ∀ (fuel : Nat) (h : Heap) (c : Cost), Seg h cs 0 → (cs.map Ent.kv ++ cs.map Ent.iv).Nodup → (∀ e ∈ cs, e.iv ≠ 0) →
    cev (freeChain fuel (headIv cs 0)) (fun _ c' _ => c' = c + { frees := 2 * cs.length, acc := 2 * cs.length }) c h := by
  induction cs with
  | nil =>
    intro fuel h c _ _ _
    cases fuel with
    | zero => trivial
    | succ n => exact (Cost.add_zero c).symm
  | cons e t ih =>
    intro fuel h c hs hn hz
    cases fuel with
    | zero => trivial
    | succ f =>
      obtain ⟨⟨B, b1, b2, b3, b4, b5⟩, hs2⟩ := hs
      simp only [List.map_cons, List.cons_append, List.nodup_cons, List.mem_append, List.mem_cons, not_or, List.nodup_middle] at hn
      obtain ⟨⟨n1, n2, n3⟩, ⟨n4, n5⟩, n6⟩ := hn
      show cev (freeChain (f + 1) e.iv) _ c h
      unfold freeChain
      rw [if_neg (hz e List.mem_cons_self)]
      refine cev_rd b1 ?_
      refine cev_rd b1 ?_
      rw [b3, b4]
      refine cev_free' ?_
      intro _ _
      refine cev_free' ?_
      intro _ _
      have hd : ∀ x, x ≠ e.kv → x ≠ e.iv → ((h.del e.kv).del e.iv).blk x = h.blk x := fun x h1 h2 => by
        rw [Heap.del_ne _ _ _ h2, Heap.del_ne _ _ _ h1]
      refine cev_mono ?_ (ih f _ _ (Seg_congr (fun x hx => hd _ ?_ ?_) hs2) n6 (fun x hx => hz x (List.mem_cons_of_mem _ hx)))
      · rintro _ _ _ rfl
        ext <;> simp <;> omega
      · rintro e1; exact n3 (e1 ▸ List.mem_map.2 ⟨x, hx, rfl⟩)
      · rintro e1; exact n5 (e1 ▸ List.mem_map.2 ⟨x, hx, rfl⟩)

/-- the cost of emptying slots with `n` items -/
structure SlotCost (c c' : Cost) (n lo hi : Nat) : Prop where
  allocs : c'.allocs = c.allocs
  frees : c.frees + n ≤ c'.frees ∧ c'.frees ≤ c.frees + 2 * n
  acc : c.acc + lo ≤ c'.acc ∧ c'.acc ≤ c.acc + hi + 2 * n
  bytes : c'.bytes = c.bytes

theorem clearSlot_cost (r : Rep h base slots bits cnt bk lk G) {i : Nat} (hi : i < 2 ^ bits) :
    cev (clearSlot slots i) (fun _ c' _ => SlotCost c c' (bk i).c.length 1 3) c h := by
  obtain ⟨BS, hS, hsS, hsl⟩ := r.slot hi
  have hbk := r.ok i
  unfold clearSlot
  simp only [Prog.bind_def]
  refine cev_rd hS ?_
  rcases hsl with ⟨hc, hw⟩ | ⟨hd, e, hc, hw1, hw2⟩ | ⟨hd, e, t, hc, htn, hw⟩
  · rw [hw, if_pos rfl, hc]
    refine cev_ret ?_
    constructor <;> simp
  · have he : e ∈ (bk i).c := by rw [hc]; exact List.mem_singleton.2 rfl
    obtain ⟨ho, ho2, ho3⟩ := (hbk.mem_off he).1
    have he2 := ho.even
    rw [hw1, if_neg ho.ne]
    unfold freeSlot
    rw [if_neg (by omega), hc]
    refine cev_every ?_
    intro _ _ _ _ _ _
    constructor <;> simp [hcost]
  · have he : e ∈ (bk i).c := by rw [hc]; exact List.mem_cons_self
    have ho := ((hbk.mem_off he).2 hd).1
    have he2 := ho.even
    rw [hw, if_neg (by omega)]
    unfold freeSlot
    rw [if_pos (by omega), Nat.add_sub_cancel]
    have hft : (bk i).foot = (bk i).c.map Ent.kv ++ (bk i).c.map Ent.iv := by simp [Bk.foot, hd]
    have := freeChain_cost (bk i).c maxNodes h (c + { acc := 1 }) (hbk.seg hd) (hft ▸ hbk.nodup) (fun e he => (hbk.walkable hd e he).2)
    rw [show headIv (bk i).c 0 = e.iv by rw [hc]; rfl] at this
    refine cev_bind ?_ ?_ this
    · rintro _ c1 h1 rfl
      refine cev_every ?_
      intro _ _ _ _
      constructor <;> simp [hcost] <;> omega
    · rintro _ c1 h1 rfl
      constructor <;> simp <;> omega

/-- the number of items in slots x, x+1, ..., x+n-1 -/
def itemsIn (bk : Nat → Bk) : Nat → Nat → Nat
  | _, 0 => 0
  | x, n + 1 => (bk x).c.length + itemsIn bk (x + 1) n

theorem itemsIn_congr {bk bk' : Nat → Bk} (n : Nat) : ∀ {x : Nat}, (∀ j, x ≤ j → (bk j).c = (bk' j).c) → itemsIn bk x n = itemsIn bk' x n := by
  induction n with
  | zero => exact fun _ => rfl
  | succ n ih =>
    intro x hx
    unfold itemsIn
    rw [hx x (Nat.le_refl _), ih (fun j hj => hx j (by omega))]

theorem clearLoop_cost (n : Nat) : ∀ (fuel x : Nat) (bk : Nat → Bk) (h : Heap) (c : Cost), x + n = 2 ^ bits → Rep h base slots bits cnt bk lk G →
    cev (clearLoop base fuel x) (fun _ c' _ => SlotCost c c' (itemsIn bk x n) (3 * n + 1) (5 * n + 1)) c h := by
  induction n with
  | zero =>
    intro fuel x bk h c hx r
    cases fuel with
    | zero => trivial
    | succ f =>
      obtain ⟨B0, h0, hs0, hb1, hb2, hb3⟩ := r.b0
      unfold clearLoop
      refine cev_rd h0 ?_
      rw [hb1, if_neg (by omega)]
      refine cev_ret ?_
      constructor <;> simp [itemsIn]
  | succ n ih =>
    intro fuel x bk h c hx r
    cases fuel with
    | zero => trivial
    | succ f =>
      obtain ⟨B0, h0, hs0, hb1, hb2, hb3⟩ := r.b0
      unfold clearLoop
      refine cev_rd h0 ?_
      rw [hb1, if_pos (by omega)]
      refine cev_rd h0 ?_
      rw [hb2]
      refine cev_bind ?_ ?_ (cev_wp (clearSlot_spec r ⟨by omega, fun h => h⟩) (clearSlot_cost r (by omega)))
      · rintro _ c1 h' ⟨⟨-, r'⟩, u1, u2, u3, u4⟩
        refine cev_mono ?_ (ih f (x + 1) _ h' c1 (by omega) r')
        rintro _ c2 h'' ⟨v1, v2, v3, v4⟩
        rw [itemsIn_congr n (x := x + 1) (bk' := bk) (by intro j hj; rw [if_neg (by omega)])] at v2 v3
        simp at u1 u2 u3 u4
        unfold itemsIn
        constructor <;> omega
      · rintro _ _ _ ⟨⟨hx, -⟩, -⟩; cases hx

theorem itemsIn_table {m : Pairs} (hp : ∀ i, (bk i).pairs = m.filter (fun e => decide (hash e.1 % 2 ^ bits = i))) (N : Nat) (hN : N = 2 ^ bits) :
    itemsIn bk 0 N = m.length := by
  have hl : ∀ i, (bk i).c.length = (m.filter (fun e => decide (hash e.1 % 2 ^ bits = i))).length := by
    intro i; rw [← hp i]; simp [Bk.pairs]
  have key : ∀ n x, itemsIn bk x n = (m.filter fun e => decide (x ≤ hash e.1 % 2 ^ bits ∧ hash e.1 % 2 ^ bits < x + n)).length := by
    clear hN
    intro n
    induction n with
    | zero =>
      intro x
      rw [itemsIn, eq_comm, List.length_eq_zero_iff, List.filter_eq_nil_iff]
      intro e _ h
      simp at h
      omega
    | succ n ih =>
      intro x
      rw [itemsIn, ih (x + 1), hl x]
      clear ih hl hp
      induction m with
      | nil => rfl
      | cons e t iht =>
        simp only [List.filter_cons]
        generalize hash e.1 % 2 ^ bits = y
        by_cases h1 : y = x
        · have h2 : ¬ (x + 1 ≤ y ∧ y < x + 1 + n) := by omega
          have h3 : x ≤ y ∧ y < x + (n + 1) := by omega
          rw [decide_eq_true h1, decide_eq_false h2, decide_eq_true h3]
          simp only [if_true, Bool.false_eq_true, if_false, List.length_cons]
          omega
        · have h2 : (x + 1 ≤ y ∧ y < x + 1 + n) ↔ (x ≤ y ∧ y < x + (n + 1)) := by omega
          rw [decide_eq_false h1, decide_eq_decide.2 h2]
          by_cases h3 : x ≤ y ∧ y < x + (n + 1)
          · rw [decide_eq_true h3]
            simp only [if_true, Bool.false_eq_true, if_false, List.length_cons]
            omega
          · rw [decide_eq_false h3]
            simp only [Bool.false_eq_true, if_false]
            omega
  rw [key]
  rw [List.filter_eq_self.2]
  intro e _
  have := Nat.mod_lt (hash e.1) (Nat.two_pow_pos bits)
  simp
  omega

theorem clear_cost {m : Pairs} (t : Table hash base slots bits G m lk h) :
    cev (clear base) (fun _ c' _ => SlotCost c c' m.length (3 * 2 ^ bits) (5 * 2 ^ bits + 2)) c h := by
  obtain ⟨bk, r, hp, hn⟩ := t
  unfold clear
  refine cev_bind ?_ ?_ (clearLoop_cost (2 ^ bits) maxNodes 0 bk h c (by omega) r)
  · rintro _ c1 h1 ⟨u1, u2, u3, u4⟩
    rw [itemsIn_table hp _ rfl] at u2 u3
    refine cev_every ?_
    intro _ _
    constructor <;> simp [hcost] <;> omega
  · rintro _ c1 h1 ⟨u1, u2, u3, u4⟩
    rw [itemsIn_table hp _ rfl] at u2 u3
    constructor <;> omega


/-! ### exists and at -/

theorem at_cost (r : Rep h base slots bits cnt bk lk G) (k : Bytes) {n : Nat} (hn : (bk (hash k % 2 ^ bits)).c.length = n) :
    cev («at» hash base k) (fun out c' _ => (∀ d, out = .ok d → c.Upto c' 0 0 (4 * n + 7) (k.length * n + d.length)) ∧
      (∀ e, out = .err e → c.Upto c' 0 0 (4 * n + 6) (k.length * n))) c h := by
  unfold «at»
  refine cev_bind ?_ ?_ (walkTables_cost (c := c) r k hn)
  · rintro l c1 h' ⟨rfl, u⟩
    cases l with
    | none => exact ⟨by simp, fun _ _ => u⟩
    | some l =>
      show cev ((H.rdB l.1 l.2.1 l.2.2).bind fun d => Prog.ret d) _ _ _
      refine cev_rdB' ?_
      intro d hd
      refine cev_ret ⟨?_, by simp⟩
      rintro _ ⟨⟩
      obtain ⟨u1, u2, u3, u4⟩ := u
      constructor <;> simp <;> omega
  · rintro e c1 h' ⟨rfl, u⟩
    exact ⟨by simp, fun _ _ => u⟩

theorem exist_cost (r : Rep h base slots bits cnt bk lk G) (k : Bytes) {n : Nat} (hn : (bk (hash k % 2 ^ bits)).c.length = n) :
    cev (exist hash base k) (fun _ c' _ => c.Upto c' 0 0 (4 * n + 6) (k.length * n)) c h := by
  unfold exist
  refine cev_bind ?_ ?_ (walkTables_cost (c := c) r k hn)
  · rintro l c1 h' ⟨rfl, u⟩; exact u
  · rintro l c1 h' ⟨rfl, u⟩; exact u

/-! ### Iterating -/

theorem ro_readPair {b o : Nat} : HRo (readPair b o) :=
  HRo.bind .rd fun _ => HRo.bind .rd fun _ => HRo.bind .bsize fun _ => HRo.bind .rdB fun _ => HRo.bind .rdB fun _ => .ret

theorem ro_readChain (fuel : Nat) : ∀ cur, HRo (readChain fuel cur) := by
  induction fuel with
  | zero => exact fun _ => .ub
  | succ n ih => exact fun _ => .ite .ret (HRo.bind ro_readPair fun _ => HRo.bind .rd fun _ => HRo.bind (ih _) fun _ => .ret)

theorem ro_slotContents {b i : Nat} : HRo (slotContents b i) :=
  HRo.bind .rd fun _ => HRo.bind .rd fun _ => .ite .ret (.ite (HRo.bind ro_readPair fun _ => .ret) (ro_readChain _ _))

theorem ro_bits {b : Nat} : HRo (HashTable.bits b) := HRo.bind .rd fun _ => .ret

theorem ro_advance {b : Nat} (fuel : Nat) : ∀ it, HRo (advance b fuel it) := by
  induction fuel with
  | zero => exact fun _ => .ub
  | succ n ih => exact fun it => .ite (HRo.bind ro_bits fun _ => .ite (HRo.bind ro_slotContents fun _ => ih _) (by first | exact .ret | exact HRo.bind ro_slotContents fun _ => .ret)) .ret

theorem ro_iterAt {b i : Nat} : HRo (iterAt b i) :=
  HRo.bind ro_bits fun _ => .ite (HRo.bind ro_slotContents fun _ => ro_advance _ _) .ret

theorem ro_visit {b : Nat} (fuel : Nat) : ∀ it, HRo (visit b fuel it) := by
  induction fuel with
  | zero => exact fun _ => .ub
  | succ n ih =>
    exact fun it => HRo.bind (HRo.bind ro_bits fun _ => ro_iterAt) fun _ => .ite .ret
      (HRo.bind (HRo.bind ro_bits fun _ => .ite .err (ro_advance _ _)) fun _ => HRo.bind (ih _) fun _ => .ret)

theorem ro_items {b : Nat} : HRo (items b) := HRo.bind ro_iterAt fun _ => ro_visit _ _
end

/-- methods that only read neither allocate nor free -/
theorem HRo.free_of_charge {α : Type} {p : HProg α} : ∀ {c : Cost}, HRo p → HEvery p c fun _ c' => c'.allocs = c.allocs ∧ c'.frees = c.frees := by
  induction p with
  | ret | err => exact fun _ => ⟨rfl, rfl⟩
  | ub => exact fun _ => trivial
  | step op k ih =>
    intro c hr
    cases op with
    | rd | rdB | bsize | getBase => exact fun v _ => (ih v (hr v)).mono fun _ _ h => ⟨by rw [h.1]; simp [hcost], by rw [h.2]; simp [hcost]⟩
    | _ => exact hr.elim
end HashTable

namespace HT
/-- the items whose slot a check has to search -/
def checkNear (hash : Bytes → Nat) (bits : Nat) (m : Pairs) : Option Check → Nat
  | none => 0
  | some (k, _) => (slot hash bits m k).length

/-- the bytes that a check may compare -/
def checkBytes (hash : Bytes → Nat) (bits : Nat) (m : Pairs) : Option Check → Nat
  | none => 0
  | some (k, v) => k.length * (slot hash bits m k).length + match v with
    | none => 0
    | some v => v.length

/-- What a call may cost on a table with the pairs `m`, where n = (slot hash bits m k).length is the number of items in the key's slot.
README: insert 1-3 allocations and 0-1 frees, incr up to 3 allocations, erase 0-3 frees, clear up to 2 frees per item, exists and at only read; size one access.  The README's
"O(1) amortized" is here 4 accesses for each item in the slot (and in the slot of the check's key) and a constant.  clear visits all 2^bits slots, so its cost is not, as the README says, O(items). -/
def Bound (hash : Bytes → Nat) (bits : Nat) (m : Pairs) (op : Op) (r : Out Ret) (c : Cost) : Prop :=
  match op with
  | .insert k v ck =>
    (r = .ok (.bool false) → c.allocs = 0 ∧ c.frees = 0) ∧ (r = .ok (.bool true) → 1 ≤ c.allocs) ∧ c.allocs ≤ 3 ∧ c.frees ≤ 1 ∧ (c.frees = 1 → c.allocs = 1) ∧
    c.acc ≤ 4 * (slot hash bits m k).length + 4 * checkNear hash bits m ck + 30 ∧
    c.bytes ≤ k.length + v.length + k.length * (slot hash bits m k).length + checkBytes hash bits m ck
  | .erase k ck =>
    c.allocs = 0 ∧ c.frees ≤ 3 ∧ (r = .ok (.bool true) → 1 ≤ c.frees) ∧ (r = .ok (.bool false) → c.frees = 0) ∧
    c.acc ≤ 4 * (slot hash bits m k).length + 4 * checkNear hash bits m ck + 25 ∧ c.bytes ≤ k.length * (slot hash bits m k).length + checkBytes hash bits m ck
  | .incr k _ | .incrDouble k _ =>
    c.allocs ≤ 3 ∧ c.frees = 0 ∧ c.acc ≤ 4 * (slot hash bits m k).length + 25 ∧ c.bytes ≤ k.length * (slot hash bits m k).length + k.length
  | .at k => c.allocs = 0 ∧ c.frees = 0 ∧ c.acc ≤ 4 * (slot hash bits m k).length + 7 ∧ ∃ n, (r = .ok (.str n) ∨ n = []) ∧ c.bytes ≤ k.length * (slot hash bits m k).length + n.length
  | .exists k => c.allocs = 0 ∧ c.frees = 0 ∧ c.acc ≤ 4 * (slot hash bits m k).length + 6 ∧ c.bytes ≤ k.length * (slot hash bits m k).length
  | .size => c = { acc := 1 }
  | .clear => c.allocs = 0 ∧ m.length ≤ c.frees ∧ c.frees ≤ 2 * m.length ∧ 3 * 2 ^ bits ≤ c.acc ∧ c.acc ≤ 5 * 2 ^ bits + 2 * m.length + 2 ∧ c.bytes = 0
  | .items => c.allocs = 0 ∧ c.frees = 0
end HT

open HT
namespace HashTable
variable {hash : Bytes → Nat} {F : Fp} {base slots bits : Nat} {G : Nat → Option Block}

theorem near {bk : Nat → Bk} {m : Pairs} (hp : ∀ i, (bk i).pairs = m.filter (fun e => decide (hash e.1 % 2 ^ bits = i))) (k : Bytes) :
    (bk (hash k % 2 ^ bits)).c.length = (slot hash bits m k).length := by
  unfold slot
  rw [← hp]
  simp [Bk.pairs]

attribute [local irreducible] cev in
theorem incr_call_cost {R : Type} {cnt : Nat} {bk : Nat → Bk} {lk : List Nat} {m : Pairs} {h : Heap} (r : Rep h base slots bits cnt bk lk G) (k : Bytes) (N : Num R) (f : R → Ret)
    (hn : (bk (hash k % 2 ^ bits)).c.length = (slot hash bits m k).length) :
    cev ((incr hash base k N).bind fun a => .ret (f a)) (fun _ c _ => c.allocs ≤ 3 ∧ c.frees = 0 ∧ c.acc ≤ 4 * (slot hash bits m k).length + 25 ∧
      c.bytes ≤ k.length * (slot hash bits m k).length + k.length) {} h := by
  have hc := incr_cost (c := {}) r k N hn
  refine cev_bind ?_ ?_ hc <;>
  · rintro a c' h' ⟨u0, u1, u2, u3, u4⟩
    have num : ∀ {x : Nat}, 0 + x = x := Nat.zero_add _
    simp only [num] at u0 u1 u2 u3 u4
    first
      | exact ⟨u1, u0, u3, u4⟩
      | exact cev_ret ⟨u1, u0, u3, u4⟩

attribute [local irreducible] cev in
theorem call_cost {s : Pairs × List Nat} {op : Op} {h : Heap} (hi : Table hash base slots bits G s.1 s.2 h) :
    cev (call hash F base op) (fun r c _ => Bound hash bits s.1 op r c) {} h := by
  obtain ⟨m, lk⟩ := s
  have hi' := hi
  obtain ⟨bk, r, hp, hnd⟩ := hi
  have hc1 : ∀ ck, chkLen bk hash bits ck = checkNear hash bits m ck := by
    intro ck
    cases ck with
    | none => rfl
    | some ck => exact near hp ck.1
  have hc2 : ∀ ck, chkBytes (checkNear hash bits m ck) ck = checkBytes hash bits m ck := by
    rintro (- | ⟨k, - | v⟩) <;> rfl
  have bd : ∀ {α : Type} {p : HProg α} {f : α → Ret} {op : Op} {P : Out α → Cost → Prop}, cev p (fun o c _ => P o c) {} h → (∀ a c, P (.ok a) c → Bound hash bits m op (.ok (f a)) c) →
      (∀ e c, P (.err e) c → Bound hash bits m op (.err e) c) → cev (p.bind fun a => .ret (f a)) (fun r c _ => Bound hash bits m op r c) {} h := by
    intro α p f op P hc h1 h2
    refine cev_bind ?_ ?_ hc
    · intro a c' h' hP; exact cev_ret (h1 a c' hP)
    · intro e c' h' hP; exact h2 e c' hP
  have num : ∀ {x : Nat}, 0 + x = x := Nat.zero_add _
  cases op with
  | insert k v ck =>
    have fin : ∀ (o : Out Bool) (q : Out Ret) (c : Cost), InsertCost o {} c (4 * (slot hash bits m k).length + 4 * checkNear hash bits m ck + 30)
        (k.length + v.length + k.length * (slot hash bits m k).length + chkBytes (checkNear hash bits m ck) ck) →
        (∀ b, q = .ok (.bool b) → o = .ok b) → Bound hash bits m (.insert k v ck) q c := by
      intro o q c u hq
      obtain ⟨u1, u2, u3, u4, u5, u6⟩ := u
      simp only [num] at u1 u2 u3 u4 u5 u6
      rw [hc2] at u6
      exact ⟨fun h => u1 (hq _ h), fun h => u3 (hq _ h), u2, by omega, by omega, u5, u6⟩
    refine bd (insert_cost r k v ck (near hp k) (hc1 ck)) ?_ ?_
    · intro a c u; exact fin _ _ _ u (by rintro b ⟨⟩; rfl)
    · intro e c u; exact fin _ _ _ u (by rintro b ⟨⟩)
  | erase k ck =>
    have fin : ∀ (o : Out Bool) (q : Out Ret) (c : Cost), EraseCost o {} c (4 * (slot hash bits m k).length + 4 * checkNear hash bits m ck + 25)
        (k.length * (slot hash bits m k).length + chkBytes (checkNear hash bits m ck) ck) →
        (∀ b, q = .ok (.bool b) → o = .ok b) → Bound hash bits m (.erase k ck) q c := by
      intro o q c u hq
      obtain ⟨u1, u2, u3, u4, u5, u6⟩ := u
      simp only [num] at u1 u2 u3 u4 u5 u6
      rw [hc2] at u6
      exact ⟨u1, u2, fun h => u3 (hq _ h), fun h => u4 (hq _ h), u5, u6⟩
    refine bd (erase_cost r k ck (near hp k) (hc1 ck)) ?_ ?_
    · intro a c u; exact fin _ _ _ u (by rintro b ⟨⟩; rfl)
    · intro e c u; exact fin _ _ _ u (by rintro b ⟨⟩)
  | incr k d => exact incr_call_cost r k (intNum d) Ret.word (near hp k)
  | incrDouble k d => exact incr_call_cost r k (dblNum F.add F.widen d) Ret.word (near hp k)
  | «at» k =>
    refine bd (at_cost r k (near hp k)) ?_ ?_
    · rintro a c ⟨u, -⟩
      obtain ⟨u1, u2, u3, u4⟩ := u a rfl
      simp only [num] at u1 u2 u3 u4
      exact ⟨u1, u2, u3, a, Or.inl rfl, u4⟩
    · rintro a c ⟨-, u⟩
      obtain ⟨u1, u2, u3, u4⟩ := u a rfl
      simp only [num] at u1 u2 u3 u4
      exact ⟨u1, u2, by omega, [], Or.inr rfl, u4⟩
  | «exists» k =>
    refine bd (exist_cost r k (near hp k)) ?_ ?_ <;>
    · rintro a c ⟨u1, u2, u3, u4⟩
      simp only [num] at u1 u2 u3 u4
      exact ⟨u1, u2, u3, u4⟩
  | size =>
    refine cev_every ?_
    intro _ _; rfl
  | clear =>
    refine bd (clear_cost hi') ?_ ?_ <;>
    · rintro a c ⟨u1, u2, u3, u4⟩
      simp only [num] at u1 u2 u3 u4
      exact ⟨u1, u2.1, u2.2, u3.1, by omega, u4⟩
  | items =>
    refine bd (cev_every (HRo.free_of_charge ro_items)) ?_ ?_
    · rintro a c ⟨u1, u2⟩; exact ⟨u1, u2⟩
    · rintro a c ⟨u1, u2⟩; exact ⟨u1, u2⟩

theorem cost_step (op : Op) (s : Pairs × List Nat) (h : Heap) (hok : op.ok hash bits s.1) (hi : Table hash base slots bits G s.1 s.2 h) :
    wp (counted (call hash F base op)) (fun out h' => ∃ s', CSpec (SpecL F) (fun s => Bound hash bits s.1) s op out s' ∧ Table hash base slots bits G s'.1 s'.2 h') h :=
  cwp_step (cev_and (step op s h hok hi) (call_cost hi))
end HashTable

/-- calls that are allowed are allowed when they are counted -/
theorem Guarded.counted {S O R : Type} {Spec : S → O → Out R → S → Prop} {ok : S → O → Prop} {B : S → O → Out R → Cost → Prop} {ops : List O} :
    ∀ {s : S}, Guarded Spec ok s ops → Guarded (CSpec Spec B) ok s ops := by
  induction ops with
  | nil => exact fun _ => trivial
  | cons o os ih =>
    intro s g
    refine ⟨g.1, ?_⟩
    rintro x s' ⟨r, c, -, h1, -⟩
    exact ih (g.2 r s' h1)

/-- **C65.** In a pool with any history of SimpleAllocator calls (including crashes), for every hash function and any sequence of calls of a new hash table (those that C35 and
C37 cover), every call costs no more than `HT.Bound` says.  The results are those of C34. -/
theorem C65_hashtable_cost (hash : Bytes → Nat) (F : Fp) (bits : Nat) (hb : 2 ≤ bits) (hb2 : bits < 31)
    {p0 p : Pool} {live lk : List (Nat × Nat)} {ex : Bool} (h : Hist p0 p live lk ex) {b : Nat} {p1 : Pool}
    (hc : run (compile (HashTable.create bits)) p = (.ok b, p1)) (ops : List Op) (hok : Guarded (Spec F) (Op.ok hash bits) [] ops) :
    ∃ rs p2 m, run (compile (hist (fun o => counted (HashTable.call hash F b o)) ops)) p1 = (.ok rs, p2) ∧ Trace (CSpec (Spec F) (Bound hash bits)) [] ops rs m := by
  obtain ⟨hp, hs, hl⟩ := h.sim
  obtain ⟨out, p1', h1, hr, hq, hs1⟩ := sim_run (HashTable.create_spec (hash := hash) hp hb hb2) hs
  have he := Prod.mk.inj (hc.symm.trans hr)
  rcases hq with ⟨rfl, -⟩ | ⟨b', sl, rfl, -, ht⟩
  · cases he.1
  · cases he.1
    cases he.2
    have hmap : ∀ (s : Pairs × List Nat) (o : Op) r (s' : Pairs × List Nat), CSpec (SpecL F) (fun s => Bound hash bits s.1) s o r s' → CSpec (Spec F) (Bound hash bits) s.1 o r s'.1 := by
      rintro s o r s' ⟨r', c, h1, h2, h3⟩
      exact ⟨r', c, h1, h2.1, h3⟩
    obtain ⟨rs, p2, s, h2, e1, e2, -⟩ :=
      hist_run_guarded (f := fun o => counted (HashTable.call hash F b o)) (Spec := CSpec (SpecL F) (fun s => Bound hash bits s.1))
        (Inv := fun s h => HashTable.Table hash b sl bits hp.blk s.1 s.2 h) (ok := fun s o => o.ok hash bits s.1)
        (fun s o h h1 h2 => HashTable.cost_step o s h h1 h2) ops (s := ([], [])) (h := h1) (p := p1)
        (Guarded.map (f := Prod.fst) hmap (Guarded.counted hok)) ht hs1
    exact ⟨rs, p2, s.1, e1, Trace.map (f := Prod.fst) hmap e2⟩

/-- **C65, when no keys collide.** With keys of which no two have the same slot, every call except clear and iterations makes at most 38 accesses. -/
theorem C65_constant_without_collisions {hash : Bytes → Nat} {bits : Nat} {K : Bytes → Prop} (ha : HashTable.Apart hash bits K) {m : Pairs} (hn : (keys m).Nodup)
    (hm : ∀ k ∈ keys m, K k) {op : Op} (ho : op.within K) (hat : ∀ k, op = .at k ∨ op = .exists k → K k)
    (hck : ∀ k v ck cv, op = .insert k v (some (ck, cv)) ∨ op = .erase k (some (ck, cv)) → K ck) (h1 : op ≠ .clear) (h2 : op ≠ .items) {r : Out Ret} {c : Cost}
    (hB : Bound hash bits m op r c) : c.acc ≤ 38 := by
  have near : ∀ k, K k → (slot hash bits m k).length ≤ 1 := fun k hk => slot_small ha hn hm hk
  have cn : ∀ ck, (∀ k v, ck = some (k, v) → K k) → checkNear hash bits m ck ≤ 1 := by
    rintro (- | ⟨k, v⟩) h
    · exact Nat.zero_le _
    · exact near k (h k v rfl)
  cases op with
  | insert k v ck =>
    have e1 := near k ho.1
    have e2 := cn ck (by rintro k' v' rfl; exact hck k v k' v' (Or.inl rfl))
    have := hB.2.2.2.2.2.1
    omega
  | erase k ck =>
    have e1 := near k ho
    have e2 := cn ck (by rintro k' v' rfl; exact hck k [] k' v' (Or.inr rfl))
    have := hB.2.2.2.2.1
    omega
  | incr k d => have e1 := near k ho.1; have := hB.2.2.1; omega
  | incrDouble k d => have e1 := near k ho.1; have := hB.2.2.1; omega
  | «at» k => have e1 := near k (hat k (Or.inl rfl)); have := hB.2.2.1; omega
  | «exists» k => have e1 := near k (hat k (Or.inr rfl)); have := hB.2.2.1; omega
  | size => rw [show c = { acc := 1 } from hB]; decide
  | clear => exact absurd rfl h1
  | items => exact absurd rfl h2

/-- a concrete run with collisions and its costs -/
example : (run (compile (HashTable.create 2)) (run Simple.init (newPool 0)).2).1 = .ok 344 ∧
    (run (compile (hist (fun o => counted (HashTable.call HashTable.fnv1a64 noFp 344 o)) [.insert [0] [10] none, .insert [4] [1] none, .insert [8] [] none, .insert [4] [7] none,
      .exists [9], .at [8], .erase [8] none, .clear])) (htPool 0)).1 =
      .ok [.ok (.ok (.bool true), ⟨1, 0, 9, 2, 0⟩), .ok (.ok (.bool true), ⟨3, 0, 20, 3, 0⟩), .ok (.ok (.bool true), ⟨2, 0, 19, 3, 0⟩), .ok (.ok (.bool true), ⟨1, 1, 15, 4, 0⟩),
        .ok (.ok (.bool false), ⟨0, 0, 3, 0, 0⟩), .ok (.ok (.str []), ⟨0, 0, 18, 3, 0⟩), .ok (.ok (.bool true), ⟨0, 2, 21, 3, 0⟩), .ok (.ok .unit, ⟨0, 4, 20, 0, 0⟩)] := by
  decide +kernel

end Verif
