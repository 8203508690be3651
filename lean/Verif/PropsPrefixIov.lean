import Verif.PrefixIov
import Verif.Client
/-
C84: PrefixTree::insert with the value in pieces.
-/
namespace Verif.PT
open Verif.PrefixTree (Check)

/-! ### Specification -/

/-- a call of a prefix tree: an ordinary one, or an insert whose value is given in pieces -/
inductive IOp
  | plain (o : Op)
  | iov (k : Bytes) (pieces : List Bytes) (c : Option Check)

/-- the ordinary call that does the same: the value is the concatenation of the pieces -/
def IOp.flat : IOp → Op
  | .plain o => o
  | .iov k ps c => .insert k (.str ps.flatten) c

/-- the call itself: PrefixTree.cc 134-187 for pieces -/
def icall (add : BitVec 64 → BitVec 64 → BitVec 64) (base : Nat) : IOp → HProg Ret
  | .plain o => PrefixTree.call add base o
  | .iov k ps c => (PrefixTree.insertIov base k ps c).bind fun b => .ret (Ret.bool b)

/-- the specification of a call is that of the ordinary call -/
def ISpec (add : BitVec 64 → BitVec 64 → BitVec 64) (s : State) (o : IOp) (r : Out Ret) (s' : State) : Prop := Spec add s o.flat r s'

variable {base : Nat} {F : Nat → Option Block} {s : State} {h : Heap} {add : BitVec 64 → BitVec 64 → BitVec 64}

theorem istep (o : IOp) (s : State) (h : Heap) (hok : o.flat.ok s) (hi : PrefixTree.Holds base F s h) :
    wp (icall add base o) (fun out h' => ∃ s', ISpec add s o out s' ∧ PrefixTree.Holds base F s' h') h := by
  cases o with
  | plain o => exact PrefixTree.step o s h hok hi
  | iov k ps c => exact PrefixTree.step_insertIov (hok _ rfl) hi

/-- **C84.** In a pool with any history of SimpleAllocator calls, every client of a new prefix tree that also inserts values in pieces gets the answers that the specification allows for inserts of the concatenations, and no call touches
the bytes of blocks that other clients hold.  (As for C42, each call must meet `Op.ok`, which for inserts of strings only says that they are of at most 2^62 bytes.) -/
theorem C84_pieces (add : BitVec 64 → BitVec 64 → BitVec 64) {p0 p : Pool} {live lk : List (Nat × Nat)} {ex : Bool} (h : Hist p0 p live lk ex) :
    (∃ p1, run (compile PrefixTree.create) p = (.err .noMem, p1)) ∨
    ∃ b p1, run (compile PrefixTree.create) p = (.ok b, p1) ∧ ∀ c : Client IOp Ret, c.Careful (ISpec add) (fun s o => o.flat.ok s) new →
      ∃ l p2 s, run (compile (c.play (icall add b))) p1 = (.ok l, p2) ∧ c.Made l ∧ Trace (Spec add) new (l.map fun e => e.1.flat) (l.map Prod.snd) s ∧
        ∀ o n, (o, n) ∈ live → ∀ i, i < n → p2.mem (o + i) = p.mem (o + i) := by
  rcases PrefixTree.create_pool h with h1 | ⟨b, p1, h1, hp, hr, hh, hs, hl⟩
  · exact Or.inl h1
  · refine Or.inr ⟨b, p1, hr, fun c hok => ?_⟩
    obtain ⟨l, p2, s, h2, e1, e2, e3, hh2, hs2⟩ := Client.play_run (f := icall add b) (Inv := PrefixTree.Holds b hp)
      (fun s o h h1 h2 => istep o s h h1 h2) c hok hh hs
    refine ⟨l, p2, s, e1, e2, ?_, fun o n hm => PrefixTree.untouched hh2 hs2 (hl o n hm)⟩
    have : l.map (fun e => e.1.flat) = (l.map Prod.fst).map IOp.flat := by rw [List.map_map]; rfl
    rw [this]
    exact flatTrace e3
where
  flatTrace {s s' : State} {ops : List IOp} {rs : List (Out Ret)} (h : Trace (ISpec add) s ops rs s') : Trace (Spec add) s (ops.map IOp.flat) rs s' := by
    induction h with
    | nil => exact .nil _
    | cons h1 _ ih => exact .cons h1 ih

/-- **C84, the same for every lawful allocator**: in every state of a tree, an insert of pieces has an outcome and leaves a state that the specification allows for the insert of the concatenation. -/
theorem C84_any_allocator (hi : PrefixTree.Holds base F s h) (k : Bytes) (ps : List Bytes) (c : Option Check) (hl : ps.flatten.length ≤ 2 ^ 62) :
    wp (PrefixTree.insertIov base k ps c) (fun out h' => ∃ s', Spec add s (.insert k (.str ps.flatten) c) (match out with
      | .ok b => .ok (.bool b)
      | .err e => .err e) s' ∧ PrefixTree.Holds base F s' h') h := by
  have hw := istep (add := add) (.iov k ps c) s h (by rintro d e; injection e with e; subst e; exact hl) hi
  simp only [icall] at hw
  rw [wp_bind] at hw
  refine wp_mono ?_ hw
  rintro (b | e) h' hq
  · exact hq
  · exact hq

/-- **C84, deaths.** A process dies at any point of an insert of pieces (also inside the allocator), on any tree on any pool; the next lock holder runs repair.  Then the tree is well-formed again; every other key has its old value, and
this key has its old value, no value or the whole concatenation - never a part of the pieces.  If the check fails nothing changes. -/
theorem C84_crash {p : Pool} (hi : PrefixTree.Holds base F s h) (hs : Sim h p) (k : Bytes) (ps : List Bytes) (ck : Option Check) (hl : ps.flatten.length ≤ 2 ^ 62) (c : Nat) :
    ∃ p1 m', run Simple.repair (crashAt c (compile (icall add base (.iov k ps ck))) p) = (.ok (), p1) ∧
      (∀ k', k' ≠ k → m' k' = s.m k') ∧ (m' k = s.m k ∨ m' k = none ∨ m' k = some (.str ps.flatten)) ∧ (¬ passes s.m ck → m' = s.m) ∧
      ∀ ops : List Op, Guarded (Spec add) Op.ok (torn m') ops →
        ∃ rs p2 s2, run (compile (hist (PrefixTree.call add base) ops)) p1 = (.ok rs, p2) ∧ Trace (Spec add) (torn m') ops rs s2 := by
  have hcut := PrefixTree.cut_insertIov (k := k) (ps := ps) (c := ck) (f := Ret.bool) hl hi
  have h0 : PrefixTree.Cr base (CutInsert s.m k (.str ps.flatten) ck) h := by
    obtain ⟨⟨g, ni, nn, t, hm, -⟩, -⟩ := hi
    exact ⟨F, g, ni, nn, t, Or.inl hm⟩
  obtain ⟨h', ⟨F', g', ni', nn', t', hm'⟩, p1, hr, hs1⟩ := sim_crash hcut.wp (hcut.always h0) hs c
  obtain ⟨n, hn⟩ := hi.fin
  have hfin : ∃ n', Count (fun k => g'.kv k ≠ none) n' := PrefixTree.cut_fin (add := add) (op := .insert k (.str ps.flatten) ck) hm' hn
  refine ⟨p1, g'.kv, hr, ?_, ?_, fun hf => hm'.elim id fun h => absurd h.1 hf, fun ops hg => ?_⟩
  · intro k' hne
    rcases hm' with e | ⟨-, e | e | ⟨d, x, e, -⟩⟩
    · rw [e]
    · rw [e]; simp [put, hne]
    · rw [e]; simp [put, hne]
    · cases e
  · rcases hm' with e | ⟨-, e | e | ⟨d, x, e, -⟩⟩
    · rw [e]; exact Or.inl rfl
    · rw [e]; right; left; simp [put]
    · rw [e]; right; right; simp [put, kept]
    · cases e
  · have hh : PrefixTree.Holds base F' (torn g'.kv) h' := ⟨⟨g', ni', nn', t', rfl, (fun h => by cases h), (fun h => by cases h), (fun h => by cases h)⟩, hfin, hs1.heapOk⟩
    obtain ⟨out, p2, h2, e1, ⟨rs, s2, rfl, e2, -⟩, -⟩ := sim_run (PrefixTree.history ops hg hh) hs1
    exact ⟨rs, p2, s2, e1, e2⟩

/-- a tree in a pool with the hypotheses of the theorems, and what it answers: pieces with empty ones among them, a short and a long value, and a check that fails -/
example : (run (compile (hist (icall noAdd 344) [.iov [97] [[1, 2, 3], [], [4, 5, 6, 7], [8, 9]] none, .plain (.at [97]), .iov [97, 98] [[], [1, 2], [3, 4]] none, .plain (.at [97, 98]), .iov [97] [[], []] (some ([98], .missing)),
    .plain (.at [97]), .iov [97] [[7]] (some ([97], .missing)), .plain (.at [97])])) (ptPool 0)).1 =
    .ok [.ok (.bool true), .ok (.val (.str [1, 2, 3, 4, 5, 6, 7, 8, 9])), .ok (.bool true), .ok (.val (.str [1, 2, 3, 4])), .ok (.bool true), .ok (.val (.str [])), .ok (.bool false), .ok (.val (.str []))] := by
  decide +kernel
end Verif.PT
