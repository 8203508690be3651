import Verif.HeapOk
import Verif.QueueProof
/-
C20-C24: Queue (/repo/src/Queue.{hh,cc}).
-/
namespace Verif

namespace Deque
/-! ### Specification: a double-ended queue of byte strings -/

/-- the methods of Queue (Queue.hh 24-61) -/
inductive Op
  | pushBack (d : Bytes)
  | pushFront (d : Bytes)
  | popBack
  | popFront
  | push (front : Bool) (d : Bytes)
  | pop (front : Bool)
  | size
  | bytes
  deriving DecidableEq

/-- what a method returns -/
inductive Ret
  | unit
  | str (d : Bytes)
  | num (n : Nat)
  deriving DecidableEq

/-- `Spec s op r s'`: on a deque holding `s` (front first) the call `op` may have outcome `r` and leave `s'`.
A push may fail for lack of memory, and then changes nothing. -/
def Spec (s : List Bytes) (op : Op) (r : Out Ret) (s' : List Bytes) : Prop :=
  match op with
  | .pushBack d => (r = .ok .unit ∧ s' = s ++ [d]) ∨ (r = .err .noMem ∧ s' = s)
  | .pushFront d => (r = .ok .unit ∧ s' = d :: s) ∨ (r = .err .noMem ∧ s' = s)
  | .popBack => (s = [] ∧ r = .err .outOfRange ∧ s' = []) ∨ ∃ d, s = s' ++ [d] ∧ r = .ok (.str d)
  | .popFront => (s = [] ∧ r = .err .outOfRange ∧ s' = []) ∨ ∃ d, s = d :: s' ∧ r = .ok (.str d)
  | .push true d => (r = .ok .unit ∧ s' = d :: s) ∨ (r = .err .noMem ∧ s' = s)
  | .push false d => (r = .ok .unit ∧ s' = s ++ [d]) ∨ (r = .err .noMem ∧ s' = s)
  | .pop true => (s = [] ∧ r = .err .outOfRange ∧ s' = []) ∨ ∃ d, s = d :: s' ∧ r = .ok (.str d)
  | .pop false => (s = [] ∧ r = .err .outOfRange ∧ s' = []) ∨ ∃ d, s = s' ++ [d] ∧ r = .ok (.str d)
  | .size => r = .ok (.num s.length) ∧ s' = s
  | .bytes => r = .ok (.num (s.map List.length).sum) ∧ s' = s

/-- strings are shorter than 2^62 bytes -/
def Op.ok : Op → Prop
  | .pushBack d => d.length + 16 ≤ 2 ^ 62
  | .pushFront d => d.length + 16 ≤ 2 ^ 62
  | .push _ d => d.length + 16 ≤ 2 ^ 62
  | _ => True
end Deque

namespace Queue
open Deque

/-- the call of a method on the queue whose base object is at `b` -/
def call (b : Nat) : Op → HProg Ret
  | .pushBack d => (pushBack b d).bind fun _ => .ret .unit
  | .pushFront d => (pushFront b d).bind fun _ => .ret .unit
  | .popBack => (popBack b).bind fun d => .ret (.str d)
  | .popFront => (popFront b).bind fun d => .ret (.str d)
  | .push front d => (push b front d).bind fun _ => .ret .unit
  | .pop front => (pop b front).bind fun d => .ret (.str d)
  | .size => (size b).bind fun n => .ret (.num n)
  | .bytes => (bytes b).bind fun n => .ret (.num n)

/-- the heap holds a queue at `b` with contents `s`; all other blocks are `G` -/
def Inv (b : Nat) (G : Nat → Option Block) (s : List Bytes) (h : Heap) : Prop :=
  HeapOk h ∧ ∃ L, s = L.map (·.2) ∧ Rep h b L G

theorem Rep.small {h : Heap} {b : Nat} {L : List (Nat × Bytes)} {G : Nat → Option Block} (r : Rep h b L G) (hk : HeapOk h) :
    L.length < W64 ∧ total L < W64 := by
  have h1 := hk.sum_lt L (·.1) (fun p => 16 + p.2.length) r.nodup (by
    intro p hp
    have h2 := (r.node p hp).1
    unfold sz at h2
    rw [Option.map_eq_some_iff] at h2
    obtain ⟨B, hB, hs⟩ := h2
    exact ⟨B, hB, by omega⟩)
  have h2 : ∀ L : List (Nat × Bytes), L.length + total L ≤ (L.map fun p => 16 + p.2.length).sum := by
    intro L
    induction L with
    | nil => simp [total]
    | cons a L ih =>
      simp only [total, List.map_cons, List.sum_cons, List.length_cons] at ih ⊢
      omega
  have := h2 L
  omega

theorem step (b : Nat) (G : Nat → Option Block) (s : List Bytes) (op : Op) (h : Heap) (hok : op.ok) (hi : Inv b G s h) :
    wp (call b op) (fun out h' => ∃ s', Spec s op out s' ∧ Inv b G s' h') h := by
  obtain ⟨hk, L, rfl, r⟩ := hi
  refine wp_mono ?_ (wp_heapOk (Q := fun out h' => ∃ s', Spec (L.map (·.2)) op out s' ∧ ∃ L', s' = L'.map (·.2) ∧ Rep h' b L' G) hk ?_)
  · rintro o h' ⟨⟨s', h1, L', h2, h3⟩, h4⟩
    exact ⟨s', h1, h4, L', h2, h3⟩
  cases op with
  | pushBack d =>
    refine wp_bind_of (pushBack_spec r (d := d) (by simp only [Op.ok] at hok; omega)) ?_ ?_
    · rintro _ h' ⟨-, n, hr⟩
      exact ⟨_, Or.inl ⟨rfl, rfl⟩, _, by simp, hr⟩
    · rintro e h' ⟨-, rfl, rfl⟩
      exact ⟨_, Or.inr ⟨rfl, rfl⟩, _, rfl, r⟩
  | pushFront d =>
    refine wp_bind_of (pushFront_spec r (d := d) (by simp only [Op.ok] at hok; omega)) ?_ ?_
    · rintro _ h' ⟨-, n, hr⟩
      exact ⟨_, Or.inl ⟨rfl, rfl⟩, _, by simp, hr⟩
    · rintro e h' ⟨-, rfl, rfl⟩
      exact ⟨_, Or.inr ⟨rfl, rfl⟩, _, rfl, r⟩
  | popBack =>
    refine wp_bind_of (popBack_spec r) ?_ ?_
    · rintro d h' ⟨-, L', n, rfl, hr⟩
      exact ⟨L'.map (·.2), Or.inr ⟨d, by simp, rfl⟩, L', rfl, hr⟩
    · rintro e h' ⟨-, rfl, rfl, rfl⟩
      exact ⟨[], Or.inl ⟨rfl, rfl, rfl⟩, [], rfl, r⟩
  | popFront =>
    refine wp_bind_of (popFront_spec r) ?_ ?_
    · rintro d h' ⟨-, L', n, rfl, hr⟩
      exact ⟨L'.map (·.2), Or.inr ⟨d, by simp, rfl⟩, L', rfl, hr⟩
    · rintro e h' ⟨-, rfl, rfl, rfl⟩
      exact ⟨[], Or.inl ⟨rfl, rfl, rfl⟩, [], rfl, r⟩
  | push front d =>
    cases front with
    | false =>
      refine wp_bind_of (pushBack_spec r (d := d) (by simp only [Op.ok] at hok; omega)) ?_ ?_
      · rintro _ h' ⟨-, n, hr⟩
        exact ⟨_, Or.inl ⟨rfl, rfl⟩, _, by simp, hr⟩
      · rintro e h' ⟨-, rfl, rfl⟩
        exact ⟨_, Or.inr ⟨rfl, rfl⟩, _, rfl, r⟩
    | true =>
      refine wp_bind_of (pushFront_spec r (d := d) (by simp only [Op.ok] at hok; omega)) ?_ ?_
      · rintro _ h' ⟨-, n, hr⟩
        exact ⟨_, Or.inl ⟨rfl, rfl⟩, _, by simp, hr⟩
      · rintro e h' ⟨-, rfl, rfl⟩
        exact ⟨_, Or.inr ⟨rfl, rfl⟩, _, rfl, r⟩
  | pop front =>
    cases front with
    | false =>
      refine wp_bind_of (popBack_spec r) ?_ ?_
      · rintro d h' ⟨-, L', n, rfl, hr⟩
        exact ⟨L'.map (·.2), Or.inr ⟨d, by simp, rfl⟩, L', rfl, hr⟩
      · rintro e h' ⟨-, rfl, rfl, rfl⟩
        exact ⟨[], Or.inl ⟨rfl, rfl, rfl⟩, [], rfl, r⟩
    | true =>
      refine wp_bind_of (popFront_spec r) ?_ ?_
      · rintro d h' ⟨-, L', n, rfl, hr⟩
        exact ⟨L'.map (·.2), Or.inr ⟨d, by simp, rfl⟩, L', rfl, hr⟩
      · rintro e h' ⟨-, rfl, rfl, rfl⟩
        exact ⟨[], Or.inl ⟨rfl, rfl, rfl⟩, [], rfl, r⟩
  | size =>
    refine wp_bind_of (size_spec r) ?_ ?_
    · rintro n h' ⟨hn, rfl⟩
      injection hn with hn
      subst hn
      refine ⟨_, ⟨?_, rfl⟩, L, rfl, r⟩
      rw [Nat.add_zero, Nat.mod_eq_of_lt (r.small hk).1, List.length_map]
    · rintro e h' ⟨he, -⟩; cases he
  | bytes =>
    refine wp_bind_of (bytes_spec r) ?_ ?_
    · rintro n h' ⟨hn, rfl⟩
      injection hn with hn
      subst hn
      refine ⟨_, ⟨?_, rfl⟩, L, rfl, r⟩
      rw [Nat.add_zero, Nat.mod_eq_of_lt (r.small hk).2, List.map_map]; rfl
    · rintro e h' ⟨he, -⟩; cases he

end Queue

open Deque

/-- **C20/C21/C22, for every lawful allocator.** Whatever offsets the allocator returns and whichever allocations it refuses, a newly
created queue answers every sequence of calls as a deque of byte strings that started empty, and the rest of the heap
is unchanged. -/
theorem C20_queue_any_allocator (h : Heap) (hk : HeapOk h) (ops : List Op) (hok : ∀ o ∈ ops, o.ok) :
    wp (Queue.create.bind fun b => hist (Queue.call b) ops)
      (fun out _ => out = .err .noMem ∨ ∃ rs s, out = .ok rs ∧ Trace Spec [] ops rs s) h := by
  refine wp_bind_of (wp_heapOk hk (Queue.create_spec h)) ?_ ?_
  · rintro b h' ⟨⟨-, r⟩, hk'⟩
    refine wp_mono ?_ (hist_spec (Queue.step b h.blk) ops [] h' hok ⟨hk', [], rfl, r⟩)
    rintro out h'' ⟨rs, s', h1, h2, -⟩
    exact Or.inr ⟨rs, s', h1, h2⟩
  · rintro e h' ⟨⟨-, rfl, -⟩, -⟩
    exact Or.inl rfl

/-- **C20/C21/C22 on bytes.** In a pool with any history of SimpleAllocator calls (including crashes), a newly created queue answers
every sequence of calls as a deque that started empty; no call touches the bytes of the blocks other clients hold. -/
theorem C20_queue_on_pool {p0 p : Pool} {live lk : List (Nat × Nat)} {ex : Bool} (h : Hist p0 p live lk ex) :
    (∃ p1, run (compile Queue.create) p = (.err .noMem, p1)) ∨
    ∃ b p1, run (compile Queue.create) p = (.ok b, p1) ∧ ∀ ops : List Op, (∀ o ∈ ops, o.ok) →
      ∃ rs p2 s, run (compile (hist (Queue.call b) ops)) p1 = (.ok rs, p2) ∧ Trace Spec [] ops rs s ∧
        ∀ o n, (o, n) ∈ live → ∀ i, i < n → p2.mem (o + i) = p.mem (o + i) := by
  obtain ⟨hp, hs, hl⟩ := h.sim
  obtain ⟨out, p1, h1, hr, ⟨-, hq⟩, hs1⟩ := sim_run (Queue.create_spec hp) hs
  cases out with
  | err e =>
    obtain ⟨rfl, -⟩ := hq
    exact Or.inl ⟨p1, hr⟩
  | ok b =>
    refine Or.inr ⟨b, p1, hr, ?_⟩
    intro ops hok
    obtain ⟨rs, p2, s, h2, e1, e2, ⟨-, L, -, r⟩, hs2⟩ :=
      hist_run (Queue.step b hp.blk) ops hok (s := []) (h := h1) (p := p1) ⟨hs1.heapOk, [], rfl, hq⟩ hs1
    refine ⟨rs, p2, s, e1, e2, ?_⟩
    intro o n hm i hi
    obtain ⟨B, hB, rfl, hd⟩ := hl o n hm
    have hfr := r.frame o
    rw [hB] at hfr
    split at hfr
    · cases hfr
    · obtain ⟨L2, hS2, hh2⟩ := hs2
      rw [(hh2.blk o B hfr.symm).2.2 i hi, hd i]

/-- the pool of a queue just created on a fresh pool -/
def qPool : Pool := (run (compile Queue.create) (run Simple.init (newPool 0)).2).2

/-- a concrete run: both ends, binary strings, counters, popping an empty queue -/
example : (run (compile Queue.create) (run Simple.init (newPool 0)).2).1 = .ok 344 ∧
    (run (compile (hist (Queue.call 344)
      [.pushBack [1, 0, 2], .pushFront [], .size, .bytes, .popBack, .popFront, .popFront])) qPool).1 =
      .ok [.ok .unit, .ok .unit, .ok (.num 2), .ok (.num 3), .ok (.str [1, 0, 2]), .ok (.str []), .err .outOfRange] := by
  decide +kernel

/-- **C21.** After any history of a newly created queue, size() and bytes() return exactly the number of items in it and the
sum of their lengths. -/
theorem C21_size_bytes_exact {p0 p : Pool} {live lk : List (Nat × Nat)} {ex : Bool} (h : Hist p0 p live lk ex)
    {b : Nat} {p1 : Pool} (hc : run (compile Queue.create) p = (.ok b, p1)) (ops : List Op) (hok : ∀ o ∈ ops, o.ok) :
    ∃ rs p2 s, Trace Spec [] ops rs s ∧ run (compile (hist (Queue.call b) (ops ++ [.size, .bytes]))) p1 =
      (.ok (rs ++ [.ok (.num s.length), .ok (.num (s.map List.length).sum)]), p2) := by
  rcases C20_queue_on_pool h with ⟨_, he⟩ | ⟨b', p1', hr, hq⟩
  · rw [hc] at he; injection he with he _; cases he
  rw [hc] at hr
  injection hr with hr1 hr2
  injection hr1 with hr1
  subst hr1 hr2
  obtain ⟨rs, p2, s, h1, h2, -⟩ := hq (ops ++ [.size, .bytes]) (by
    intro o ho
    rcases List.mem_append.1 ho with ho | ho
    · exact hok o ho
    · simp only [List.mem_cons, List.not_mem_nil, or_false] at ho
      rcases ho with rfl | rfl <;> trivial)
  obtain ⟨r1, r2, t, rfl, h3, h4⟩ := h2.split
  refine ⟨r1, p2, t, h3, ?_⟩
  rw [h1]
  cases h4 with
  | cons h5 h6 =>
    cases h6 with
    | cons h7 h8 =>
      cases h8
      obtain ⟨rfl, rfl⟩ := h5
      obtain ⟨rfl, rfl⟩ := h7
      rfl

/-- **C22.** A pop on an empty queue and a push that the allocator refuses throw and leave the heap (hence the queue and every
other block) exactly as it was. -/
theorem C22_failed_ops_change_nothing (b : Nat) (G : Nat → Option Block) (s : List Bytes) (h : Heap) (hi : Queue.Inv b G s h)
    (op : Op) (hok : op.ok) :
    wp (Queue.call b op) (fun out h' => ∀ e, out = .err e → h' = h ∧
      ((e = .outOfRange ∧ s = [] ∧ (op = .popBack ∨ op = .popFront ∨ ∃ f, op = .pop f)) ∨ (e = .noMem ∧ ∃ d, op = .pushBack d ∨ op = .pushFront d ∨ ∃ f, op = .push f d))) h := by
  obtain ⟨hk, L, rfl, r⟩ := hi
  cases op with
  | pushBack d =>
    refine wp_bind_of (Queue.pushBack_spec r (d := d) (by simp only [Op.ok] at hok; omega)) ?_ ?_
    · intro _ h' _ e he; cases he
    · rintro e h' ⟨-, rfl, rfl⟩ e he
      cases he; exact ⟨rfl, Or.inr ⟨rfl, d, Or.inl rfl⟩⟩
  | pushFront d =>
    refine wp_bind_of (Queue.pushFront_spec r (d := d) (by simp only [Op.ok] at hok; omega)) ?_ ?_
    · intro _ h' _ e he; cases he
    · rintro e h' ⟨-, rfl, rfl⟩ e he
      cases he; exact ⟨rfl, Or.inr ⟨rfl, d, Or.inr (Or.inl rfl)⟩⟩
  | popBack =>
    refine wp_bind_of (Queue.popBack_spec r) ?_ ?_
    · intro _ h' _ e he; cases he
    · rintro e h' ⟨-, rfl, rfl, rfl⟩ e he
      cases he; exact ⟨rfl, Or.inl ⟨rfl, rfl, Or.inl rfl⟩⟩
  | popFront =>
    refine wp_bind_of (Queue.popFront_spec r) ?_ ?_
    · intro _ h' _ e he; cases he
    · rintro e h' ⟨-, rfl, rfl, rfl⟩ e he
      cases he; exact ⟨rfl, Or.inl ⟨rfl, rfl, Or.inr (Or.inl rfl)⟩⟩
  | push front d =>
    cases front with
    | false =>
      refine wp_bind_of (Queue.pushBack_spec r (d := d) (by simp only [Op.ok] at hok; omega)) ?_ ?_
      · intro _ h' _ e he; cases he
      · rintro e h' ⟨-, rfl, rfl⟩ e he
        cases he; exact ⟨rfl, Or.inr ⟨rfl, d, Or.inr (Or.inr ⟨_, rfl⟩)⟩⟩
    | true =>
      refine wp_bind_of (Queue.pushFront_spec r (d := d) (by simp only [Op.ok] at hok; omega)) ?_ ?_
      · intro _ h' _ e he; cases he
      · rintro e h' ⟨-, rfl, rfl⟩ e he
        cases he; exact ⟨rfl, Or.inr ⟨rfl, d, Or.inr (Or.inr ⟨_, rfl⟩)⟩⟩
  | pop front =>
    cases front with
    | false =>
      refine wp_bind_of (Queue.popBack_spec r) ?_ ?_
      · intro _ h' _ e he; cases he
      · rintro e h' ⟨-, rfl, rfl, rfl⟩ e he
        cases he; exact ⟨rfl, Or.inl ⟨rfl, rfl, Or.inr (Or.inr ⟨_, rfl⟩)⟩⟩
    | true =>
      refine wp_bind_of (Queue.popFront_spec r) ?_ ?_
      · intro _ h' _ e he; cases he
      · rintro e h' ⟨-, rfl, rfl, rfl⟩ e he
        cases he; exact ⟨rfl, Or.inl ⟨rfl, rfl, Or.inr (Or.inr ⟨_, rfl⟩)⟩⟩
  | size =>
    refine wp_bind_of (Queue.size_spec r) ?_ ?_
    · intro _ h' _ e he; cases he
    · rintro e h' ⟨he, -⟩; cases he
  | bytes =>
    refine wp_bind_of (Queue.bytes_spec r) ?_ ?_
    · intro _ h' _ e he; cases he
    · rintro e h' ⟨he, -⟩; cases he

/-- **C24.** After any history on a newly created queue the allocator holds exactly the blocks it held before, the 48-byte
base object, and one block of 16 bytes plus the item's length per item. -/
theorem C24_blocks_exact (h : Heap) (hk : HeapOk h) (ops : List Op) (hok : ∀ o ∈ ops, o.ok) :
    wp (Queue.create.bind fun b => (hist (Queue.call b) ops).bind fun rs => .ret (b, rs))
      (fun out h' => (out = .err .noMem ∧ h' = h) ∨ ∃ b rs s nodes, out = .ok (b, rs) ∧ Trace Spec [] ops rs s ∧
        h.blk b = none ∧ (∃ B, h'.blk b = some B ∧ B.size = 48) ∧
        (nodes : List Nat).Nodup ∧ b ∉ nodes ∧ nodes.length = s.length ∧
        (∀ i (hn : i < nodes.length) (hs : i < s.length), h.blk nodes[i] = none ∧
          ∃ B, h'.blk nodes[i] = some B ∧ B.size = 16 + s[i].length) ∧
        ∀ x, x ≠ b → x ∉ nodes → h'.blk x = h.blk x) h := by
  refine wp_bind_of (wp_heapOk hk (Queue.create_spec h)) ?_ ?_
  · rintro b h1 ⟨⟨-, r⟩, hk'⟩
    refine wp_bind_of (hist_spec (Queue.step b h.blk) ops [] h1 hok ⟨hk', [], rfl, r⟩) ?_ ?_
    · rintro rs h' ⟨rs', s', e1, h2, -, L, hL, r'⟩
      injection e1 with e1
      subst e1
      right
      have hnone : ∀ x, x = b ∨ x ∈ L.map (·.1) → h.blk x = none := by
        intro x hx; rw [r'.frame x, if_pos hx]
      have hsz : ∀ x n, Queue.sz h' x = some n → ∃ B, h'.blk x = some B ∧ B.size = n := by
        intro x n hx
        unfold Queue.sz at hx
        rw [Option.map_eq_some_iff] at hx
        exact hx
      refine ⟨b, rs, s', L.map (·.1), rfl, h2, hnone b (Or.inl rfl), hsz _ _ r'.bsz, r'.nodup, ?_, by rw [hL]; simp, ?_, ?_⟩
      · intro hb
        obtain ⟨p, hp, e⟩ := List.mem_map.1 hb
        exact (r'.node p hp).2.2.2.1 e
      · intro i hn hs
        refine ⟨hnone _ (Or.inr (List.getElem_mem _)), ?_⟩
        have hi : i < L.length := by simpa using hn
        have := hsz _ _ (r'.node L[i] (List.getElem_mem _)).1
        subst hL
        simpa using this
      · intro x h3 h4
        rw [r'.frame x, if_neg (by tauto)]
    · rintro e h' ⟨rs', s', e1, -⟩; cases e1
  · rintro e h' ⟨⟨-, rfl, rfl⟩, -⟩
    exact Or.inl ⟨rfl, rfl⟩

/-- **C23 is false.** A queue holds the single item "a". A process dies inside push_back("b") (after the old last node has been pointed at
the new node and before the back sentinel has); the next lock holder runs repair. Two pop_backs then both return "a", which no
deque holding ["a"] or ["a", "b"] does. -/
theorem C23_false :
    ∃ (p : Pool) (c : Nat), p = (run (compile (hist (Queue.call 344) [.pushBack [97]]))
        qPool).2 ∧
      (∃ p2, run (compile (hist (Queue.call 344) [.popBack, .popBack]))
        (run Simple.repair (crashAt c (compile (Queue.call 344 (.pushBack [98]))) p)).2 = (.ok [.ok (.str [97]), .ok (.str [97])], p2)) ∧
      (¬ ∃ s, Trace Spec [[97]] [.popBack, .popBack] [.ok (.str [97]), .ok (.str [97])] s) ∧
      (¬ ∃ s, Trace Spec [[97], [98]] [.popBack, .popBack] [.ok (.str [97]), .ok (.str [97])] s) := by
  refine ⟨_, 28, rfl, ⟨_, run_eta ?_⟩, ?_, ?_⟩
  · decide +kernel
  · rintro ⟨s, hs⟩
    cases hs with
    | cons h1 h2 =>
      cases h2 with
      | cons h3 h4 =>
        simp only [Spec] at h1 h3
        rcases h1 with ⟨h1, -⟩ | ⟨d, h1, -⟩
        · simp at h1
        · have hl := congrArg List.length h1
          simp at hl
          subst hl
          rcases h3 with ⟨-, h3, -⟩ | ⟨d, h3, -⟩
          · cases h3
          · simp at h3
  · rintro ⟨s, hs⟩
    cases hs with
    | cons h1 h2 =>
      simp only [Spec] at h1
      rcases h1 with ⟨h1, -⟩ | ⟨d, h1, h5⟩
      · simp at h1
      · have h6 := congrArg List.getLast? h1
        simp at h6 h5
        rw [← h6] at h5
        exact absurd h5 (by decide)

end Verif
