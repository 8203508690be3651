import Verif.PrioQueueSpec
import Verif.PropsQueue
import Verif.Conc
/-
C25-C28: PriorityQueue (/repo/src/PriorityQueue.{hh,cc}).  `<` and `≤` on byte strings are Lean's own lexicographic order on lists (`C26_meaning`
spells it out).
-/
namespace Verif

namespace PQ
/-! ### Specification: a multiset of byte strings -/

/-- the methods of PriorityQueue (PriorityQueue.hh 37-49) -/
inductive Op
  | push (d : Bytes)
  | pop
  | clear
  | size
  deriving DecidableEq

/-- what a method returns -/
inductive Ret
  | unit
  | str (d : Bytes)
  | num (n : Nat)
  deriving DecidableEq

/-- `Spec s op r s'`: on a queue holding the items `s`, in no particular order, the call `op` may have outcome `r` and leave the items `s'`.
A push may fail for lack of memory, and then changes nothing. -/
def Spec (s : List Bytes) (op : Op) (r : Out Ret) (s' : List Bytes) : Prop :=
  match op with
  | .push d => (r = .ok .unit ∧ s'.Perm (d :: s)) ∨ (r = .err .noMem ∧ s'.Perm s)
  | .pop => (s = [] ∧ r = .err .outOfRange ∧ s' = []) ∨ ∃ m, s.Perm (m :: s') ∧ (∀ x ∈ s, m ≤ x) ∧ r = .ok (.str m)
  | .clear => r = .ok .unit ∧ s' = []
  | .size => r = .ok (.num s.length) ∧ s'.Perm s

/-- strings are at most 2^62 bytes long -/
def Op.ok : Op → Prop
  | .push d => d.length ≤ 2 ^ 62
  | _ => True

/-- Popping everything yields the items in order. -/
theorem sorted (n : Nat) : ∀ (s : List Bytes) (rs : List (Out Ret)) (s' : List Bytes), s.length = n →
    Trace Spec s (List.replicate n .pop) rs s' → s' = [] ∧ ∃ l : List Bytes, rs = l.map (fun d => .ok (.str d)) ∧ l.Perm s ∧ l.Pairwise (· ≤ ·) := by
  induction n with
  | zero =>
    intro s rs s' hn h
    cases h
    exact ⟨List.length_eq_zero_iff.1 hn, [], rfl, by rw [List.length_eq_zero_iff.1 hn], .nil⟩
  | succ n ih =>
    intro s rs s' hn h
    cases h with
    | cons h1 h2 =>
      rcases h1 with ⟨h1, -⟩ | ⟨m, h1, h3, rfl⟩
      · rw [h1] at hn; simp at hn
      · obtain ⟨h4, l, rfl, h5, h6⟩ := ih _ _ _ (by have := h1.length_eq; simp at this; omega) h2
        refine ⟨h4, m :: l, rfl, (h5.cons m).trans h1.symm, List.pairwise_cons.2 ⟨?_, h6⟩⟩
        intro x hx
        exact h3 x (h1.mem_iff.2 (List.mem_cons_of_mem _ (h5.mem_iff.1 hx)))
end PQ

open PQ
namespace PrioQueue

/-- the call of a method on the queue whose base object is at `b` -/
def call (b : Nat) : Op → HProg Ret
  | .push d => (push b d).bind fun _ => .ret .unit
  | .pop => (pop b).bind fun d => .ret (.str d)
  | .clear => (clear b).bind fun _ => .ret .unit
  | .size => (size b).bind fun n => .ret (.num n)

/-- the heap holds a priority queue at `b` with the items `s`; all other blocks are `G`.  `ex` as in `RepX`. -/
def InvX (ex : Prop) (b : Nat) (G : Nat → Option Block) (s : List Bytes) (h : Heap) : Prop :=
  HeapOk h ∧ ∃ arr cap A D lk, s.Perm (A.map D) ∧ RepX ex h b arr cap A D lk G

/-- as `InvX`, and no process has died -/
abbrev Inv (b : Nat) (G : Nat → Option Block) (s : List Bytes) (h : Heap) : Prop := InvX True b G s h

theorem stepX {ex : Prop} (b : Nat) (G : Nat → Option Block) (s : List Bytes) (op : Op) (h : Heap) (hok : op.ok) (hi : InvX ex b G s h) :
    wp (call b op) (fun out h' => ∃ s', Spec s op out s' ∧ InvX ex b G s' h') h := by
  obtain ⟨hk, arr, cap, A, D, lk, hp, r⟩ := hi
  refine wp_mono ?_ (wp_heapOk (Q := fun out h' => ∃ s', Spec s op out s' ∧ ∃ arr cap A D lk, s'.Perm (A.map D) ∧ RepX ex h' b arr cap A D lk G) hk ?_)
  · rintro o h' ⟨⟨s', h1, h2⟩, h4⟩
    exact ⟨s', h1, h4, h2⟩
  cases op with
  | push d =>
    refine wp_bind_of (push_spec hk r (data := d) (by simp only [Op.ok] at hok; omega)) ?_ ?_
    · rintro _ h' (⟨h1, -⟩ | ⟨-, arr', cap', lk', A', item, r', hp', hn⟩)
      · cases h1
      · refine ⟨A'.map (fun x => if x = item then d else D x), Or.inl ⟨rfl, ?_⟩, _, _, _, _, _, .refl _, r'⟩
        refine (hp'.map _).trans ?_
        rw [List.map_append]
        refine (List.perm_append_singleton _ _).trans ?_
        simp only [if_true]
        refine List.Perm.cons _ ?_
        refine List.Perm.trans (.of_eq ?_) hp.symm
        refine List.map_congr_left ?_
        intro a ha
        exact if_neg (show a ≠ item from fun e => hn (e ▸ ha))
    · rintro e h' (⟨h1, arr', cap', lk', r'⟩ | ⟨h1, -⟩)
      · injection h1 with h1; subst h1
        exact ⟨s, Or.inr ⟨rfl, .refl _⟩, _, _, _, _, _, hp, r'⟩
      · cases h1
  | pop =>
    refine wp_bind_of (pop_spec r) ?_ ?_
    · rintro d h' (⟨-, h1, -⟩ | ⟨o, A', hp', hm, h1, r'⟩)
      · cases h1
      · injection h1 with h1; subst h1
        refine ⟨A'.map D, Or.inr ⟨D o, ?_, ?_, rfl⟩, _, _, _, _, _, .refl _, r'⟩
        · exact hp.trans (hp'.map D)
        · intro x hx
          obtain ⟨a, ha, rfl⟩ := List.mem_map.1 (hp.mem_iff.1 hx)
          have := hm a ha
          simp only [ltD, decide_eq_false_iff_not] at this
          exact List.not_lt.1 this
    · rintro e h' (⟨rfl, h1, rfl⟩ | ⟨o, A', -, -, h1, -⟩)
      · injection h1 with h1; subst h1
        have : s = [] := by simpa using hp.length_eq
        subst this
        exact ⟨[], Or.inl ⟨rfl, rfl, rfl⟩, _, _, _, _, _, .refl _, r⟩
      · cases h1
  | clear =>
    refine wp_bind_of (clear_spec r) ?_ ?_
    · rintro _ h' ⟨-, r'⟩
      exact ⟨[], ⟨rfl, rfl⟩, _, _, _, _, _, .refl _, r'⟩
    · rintro e h' ⟨he, -⟩; cases he
  | size =>
    refine wp_bind_of (size_spec r) ?_ ?_
    · rintro n h' ⟨hn, rfl⟩
      injection hn with hn
      subst hn
      refine ⟨s, ⟨?_, .refl _⟩, _, _, _, _, _, hp, r⟩
      rw [hp.length_eq, List.length_map]
    · rintro e h' ⟨he, -⟩; cases he

theorem step (b : Nat) (G : Nat → Option Block) (s : List Bytes) (op : Op) (h : Heap) (hok : op.ok) (hi : Inv b G s h) :
    wp (call b op) (fun out h' => ∃ s', Spec s op out s' ∧ Inv b G s' h') h := stepX b G s op h hok hi

end PrioQueue

/-- **C25/C27, for every lawful allocator.** Whatever offsets the allocator returns and whichever allocations it refuses, a newly created priority
queue answers every sequence of calls as a multiset of byte strings that started empty and whose pop removes a least item. -/
theorem C25_prioqueue_any_allocator (h : Heap) (hk : HeapOk h) (ops : List Op) (hok : ∀ o ∈ ops, o.ok) :
    wp (PrioQueue.create.bind fun b => hist (PrioQueue.call b) ops)
      (fun out _ => out = .err .noMem ∨ ∃ rs s, out = .ok rs ∧ Trace Spec [] ops rs s) h := by
  refine wp_bind_of (wp_heapOk hk (PrioQueue.create_spec h)) ?_ ?_
  · rintro b h' ⟨r, hk'⟩
    refine wp_mono ?_ (hist_spec (PrioQueue.step b h.blk) ops [] h' hok ⟨hk', _, _, _, _, _, .refl _, r⟩)
    rintro out h'' ⟨rs, s', h1, h2, -⟩
    exact Or.inr ⟨rs, s', h1, h2⟩
  · rintro e h' ⟨⟨rfl, -⟩, -⟩
    exact Or.inl rfl

/-- **C25/C27 on bytes.** In a pool with any history of SimpleAllocator calls (including crashes), a newly created priority queue answers every
sequence of calls as a multiset that started empty; no call touches the bytes of the blocks other clients hold. -/
theorem C25_prioqueue_on_pool {p0 p : Pool} {live lk : List (Nat × Nat)} {ex : Bool} (h : Hist p0 p live lk ex) :
    (∃ p1, run (compile PrioQueue.create) p = (.err .noMem, p1)) ∨
    ∃ b p1, run (compile PrioQueue.create) p = (.ok b, p1) ∧ ∀ ops : List Op, (∀ o ∈ ops, o.ok) →
      ∃ rs p2 s, run (compile (hist (PrioQueue.call b) ops)) p1 = (.ok rs, p2) ∧ Trace Spec [] ops rs s ∧
        ∀ o n, (o, n) ∈ live → ∀ i, i < n → p2.mem (o + i) = p.mem (o + i) := by
  obtain ⟨hp, hs, hl⟩ := h.sim
  obtain ⟨out, p1, h1, hr, hq, hs1⟩ := sim_run (PrioQueue.create_spec hp) hs
  cases out with
  | err e =>
    obtain ⟨rfl, -⟩ := hq
    exact Or.inl ⟨p1, hr⟩
  | ok b =>
    refine Or.inr ⟨b, p1, hr, ?_⟩
    intro ops hok
    obtain ⟨rs, p2, s, h2, e1, e2, ⟨-, _, _, _, _, _, -, r⟩, hs2⟩ :=
      hist_run (PrioQueue.step b hp.blk) ops hok (s := []) (h := h1) (p := p1) ⟨hs1.heapOk, _, _, _, _, _, .refl _, hq⟩ hs1
    refine ⟨rs, p2, s, e1, e2, ?_⟩
    intro o n hm i hi
    obtain ⟨B, hB, rfl, hd⟩ := hl o n hm
    have hfr := r.frame o
    rw [hB] at hfr
    split at hfr
    · cases hfr
    · obtain ⟨L2, hS2, hh2⟩ := hs2
      rw [(hh2.blk o B hfr.symm).2.2 i hi, hd i]

/-- **C25.** After any history, popping all items returns exactly the items in the queue, in ascending order. -/
theorem C25_pops_sorted {p0 p : Pool} {live lk : List (Nat × Nat)} {ex : Bool} (h : Hist p0 p live lk ex)
    {b : Nat} {p1 : Pool} (hc : run (compile PrioQueue.create) p = (.ok b, p1)) (ops : List Op) (hok : ∀ o ∈ ops, o.ok) :
    ∃ (rs : List (Out Ret)) (s : List Bytes) (p2 : Pool), run (compile (hist (PrioQueue.call b) ops)) p1 = (.ok rs, p2) ∧ Trace Spec [] ops rs s ∧
      ∃ (l : List Bytes) (p3 : Pool), run (compile (hist (PrioQueue.call b) (List.replicate s.length .pop))) p2 =
        (.ok (l.map (fun d => .ok (.str d))), p3) ∧ l.Perm s ∧ l.Pairwise (· ≤ ·) := by
  obtain ⟨hp, hs, hl⟩ := h.sim
  obtain ⟨out, p1', h1, hr, hq, hs1⟩ := sim_run (PrioQueue.create_spec hp) hs
  rw [hc] at hr
  injection hr with hr1 hr2
  cases out with
  | err e => cases hr1
  | ok b' =>
  injection hr1 with hr1
  subst hr1 hr2
  obtain ⟨rs, p2, s, h2, e1, e2, hi2, hs2⟩ :=
      hist_run (PrioQueue.step b hp.blk) ops hok (s := []) (h := h1) (p := p1) ⟨hs1.heapOk, _, _, _, _, _, .refl _, hq⟩ hs1
  obtain ⟨rs', p3, s', h3, e3, e4, -, -⟩ :=
      hist_run (PrioQueue.step b hp.blk) (List.replicate s.length .pop) (by
        intro o ho
        rw [List.eq_of_mem_replicate ho]; trivial) hi2 hs2
  obtain ⟨-, l, rfl, hp, ho⟩ := PQ.sorted _ s rs' s' rfl e4
  exact ⟨rs, s, p2, e1, e2, l, p3, e3, hp, ho⟩

/-- the pool of a priority queue just created on a fresh pool -/
def pqPool : Pool := (run (compile PrioQueue.create) (run Simple.init (newPool 0)).2).2

/-- a concrete run: duplicates, prefixes, bytes above 127, an empty string, popping an empty queue -/
example : (run (compile PrioQueue.create) (run Simple.init (newPool 0)).2).1 = .ok 344 ∧
    (run (compile (hist (PrioQueue.call 344)
      [.push [200], .push [1, 0, 2], .push [1, 0], .push [], .push [200], .size, .pop, .pop, .pop, .pop, .pop, .pop, .push [3], .clear, .size])) pqPool).1 =
      .ok [.ok .unit, .ok .unit, .ok .unit, .ok .unit, .ok .unit, .ok (.num 5), .ok (.str []), .ok (.str [1, 0]), .ok (.str [1, 0, 2]),
        .ok (.str [200]), .ok (.str [200]), .err .outOfRange, .ok .unit, .ok .unit, .ok (.num 0)] := by
  decide +kernel

/-- **C26.** The comparison that push and pop use is exactly `<` on the strings of the two items, and it changes nothing. -/
theorem C26_comparison {h : Heap} {a b : Nat} {A B : Block} (ha : h.blk a = some A) (hb : h.blk b = some B) :
    wp (PrioQueue.less a b) (fun out h' => out = .ok (decide (A.rdB 0 A.size < B.rdB 0 B.size)) ∧ h' = h) h :=
  PrioQueue.less_spec ha hb

/-- **C26.** `<` on byte strings is: a first differing byte that is smaller, as an unsigned number, or being a proper prefix. -/
theorem C26_meaning (x y : Bytes) : x < y ↔
    (∃ p a b x' y', x = p ++ a :: x' ∧ y = p ++ b :: y' ∧ a.toNat < b.toNat) ∨ (∃ c t, y = x ++ c :: t) := by
  constructor
  · intro h
    induction x generalizing y with
    | nil =>
      cases y with
      | nil => exact absurd h (List.lt_irrefl _)
      | cons c t => exact Or.inr ⟨c, t, rfl⟩
    | cons a x ih =>
      cases y with
      | nil => exact absurd h (List.not_lt_nil _)
      | cons b y =>
        rw [List.cons_lt_cons_iff] at h
        rcases h with h | ⟨rfl, h⟩
        · exact Or.inl ⟨[], a, b, x, y, rfl, rfl, h⟩
        · rcases ih _ h with ⟨p, c, d, x', y', rfl, rfl, h1⟩ | ⟨c, t, rfl⟩
          · exact Or.inl ⟨a :: p, c, d, x', y', rfl, rfl, h1⟩
          · exact Or.inr ⟨c, t, rfl⟩
  · rintro (⟨p, a, b, x', y', rfl, rfl, h1⟩ | ⟨c, t, rfl⟩)
    · induction p with
      | nil => exact List.cons_lt_cons_iff.2 (Or.inl h1)
      | cons c p ih => exact List.cons_lt_cons_iff.2 (Or.inr ⟨rfl, ih⟩)
    · induction x with
      | nil => exact List.nil_lt_cons _ _
      | cons a x ih => exact List.cons_lt_cons_iff.2 (Or.inr ⟨rfl, ih⟩)

/-- **C26.** It is a strict total order. -/
theorem C26_total_order : (∀ x : Bytes, ¬ x < x) ∧ (∀ x y z : Bytes, x < y → y < z → x < z) ∧ (∀ x y : Bytes, x < y ∨ x = y ∨ y < x) := by
  refine ⟨fun x => List.lt_irrefl x, fun x y z => List.lt_trans, fun x y => ?_⟩
  by_cases h1 : x < y
  · exact Or.inl h1
  · by_cases h2 : y < x
    · exact Or.inr (Or.inr h2)
    · exact Or.inr (Or.inl (List.le_antisymm h2 h1))

example : ([1, 200] : Bytes) < [2] ∧ ([127] : Bytes) < [128] ∧ ([1] : Bytes) < [1, 0] ∧ ([] : Bytes) < [0] := by decide

/-- **C27.** In a queue holding `s`: pop on an empty queue throws out_of_range and changes no byte of the heap; pop otherwise returns; a push throws only for lack
of memory, and then the queue still holds exactly `s`; clear never throws and leaves the queue empty; size never throws, changes nothing and returns the number of items.
The blocks of all other clients (`G`) stay as they were. -/
theorem C27_size_clear_failures (b : Nat) (G : Nat → Option Block) (s : List Bytes) (h : Heap) (hi : PrioQueue.Inv b G s h) :
    (s = [] → wp (PrioQueue.pop b) (fun out h' => out = .err .outOfRange ∧ h' = h) h) ∧
    (s ≠ [] → wp (PrioQueue.pop b) (fun out h' => ∃ m s', out = .ok m ∧ s.Perm (m :: s') ∧ PrioQueue.Inv b G s' h') h) ∧
    (∀ d : Bytes, d.length ≤ 2 ^ 62 → wp (PrioQueue.push b d) (fun out h' => ∀ e, out = .err e → e = .noMem ∧ PrioQueue.Inv b G s h') h) ∧
    wp (PrioQueue.clear b) (fun out h' => out = .ok () ∧ PrioQueue.Inv b G [] h') h ∧
    wp (PrioQueue.size b) (fun out h' => out = .ok s.length ∧ h' = h) h := by
  obtain ⟨hk, arr, cap, A, D, lk, hp, r⟩ := hi
  have hlen : s.length = A.length := by rw [hp.length_eq, List.length_map]
  refine ⟨?_, ?_, ?_, ?_, ?_⟩
  · rintro rfl
    refine wp_mono ?_ (PrioQueue.pop_spec r)
    rintro out h' (⟨-, h1, h2⟩ | ⟨o, A', h1, -⟩)
    · exact ⟨h1, h2⟩
    · have := h1.length_eq
      simp at this hlen
      omega
  · intro hne
    refine wp_mono ?_ (wp_heapOk hk (PrioQueue.pop_spec r))
    rintro out h' ⟨⟨rfl, h1, h2⟩ | ⟨o, A', h1, -, h2, r'⟩, hk'⟩
    · simp at hp; exact absurd hp hne
    · exact ⟨D o, A'.map D, h2, hp.trans (h1.map D), hk', _, _, _, _, _, .refl _, r'⟩
  · intro d hd
    refine wp_mono ?_ (wp_heapOk hk (PrioQueue.push_spec hk r (data := d) (by omega)))
    rintro out h' ⟨⟨rfl, arr', cap', lk', r'⟩ | ⟨rfl, -⟩, hk'⟩ e he
    · injection he with he; subst he
      exact ⟨rfl, hk', _, _, _, _, _, hp, r'⟩
    · cases he
  · refine wp_mono ?_ (wp_heapOk hk (PrioQueue.clear_spec r))
    rintro out h' ⟨⟨h1, r'⟩, hk'⟩
    exact ⟨h1, hk', _, _, _, _, _, .refl _, r'⟩
  · rw [hlen]; exact PrioQueue.size_spec r

/-- **C28 is false.** After 33 pushes and 33 pops on a new queue the pool holds the 24-byte base object and both the 256-byte array and the 512-byte array. -/
theorem C28_false :
    (run Simple.bytesAllocated (run (compile (hist (PrioQueue.call 344) (List.replicate 33 (.push []) ++ List.replicate 33 .pop))) pqPool).2).1 = .ok (24 + 256 + 512) ∧
    (run (compile (PrioQueue.call 344 .size)) (run (compile (hist (PrioQueue.call 344) (List.replicate 33 (.push []) ++ List.replicate 33 .pop))) pqPool).2).1 = .ok (.num 0) := by
  decide +kernel

/-- **C28, the true part.** After any history on a newly created queue the allocator holds exactly the blocks it held before, the 24-byte
base object, one block per item of the item's length, one array of 8 bytes per entry of the capacity (none before the first push), and the arrays
abandoned when the queue grew: 256, 512, 1024, … bytes, all smaller than the present one.  Missing: that the abandoned arrays are freed, which is false. -/
theorem C28_blocks_partial (h : Heap) (hk : HeapOk h) (ops : List Op) (hok : ∀ o ∈ ops, o.ok) :
    wp (PrioQueue.create.bind fun b => (hist (PrioQueue.call b) ops).bind fun rs => .ret (b, rs))
      (fun out h' => (out = .err .noMem ∧ h' = h) ∨ ∃ (b : Nat) (rs : List (Out Ret)) (s : List Bytes) (nodes lk arr : List Nat), out = .ok (b, rs) ∧ Trace Spec [] ops rs s ∧
        (b :: nodes ++ lk ++ arr).Nodup ∧ (∀ x ∈ b :: nodes ++ lk ++ arr, h.blk x = none) ∧
        (∀ x, x ∉ b :: nodes ++ lk ++ arr → h'.blk x = h.blk x) ∧
        (∃ B, h'.blk b = some B ∧ B.size = 24) ∧
        (∃ t : List Bytes, t.Perm s ∧ nodes.length = t.length ∧ ∀ i (hn : i < nodes.length) (hs : i < t.length), ∃ B, h'.blk nodes[i] = some B ∧ B.size = t[i].length) ∧
        (∀ i (hi : i < lk.length), ∃ B, h'.blk lk[i] = some B ∧ B.size = 256 * 2 ^ i) ∧
        ((arr = [] ∧ lk = [] ∧ s = []) ∨ ∃ a B, arr = [a] ∧ h'.blk a = some B ∧ B.size = 256 * 2 ^ lk.length)) h := by
  refine wp_bind_of (wp_heapOk hk (PrioQueue.create_spec h)) ?_ ?_
  · rintro b h1 ⟨r, hk'⟩
    refine wp_bind_of (hist_spec (PrioQueue.step b h.blk) ops [] h1 hok ⟨hk', _, _, _, _, _, .refl _, r⟩) ?_ ?_
    · rintro rs h' ⟨rs', s', e1, h2, -, arr, cap, A, D, lk, hp, r'⟩
      injection e1 with e1
      subst e1
      right
      have hb : b ∉ A := fun hb => (r'.al b hb).2.2.1 rfl
      have harrA : arr ∉ A := fun hb => (r'.items arr hb).1 rfl
      refine ⟨b, rs, s', A, lk, if cap = 0 then [] else [arr], rfl, h2, ?_, ?_, ?_, ?_, ?_, (fun i hi => (r'.lks i hi).imp fun B hB => ⟨hB.1, hB.2 trivial⟩), ?_⟩
      · rcases r'.array with ⟨h1, h2, h3, h4⟩ | ⟨h1, h2, h3, h4, h5, h6, -⟩
        · subst h3 h4; simp [h1]
        · rw [if_neg (by rw [h1]; exact (Nat.mul_pos (by decide) (Nat.two_pow_pos _)).ne')]
          simp only [List.cons_append, List.nodup_cons, List.nodup_append, List.mem_append, List.mem_singleton]
          refine ⟨?_, ⟨r'.nodup, r'.lknd, ?_⟩, by simp, ?_⟩
          · rintro ((h | h) | h)
            exacts [hb h, r'.lkb h, h2 h.symm]
          · rintro a ha c hc rfl
            exact (r'.al a ha).2.2.2 hc
          · rintro a ha c rfl rfl
            rcases ha with ha | ha
            exacts [harrA ha, h6 ha]
      · intro x hx
        rw [r'.frame x, if_pos]
        simp only [List.cons_append, List.mem_cons, List.mem_append] at hx
        rcases hx with h | (h | h) | h
        · exact Or.inl h
        · exact Or.inr (Or.inr (Or.inl h))
        · exact Or.inr (Or.inr (Or.inr h))
        · split at h
          · cases h
          · rename_i hc; exact Or.inr (Or.inl ⟨hc, by simpa using h⟩)
      · intro x hx
        simp only [List.cons_append, List.mem_cons, List.mem_append, not_or] at hx
        obtain ⟨x1, ⟨x2, x3⟩, x4⟩ := hx
        rw [r'.frame x, if_neg]
        rintro (h | ⟨hc, h⟩ | h | h)
        · exact x1 h
        · rw [if_neg hc] at x4; exact x4 (List.mem_singleton.2 h)
        · exact x2 h
        · exact x3 h
      · obtain ⟨B0, h0, hs0, -⟩ := r'.b0
        exact ⟨B0, h0, hs0⟩
      · refine ⟨A.map D, hp.symm, by simp, ?_⟩
        intro i hn hs
        obtain ⟨-, -, B, hB, hd⟩ := r'.items A[i] (List.getElem_mem _)
        refine ⟨B, hB, ?_⟩
        rw [List.getElem_map, ← hd]
        simp [Block.bytes]
      · rcases r'.array with ⟨h1, h2, h3, h4⟩ | ⟨h1, h2, h3, h4, h5, h6, BA, hBA, hs, -⟩
        · subst h3
          exact Or.inl ⟨by rw [if_pos h1], h4, by simpa using hp⟩
        · right
          refine ⟨arr, BA, by rw [if_neg (by rw [h1]; exact (Nat.mul_pos (by decide) (Nat.two_pow_pos _)).ne')], hBA, by rw [hs.2.2 trivial, h1, ← Nat.mul_assoc]⟩
    · rintro e h' ⟨rs', s', e1, -⟩; cases e1
  · rintro e h' ⟨⟨rfl, rfl⟩, -⟩
    exact Or.inl ⟨rfl, rfl⟩

open Lock

namespace PQ
/-- the methods that take the lock for writing (PriorityQueue.cc) -/
def Op.writes : Op → Bool
  | .size => false
  | _ => true
end PQ

/-- **C19, PriorityQueue.** Threads of any number of processes call the methods of one priority queue on one pool at the same time, each call under the
allocator's lock; their memory accesses interleave in any way, and no process dies.  The finished calls, in the order they finished,
have the results of a sequential priority queue. -/
theorem C19_prioqueue_concurrent_partial {b : Nat} {G : Nat → Option Block} {q0 : List Bytes} {h0 : Heap} {p0 : Pool}
    (hi0 : PrioQueue.Inv b G q0 h0) (hs0 : Sim h0 p0) {calls : Nat → List PQ.Op} (hok : ∀ t, ∀ o ∈ calls t, o.ok) {pid : Nat → Nat} {fuel : Nat}
    (hp : PidsOk pid) {s0 s : St (poolMach (Out PQ.Ret))}
    (hi : Init pid fuel (fun t => (calls t).map (callSession (PrioQueue.call b) PQ.Op.writes .unit)) p0 s0)
    (hr : Reach pid s0 s) (hal : ∀ t, s.alive (pid t) = true) :
    ∃ (ops : List PQ.Op) (rs : List (Out PQ.Ret)) (q : List Bytes), Trace PQ.Spec q0 ops rs q ∧
      s.log.map (fun e => (e.2.2.1, e.2.2.2)) = (ops.zip rs).map (fun x => (methodBody (PrioQueue.call b) x.1, Res.ok x.2)) ∧ ops.length = rs.length ∧
      ((∀ t n, s.st t ≠ some (.write n)) → ∃ h, PrioQueue.Inv b G q h ∧ Sim h s.mem) := by
  refine concurrent_calls (PrioQueue.step b G) ?_ hok hi0 hs0 hp hi hr hal
  intro o ho
  cases o with
  | size => exact ⟨fun _ => rfl, fun _ => trivial⟩
  | _ => cases ho

theorem pqPool_ready : ∃ h G, PrioQueue.Inv 344 G [] h ∧ Sim h pqPool := by
  have hst : Hist (newPool 0) (run Simple.init (newPool 0)).2 [] [] true :=
    .start (newPool_geo 0) (by decide +kernel) (run_eta (by decide +kernel))
  obtain ⟨hp, hs, -⟩ := hst.sim
  obtain ⟨out, p1, h1, hr, hq, hs1⟩ := sim_run (PrioQueue.create_spec hp) hs
  have e : (run (compile PrioQueue.create) (run Simple.init (newPool 0)).2).1 = .ok 344 := by decide +kernel
  rw [hr] at e
  have e2 : pqPool = p1 := by unfold pqPool; rw [hr]
  cases out with
  | err e => cases e
  | ok b =>
    injection e with e
    subst e
    exact ⟨h1, hp.blk, ⟨hs1.heapOk, _, _, _, _, _, .refl _, hq⟩, e2 ▸ hs1⟩

/-- the hypotheses of `C19_prioqueue_concurrent_partial` are met by a queue created on a fresh pool and two processes -/
example : ∃ h G, PrioQueue.Inv 344 G [] h ∧ Sim h pqPool ∧ PidsOk (fun t => t % 2 + 1) ∧
    ∃ s0, Init (fun t => t % 2 + 1) 10 (fun t => (if t = 0 then [PQ.Op.push [1], .push []] else if t = 1 then [.pop, .size] else []).map
      (callSession (PrioQueue.call 344) PQ.Op.writes .unit)) pqPool s0 := by
  obtain ⟨h, G, h1, h2⟩ := pqPool_ready
  exact ⟨h, G, h1, h2, fun t => ⟨Nat.succ_ne_zero _, by show t % 2 + 1 < 2 ^ 18; omega⟩,
    ⟨fun _ => 0, fun _ => true, pqPool, [], fun t => thread 10 (t % 2 + 1) _, fun _ => none, fun _ => none, fun _ => 0⟩,
    ⟨fun _ => rfl, rfl, rfl, fun _ => rfl, fun _ => rfl, fun _ => rfl, fun _ => rfl⟩⟩

end Verif
