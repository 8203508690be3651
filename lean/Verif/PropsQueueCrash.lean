import Verif.PropsQueue
/-
C23: what a process that dies inside a call leaves of a queue (/repo/src/Queue.{hh,cc}).
-/
namespace Verif
namespace Deque

/-- the contents after a call that succeeds -/
def after (s : List Bytes) : Op → List Bytes
  | .pushBack d => s ++ [d]
  | .pushFront d => d :: s
  | .popBack => s.dropLast
  | .popFront => s.tail
  | .push true d => d :: s
  | .push false d => s ++ [d]
  | .pop true => s.tail
  | .pop false => s.dropLast
  | .size => s
  | .bytes => s

/-- as `Spec`, but size() and bytes() are off by the constants `dc` and `dt` (modulo 2^64) -/
def SpecOff (dc dt : Nat) (s : List Bytes) (op : Op) (r : Out Ret) (s' : List Bytes) : Prop :=
  match op with
  | .size => r = .ok (.num ((s.length + dc) % 2 ^ 64)) ∧ s' = s
  | .bytes => r = .ok (.num (((s.map List.length).sum + dt) % 2 ^ 64)) ∧ s' = s
  | op => Spec s op r s'
end Deque

namespace Queue
open Deque

/-- the heap holds a queue at `b` with contents `s` and counters that are off by `dc`, `dt`; all other blocks are `G` -/
def InvD (b : Nat) (G : Nat → Option Block) (dc dt : Nat) (s : List Bytes) (h : Heap) : Prop :=
  HeapOk h ∧ ∃ L, s = L.map (·.2) ∧ RepD h b L G dc dt

theorem Inv.invD {b : Nat} {G : Nat → Option Block} {s : List Bytes} {h : Heap} (hi : Inv b G s h) : InvD b G 0 0 s h := hi

variable {b : Nat} {G : Nat → Option Block} {dc dt : Nat}

theorem stepD (s : List Bytes) (op : Op) (h : Heap) (hok : op.ok) (hi : InvD b G dc dt s h) :
    wp (call b op) (fun out h' => ∃ s', SpecOff dc dt s op out s' ∧ InvD b G dc dt s' h') h := by
  obtain ⟨hk, L, rfl, r⟩ := hi
  refine wp_mono ?_ (wp_heapOk (Q := fun out h' => ∃ s', SpecOff dc dt (L.map (·.2)) op out s' ∧ ∃ L', s' = L'.map (·.2) ∧ RepD h' b L' G dc dt) hk ?_)
  · rintro o h' ⟨⟨s', h1, L', h2, h3⟩, h4⟩
    exact ⟨s', h1, h4, L', h2, h3⟩
  have pB : ∀ d : Bytes, d.length + 16 ≤ 2 ^ 62 → wp ((pushBack b d).bind fun _ => .ret .unit)
      (fun out h' => ∃ s', ((out = .ok Ret.unit ∧ s' = L.map (·.2) ++ [d]) ∨ (out = .err .noMem ∧ s' = L.map (·.2))) ∧ ∃ L', s' = L'.map (·.2) ∧ RepD h' b L' G dc dt) h := by
    intro d hd
    refine wp_bind_of (pushBack_spec r (d := d) (by omega)) ?_ ?_
    · rintro _ h' ⟨-, n, hr⟩
      exact ⟨_, Or.inl ⟨rfl, rfl⟩, _, by simp, hr⟩
    · rintro e h' ⟨-, rfl, rfl⟩
      exact ⟨_, Or.inr ⟨rfl, rfl⟩, _, rfl, r⟩
  have pF : ∀ d : Bytes, d.length + 16 ≤ 2 ^ 62 → wp ((pushFront b d).bind fun _ => .ret .unit)
      (fun out h' => ∃ s', ((out = .ok Ret.unit ∧ s' = d :: L.map (·.2)) ∨ (out = .err .noMem ∧ s' = L.map (·.2))) ∧ ∃ L', s' = L'.map (·.2) ∧ RepD h' b L' G dc dt) h := by
    intro d hd
    refine wp_bind_of (pushFront_spec r (d := d) (by omega)) ?_ ?_
    · rintro _ h' ⟨-, n, hr⟩
      exact ⟨_, Or.inl ⟨rfl, rfl⟩, _, by simp, hr⟩
    · rintro e h' ⟨-, rfl, rfl⟩
      exact ⟨_, Or.inr ⟨rfl, rfl⟩, _, rfl, r⟩
  have qB : wp ((popBack b).bind fun d => .ret (Ret.str d)) (fun out h' => ∃ s', ((L.map (·.2) = [] ∧ out = .err .outOfRange ∧ s' = []) ∨ ∃ d, L.map (·.2) = s' ++ [d] ∧ out = .ok (.str d)) ∧
      ∃ L', s' = L'.map (·.2) ∧ RepD h' b L' G dc dt) h := by
    refine wp_bind_of (popBack_spec r) ?_ ?_
    · rintro d h' ⟨-, L', n, rfl, hr⟩
      exact ⟨L'.map (·.2), Or.inr ⟨d, by simp, rfl⟩, L', rfl, hr⟩
    · rintro e h' ⟨-, rfl, rfl, rfl⟩
      exact ⟨[], Or.inl ⟨rfl, rfl, rfl⟩, [], rfl, r⟩
  have qF : wp ((popFront b).bind fun d => .ret (Ret.str d)) (fun out h' => ∃ s', ((L.map (·.2) = [] ∧ out = .err .outOfRange ∧ s' = []) ∨ ∃ d, L.map (·.2) = d :: s' ∧ out = .ok (.str d)) ∧
      ∃ L', s' = L'.map (·.2) ∧ RepD h' b L' G dc dt) h := by
    refine wp_bind_of (popFront_spec r) ?_ ?_
    · rintro d h' ⟨-, L', n, rfl, hr⟩
      exact ⟨L'.map (·.2), Or.inr ⟨d, by simp, rfl⟩, L', rfl, hr⟩
    · rintro e h' ⟨-, rfl, rfl, rfl⟩
      exact ⟨[], Or.inl ⟨rfl, rfl, rfl⟩, [], rfl, r⟩
  cases op with
  | pushBack d => exact pB d hok
  | pushFront d => exact pF d hok
  | popBack => exact qB
  | popFront => exact qF
  | push front d =>
    cases front with
    | false => exact pB d hok
    | true => exact pF d hok
  | pop front =>
    cases front with
    | false => exact qB
    | true => exact qF
  | size =>
    refine wp_bind_of (size_spec r) ?_ ?_
    · rintro n h' ⟨hn, rfl⟩
      injection hn with hn
      subst hn
      exact ⟨_, ⟨by rw [List.length_map]; rfl, rfl⟩, L, rfl, r⟩
    · rintro e h' ⟨he, -⟩; cases he
  | bytes =>
    refine wp_bind_of (bytes_spec r) ?_ ?_
    · rintro n h' ⟨hn, rfl⟩
      injection hn with hn
      subst hn
      exact ⟨_, ⟨by rw [total_eq]; rfl, rfl⟩, L, rfl, r⟩
    · rintro e h' ⟨he, -⟩; cases he

/-- the state at every point of every call -/
theorem cut (s : List Bytes) (op : Op) (h : Heap) (hok : op.ok) (hi : InvD b G dc dt s h) : wpI (Cr b G dc dt s (after s op)) (call b op) (fun _ _ => True) h := by
  obtain ⟨hk, L, rfl, r⟩ := hi
  have hany : ∀ {α : Type} {I : Heap → Prop} {p : HProg α} {f : α → Ret} {R : Out α → Heap → Prop}, wpI I p R h → wpI I (p.bind fun a => .ret (f a)) (fun _ _ => True) h :=
    fun hw => wpI_bind_of hw (fun _ _ _ => trivial) (fun _ _ _ => trivial)
  cases op with
  | pushBack d => exact hany (pushBack_specI r (by simp only [Op.ok] at hok; omega))
  | pushFront d => exact hany (pushFront_specI r (by simp only [Op.ok] at hok; omega))
  | popBack => exact hany (popBack_specI r)
  | popFront => exact hany (popFront_specI r)
  | push front d =>
    cases front with
    | false => exact hany (pushBack_specI r (by simp only [Op.ok] at hok; omega))
    | true => exact hany (pushFront_specI r (by simp only [Op.ok] at hok; omega))
  | pop front =>
    cases front with
    | false => exact hany (popBack_specI r)
    | true => exact hany (popFront_specI r)
  | size => exact wpI_rdC (k := fun n => .ret (Ret.num n)) r.bsz (by omega) (wpI_ret trivial)
  | bytes => exact wpI_rdC (k := fun n => .ret (Ret.num n)) r.bsz (by omega) (wpI_ret trivial)

end Queue

open Deque Queue

/-- **C23, the true part.** On a queue in any state (also one left by earlier crashes) on any pool, a process dies at any point of any call, also inside the allocator, and the next lock holder runs repair. Then EITHER the queue
holds the old contents or those after the call; every further history of calls is answered accordingly, except that size() and bytes(), each of which is then that of the old or of the new contents, stay off by a constant; the blocks
of other clients are untouched and at most one block is lost; and the next crash is covered again. OR the process has died between its two link stores: the chain of next links from the front gives the new contents and the chain of
prev links from the back gives the old ones, and all other blocks are untouched.
Missing: this second case, in which later calls do go wrong (`C23_false`). -/
theorem C23_crash_partial {b : Nat} {G : Nat → Option Block} {dc dt : Nat} {s : List Bytes} {h : Heap} {p : Pool} (hi : Queue.InvD b G dc dt s h) (hs : Sim h p) (op : Op) (hok : op.ok) (c : Nat) :
    ∃ p1 h1, run Simple.repair (crashAt c (compile (Queue.call b op)) p) = (.ok (), p1) ∧ Sim h1 p1 ∧
      ((∃ s' G' dc' dt' lost, (s' = s ∨ s' = after s op) ∧
          ((s'.length + dc') % 2 ^ 64 = (s.length + dc) % 2 ^ 64 ∨ (s'.length + dc') % 2 ^ 64 = ((after s op).length + dc) % 2 ^ 64) ∧
          (((s'.map List.length).sum + dt') % 2 ^ 64 = ((s.map List.length).sum + dt) % 2 ^ 64 ∨ ((s'.map List.length).sum + dt') % 2 ^ 64 = (((after s op).map List.length).sum + dt) % 2 ^ 64) ∧
          (G lost = none ∧ ∀ x, x ≠ lost → G' x = G x) ∧
          Queue.InvD b G' dc' dt' s' h1 ∧
          ∀ ops : List Op, (∀ o ∈ ops, o.ok) → ∃ rs p2 s2, run (compile (hist (Queue.call b) ops)) p1 = (.ok rs, p2) ∧ Trace (SpecOff dc' dt') s' ops rs s2) ∨
       (∃ Ln Lo, Ln.map (·.2) = after s op ∧ Lo.map (·.2) = s ∧ Queue.Split h1 b Ln Lo ∧ ∀ x B, G x = some B → h1.blk x = some B)) := by
  have hcut := Queue.cut s op h hok hi
  have h0 : Queue.Cr b G dc dt s (after s op) h := by
    obtain ⟨-, L, rfl, r⟩ := hi
    exact Cr.start r
  obtain ⟨h1, hc, p1, hr, hs1⟩ := sim_crash hcut.wp (hcut.always h0) hs c
  refine ⟨p1, h1, hr, hs1, ?_⟩
  rcases hc with ⟨L, G', dc', dt', lost, r, e1, e2, e3, e4⟩ | hc
  · left
    refine ⟨L.map (·.2), G', dc', dt', lost, e1, ?_, ?_, e4, ⟨hs1.heapOk, L, rfl, r⟩, ?_⟩
    · rw [List.length_map]; exact e2
    · rw [total_eq]; exact e3
    · intro ops hops
      obtain ⟨rs, p2, s2, h2, e5, e6, -, -⟩ := hist_run (f := Queue.call b) (Spec := SpecOff dc' dt') (Inv := Queue.InvD b G' dc' dt') (fun s o h hk hi => Queue.stepD s o h hk hi) ops hops (s := L.map (·.2)) (h := h1) (p := p1)
        ⟨hs1.heapOk, L, rfl, r⟩ hs1
      exact ⟨rs, p2, s2, e5, e6⟩
  · exact Or.inr hc

/-- the two ends of a split queue: the first pop_front returns the first of the new items, the first pop_back the last of the old ones, or the queue is reported empty -/
theorem C23_split_ends_partial {b : Nat} {h : Heap} {Ln Lo : List (Nat × Bytes)} (hs : Queue.Split h b Ln Lo) :
    (∀ x ∈ Ln.head?, Queue.fld h b 8 (b + 16) = x.1 ∧ Queue.dat h x.1 = some x.2) ∧ (∀ x ∈ Lo.getLast?, Queue.fld h b 0 (b + 32) = x.1 ∧ Queue.dat h x.1 = some x.2) := by
  refine ⟨?_, ?_⟩
  · intro x hx
    cases Ln with
    | nil => cases hx
    | cons y Ln =>
      obtain rfl : y = x := by simpa using hx
      obtain ⟨pv, hl⟩ := hs.fwd
      refine ⟨?_, hs.node y (Or.inl (by simp))⟩
      have : Queue.seq b (y :: Ln) = (b + 16) :: y.1 :: (Ln.map (·.1) ++ [b + 32]) := by simp [Queue.seq]
      rw [this] at hl
      exact hl.1
  · intro x hx
    obtain ⟨nx, hl⟩ := hs.bwd
    have hx' : Lo.getLast? = some x := hx
    rw [List.getLast?_eq_some_iff] at hx'
    obtain ⟨L', rfl⟩ := hx'
    refine ⟨?_, hs.node x (Or.inr (by simp))⟩
    have : Queue.seq b (L' ++ [x]) = ((b + 16) :: L'.map (·.1)) ++ x.1 :: [b + 32] := by simp [Queue.seq]
    rw [this, Links.append_iff] at hl
    exact hl.2.2.1

/-- the hypotheses of C23_crash_partial are met by a new queue on a fresh pool -/
example : ∃ h G, Queue.InvD 344 G 0 0 [] h ∧ Sim h qPool := by
  have hst : Hist (newPool 0) (run Simple.init (newPool 0)).2 [] [] true :=
    .start (newPool_geo 0) (by decide +kernel) (run_eta (by decide +kernel))
  obtain ⟨hp, hs, -⟩ := hst.sim
  obtain ⟨out, p1, h1, hr, ⟨-, hq⟩, hs1⟩ := sim_run (Queue.create_spec hp) hs
  have e : (run (compile Queue.create) (run Simple.init (newPool 0)).2).1 = .ok 344 := by decide +kernel
  rw [hr] at e
  have e2 : qPool = p1 := by unfold qPool; rw [hr]
  cases out with
  | err e' => cases e
  | ok b =>
    injection e with e
    subst e
    exact ⟨h1, hp.blk, ⟨hs1.heapOk, [], rfl, hq⟩, e2 ▸ hs1⟩

end Verif
