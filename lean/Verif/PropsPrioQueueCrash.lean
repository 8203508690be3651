import Verif.PrioQueueCrash
import Verif.ConcCrash
import Verif.PropsPrioQueue
/-
C80: what a process that dies in a call on a PriorityQueue leaves behind.
-/
namespace Verif
namespace PQ

/-- `e` is `s` in some order, except that one place may hold a copy of another item instead of its own -/
def OneOver (e s : List Bytes) : Prop := ∃ (s' : List Bytes) (i : Nat) (x : Bytes), s'.Perm s ∧ x ∈ s ∧ e = s'.set i x

/-- the items of a queue after a death in the call `o`, if it is still a queue: those before the call, or those after it -/
def Fine (s : List Bytes) (o : Op) (s' : List Bytes) : Prop := s'.Perm s ∨ ∃ r s1, Spec s o r s1 ∧ s'.Perm s1

/-- a death in the call `o` may damage the queue: a push onto a queue that is not empty, a pop from a queue with two items or more -/
def Op.risky (s : List Bytes) : Op → Prop
  | .push _ => s ≠ []
  | .pop => 2 ≤ s.length
  | _ => False

/-- the items that the entries of a damaged queue stand for: all those of the call, but perhaps one of them twice instead of another -/
def Hurt (s : List Bytes) (o : Op) (e : List Bytes) : Prop :=
  o.risky s ∧ match o with
    | .push d => OneOver e (d :: s)
    | .pop => OneOver e s ∨ ∃ m s', s.Perm (m :: s') ∧ (∀ x ∈ s, m ≤ x) ∧ OneOver e s'
    | _ => False
end PQ

open PQ
namespace PrioQueue
variable {b : Nat} {G : Nat → Option Block}

/-- what a death in the call `o` leaves -/
def Left (b : Nat) (G : Nat → Option Block) (s : List Bytes) (o : Op) (h : Heap) : Prop :=
  (∃ s' G' arr cap A D lk, Fine s o s' ∧ (∀ x B, G x = some B → G' x = some B) ∧ s'.Perm (A.map D) ∧ RepX False h b arr cap A D lk G') ∨
  ∃ arr cap L D lk, Shape h b arr cap L D lk ∧ Keeps G h b arr cap L lk ∧ Hurt s o (L.map D)

theorem RepX.weaken {ex : Prop} {h : Heap} {base arr cap : Nat} {A : List Nat} {D : Nat → Bytes} {lk : List Nat} {G : Nat → Option Block} (r : RepX ex h base arr cap A D lk G) :
    RepX False h base arr cap A D lk G := by
  refine ⟨r.blt, r.b0, ?_, r.items, r.al, r.nodup, r.heap, fun i hi => (r.lks i hi).imp fun B hB => ⟨hB.1, False.elim⟩, r.lknd, r.lkb, r.frame⟩
  rcases r.array with ⟨h1, h2, h3, h4⟩ | ⟨h1, h2, h3, h4, h5, h6, BA, hBA, hs, hE⟩
  · exact Or.inl ⟨h1, ⟨False.elim, h2.2⟩, h3, h4⟩
  · exact Or.inr ⟨h1, h2, h3, h4, h5, h6, BA, hBA, ⟨hs.1, hs.2.1, False.elim⟩, hE⟩

theorem InvX.weaken {ex : Prop} {s : List Bytes} {h : Heap} (hi : InvX ex b G s h) : InvX False b G s h := by
  obtain ⟨hk, arr, cap, A, D, lk, hp, r⟩ := hi
  exact ⟨hk, arr, cap, A, D, lk, hp, r.weaken⟩

theorem wpI_call {α : Type} {I : Heap → Prop} {p : HProg α} {f : α → Ret} {h : Heap} (hp : wpI I p (fun _ _ => True) h) : wpI I (p.bind fun a => .ret (f a)) (fun _ _ => True) h :=
  wpI_bind_of hp (fun _ _ _ => trivial) (fun _ _ _ => trivial)

theorem cut {s : List Bytes} {o : Op} {h : Heap} (hok : o.ok) (hi : InvX False b G s h) : always (call b o) (Left b G s o) h := by
  obtain ⟨hk, arr, cap, A, D, lk, hp, r⟩ := hi
  have fine : ∀ {h' arr' cap' L' D' lk' s'}, Shape h' b arr' cap' L' D' lk' → Keeps G h' b arr' cap' L' lk' → L'.Nodup → IsHeap (ltD D') L' → Fine s o s' → s'.Perm (L'.map D') → Left b G s o h' := by
    intro h' arr' cap' L' D' lk' s' k1 k2 k3 k4 k5 k6
    obtain ⟨G', g1, g2⟩ := k1.rep k2 k3 k4
    exact Or.inl ⟨s', G', _, _, _, _, _, k5, g1, k6, g2⟩
  have same : ∀ h' arr' cap' lk', Shape h' b arr' cap' A D lk' → Keeps G h' b arr' cap' A lk' → Left b G s o h' :=
    fun h' arr' cap' lk' k1 k2 => fine k1 k2 r.nodup r.heap (Or.inl (.refl _)) hp
  have start : Left b G s o h := same _ _ _ _ r.shape r.keeps
  have hlen : s.length = A.length := by rw [hp.length_eq, List.length_map]
  cases o with
  | push d =>
    refine wpI.always start (wpI_call (push_I hk r (data := d) (by simp only [Op.ok] at hok; omega) same ?_))
    intro h' arr' cap' lk' item L' hit k1 k2 k3
    have hmap : ((A ++ [item]).map fun x => if x = item then d else D x).Perm (d :: s) := by
      rw [List.map_append]
      refine (List.perm_append_singleton _ _).trans ?_
      simp only [if_true]
      refine List.Perm.cons _ (List.Perm.trans (.of_eq ?_) hp.symm)
      exact List.map_congr_left fun a ha => if_neg (show a ≠ item from fun e => hit (e ▸ ha))
    by_cases hs : s = []
    · subst hs
      have hA : A = [] := List.length_eq_zero_iff.1 hlen.symm
      subst hA
      have hL : L' = [item] := by
        have h1 := k3.length
        match L', h1, k3 with
        | [x], _, k3 => rw [List.mem_singleton.1 (k3.mem (List.mem_singleton.2 rfl))]
      subst hL
      exact fine k1 k2 (by simp) (fun i h1 h2 => by simp at h2; omega) (s' := [d]) (Or.inr ⟨.ok .unit, [d], Or.inl ⟨rfl, .refl _⟩, .refl _⟩) hmap.symm
    · exact Or.inr ⟨arr', cap', L', _, lk', k1, k2, hs, (k3.map _).perm hmap⟩
  | pop =>
    refine wpI.always start (wpI_call (pop_I r ?_))
    intro h' L' k1 k2 k3
    rcases k3 with ⟨h2, k3⟩ | ⟨q, A1, hq, hmin, k3⟩
    · exact Or.inr ⟨arr, cap, L', D, lk, k1, k2, by show 2 ≤ s.length; omega, Or.inl ((k3.map D).perm hp.symm)⟩
    · have hq' : s.Perm (D q :: A1.map D) := hp.trans (hq.map D)
      have hm' : ∀ x ∈ s, D q ≤ x := by
        intro x hx
        obtain ⟨a, ha, rfl⟩ := List.mem_map.1 (hp.mem_iff.1 hx)
        have := hmin a ha
        simp only [ltD, decide_eq_false_iff_not] at this
        exact List.not_lt.1 this
      rcases k3 with ⟨h2, k3⟩ | ⟨k3, k4, k5⟩
      · exact Or.inr ⟨arr, cap, L', D, lk, k1, k2, by show 2 ≤ s.length; omega, Or.inr ⟨D q, A1.map D, hq', hm', k3.map D⟩⟩
      · exact fine k1 k2 k4 k5 (s' := L'.map D) (Or.inr ⟨.ok (.str (D q)), A1.map D, Or.inr ⟨D q, hq', hm', rfl⟩, k3.map D⟩) (.refl _)
  | clear =>
    refine wpI.always start (wpI_call (clear_I r ?_))
    intro h' k1 k2
    exact fine k1 k2 .nil (fun i _ h => by simp at h) (s' := []) (Or.inr ⟨.ok .unit, [], ⟨rfl, rfl⟩, .refl _⟩) (.refl _)
  | size =>
    obtain ⟨B0, h0, hs0, -⟩ := r.b0
    exact ⟨start, B0, h0, by omega, start⟩

/-- the heap holds a queue at `b` with the items `s`, beside the blocks `G` -/
def Lives (b : Nat) (G : Nat → Option Block) (s : List Bytes) (h : Heap) : Prop := ∃ G', (∀ x B, G x = some B → G' x = some B) ∧ InvX False b G' s h

theorem Lives.keeps {s : List Bytes} {h : Heap} (hi : Lives b G s h) {x : Nat} {B : Block} (hx : G x = some B) : h.blk x = some B := by
  obtain ⟨G', hg, -, arr, cap, A, D, lk, -, r⟩ := hi
  exact (r.keeps x B (hg x B hx)).1

theorem lives_step {s : List Bytes} {o : Op} {h : Heap} (hok : o.ok) (hi : Lives b G s h) : wp (call b o) (fun out h' => ∃ s', Spec s o out s' ∧ Lives b G s' h') h := by
  obtain ⟨G', hg, hi⟩ := hi
  refine wp_mono ?_ (stepX b G' s o h hok hi)
  rintro out h' ⟨s', h1, h2⟩
  exact ⟨s', h1, G', hg, h2⟩

/-- after a death, and the repair of the allocator -/
theorem death {s : List Bytes} {o : Op} {h : Heap} {p : Pool} (hok : o.ok) (hi : Lives b G s h) (hs : Sim h p) (c : Nat) :
    ∃ h1 p1, run Simple.repair (crashAt c (compile (call b o)) p) = (.ok (), p1) ∧ Sim h1 p1 ∧
      ((∃ s', Fine s o s' ∧ Lives b G s' h1) ∨ ∃ arr cap L D lk, Shape h1 b arr cap L D lk ∧ Keeps G h1 b arr cap L lk ∧ Hurt s o (L.map D)) := by
  obtain ⟨G', hg, hi⟩ := hi
  obtain ⟨h1, hl, p1, hr, hs1⟩ := sim_crash (stepX b G' s o h hok hi) (cut hok hi) hs c
  refine ⟨h1, p1, hr, hs1, ?_⟩
  rcases hl with ⟨s', G2, arr, cap, A, D, lk, k1, k2, k3, k4⟩ | ⟨arr, cap, L, D, lk, k1, k2, k3⟩
  · exact Or.inl ⟨s', k1, G2, fun x B hx => k2 x B (hg x B hx), hs1.heapOk, arr, cap, A, D, lk, k3, k4⟩
  · exact Or.inr ⟨arr, cap, L, D, lk, k1, fun x B hx => k2 x B (hg x B hx), k3⟩
end PrioQueue

namespace PQ
/-- what happens to a queue: a call is made and returns; or a process dies in a call after `c` accesses to the pool (also inside the allocator), and the next process that takes the lock
repairs the allocator -/
inductive Act
  | call (o : Op)
  | die (o : Op) (c : Nat)

/-- strings are short enough, and no process dies in a call that is risky then -/
def May : List Bytes → List Act → Prop
  | _, [] => True
  | s, .call o :: l => o.ok ∧ ∀ r s', Spec s o r s' → May s' l
  | s, .die o _ :: l => o.ok ∧ ¬ o.risky s ∧ ∀ s', Fine s o s' → May s' l

/-- the answers `rs` (none for a call in which the process died) are right; a death leaves the items before the call or after it -/
inductive Right : List Bytes → List Act → List (Option (Out Ret)) → List Bytes → Prop
  | nil (s : List Bytes) : Right s [] [] s
  | call {s s1 s2 : List Bytes} {o : Op} {l : List Act} {r : Out Ret} {rs : List (Option (Out Ret))} : Spec s o r s1 → Right s1 l rs s2 → Right s (.call o :: l) (some r :: rs) s2
  | die {s s1 s2 : List Bytes} {o : Op} {c : Nat} {l : List Act} {rs : List (Option (Out Ret))} : Fine s o s1 → Right s1 l rs s2 → Right s (.die o c :: l) (none :: rs) s2
end PQ

namespace PrioQueue
/-- put the answer of one action before those of the others -/
def andThen (a : Option (Out Ret)) : Res (List (Option (Out Ret))) × Pool → Res (List (Option (Out Ret))) × Pool
  | (.ok rs, p) => (.ok (a :: rs), p)
  | (.err e, p) => (.err e, p)
  | (.ub, p) => (.ub, p)

/-- carry out the actions on the queue at `b` in the pool, on bytes -/
def perform (b : Nat) : List Act → Pool → Res (List (Option (Out Ret))) × Pool
  | [], p => (.ok [], p)
  | .call o :: l, p =>
    match run (compile (attempt (call b o))) p with
    | (.ok r, p') => andThen (some r) (perform b l p')
    | (.err e, p') => (.err e, p')
    | (.ub, p') => (.ub, p')
  | .die o c :: l, p =>
    match run Simple.repair (crashAt c (compile (call b o)) p) with
    | (.ok _, p') => andThen none (perform b l p')
    | (.err e, p') => (.err e, p')
    | (.ub, p') => (.ub, p')

variable {b : Nat} {G : Nat → Option Block}
theorem perform_spec (l : List Act) : ∀ {s : List Bytes} {h : Heap} {p : Pool}, May s l → Lives b G s h → Sim h p →
    ∃ rs p' s' h', perform b l p = (.ok rs, p') ∧ Right s l rs s' ∧ Lives b G s' h' ∧ Sim h' p' := by
  induction l with
  | nil => exact fun _ hi hs => ⟨[], _, _, _, rfl, .nil _, hi, hs⟩
  | cons a l ih =>
    intro s h p hm hi hs
    cases a with
    | call o =>
      obtain ⟨hok, hm⟩ := hm
      have hw : wp (attempt (call b o)) (fun out h' => ∃ r s', out = .ok r ∧ Spec s o r s' ∧ Lives b G s' h') h := by
        rw [wp_attempt]
        refine wp_mono ?_ (lives_step hok hi)
        rintro out h' ⟨s', e1, e2⟩
        exact ⟨out, s', rfl, e1, e2⟩
      obtain ⟨out, p1, h1, hr, ⟨r, s1, rfl, e1, e2⟩, hs1⟩ := sim_run hw hs
      obtain ⟨rs, p2, s2, h2, f1, f2, f3, f4⟩ := ih (hm r s1 e1) e2 hs1
      refine ⟨some r :: rs, p2, s2, h2, ?_, .call e1 f2, f3, f4⟩
      unfold perform
      rw [hr]
      show andThen (some r) (perform b l p1) = _
      rw [f1]; rfl
    | die o c =>
      obtain ⟨hok, hnr, hm⟩ := hm
      obtain ⟨h1, p1, hr, hs1, hd⟩ := death hok hi hs c
      rcases hd with ⟨s1, e1, e2⟩ | ⟨arr, cap, L, D, lk, -, -, hrisk, -⟩
      · obtain ⟨rs, p2, s2, h2, f1, f2, f3, f4⟩ := ih (hm s1 e1) e2 hs1
        refine ⟨none :: rs, p2, s2, h2, ?_, .die e1 f2, f3, f4⟩
        unfold perform
        rw [hr]
        show andThen none (perform b l p1) = _
        rw [f1]; rfl
      · exact absurd hrisk hnr
end PrioQueue

/-- **C80, deaths that do no harm.** In a pool with any history of SimpleAllocator calls, a new priority queue is used by processes of which any number die, each at any point (inside the
allocator too) of a clear, a size, a push onto an empty queue or a pop from a queue with at most one item.  Every call that returns answers as on a multiset which such a death leaves as it
was before the call or as it is after it; no action faults, and none touches the bytes of blocks that other clients hold. -/
theorem C80_safe_deaths_partial {p0 p : Pool} {live lk : List (Nat × Nat)} {ex : Bool} (h : Hist p0 p live lk ex) :
    (∃ p1, run (compile PrioQueue.create) p = (.err .noMem, p1)) ∨
    ∃ b p1, run (compile PrioQueue.create) p = (.ok b, p1) ∧ ∀ acts : List Act, May [] acts →
      ∃ rs p2 s, PrioQueue.perform b acts p1 = (.ok rs, p2) ∧ Right [] acts rs s ∧
        ∀ o n, (o, n) ∈ live → ∀ i, i < n → p2.mem (o + i) = p.mem (o + i) := by
  obtain ⟨hp, hs, hl⟩ := h.sim
  obtain ⟨out, p1, h1, hr, hq, hs1⟩ := sim_run (PrioQueue.create_spec hp) hs
  cases out with
  | err e =>
    obtain ⟨rfl, -⟩ := hq
    exact Or.inl ⟨p1, hr⟩
  | ok b =>
    refine Or.inr ⟨b, p1, hr, ?_⟩
    intro acts hm
    obtain ⟨rs, p2, s, h2, e1, e2, e3, L2, hS2, hh2⟩ := PrioQueue.perform_spec (b := b) (G := hp.blk) acts hm ⟨hp.blk, fun _ _ h => h, hs1.heapOk, _, _, _, _, _, .refl _, hq.weaken⟩ hs1
    refine ⟨rs, p2, s, e1, e2, ?_⟩
    intro o n hm i hi
    obtain ⟨B, hB, rfl, hd⟩ := hl o n hm
    rw [(hh2.blk o B (e3.keeps hB)).2.2 i hi, hd i]

/-- **C80, any death.** After any calls on a new priority queue a process dies anywhere in a call `o`, and the allocator is repaired.  Either the queue is in order: its items are those before the
call or those after it, and any further calls answer accordingly.  Or `o` was a push onto a queue that was not empty, or a pop from one with two items or more: then the entries stand for the items
of the call, except that one item may be entered twice in place of another; size() returns the number of entries, and the next pop returns one of these items.  In both cases, no call touches the
bytes of blocks that other clients hold.  More than this does not hold of a damaged queue: `C80_false`. -/
theorem C80_one_death_partial {p0 p : Pool} {live lk : List (Nat × Nat)} {ex : Bool} (h : Hist p0 p live lk ex) {b : Nat} {p1 : Pool} (hc : run (compile PrioQueue.create) p = (.ok b, p1))
    {ops : List Op} (hok : ∀ o ∈ ops, o.ok) {rs : List (Out Ret)} {p2 : Pool} (hr : run (compile (hist (PrioQueue.call b) ops)) p1 = (.ok rs, p2)) {o : Op} (ho : o.ok) (c : Nat) :
    ∃ s p3, Trace Spec [] ops rs s ∧ run Simple.repair (crashAt c (compile (PrioQueue.call b o)) p2) = (.ok (), p3) ∧
      ((∃ s', Fine s o s' ∧ ∀ ops' : List Op, (∀ o ∈ ops', o.ok) → ∃ rs' p4 s2, run (compile (hist (PrioQueue.call b) ops')) p3 = (.ok rs', p4) ∧ Trace Spec s' ops' rs' s2 ∧
          ∀ o n, (o, n) ∈ live → ∀ i, i < n → p4.mem (o + i) = p.mem (o + i)) ∨
       ∃ e, Hurt s o e ∧ (∃ p4, run (compile (attempt (PrioQueue.call b .size))) p3 = (.ok (.ok (.num e.length)), p4)) ∧
          ∃ x ∈ e, ∃ p4, run (compile (attempt (PrioQueue.call b .pop))) p3 = (.ok (.ok (.str x)), p4) ∧
            ∀ o n, (o, n) ∈ live → ∀ i, i < n → p4.mem (o + i) = p.mem (o + i)) := by
  obtain ⟨hp, hs, hl⟩ := h.sim
  obtain ⟨out, p1', h1, hr1, hq, hs1⟩ := sim_run (PrioQueue.create_spec hp) hs
  rw [hc] at hr1
  obtain ⟨e1, rfl⟩ := Prod.mk.inj hr1
  cases out with
  | err e => cases e1
  | ok b' =>
  injection e1 with e1; subst e1
  obtain ⟨rs', p2', s, h2, f1, f2, f3, hs2⟩ := hist_run (PrioQueue.step b hp.blk) ops hok (s := []) (h := h1) (p := p1) ⟨hs1.heapOk, _, _, _, _, _, .refl _, hq⟩ hs1
  rw [hr] at f1
  obtain ⟨e1, rfl⟩ := Prod.mk.inj f1
  injection e1 with e1; subst e1
  have hi2 : PrioQueue.Lives b hp.blk s h2 := ⟨hp.blk, fun _ _ h => h, PrioQueue.InvX.weaken f3⟩
  obtain ⟨h3, p3, hr3, hs3, hd⟩ := PrioQueue.death ho hi2 hs2 c
  refine ⟨s, p3, f2, hr3, ?_⟩
  rcases hd with ⟨s', k1, k2⟩ | ⟨arr, cap, L, D, lk', k1, k2, k3⟩
  · refine Or.inl ⟨s', k1, ?_⟩
    intro ops' hok'
    obtain ⟨rs', p4, s2, h4, g1, g2, g3, L2, hS2, hh2⟩ := hist_run (fun s o h ho hi => PrioQueue.lives_step (b := b) (G := hp.blk) (s := s) (o := o) (h := h) ho hi) ops' hok' k2 hs3
    refine ⟨rs', p4, s2, g1, g2, ?_⟩
    intro o n hm i hi
    obtain ⟨B, hB, rfl, hd⟩ := hl o n hm
    rw [(hh2.blk o B (g3.keeps hB)).2.2 i hi, hd i]
  · refine Or.inr ⟨L.map D, k3, ?_, ?_⟩
    · have hw : wp (attempt (PrioQueue.call b .size)) (fun out h' => out = .ok (.ok (.num L.length)) ∧ h' = h3) h3 := by
        rw [wp_attempt]
        refine wp_bind_of k1.size_spec ?_ ?_
        · rintro n h' ⟨hn, rfl⟩
          injection hn with hn; subst hn
          exact ⟨rfl, rfl⟩
        · rintro e h' ⟨he, -⟩; cases he
      obtain ⟨out, p4, h4, g1, ⟨rfl, -⟩, -⟩ := sim_run hw hs3
      exact ⟨p4, by rw [g1, List.length_map]; rfl⟩
    · have hpos : 0 < L.length := by
        obtain ⟨r1, r2⟩ := k3
        have hle : ∀ {e t : List Bytes}, OneOver e t → e.length = t.length := by
          rintro e t ⟨t', i, x, hp, -, rfl⟩
          rw [List.length_set, hp.length_eq]
        cases o with
        | push d => have := hle r2; simp at this; omega
        | pop =>
          have r1 : 2 ≤ s.length := r1
          rcases r2 with r2 | ⟨m, s', q1, -, r2⟩
          · have := hle r2; simp at this; omega
          · have := hle r2
            have := q1.length_eq
            simp at *; omega
        | clear => cases r2
        | size => cases r2
      have hw : wp (attempt (PrioQueue.call b .pop)) (fun out h' => (∃ x ∈ L.map D, out = .ok (.ok (.str x))) ∧ ∀ x B, hp.blk x = some B → h'.blk x = some B) h3 := by
        rw [wp_attempt]
        refine wp_bind_of (k1.pop_spec k2 hpos) ?_ ?_
        · rintro x h' ⟨⟨a, ha, he⟩, hf⟩
          injection he with he; subst he
          exact ⟨⟨D a, List.mem_map_of_mem ha, rfl⟩, hf⟩
        · rintro e h' ⟨⟨a, -, he⟩, -⟩; cases he
      obtain ⟨out, p4, h4, g1, ⟨⟨x, hx, rfl⟩, hf⟩, L2, hS2, hh2⟩ := sim_run hw hs3
      refine ⟨x, hx, p4, g1, ?_⟩
      intro o n hm i hi
      obtain ⟨B, hB, rfl, hd⟩ := hl o n hm
      rw [(hh2.blk o B (hf o B hB)).2.2 i hi, hd i]

/-- the pool after the calls `k` on a new queue (at 344), a death in `o` after `c` accesses and the repair of the allocator -/
def pqAfter (k : List Op) (o : Op) (c : Nat) : Pool := (run Simple.repair (crashAt c (compile (PrioQueue.call 344 o)) (run (compile (hist (PrioQueue.call 344) k)) pqPool).2)).2

/-- **C80_false.** A damaged queue is no queue.  With the items [2] and [3] in the queue: a process that dies in push([1]) just after the count has been stored makes the queue return [2] before
[1]; one that dies in the sift after it makes the queue return [2] twice (its block is freed twice) and lose [1]; a push between the two pops changes the second item into the pushed one.
A process that dies in pop makes the queue return [3] twice and lose [2]. -/
theorem C80_false :
    (run (compile (hist (PrioQueue.call 344) [.size, .pop, .pop])) (pqAfter [.push [2], .push [3]] (.push [1]) 35)).1 = .ok [.ok (.num 3), .ok (.str [2]), .ok (.str [1])] ∧
    (run (compile (hist (PrioQueue.call 344) [.size, .pop, .pop])) (pqAfter [.push [2], .push [3]] (.push [1]) 45)).1 = .ok [.ok (.num 3), .ok (.str [2]), .ok (.str [2])] ∧
    (run (compile (hist (PrioQueue.call 344) [.pop, .push [7], .pop, .pop, .pop])) (pqAfter [.push [2], .push [3]] (.push [1]) 45)).1 =
      .ok [.ok (.str [2]), .ok .unit, .ok (.str [7]), .ok (.str [3]), .ok (.str [7])] ∧
    (run (compile (hist (PrioQueue.call 344) [.size, .pop, .pop])) (pqAfter [.push [2], .push [3]] .pop 6)).1 = .ok [.ok (.num 2), .ok (.str [3]), .ok (.str [3])] := by
  decide +kernel

/-- the hypotheses of `C80_safe_deaths_partial` are met by actions with deaths in pushes, pops and clears -/
example : May [] [.die (.push [1]) 9, .call .clear, .die .pop 3, .call (.push [5]), .call .size] := by
  refine ⟨(by show (1 : Nat) ≤ 2 ^ 62; decide), (fun h => h rfl), fun s1 _ => ⟨trivial, fun r s2 h2 => ?_⟩⟩
  have e2 : s2 = [] := h2.2
  subst e2
  refine ⟨trivial, (fun h => by cases h), fun s3 _ => ⟨(by show (1 : Nat) ≤ 2 ^ 62; decide), fun _ _ _ => ⟨trivial, fun _ _ _ => trivial⟩⟩⟩

/-- and such actions on bytes -/
example : (PrioQueue.perform 344 [.die (.push [1]) 9, .call .clear, .die .pop 3, .call (.push [5]), .call .size] pqPool).1 =
    .ok [none, some (.ok .unit), none, some (.ok .unit), some (.ok (.num 1))] := by
  decide +kernel

end Verif
