import Verif.Cost
import Verif.PropsQueue
/-
C63: what the methods of Queue cost (README, "Time complexity", Queue).
-/
namespace Verif

namespace Deque
/-- README: push 1 allocation + O(value length); pop O(value length) + 1 free; size, bytes O(1).  There are at most 20 accesses besides; a pop on an empty queue frees
nothing. -/
def Bound (op : Op) (r : Out Ret) (c : Cost) : Prop :=
  c.acc ≤ 20 ∧
  match op with
  | .pushBack d | .pushFront d | .push _ d => c.allocs = 1 ∧ c.frees = 0 ∧ c.bytes ≤ d.length
  | .popBack | .popFront | .pop _ => c.allocs = 0 ∧ ((∃ d, r = .ok (.str d) ∧ c.frees = 1 ∧ c.bytes = d.length) ∨ (r = .err .outOfRange ∧ c.frees = 0 ∧ c.bytes = 0))
  | .size | .bytes => c.acc = 1 ∧ c.allocs = 0 ∧ c.frees = 0 ∧ c.bytes = 0
end Deque

namespace Queue
open Deque

theorem pushBack_cost (b : Nat) (d : Bytes) : HEvery (pushBack b d) {} fun _ c => c.acc ≤ 20 ∧ c.allocs = 1 ∧ c.frees = 0 ∧ c.bytes ≤ d.length := by
  intro r hr
  cases r with
  | none => simp [Every, hcost]
  | some o => simp [Every, hcost, linkNode, rdPrev, wrPrev, wrNext, H.rd, H.wr, H.bsize, H.wrB, H.rd64, H.wr64]

theorem pushFront_cost (b : Nat) (d : Bytes) : HEvery (pushFront b d) {} fun _ c => c.acc ≤ 20 ∧ c.allocs = 1 ∧ c.frees = 0 ∧ c.bytes ≤ d.length := by
  intro r hr
  cases r with
  | none => simp [Every, hcost]
  | some o => simp [Every, hcost, linkNode, rdNext, wrPrev, wrNext, H.rd, H.wr, H.bsize, H.wrB, H.rd64, H.wr64]

theorem takeNode_cost (b n : Nat) : HEvery (takeNode b n) {} fun r c => c.acc ≤ 18 ∧ c.allocs = 0 ∧ ∃ d, r = .ok d ∧ c.frees = 1 ∧ c.bytes = d.length := by
  simp only [takeNode, unlinkNode, rdPrev, rdNext, wrPrev, wrNext, H.rd, H.wr, H.bsize, H.rdB, H.free, H.rd64, H.wr64, Prog.bind_def, Prog.step_bind, Prog.ret_bind, Prog.pure_def,
    Every, hresp, hcost]
  intros
  rename_i s _ d hd _ _
  exact ⟨by simp, by simp, d, rfl, by simp, by simp [hd]⟩

theorem popBack_cost (b : Nat) : HEvery (popBack b) {} fun r c => c.acc ≤ 20 ∧ c.allocs = 0 ∧
    ((∃ d, r = .ok d ∧ c.frees = 1 ∧ c.bytes = d.length) ∨ (r = .err .outOfRange ∧ c.frees = 0 ∧ c.bytes = 0)) := by
  intro n _ p _
  show Every hresp hcost (if p = 0 then .err .outOfRange else takeNode b n) _ _
  split
  · exact ⟨by simp [hcost], by simp [hcost], Or.inr ⟨rfl, by simp [hcost], by simp [hcost]⟩⟩
  · refine (takeNode_cost b n).from.mono ?_
    rintro r c ⟨e, rfl, h1, h2, d, rfl, h3, h4⟩
    exact ⟨by simp [hcost]; omega, by simp [hcost, h2], Or.inl ⟨d, rfl, by simp [hcost, h3], by simp [hcost, h4]⟩⟩

theorem popFront_cost (b : Nat) : HEvery (popFront b) {} fun r c => c.acc ≤ 20 ∧ c.allocs = 0 ∧
    ((∃ d, r = .ok d ∧ c.frees = 1 ∧ c.bytes = d.length) ∨ (r = .err .outOfRange ∧ c.frees = 0 ∧ c.bytes = 0)) := by
  intro n _ p _
  show Every hresp hcost (if p = 0 then .err .outOfRange else takeNode b n) _ _
  split
  · exact ⟨by simp [hcost], by simp [hcost], Or.inr ⟨rfl, by simp [hcost], by simp [hcost]⟩⟩
  · refine (takeNode_cost b n).from.mono ?_
    rintro r c ⟨e, rfl, h1, h2, d, rfl, h3, h4⟩
    exact ⟨by simp [hcost]; omega, by simp [hcost, h2], Or.inl ⟨d, rfl, by simp [hcost, h3], by simp [hcost, h4]⟩⟩

theorem call_cost (b : Nat) (op : Op) : HEvery (call b op) {} (Bound op) := by
  have hpush : ∀ {p : HProg Unit} {d : Bytes} {op : Op}, (op = .pushBack d ∨ op = .pushFront d ∨ ∃ f, op = .push f d) →
      HEvery p {} (fun _ c => c.acc ≤ 20 ∧ c.allocs = 1 ∧ c.frees = 0 ∧ c.bytes ≤ d.length) → HEvery (p.bind fun _ => .ret Ret.unit) {} (Bound op) := by
    intro p d op ho hp
    refine every_bind_of hp ?_ ?_
    · intro _ c hc
      rcases ho with rfl | rfl | ⟨f, rfl⟩ <;> exact hc
    · intro _ c hc
      rcases ho with rfl | rfl | ⟨f, rfl⟩ <;> exact hc
  have hpop : ∀ {p : HProg Bytes} {op : Op}, (op = .popBack ∨ op = .popFront ∨ ∃ f, op = .pop f) →
      HEvery p {} (fun r c => c.acc ≤ 20 ∧ c.allocs = 0 ∧ ((∃ d, r = .ok d ∧ c.frees = 1 ∧ c.bytes = d.length) ∨ (r = .err .outOfRange ∧ c.frees = 0 ∧ c.bytes = 0))) →
      HEvery (p.bind fun d => .ret (Ret.str d)) {} (Bound op) := by
    intro p op ho hp
    refine every_bind_of hp ?_ ?_
    · rintro a c ⟨h1, h2, ⟨d, h3, h4, h5⟩ | ⟨h3, -⟩⟩
      · cases h3
        rcases ho with rfl | rfl | ⟨f, rfl⟩ <;> exact ⟨h1, h2, Or.inl ⟨_, rfl, h4, h5⟩⟩
      · cases h3
    · rintro a c ⟨h1, h2, ⟨d, h3, h4, h5⟩ | ⟨h3, h4, h5⟩⟩
      · cases h3
      · cases h3
        rcases ho with rfl | rfl | ⟨f, rfl⟩ <;> exact ⟨h1, h2, Or.inr ⟨rfl, h4, h5⟩⟩
  cases op with
  | pushBack d => exact hpush (Or.inl rfl) (pushBack_cost b d)
  | pushFront d => exact hpush (Or.inr (Or.inl rfl)) (pushFront_cost b d)
  | push f d =>
    cases f with
    | true => exact hpush (Or.inr (Or.inr ⟨_, rfl⟩)) (pushFront_cost b d)
    | false => exact hpush (Or.inr (Or.inr ⟨_, rfl⟩)) (pushBack_cost b d)
  | popBack => exact hpop (Or.inl rfl) (popBack_cost b)
  | popFront => exact hpop (Or.inr (Or.inl rfl)) (popFront_cost b)
  | pop f =>
    cases f with
    | true => exact hpop (Or.inr (Or.inr ⟨_, rfl⟩)) (popFront_cost b)
    | false => exact hpop (Or.inr (Or.inr ⟨_, rfl⟩)) (popBack_cost b)
  | size =>
    intro n hn
    exact ⟨by simp [hcost], by simp [hcost], by simp [hcost], by simp [hcost], by simp [hcost]⟩
  | bytes =>
    intro n hn
    exact ⟨by simp [hcost], by simp [hcost], by simp [hcost], by simp [hcost], by simp [hcost]⟩

theorem cost_step (b : Nat) (G : Nat → Option Block) (s : List Bytes) (op : Op) (h : Heap) (hok : op.ok) (hi : Inv b G s h) :
    wp (counted (call b op)) (fun out h' => ∃ s', CSpec Spec (fun _ => Bound) s op out s' ∧ Inv b G s' h') h :=
  cwp_step (cwp_of (step b G s op h hok hi) (call_cost b op))

end Queue

open Deque

/-- **C63.** In a pool with any history of SimpleAllocator calls (including crashes) and any sequence of calls of a newly created queue, every push makes exactly one
allocation and copies no more bytes than the value has; every pop that returns a value makes exactly one free and copies exactly the value's bytes, a pop on an empty queue
none; and every call makes at most 20 other accesses to the pool, size() and bytes() exactly one, however many items the queue holds.  The results are those of C20. -/
theorem C63_queue_cost {p0 p : Pool} {live lk : List (Nat × Nat)} {ex : Bool} (h : Hist p0 p live lk ex) {b : Nat} {p1 : Pool}
    (hc : run (compile Queue.create) p = (.ok b, p1)) (ops : List Op) (hok : ∀ o ∈ ops, o.ok) :
    ∃ rs p2 s, run (compile (hist (fun o => counted (Queue.call b o)) ops)) p1 = (.ok rs, p2) ∧ Trace (CSpec Spec fun _ => Bound) [] ops rs s := by
  obtain ⟨hp, hs, hl⟩ := h.sim
  obtain ⟨out, p1', h1, hr, ⟨-, hq⟩, hs1⟩ := sim_run (Queue.create_spec hp) hs
  have he := Prod.mk.inj (hc.symm.trans hr)
  cases out with
  | err e => cases he.1
  | ok b' =>
    cases he.1
    cases he.2
    obtain ⟨rs, p2, s, h2, e1, e2, -⟩ :=
      hist_run (Queue.cost_step b hp.blk) ops hok (s := []) (h := h1) (p := p1) ⟨hs1.heapOk, [], rfl, hq⟩ hs1
    exact ⟨rs, p2, s, e1, e2⟩

/-- **C63, for every lawful allocator.** -/
theorem C63_queue_cost_any_allocator (h : Heap) (hk : HeapOk h) (ops : List Op) (hok : ∀ o ∈ ops, o.ok) :
    wp (Queue.create.bind fun b => hist (fun o => counted (Queue.call b o)) ops)
      (fun out _ => out = .err .noMem ∨ ∃ rs s, out = .ok rs ∧ Trace (CSpec Spec fun _ => Bound) [] ops rs s) h := by
  refine wp_bind_of (wp_heapOk hk (Queue.create_spec h)) ?_ ?_
  · rintro b h' ⟨⟨-, r⟩, hk'⟩
    refine wp_mono ?_ (hist_spec (Queue.cost_step b h.blk) ops [] h' hok ⟨hk', [], rfl, r⟩)
    rintro out h'' ⟨rs, s', h1, h2, -⟩
    exact Or.inr ⟨rs, s', h1, h2⟩
  · rintro e h' ⟨⟨-, rfl, -⟩, -⟩
    exact Or.inl rfl

/-- a concrete run with its costs -/
example : (run (compile Queue.create) (run Simple.init (newPool 0)).2).1 = .ok 344 ∧
    (run (compile (hist (fun o => counted (Queue.call 344 o)) [.pushBack [1, 0, 2], .pushFront [], .size, .popBack, .popFront, .popFront])) qPool).1 =
      .ok [.ok (.ok .unit, { allocs := 1, acc := 13, bytes := 3 }), .ok (.ok .unit, { allocs := 1, acc := 13 }), .ok (.ok (.num 2), { acc := 1 }),
        .ok (.ok (.str [1, 0, 2]), { frees := 1, acc := 15, bytes := 3 }), .ok (.ok (.str []), { frees := 1, acc := 15 }), .ok (.err .outOfRange, { acc := 2 })] := by
  decide +kernel

end Verif
