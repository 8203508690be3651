import Verif.Conc
import Verif.PropsQueue
/-
C19 for the data structures: several threads calling the methods of one structure at once.
-/
namespace Verif
open Lock

namespace Deque
/-- the methods that take the lock for writing (Queue.cc 94-185) -/
def Op.writes : Op → Bool
  | .size => false
  | .bytes => false
  | _ => true
end Deque

/-- **C19, Queue.** Threads of any number of processes call the methods of one queue on one pool at the same time, each call under the
allocator's lock as in Queue.cc; their memory accesses interleave in any way, and no process dies.  The finished calls, in the order they finished,
have the results of a sequential deque. -/
theorem C19_queue_concurrent_partial {b : Nat} {G : Nat → Option Block} {q0 : List Bytes} {h0 : Heap} {p0 : Pool}
    (hi0 : Queue.Inv b G q0 h0) (hs0 : Sim h0 p0) {calls : Nat → List Deque.Op} (hok : ∀ t, ∀ o ∈ calls t, o.ok) {pid : Nat → Nat} {fuel : Nat}
    (hp : PidsOk pid) {s0 s : St (poolMach (Out Deque.Ret))}
    (hi : Init pid fuel (fun t => (calls t).map (callSession (Queue.call b) Deque.Op.writes .unit)) p0 s0)
    (hr : Reach pid s0 s) (hal : ∀ t, s.alive (pid t) = true) :
    ∃ (ops : List Deque.Op) (rs : List (Out Deque.Ret)) (q : List Bytes), Trace Deque.Spec q0 ops rs q ∧
      s.log.map (fun e => (e.2.2.1, e.2.2.2)) = (ops.zip rs).map (fun x => (methodBody (Queue.call b) x.1, Res.ok x.2)) ∧ ops.length = rs.length ∧
      ((∀ t n, s.st t ≠ some (.write n)) → ∃ h, Queue.Inv b G q h ∧ Sim h s.mem) := by
  refine concurrent_calls (Queue.step b G) ?_ hok hi0 hs0 hp hi hr hal
  intro o ho
  cases o with
  | size => exact ⟨fun _ => rfl, fun _ => trivial⟩
  | bytes => exact ⟨fun _ => rfl, fun _ => trivial⟩
  | _ => cases ho

theorem qPool_ready : ∃ h G, Queue.Inv 344 G [] h ∧ Sim h qPool := by
  have hst : Hist (newPool 0) (run Simple.init (newPool 0)).2 [] [] true :=
    .start (newPool_geo 0) (by decide +kernel) (run_eta (by decide +kernel))
  obtain ⟨hp, hs, -⟩ := hst.sim
  obtain ⟨out, p1, h1, hr, ⟨-, hq⟩, hs1⟩ := sim_run (Queue.create_spec hp) hs
  have e : (run (compile Queue.create) (run Simple.init (newPool 0)).2).1 = .ok 344 := by decide +kernel
  rw [hr] at e
  have e2 : qPool = p1 := by unfold qPool; rw [hr]
  cases out with
  | err e => cases e
  | ok b =>
    injection e with e
    subst e
    exact ⟨h1, hp.blk, ⟨hs1.heapOk, [], rfl, hq⟩, e2 ▸ hs1⟩

/-- the hypotheses of `C19_queue_concurrent_partial` are met by a queue created on a fresh pool and two processes, one pushing and one popping -/
example : ∃ h G, Queue.Inv 344 G [] h ∧ Sim h qPool ∧ PidsOk (fun t => t % 2 + 1) ∧
    ∃ s0, Init (fun t => t % 2 + 1) 10 (fun t => (if t = 0 then [Deque.Op.pushBack [1], .pushBack []] else if t = 1 then [.popFront, .size] else []).map
      (callSession (Queue.call 344) Deque.Op.writes .unit)) qPool s0 := by
  obtain ⟨h, G, h1, h2⟩ := qPool_ready
  exact ⟨h, G, h1, h2, fun t => ⟨Nat.succ_ne_zero _, by show t % 2 + 1 < 2 ^ 18; omega⟩,
    ⟨fun _ => 0, fun _ => true, qPool, [], fun t => thread 10 (t % 2 + 1) _, fun _ => none, fun _ => none, fun _ => 0⟩,
    ⟨fun _ => rfl, rfl, rfl, fun _ => rfl, fun _ => rfl, fun _ => rfl, fun _ => rfl⟩⟩

end Verif
