import Verif.ConcCrash
import Verif.PropsPrefixTree
/-
C55: structures used by several processes at once, some of which die.
-/
namespace Verif
open Lock PT

namespace PrefixTree
variable {add : BitVec 64 → BitVec 64 → BitVec 64} {base : Nat}

/-- a well-formed tree in state `s`, whatever else the heap holds -/
def Stands (base : Nat) (s : State) (h : Heap) : Prop :=
  (∃ F g ni nn, Tr base F g ni nn h ∧ g.kv = s.m ∧ (s.counted = true → Card g.nd nn) ∧ (s.exact = true → Card g.vl ni) ∧ (s.clean = true → Tight g)) ∧
  ∃ n, Count (fun k => s.m k ≠ none) n

theorem cut_refl {m : Map} {o : Op} : Cut add m o m := by
  cases o with
  | insert => exact Or.inl rfl
  | insertResult k v c => cases v <;> exact Or.inl rfl
  | erase => exact Or.inl rfl
  | incr => exact Or.inl rfl
  | incrDouble => exact Or.inl rfl
  | clear => exact fun _ => Or.inl rfl
  | _ => exact rfl

theorem crashable : Crashable (call add base) (Spec add) (fun s o s' => ∃ m', Cut add s.m o m' ∧ s' = torn m') (fun s h => ∃ F, Holds base F s h)
    (Stands base) Op.free := by
  refine ⟨?_, ?_, ?_, ?_⟩
  · rintro s o h ho ⟨F, hi⟩
    refine wp_mono ?_ (step (add := add) o s h ho.ok hi)
    rintro out h' ⟨s', h1, h2⟩
    exact ⟨s', h1, F, h2⟩
  · rintro s o h ho ⟨F, hi⟩
    obtain ⟨n, hn⟩ := hi.fin
    have h0 : Cr base (Cut add s.m o) h := by
      obtain ⟨⟨g, ni, nn, t, hm, -⟩, -⟩ := hi
      exact ⟨F, g, ni, nn, t, hm ▸ cut_refl⟩
    refine always_mono ?_ ((cut (add := add) o s h ho.ok hi).always h0)
    rintro h' ⟨F', g', ni', nn', t', hm'⟩
    exact ⟨torn g'.kv, Or.inr ⟨_, hm', rfl⟩, ⟨F', g', ni', nn', t', rfl, (fun h => by cases h), (fun h => by cases h), (fun h => by cases h)⟩, cut_fin hm' hn⟩
  · rintro s h ⟨F, ⟨g, ni, nn, h1⟩, h2, -⟩
    exact ⟨⟨F, g, ni, nn, h1⟩, h2⟩
  · rintro s h p ⟨⟨F, g, ni, nn, h1⟩, h2⟩ hs
    exact ⟨F, ⟨g, ni, nn, h1⟩, h2, hs.heapOk⟩

end PrefixTree

/-- **C55, PrefixTree.** Threads of any number of processes call the methods of one prefix tree on one pool at the same time, each call under the allocator's
lock; their memory accesses interleave in any way, and any process may die at any time, also inside a call, inside the allocator or inside a repair.  Then there is a sequential history with deaths
`evs` such that the finished calls, in the order they finished, have the results of the sequential map (`Spec`); every death inside a call leaves the map as `Cut` says (every other key keeps its value);
only calls of processes that did die are cut short; and as long as no live process is writing, repair succeeds and leaves a tree with the map in which the history ends.
Calls as in `C19_prefixtree_concurrent_partial`. -/
theorem C55_prefixtree_crashes_partial {add : BitVec 64 → BitVec 64 → BitVec 64} {base : Nat} {F : Nat → Option Block} {st0 : State} {h0 : Heap} {p0 : Pool}
    {calls : Nat → List Op} (_hit : ∀ t, Op.items ∉ calls t) (hok : ∀ t, ∀ o ∈ calls t, o.free)
    (hi0 : PrefixTree.Holds base F st0 h0) (hs0 : Sim h0 p0) {pid : Nat → Nat} {fuel : Nat} (hp : PidsOk pid) {s0 s : St (poolMach (Out Ret))}
    (hi : Init pid fuel (fun t => (calls t).map (callSession (PrefixTree.call add base) Op.writes .unit)) p0 s0) (hr : Reach pid s0 s) :
    ∃ (evs : List (Ev Op Ret)) (st : State), CTrace (Spec add) (fun s o s' => ∃ m', Cut add s.m o m' ∧ s' = torn m') st0 evs st ∧
      Logged (PrefixTree.call add base) .unit calls s.log (results evs) ∧
      (∀ o, .died o ∈ evs → ∃ t, o ∈ calls t ∧ s.alive (pid t) = false) ∧
      ((∀ t n, ¬ s.inside pid t (.write n)) → ∃ p' h, run Simple.repair s.mem = (.ok (), p') ∧ (∃ F, PrefixTree.Holds base F st h) ∧ Sim h p') :=
  concurrent_calls_crash PrefixTree.crashable (fun o ho => (PrefixTree.ro_call o ho).body) hok ⟨F, hi0⟩ hs0 hp hi hr

/-- the hypotheses are met by a tree created on a fresh pool and two processes; both may die at any time -/
example : ∃ h hp, PrefixTree.Holds 344 hp new h ∧ Sim h (ptPool 0) ∧ PidsOk (fun t => t % 2 + 1) ∧
    (∀ t, ∀ o ∈ (if t = 0 then [Op.insert [0] .null none, .insert [0, 4] (.int 7) (some ([4], .missing))] else if t = 1 then [.at [4], .size] else [] : List Op), o.free) ∧
    ∃ s0, Init (fun t => t % 2 + 1) 10 (fun t => (if t = 0 then [Op.insert [0] .null none, .insert [0, 4] (.int 7) (some ([4], .missing))] else if t = 1 then [.at [4], .size] else []).map
      (callSession (PrefixTree.call noAdd 344) Op.writes .unit)) (ptPool 0) s0 := by
  obtain ⟨h, hp, h1, h2⟩ := ptPool_ready
  generalize ptPool 0 = P at h2 ⊢
  refine ⟨h, hp, h1, h2, fun t => ⟨Nat.succ_ne_zero _, by show t % 2 + 1 < 2 ^ 18; omega⟩, ?_,
    ⟨fun _ => 0, fun _ => true, P, [], fun t => thread 10 (t % 2 + 1) _, fun _ => none, fun _ => none, fun _ => 0⟩,
    ⟨fun _ => rfl, rfl, rfl, fun _ => rfl, fun _ => rfl, fun _ => rfl, fun _ => rfl⟩⟩
  intro t o ho
  split at ho
  · simp only [List.mem_cons, List.not_mem_nil, or_false] at ho
    rcases ho with rfl | rfl <;> simp [Op.free]
  · split at ho
    · simp only [List.mem_cons, List.not_mem_nil, or_false] at ho
      rcases ho with rfl | rfl <;> simp [Op.free]
    · cases ho

end Verif
