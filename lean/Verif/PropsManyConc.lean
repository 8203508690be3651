import Verif.ManyConc
import Verif.PropsConc
import Verif.PropsCrash
/-
C75, at the same time, for the kinds of the library.
-/
namespace Verif
open Opening Heap Lock

variable (hash : Bytes → Nat) (F : HT.Fp) (add : BitVec 64 → BitVec 64 → BitVec 64)

/-- the methods that take the lock for writing (Queue.cc 94-185, PriorityQueue.cc, HashTable.cc, PrefixTree.cc) -/
def libWrites : (i : Which) → (library hash F add i).Op → Bool
  | .queue => Deque.Op.writes
  | .prio => fun (o : PQ.Op) => decide (o ≠ .size)
  | .hash _ _ => HT.Op.writes
  | .tree => PT.Op.writes
  | .user => fun _ => true

/-- the calls that concurrent threads make, whatever the state (as in C19: no iterations, and none of those that are wrong in some states) -/
def libStatic : (i : Which) → (library hash F add i).Op → Prop
  | .queue => Deque.Op.ok
  | .prio => PQ.Op.ok
  | .hash _ _ => fun (o : HT.Op) => o.free ∧ o ≠ .items
  | .tree => fun (o : PT.Op) => o.free ∧ o ≠ .items
  | .user => fun (o : User.Op) => ∃ n, o = .alloc n ∧ n ≤ 2 ^ 62

/-- no slot of a hash table has been given up -/
def libFair : (i : Which) → (library hash F add i).St → Prop
  | .hash _ _ => fun (s : HT.Damaged) => s.dm = []
  | _ => fun _ => True

/-- the calls that concurrent threads of processes that may die make: on prefix trees and on the allocator -/
def libSafe : (i : Which) → (library hash F add i).Op → Prop
  | .tree => fun (o : PT.Op) => o.free ∧ o ≠ .items
  | .user => fun (o : User.Op) => ∃ n, o = .alloc n ∧ n ≤ 2 ^ 62
  | _ => fun _ => False

theorem libRo : ∀ i b o, libWrites hash F add i o = false → HRo ((library hash F add i).call b o)
  | .queue, b, o, h => by
    change Deque.Op.writes o = false at h
    show HRo (Queue.call b o)
    cases o with
    | size => exact HRo.bind .rd fun _ => .ret
    | bytes => exact HRo.bind .rd fun _ => .ret
    | _ => cases h
  | .prio, b, o, h => by
    change decide ((show PQ.Op from o) ≠ .size) = false at h
    have e : (show PQ.Op from o) = .size := by simpa using h
    subst e
    exact HRo.bind .rd fun _ => .ret
  | .hash _ _, b, o, h => by
    change HT.Op.writes o = false at h
    show HRo (HashTable.call hash F b o)
    cases o with
    | size => exact HRo.bind (HRo.bind .rd fun _ => .ret) fun _ => .ret
    | «at» k =>
      refine HRo.bind (HRo.bind HashTable.ro_walkTables fun r => ?_) fun _ => .ret
      cases r with
      | none => exact .err
      | some l => exact HRo.bind .rdB fun _ => .ret
    | «exists» k => exact HRo.bind (HRo.bind HashTable.ro_walkTables fun _ => .ret) fun _ => .ret
    | _ => cases h
  | .tree, b, o, h => PrefixTree.ro_call (add := add) o h
  | .user, _, _, h => by cases h

theorem lib_static : Many.Static (library hash F add) (libStatic hash F add) (libFair hash F add) where
  ok
    | .queue, _, _, _, h => h
    | .prio, _, _, _, h => h
    | .hash bits _, (s : HT.Damaged), (o : HT.Op), (hf : s.dm = []), h =>
      show s.ok hash bits o from ⟨(show o.free from h.1).ok, (fun k _ hk => by rw [hf] at hk; cases hk), fun _ => hf⟩
    | .tree, _, _, _, h => PT.Op.free.ok h.1
    | .user, _, _, _, ⟨n, e, hn⟩ => by subst e; exact hn
  keep
    | .queue, _, _, _, _, _, _, _ => trivial
    | .prio, _, _, _, _, _, _, _ => trivial
    | .hash _ _, (s : HT.Damaged), _, _, (s' : HT.Damaged), (hf : s.dm = []), _, h => (show s'.dm = s.dm from h.1).trans hf
    | .tree, _, _, _, _, _, _, _ => trivial
    | .user, _, _, _, _, _, _, _ => trivial

theorem lib_safe : Many.Static (library hash F add) (libSafe hash F add) (fun _ _ => True) where
  ok
    | .queue, _, _, _, h => h.elim
    | .prio, _, _, _, h => h.elim
    | .hash _ _, _, _, _, h => h.elim
    | .tree, _, _, _, h => PT.Op.free.ok h.1
    | .user, _, _, _, ⟨n, e, hn⟩ => by subst e; exact hn
  keep := fun _ _ _ _ _ _ _ _ => trivial

theorem lib_cut : ∀ i s o s', True → libSafe hash F add i o → (library hash F add i).Cut s o s' → ∃ t, s' = some t ∧ True
  | .queue, _, _, _, _, h, _ => h.elim
  | .prio, _, _, _, _, h, _ => h.elim
  | .hash _ _, _, _, _, _, h, _ => h.elim
  | .tree, _, _, _, _, _, ⟨_, _, e⟩ => ⟨_, e, trivial⟩
  | .user, _, _, _, _, _, ⟨t, e, _⟩ => ⟨t, e, trivial⟩

/-- **C75, at the same time.** Clients set up structures in a pool, as in `C75_many`.  Then threads of any number of processes call the methods of any of them at the same time, each call under the
allocator's lock; their memory accesses interleave in any way, and no process dies.  The finished calls, in the order they finished, have the effects and results that `Steps` gives: each call acts on its own
structure as if that were alone and nobody else were there.  As long as nobody is writing, the structures can be used further as in `C75_many`. -/
theorem C75_concurrent {p0 p : Pool} {live lk : List (Nat × Nat)} {ex : Bool} (h : Hist p0 p live lk ex) (c : Many.Client (library hash F add)) (hm : Many.May (library hash F add) [] c) :
    ∃ (log : Many.Log (library hash F add)) (p' : Pool) (es : List (Many.Entry (library hash F add))), Many.perform (library hash F add) c [] p = (.ok log, p') ∧ Many.Right (library hash F add) [] c log es ∧
      ∀ {calls : Nat → List (Many.Call (library hash F add))} {pid : Nat → Nat} {fuel : Nat} {s0 s : St (poolMach (Out ((i : Which) × (library hash F add i).Ret)))},
        (∀ (n : Nat) (i : Which) (s : (library hash F add i).St), es[n]? = some ⟨i, some s⟩ → libFair hash F add i s) → (∀ t, ∀ c ∈ calls t, (∃ s, es[c.n]? = some ⟨c.i, some s⟩) ∧ libStatic hash F add c.i c.o) → PidsOk pid →
        Init pid fuel (fun t => (calls t).map (Many.Call.session (libWrites hash F add) ⟨.queue, Deque.Ret.unit⟩ (Many.bases log))) p' s0 → Reach pid s0 s → (∀ t, s.alive (pid t) = true) →
        ∃ cs rs es', Trace Many.CallSpec es cs rs es' ∧
          s.log.map (fun e => (e.2.2.1, e.2.2.2)) = (cs.zip rs).map (fun x => (methodBody (Many.Call.prog (Many.bases log)) x.1, Res.ok x.2)) ∧ cs.length = rs.length ∧
          ((∀ t n, s.st t ≠ some (.write n)) → Many.Usable (library hash F add) (Many.bases log) es' s.mem) := by
  obtain ⟨hp, hs, hl⟩ := h.sim
  have hg : Many.Good (libInv hash F add) hp.blk [] [] (fun _ => none) hp :=
    ⟨rfl, (fun n i s e => by cases e), (fun x n e => by cases e), fun x B hx => ⟨rfl, hx⟩⟩
  obtain ⟨log, p', es, own, h', e1, e2, g, hs'⟩ := Many.perform_spec (library_laws hash F add) c hm hg hs
  rw [List.nil_append] at g
  refine ⟨log, p', es, e1, e2, ?_⟩
  intro calls pid fuel s0 s hf hok hpi hi hr hal
  exact Many.concurrent (library_laws hash F add) (lib_static hash F add) (libRo hash F add) (G := hp.blk) (bs := Many.bases log) ⟨fun n i s hn => ⟨s, hn, hf n i s hn⟩, hs'.heapOk, own, g⟩ hs' hok hpi hi hr hal

/-- **C75, at the same time and with deaths.** As `C75_concurrent`, but any process may die at any time, also inside a call, inside the allocator or inside a repair; the threads call the methods of prefix trees and
the allocator (the other structures of the pool, which are not proof against deaths, are left alone).  There is a sequential history with deaths `evs` that explains it: the finished calls, in the order they finished, have the effects and results that
`Steps` gives; each death inside a call affects only the structure it is made on, as `Cut` says; and as long as no live process is writing, repair succeeds and all structures, also those that were left alone, can be used further as in `C75_many`. -/
theorem C75_concurrent_crash {p0 p : Pool} {live lk : List (Nat × Nat)} {ex : Bool} (h : Hist p0 p live lk ex) (c : Many.Client (library hash F add)) (hm : Many.May (library hash F add) [] c) :
    ∃ (log : Many.Log (library hash F add)) (p' : Pool) (es : List (Many.Entry (library hash F add))), Many.perform (library hash F add) c [] p = (.ok log, p') ∧ Many.Right (library hash F add) [] c log es ∧
      ∀ {calls : Nat → List (Many.Call (library hash F add))} {pid : Nat → Nat} {fuel : Nat} {s0 s : St (poolMach (Out ((i : Which) × (library hash F add i).Ret)))},
        (∀ t, ∀ c ∈ calls t, (∃ s, es[c.n]? = some ⟨c.i, some s⟩) ∧ libSafe hash F add c.i c.o) → PidsOk pid →
        Init pid fuel (fun t => (calls t).map (Many.Call.session (libWrites hash F add) ⟨.queue, Deque.Ret.unit⟩ (Many.bases log))) p' s0 → Reach pid s0 s →
        ∃ evs es', CTrace Many.CallSpec Many.CallCut es evs es' ∧ Logged (Many.Call.prog (Many.bases log)) ⟨.queue, Deque.Ret.unit⟩ calls s.log (results evs) ∧
          (∀ c, .died c ∈ evs → ∃ t, c ∈ calls t ∧ s.alive (pid t) = false) ∧
          ((∀ t n, ¬ s.inside pid t (.write n)) → ∃ p', run Simple.repair s.mem = (.ok (), p') ∧ Many.Usable (library hash F add) (Many.bases log) es' p') := by
  obtain ⟨hp, hs, hl⟩ := h.sim
  have hg : Many.Good (libInv hash F add) hp.blk [] [] (fun _ => none) hp :=
    ⟨rfl, (fun n i s e => by cases e), (fun x n e => by cases e), fun x B hx => ⟨rfl, hx⟩⟩
  obtain ⟨log, p', es, own, h', e1, e2, g, hs'⟩ := Many.perform_spec (library_laws hash F add) c hm hg hs
  rw [List.nil_append] at g
  refine ⟨log, p', es, e1, e2, ?_⟩
  intro calls pid fuel s0 s hok hpi hi hr
  exact Many.concurrent_crash (library_laws hash F add) (lib_safe hash F add) (lib_cut hash F add) (libRo hash F add) (G := hp.blk) (bs := Many.bases log)
    ⟨fun n i s hn => ⟨s, hn, trivial⟩, hs'.heapOk, own, g⟩ hs' hok hpi hi hr

/-- the clients of the case: they set up a queue and a prefix tree -/
def twoClients : Many.Client (library (fun _ => 1) noFp noAdd) := .act (.make .queue) fun _ => .act (.make .tree) fun _ => .done

/-- the calls of the case: one thread pushes, another inserts and looks up -/
def twoCalls (t : Nat) : List (Many.Call (library (fun _ => 1) noFp noAdd)) :=
  if t = 0 then [⟨0, .queue, Deque.Op.pushBack [1]⟩] else if t = 1 then [⟨1, .tree, PT.Op.insert [0] .null none⟩, ⟨1, .tree, PT.Op.at [4]⟩] else []

/-- the hypotheses of `C75_concurrent` are met by a queue and a tree made in a new pool, and two processes -/
example : ∃ p0 p live lk ex, Hist p0 p live lk ex ∧ Many.May (library (fun _ => 1) noFp noAdd) [] twoClients ∧
    ∀ log p' es, Many.perform _ twoClients [] p = (.ok log, p') → Many.Right _ [] twoClients log es →
      (∀ (n : Nat) (i : Which) (s : (library (fun _ => 1) noFp noAdd i).St), es[n]? = some ⟨i, some s⟩ → libFair (fun _ => 1) noFp noAdd i s) ∧
      (∀ t, ∀ c ∈ twoCalls t, (∃ s, es[c.n]? = some ⟨c.i, some s⟩) ∧ libStatic (fun _ => 1) noFp noAdd c.i c.o) ∧ PidsOk (fun t => t % 2 + 1) ∧
      ∃ s0, Init (fun t => t % 2 + 1) 10 (fun t => (twoCalls t).map (Many.Call.session (libWrites (fun _ => 1) noFp noAdd) ⟨.queue, Deque.Ret.unit⟩ (Many.bases log))) p' s0 := by
  refine ⟨newPool 0, (run Simple.init (newPool 0)).2, [], [], true, .start (newPool_geo 0) (by decide +kernel) (run_eta (by decide +kernel)), ⟨trivial, fun _ _ _ => ⟨trivial, fun _ _ _ => trivial⟩⟩, ?_⟩
  intro log p' es h1 h2
  have h3 : (match Many.perform _ twoClients [] (run Simple.init (newPool 0)).2 with
      | (.ok l, _) => l.map fun (e : Many.Act (library (fun _ => 1) noFp noAdd) × Many.Ans (library (fun _ => 1) noFp noAdd)) => Many.show e.2
      | _ => []) = [[0, 344], [0, 416]] := by decide +kernel
  rw [h1] at h3
  have he : es = [⟨.queue, some []⟩, ⟨.tree, some PT.new⟩] := by
    cases h2 with
    | act a b =>
    cases b with
    | act b d =>
    cases d
    cases a with
    | full => cases h3
    | made =>
    cases b with
    | full => cases h3
    | made => rfl
  subst he
  refine ⟨?_, ?_, fun t => ⟨Nat.succ_ne_zero _, by show t % 2 + 1 < 2 ^ 18; omega⟩, ⟨fun _ => 0, fun _ => true, p', [], fun t => thread 10 (t % 2 + 1) _, fun _ => none, fun _ => none, fun _ => 0⟩,
    ⟨fun _ => rfl, rfl, rfl, fun _ => rfl, fun _ => rfl, fun _ => rfl, fun _ => rfl⟩⟩
  · intro n i s hn
    match n, hn with
    | 0, hn => cases hn; trivial
    | 1, hn => cases hn; trivial
  · intro t c hc
    unfold twoCalls at hc
    split at hc
    · cases hc with
      | head => exact ⟨⟨_, rfl⟩, show (1 : Nat) + 16 ≤ 2 ^ 62 by decide⟩
      | tail _ h => cases h
    · split at hc
      · cases hc with
        | head => exact ⟨⟨_, rfl⟩, (fun d e => by cases e), fun e => by cases e⟩
        | tail _ h =>
          cases h with
          | head => exact ⟨⟨_, rfl⟩, trivial, fun e => by cases e⟩
          | tail _ h => cases h
      · cases hc

end Verif
