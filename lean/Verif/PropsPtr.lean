import Verif.PtrIncr
import Verif.PropsView
/-
C69: no method uses a pointer that the pool's growth has invalidated.
-/
namespace Verif
open Lock
open HashTable (Pairs get put del keys Check)

/-- **C69, for every structure whose methods fetch their pointers anew after each allocation.** Threads with Pool objects of their own call the methods; any of the calls may expand
the pool, which moves its mapping, and the mappings of the others are out of date then.  No call uses an invalidated pointer or leaves its mapping, and the results are those of the
sequential specification. -/
theorem C69_pointers {R O S : Type} {f : O → HProg R} {fp : O → PProg R} {Spec : S → O → Out R → S → Prop} {Inv : S → Heap → Prop} {ok : O → Prop} {writes : O → Bool} {dummy : R}
    (hstep : ∀ s o h, ok o → Inv s h → wp (f o) (fun out h' => ∃ s', Spec s o out s' ∧ Inv s' h') h)
    (hc : ∀ o, ok o → Clean (fp o) (f o)) (hro : ∀ o, writes o = false → fp o = lift (f o) ∧ HRo (f o))
    {calls : Nat → List O} (hok : ∀ t, ∀ o ∈ calls t, ok o) {pid : Nat → Nat} {fuel : Nat} {p0 : Pool} {h0 : Heap} {st0 : S}
    (hi0 : Inv st0 h0) (hs0 : Sim h0 p0) (hp : PidsOk pid) {s0 s : St (poolMach (Out R))}
    (hi : Init pid fuel (fun t => (calls t).map (ptrSession fp writes dummy)) p0 s0) (hr : Reach pid s0 s) (hal : ∀ t, s.alive (pid t) = true) :
    NoFault s ∧ ∃ (ops : List O) (rs : List (Out R)) (st : S), Trace Spec st0 ops rs st ∧
      s.log.map (fun e => (e.2.2.1, e.2.2.2)) = (ops.zip rs).map (fun x => (ptrBody fp x.1, Res.ok x.2)) ∧ ops.length = rs.length ∧
      ((∀ t n, s.st t ≠ some (.write n)) → ∃ h, Inv st h ∧ Sim h s.mem) := by
  obtain ⟨ops, rs, st, h1, h2, h3, h4⟩ := concurrent_bodies (mb := ptrBody fp) (rb := viewRepair dummy) (writes := writes) (fun ho _ _ _ hi hs => ptr_run hstep hc ho hi hs)
    (fun o ho => ptrBody_ro (hro o ho).1 (hro o ho).2) hok hi0 hs0 hp hi hr hal
  exact ⟨noFault_of h2, ops, rs, st, h1, h2, h3, h4⟩

/-- **C69, for every such structure, with deaths.** -/
theorem C69_pointers_crash {R O S : Type} {f : O → HProg R} {fp : O → PProg R} {Spec : S → O → Out R → S → Prop} {Cut : S → O → S → Prop} {Inv CI : S → Heap → Prop} {ok : O → Prop}
    (H : Crashable f Spec Cut Inv CI ok) {writes : O → Bool} {dummy : R} (hc : ∀ o, ok o → Clean (fp o) (f o)) (hro : ∀ o, writes o = false → fp o = lift (f o) ∧ HRo (f o))
    {calls : Nat → List O} (hok : ∀ t, ∀ o ∈ calls t, ok o) {pid : Nat → Nat} {fuel : Nat} {p0 : Pool} {h0 : Heap} {st0 : S}
    (hi0 : Inv st0 h0) (hs0 : Sim h0 p0) (hp : PidsOk pid) {s0 s : St (poolMach (Out R))}
    (hi : Init pid fuel (fun t => (calls t).map (ptrSession fp writes dummy)) p0 s0) (hr : Reach pid s0 s) :
    NoFault s ∧ ∃ (evs : List (Ev O R)) (st : S), CTrace Spec Cut st0 evs st ∧ LoggedB (ptrBody fp) (viewRepair dummy) dummy calls s.log (results evs) ∧
      (∀ o, .died o ∈ evs → ∃ t, o ∈ calls t ∧ s.alive (pid t) = false) ∧
      ((∀ t n, ¬ s.inside pid t (.write n)) → ∃ p' h, run Simple.repair s.mem = (.ok (), p') ∧ Inv st h ∧ Sim h p') := by
  obtain ⟨evs, st, h1, h2, h3⟩ := concurrent_bodies_crash (writes := writes) (H.ptr (dummy := dummy) hc) (fun o ho => ptrBody_ro (hro o ho).1 (hro o ho).2) hok hi0 hs0 hp hi hr
  exact ⟨LoggedB.noFault h2, evs, st, h1, h2, h3⟩

/-- **C69, Queue.** -/
theorem C69_queue {b : Nat} {G : Nat → Option Block} {q0 : List Bytes} {h0 : Heap} {p0 : Pool}
    (hi0 : Queue.Inv b G q0 h0) (hs0 : Sim h0 p0) {calls : Nat → List Deque.Op} (hok : ∀ t, ∀ o ∈ calls t, o.ok) {pid : Nat → Nat} {fuel : Nat}
    (hp : PidsOk pid) {s0 s : St (poolMach (Out Deque.Ret))}
    (hi : Init pid fuel (fun t => (calls t).map (ptrSession (Queue.callP b) Deque.Op.writes .unit)) p0 s0)
    (hr : Reach pid s0 s) (hal : ∀ t, s.alive (pid t) = true) :
    NoFault s ∧ ∃ (ops : List Deque.Op) (rs : List (Out Deque.Ret)) (q : List Bytes), Trace Deque.Spec q0 ops rs q ∧
      s.log.map (fun e => (e.2.2.1, e.2.2.2)) = (ops.zip rs).map (fun x => (ptrBody (Queue.callP b) x.1, Res.ok x.2)) ∧ ops.length = rs.length ∧
      ((∀ t n, s.st t ≠ some (.write n)) → ∃ h, Queue.Inv b G q h ∧ Sim h s.mem) := by
  refine C69_pointers (Queue.step b G) (fun o _ => Queue.callP_clean b o) ?_ hok hi0 hs0 hp hi hr hal
  intro o ho
  cases o with
  | size => exact ⟨rfl, HRo.bind .rd fun _ => .ret⟩
  | bytes => exact ⟨rfl, HRo.bind .rd fun _ => .ret⟩
  | _ => cases ho

/-- **C69, PriorityQueue.** -/
theorem C69_prioqueue {b : Nat} {G : Nat → Option Block} {q0 : List Bytes} {h0 : Heap} {p0 : Pool}
    (hi0 : PrioQueue.Inv b G q0 h0) (hs0 : Sim h0 p0) {calls : Nat → List PQ.Op} (hok : ∀ t, ∀ o ∈ calls t, o.ok) {pid : Nat → Nat} {fuel : Nat}
    (hp : PidsOk pid) {s0 s : St (poolMach (Out PQ.Ret))}
    (hi : Init pid fuel (fun t => (calls t).map (ptrSession (PrioQueue.callP b) PQ.Op.writes .unit)) p0 s0)
    (hr : Reach pid s0 s) (hal : ∀ t, s.alive (pid t) = true) :
    NoFault s ∧ ∃ (ops : List PQ.Op) (rs : List (Out PQ.Ret)) (q : List Bytes), Trace PQ.Spec q0 ops rs q ∧
      s.log.map (fun e => (e.2.2.1, e.2.2.2)) = (ops.zip rs).map (fun x => (ptrBody (PrioQueue.callP b) x.1, Res.ok x.2)) ∧ ops.length = rs.length ∧
      ((∀ t n, s.st t ≠ some (.write n)) → ∃ h, PrioQueue.Inv b G q h ∧ Sim h s.mem) := by
  refine C69_pointers (PrioQueue.step b G) (fun o _ => PrioQueue.callP_clean b o) ?_ hok hi0 hs0 hp hi hr hal
  intro o ho
  cases o with
  | size => exact ⟨rfl, HRo.bind .rd fun _ => .ret⟩
  | _ => cases ho

/-- no call of incr -/
def HT.Op.noIncr : HT.Op → Prop
  | .incr _ _ => False
  | .incrDouble _ _ => False
  | _ => True

theorem HashTable.clean {hash : Bytes → Nat} {F : HT.Fp} {base : Nat} {o : HT.Op} (h : o.noIncr) : Clean (HashTable.callP hash F base o) (HashTable.call hash F base o) := by
  refine HashTable.callP_clean hash F base o ?_ ?_ <;> (rintro k d rfl; exact h)

theorem HashTable.ptrRo {hash : Bytes → Nat} {F : HT.Fp} {b : Nat} (o : HT.Op) (h : o.writes = false) :
    HashTable.callP hash F b o = lift (HashTable.call hash F b o) ∧ HRo (HashTable.call hash F b o) := by
  cases o with
  | size => exact ⟨rfl, HRo.bind (HRo.bind .rd fun _ => .ret) fun _ => .ret⟩
  | «at» k =>
    refine ⟨rfl, HRo.bind (HRo.bind HashTable.ro_walkTables fun r => ?_) fun _ => .ret⟩
    cases r with
    | none => exact .err
    | some l => exact HRo.bind .rdB fun _ => .ret
  | «exists» k => exact ⟨rfl, HRo.bind (HRo.bind HashTable.ro_walkTables fun _ => .ret) fun _ => .ret⟩
  | _ => cases h

/-- **C69, HashTable** without incr, for which it is false (`C69_incr_false`).  Calls as in `C19_hashtable_concurrent_partial`. -/
theorem C69_hashtable_partial {hash : Bytes → Nat} {F : HT.Fp} {base slots bits : Nat} {G : Nat → Option Block} {m0 : Pairs} {lk : List Nat} {h0 : Heap} {p0 : Pool}
    {calls : Nat → List HT.Op} (_hit : ∀ t, HT.Op.items ∉ calls t) (hni : ∀ t, ∀ o ∈ calls t, o.noIncr)
    (hok : (∀ t, ∀ o ∈ calls t, o.free) ∨ ∃ K, HashTable.Apart hash bits K ∧ (∀ k ∈ keys m0, K k) ∧ ∀ t, ∀ o ∈ calls t, o.within K)
    (hi0 : HashTable.Table hash base slots bits G m0 lk h0) (hs0 : Sim h0 p0) {pid : Nat → Nat} {fuel : Nat}
    (hp : PidsOk pid) {s0 s : St (poolMach (Out HT.Ret))}
    (hi : Init pid fuel (fun t => (calls t).map (ptrSession (HashTable.callP hash F base) HT.Op.writes .unit)) p0 s0)
    (hr : Reach pid s0 s) (hal : ∀ t, s.alive (pid t) = true) :
    NoFault s ∧ ∃ (ops : List HT.Op) (rs : List (Out HT.Ret)) (m : Pairs), Trace (HT.Spec F) m0 ops rs m ∧
      s.log.map (fun e => (e.2.2.1, e.2.2.2)) = (ops.zip rs).map (fun x => (ptrBody (HashTable.callP hash F base) x.1, Res.ok x.2)) ∧ ops.length = rs.length := by
  rcases hok with hok | ⟨K, ha, hm0, hok⟩
  · have hstep := htStep (hash := hash) (F := F) (base := base) (slots := slots) (bits := bits) (G := G) (ok := fun o => o.free ∧ o.noIncr) (P := fun _ => True)
      (fun _ _ _ h => h.1.ok) (fun _ _ _ _ _ _ _ => trivial)
    obtain ⟨h0, ops, rs, m, h1, h2, h3, h4⟩ := C69_pointers (writes := HT.Op.writes) hstep (fun o ho => HashTable.clean ho.2) HashTable.ptrRo
      (fun t o ho => ⟨hok t o ho, hni t o ho⟩) ⟨trivial, lk, hi0⟩ hs0 hp hi hr hal
    exact ⟨h0, ops, rs, m, h1, h2, h3⟩
  · have hstep := htStep (hash := hash) (F := F) (base := base) (slots := slots) (bits := bits) (G := G) (ok := fun o => o.within K ∧ o.noIncr)
      (P := fun m => (keys m).Nodup ∧ ∀ k ∈ keys m, K k) (fun _ _ hm h => h.1.ok ha hm.1 hm.2) (fun _ _ _ _ ho hm hs => hs.keys ho.1 hm)
    have hn : (keys m0).Nodup := by obtain ⟨bk, -, -, hn⟩ := hi0; exact hn
    obtain ⟨h0, ops, rs, m, h1, h2, h3, h4⟩ := C69_pointers (writes := HT.Op.writes) hstep (fun o ho => HashTable.clean ho.2) HashTable.ptrRo
      (fun t o ho => ⟨hok t o ho, hni t o ho⟩) ⟨⟨hn, hm0⟩, lk, hi0⟩ hs0 hp hi hr hal
    exact ⟨h0, ops, rs, m, h1, h2, h3⟩

/-- **C69, HashTable with incr.** Any single call (with the conditions of C34-C38) either does what the specification says, or it is an incr that has expanded the pool and then used
an invalidated pointer. -/
theorem C69_hashtable_call_partial {hash : Bytes → Nat} {F : HT.Fp} {base slots bits : Nat} {G : Nat → Option Block} {m : Pairs} {lk : List Nat} {h : Heap} {p : Pool} {o : HT.Op}
    (hok : o.ok hash bits m) (ht : HashTable.Table hash base slots bits G m lk h) (hs : Sim h p) :
    let x := run (withPtrs (attemptP (HashTable.callP hash F base o))) p
    (x.1 = .ub ∧ p.size < x.2.size ∧ ¬ o.noIncr) ∨
      ∃ r m' lk' h', x.1 = .ok r ∧ HT.Spec F m o r m' ∧ HashTable.Table hash base slots bits G m' lk' h' ∧ Sim h' x.2 := by
  have hw : wp (attempt (HashTable.call hash F base o)) (fun out h' => ∃ r m' lk', out = .ok r ∧ HT.Spec F m o r m' ∧ HashTable.Table hash base slots bits G m' lk' h') h := by
    rw [wp_attempt]
    refine wp_mono ?_ (HashTable.step (F := F) o (m, lk) h hok ht)
    rintro out h' ⟨s', ⟨h1, -⟩, h2⟩
    exact ⟨out, s'.1, s'.2, rfl, h1, h2⟩
  have clean : o.noIncr → ∃ r m' lk' h', (run (withPtrs (attemptP (HashTable.callP hash F base o))) p).1 = .ok r ∧ HT.Spec F m o r m' ∧
      HashTable.Table hash base slots bits G m' lk' h' ∧ Sim h' (run (withPtrs (attemptP (HashTable.callP hash F base o))) p).2 := by
    intro hn
    have hg : ∀ p, (∃ h', True ∧ CSim h' p) → Simple.Geo p := by rintro p ⟨h', -, h⟩; exact CSim.geo h
    obtain ⟨out, h1, h', ⟨r, m', lk', rfl, h2, h3⟩, h4⟩ := rwp_run (withPtrs_rwp hg (HashTable.clean hn) (sim hw (wp_always hw) hs))
    exact ⟨r, m', lk', h', h1, h2, h3, h4⟩
  have same : Same (HashTable.callP hash F base o) (HashTable.call hash F base o) → ¬ o.noIncr →
      (((run (withPtrs (attemptP (HashTable.callP hash F base o))) p).1 = .ub ∧ p.size < (run (withPtrs (attemptP (HashTable.callP hash F base o))) p).2.size ∧ ¬ o.noIncr) ∨
      ∃ r m' lk' h', (run (withPtrs (attemptP (HashTable.callP hash F base o))) p).1 = .ok r ∧ HT.Spec F m o r m' ∧ HashTable.Table hash base slots bits G m' lk' h' ∧
        Sim h' (run (withPtrs (attemptP (HashTable.callP hash F base o))) p).2) := by
    intro he hn
    rcases withPtrs_sim he hw hs with ⟨h1, h2⟩ | ⟨out, h', h1, ⟨r, m', lk', rfl, h2, h3⟩, h4⟩
    · exact Or.inl ⟨h1, h2, hn⟩
    · exact Or.inr ⟨r, m', lk', h', h1, h2, h3, h4⟩
  cases o with
  | incr k d => exact same ((HashTable.incr_same hash base k _).bind fun _ => .ret _) id
  | incrDouble k d => exact same ((HashTable.incr_same hash base k _).bind fun _ => .ret _) id
  | _ => exact Or.inr (clean trivial)

/-- **C69, PrefixTree, with deaths.** Calls as in `C55_prefixtree_crashes_partial`. -/
theorem C69_prefixtree {add : BitVec 64 → BitVec 64 → BitVec 64} {base : Nat} {F : Nat → Option Block} {st0 : PT.State} {h0 : Heap} {p0 : Pool}
    {calls : Nat → List PT.Op} (_hit : ∀ t, PT.Op.items ∉ calls t) (hok : ∀ t, ∀ o ∈ calls t, o.free)
    (hi0 : PrefixTree.Holds base F st0 h0) (hs0 : Sim h0 p0) {pid : Nat → Nat} {fuel : Nat} (hp : PidsOk pid) {s0 s : St (poolMach (Out PT.Ret))}
    (hi : Init pid fuel (fun t => (calls t).map (ptrSession (PrefixTree.callP add base) PT.Op.writes .unit)) p0 s0) (hr : Reach pid s0 s) :
    NoFault s ∧ ∃ (evs : List (Ev PT.Op PT.Ret)) (st : PT.State), CTrace (PT.Spec add) (fun s o s' => ∃ m', PT.Cut add s.m o m' ∧ s' = PT.torn m') st0 evs st ∧
      LoggedB (ptrBody (PrefixTree.callP add base)) (viewRepair .unit) .unit calls s.log (results evs) ∧
      (∀ o, .died o ∈ evs → ∃ t, o ∈ calls t ∧ s.alive (pid t) = false) ∧
      ((∀ t n, ¬ s.inside pid t (.write n)) → ∃ p' h, run Simple.repair s.mem = (.ok (), p') ∧ (∃ F, PrefixTree.Holds base F st h) ∧ Sim h p') := by
  refine C69_pointers_crash PrefixTree.crashable (fun o _ => PrefixTree.callP_clean add base o) ?_ hok ⟨F, hi0⟩ hs0 hp hi hr
  intro o ho
  refine ⟨?_, PrefixTree.ro_call o ho⟩
  cases o <;> first | rfl | cases ho

/-- the pool of `htPool`, with `n` bytes allocated by another client -/
def htNear (n : Nat) : Pool := (run (compile (H.alloc n)) (htPool 0)).2

/-- **C69 is false of HashTable::incr.** The pool is nearly full; incr of a key that does not exist allocates, the pool grows to 8192 bytes and its mapping moves, and incr stores the
offset of the new block through the pointer to the slot that it fetched before.  insert does not have this defect; and an incr that does not expand the pool returns the right value. -/
theorem C69_incr_false :
    (run (withPtrs (attemptP (HashTable.callP HashTable.fnv1a64 noFp 344 (.incr [97] 5)))) (htNear 3600)).1 = .ub ∧
    (run (withPtrs (attemptP (HashTable.callP HashTable.fnv1a64 noFp 344 (.insert [97] [1, 2, 3, 4, 5, 6, 7, 8] none)))) (htNear 3600)).1 = .ok (.ok (.bool true)) ∧
    (run (withPtrs (attemptP (HashTable.callP HashTable.fnv1a64 noFp 344 (.incr [97] 5)))) (htNear 3000)).1 = .ok (.ok (.word 5)) ∧
    (run (compile (HashTable.call HashTable.fnv1a64 noFp 344 (.incr [97] 5))) (htNear 3600)).1 = .ok (.word 5) := by
  decide +kernel

/-- the hypotheses of `C69_queue` are met by a queue created on a fresh pool and two processes, one of which expands the pool by pushing a long string -/
example : ∃ h G, Queue.Inv 344 G [] h ∧ Sim h qPool ∧ PidsOk (fun t => t % 2 + 1) ∧
    ∃ s0, Init (fun t => t % 2 + 1) 10 (fun t => (if t = 0 then [Deque.Op.pushBack (List.replicate 5000 1)] else if t = 1 then [.popFront, .size] else []).map
      (ptrSession (Queue.callP 344) Deque.Op.writes .unit)) qPool s0 := by
  obtain ⟨h, G, h1, h2⟩ := qPool_ready
  exact ⟨h, G, h1, h2, fun t => ⟨Nat.succ_ne_zero _, by show t % 2 + 1 < 2 ^ 18; omega⟩,
    ⟨fun _ => 0, fun _ => true, qPool, [], fun t => thread 10 (t % 2 + 1) _, fun _ => none, fun _ => none, fun _ => 0⟩,
    ⟨fun _ => rfl, rfl, rfl, fun _ => rfl, fun _ => rfl, fun _ => rfl, fun _ => rfl⟩⟩

/-- the hypotheses of `C69_hashtable_call_partial` are met by a new table; the key is not in it -/
example : ∃ h G sl, HashTable.Table HashTable.fnv1a64 344 sl 2 G [] [] h ∧ Sim h (htPool 0) ∧ (HT.Op.incr [97] 5).ok HashTable.fnv1a64 2 [] := by
  obtain ⟨h, G, sl, h1, h2⟩ := htPool_ready
  exact ⟨h, G, sl, h1, h2, by decide, by decide⟩

end Verif
