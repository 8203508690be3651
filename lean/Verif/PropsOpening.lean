import Verif.OpeningStays
import Verif.PropsCrash
import Verif.PropsConc
/-
C56: opening the base object of a pool (base_offset 0), by several processes at once, some of which may die.
-/
namespace Verif
open Lock

namespace Opening
variable {O R S : Type} {mk : HProg Nat} {fin : Nat → HProg Unit} {call : Nat → O → HProg R} {w : O → Bool} {new : S} {Sp : S → O → Out R → S → Prop} {C : S → O → S → Prop}
  {I J : Nat → S → Heap → Prop} {ok : O → Prop}

/-- The constructor is `look`, and if that finds nothing, `enter`.  (`enter` after a successful `look` finds the same, so clients that always do both are covered too.) -/
theorem ctor_eq : ctor mk fin = H.getBase.bind fun b => if b = 0 then openLocked mk fin else .ret b := rfl

/-- Threads of several processes open the base object of a pool that has none, and call methods on it, at the same time; accesses interleave in any way; no process dies. -/
theorem concurrent (X : Openable mk fin call w new Sp I ok) {h0 : Heap} {p0 : Pool} (hb : h0.base = 0) (hs0 : Sim h0 p0)
    {calls : Nat → List (Op O)} (hok : ∀ t, ∀ o ∈ calls t, Ok ok o) {pid : Nat → Nat} {fuel : Nat} (hp : PidsOk pid) {s0 s : St (poolMach (Out (Ret R)))}
    (hi : Init pid fuel (fun t => (calls t).map (callSession (prog mk fin call) (writes w) .closed)) p0 s0) (hr : Reach pid s0 s) (hal : ∀ t, s.alive (pid t) = true) :
    ∃ (ops : List (Op O)) (rs : List (Out (Ret R))) (st : Option (Nat × S)), Trace (Spec new Sp) none ops rs st ∧
      s.log.map (fun e => (e.2.2.1, e.2.2.2)) = (ops.zip rs).map (fun x => (methodBody (prog mk fin call) x.1, Res.ok x.2)) ∧ ops.length = rs.length ∧
      (∀ b b', b ≠ 0 → b' ≠ 0 → Out.ok (Ret.base b) ∈ rs → Out.ok (Ret.base b') ∈ rs → b = b') ∧
      ((∀ t n, s.st t ≠ some (.write n)) → ∃ h, Inv I st h ∧ Sim h s.mem) := by
  obtain ⟨ops, rs, st, h1, h2, h3, h4⟩ := concurrent_calls (writes := writes w) (step X.stays X.make X.step) (ro X.ro) hok (st0 := none) (Inv := Inv I) ⟨hb, hs0.heapOk⟩ hs0 hp hi hr hal
  refine ⟨ops, rs, st, h1, h2, h3, ?_, h4⟩
  intro b b' hb hb' hm hm'
  obtain ⟨_, e1⟩ := (Trace.base h1).2 b hb hm
  obtain ⟨_, e2⟩ := (Trace.base h1).2 b' hb' hm'
  have := e1.symm.trans e2
  injection this with this
  exact congrArg Prod.fst this

/-- the same with deaths, for constructors that record the base object last -/
theorem concurrent_crash (X : Openable mk fin call w new Sp I ok)
    (hcut : ∀ h, h.base = 0 → HeapOk h → always (Opening.make mk fin) (fun h' => ∃ s', (s' = none ∨ Cut new C none .enter s') ∧ CI J s' h') h)
    (H : ∀ b, Crashable (call b) Sp C (I b) (J b) ok) {h0 : Heap} {p0 : Pool} (hb : h0.base = 0) (hs0 : Sim h0 p0)
    {calls : Nat → List (Op O)} (hok : ∀ t, ∀ o ∈ calls t, Ok ok o) {pid : Nat → Nat} {fuel : Nat} (hp : PidsOk pid) {s0 s : St (poolMach (Out (Ret R)))}
    (hi : Init pid fuel (fun t => (calls t).map (callSession (prog mk fin call) (writes w) .closed)) p0 s0) (hr : Reach pid s0 s) :
    ∃ (evs : List (Ev (Op O) (Ret R))) (st : Option (Nat × S)), CTrace (Spec new Sp) (Cut new C) none evs st ∧
      Logged (prog mk fin call) .closed calls s.log (results evs) ∧
      (∀ o, .died o ∈ evs → ∃ t, o ∈ calls t ∧ s.alive (pid t) = false) ∧
      (∀ o o' b b', b ≠ 0 → b' ≠ 0 → Ev.done o (.ok (Ret.base b)) ∈ evs → Ev.done o' (.ok (Ret.base b')) ∈ evs → b = b') ∧
      ((∀ t n, ¬ s.inside pid t (.write n)) → ∃ p' h, run Simple.repair s.mem = (.ok (), p') ∧ Inv I st h ∧ Sim h p') := by
  obtain ⟨evs, st, h1, h2, h3, h4⟩ := concurrent_calls_crash (writes := writes w) (dummy := Ret.closed) (crashable X.stays X.make hcut H) (ro X.ro) hok (st0 := none)
    (show Inv I none h0 from ⟨hb, hs0.heapOk⟩) hs0 hp hi hr
  refine ⟨evs, st, h1, h2, h3, ?_, h4⟩
  intro o o' b b' hb hb' hm hm'
  obtain ⟨_, e1⟩ := CTrace.base h1 o b hb hm
  obtain ⟨_, e2⟩ := CTrace.base h1 o' b' hb' hm'
  have := e1.symm.trans e2
  injection this with this
  exact congrArg Prod.fst this

end Opening

open Opening

/-! ### the constructors of the code are `ctor` -/

theorem Queue.openAt_ctor : Queue.openAt 0 = ctor Queue.allocBase Queue.setupBase := rfl
theorem PrioQueue.openAt_ctor : PrioQueue.openAt 0 = ctor PrioQueue.create fun _ => .ret () := rfl
theorem HashTable.openAt_ctor (bits : Nat) : HashTable.openAt 0 bits = ctor (HashTable.create bits) fun _ => .ret () := rfl
theorem PrefixTree.openAt_ctor : PrefixTree.openAt 0 = ctor PrefixTree.create fun _ => .ret () := rfl

/-! ### Queue -/

theorem Queue.openable : Openable Queue.allocBase Queue.setupBase Queue.call Deque.Op.writes [] Deque.Spec (fun b s h => ∃ G, Queue.Inv b G s h) Deque.Op.ok := by
  refine ⟨Queue.st_call, ?_, ?_, ?_⟩
  · intro h hb hk
    refine wp_mono ?_ (wp_heapOk hk (Q := fun out h' => (out = .err .noMem ∧ h'.base = 0) ∨ ∃ b, out = .ok b ∧ b ≠ 0 ∧ h'.base = b ∧ Queue.Rep h' b [] h.blk) ?_)
    · rintro out h' ⟨⟨h1, h2⟩ | ⟨b, h1, h2, h3, h4⟩, h5⟩
      · exact Or.inl ⟨h1, h2, h5⟩
      · exact Or.inr ⟨b, h1, h2, h3, h.blk, h5, [], rfl, h4⟩
    · unfold Opening.make
      refine Queue.allocBase_wp ?_ (Or.inl ⟨rfl, hb⟩)
      intro o B hf hB h0 h8
      refine wp_setBase (by have := hf.lt; omega) ?_
      refine Queue.setup_spec hf hB h0 h8 ?_
      intro h' hb hr
      exact Or.inr ⟨o, rfl, hf.pos, hb, hr⟩
  · rintro b s o h ho ⟨G, hi⟩
    refine wp_mono ?_ (Queue.step b G s o h ho hi)
    rintro out h' ⟨s', h1, h2⟩
    exact ⟨s', h1, G, h2⟩
  · intro b o ho
    cases o with
    | size => exact HRo.bind .rd fun _ => .ret
    | bytes => exact HRo.bind .rd fun _ => .ret
    | _ => cases ho

/-! ### PriorityQueue -/

theorem PrioQueue.blind : Blind PrioQueue.create :=
  .dbind .alloc fun _ => .dbind .wr fun _ => .dbind .wr fun _ => .dbind .wr fun _ => .pure

theorem PrioQueue.create_pos (h : Heap) : wp PrioQueue.create (fun out _ => ∀ b, out = .ok b → b ≠ 0 ∧ b < W64) h := by
  unfold PrioQueue.create PrioQueue.allocBase
  refine wp_alloc (by decide) ?_ (by intro b h; cases h)
  intro o d hf
  refine wp_wr (Heap.set_same _ _ _) (by show _ ≤ 24; omega) ?_
  refine wp_wr (Heap.set_same _ _ _) (by show _ ≤ 24; omega) ?_
  refine wp_wr (Heap.set_same _ _ _) (by show _ ≤ 24; omega) ?_
  intro b hb
  injection hb with hb
  subst hb
  exact ⟨hf.pos, by have := hf.lt; omega⟩

theorem PrioQueue.make_spec (h : Heap) (hk : HeapOk h) : wp PrioQueue.create (fun out h' => (out = .err .noMem ∧ HeapOk h') ∨
    ∃ b, out = .ok b ∧ b ≠ 0 ∧ b < W64 ∧ ∃ G, PrioQueue.Inv b G [] h') h := by
  refine wp_mono ?_ (wp_and (wp_heapOk hk (PrioQueue.create_spec h)) (PrioQueue.create_pos h))
  rintro out h' ⟨⟨h1, h2⟩, h3⟩
  cases out with
  | err e => exact Or.inl ⟨by rw [h1.1], h2⟩
  | ok b =>
    obtain ⟨h4, h5⟩ := h3 b rfl
    exact Or.inr ⟨b, rfl, h4, h5, h.blk, h2, _, _, _, _, _, .refl _, h1⟩

theorem PrioQueue.openable : Openable PrioQueue.create (fun _ => .ret ()) PrioQueue.call PQ.Op.writes [] PQ.Spec (fun b s h => ∃ G, PrioQueue.Inv b G s h) PQ.Op.ok := by
  refine ⟨PrioQueue.st_call, make_wp (I := fun b s h => ∃ G, PrioQueue.Inv b G s h) (new := []) PrioQueue.blind PrioQueue.make_spec, ?_, ?_⟩
  · rintro b s o h ho ⟨G, hi⟩
    refine wp_mono ?_ (PrioQueue.step b G s o h ho hi)
    rintro out h' ⟨s', h1, h2⟩
    exact ⟨s', h1, G, h2⟩
  · intro b o ho
    cases o with
    | size => exact HRo.bind .rd fun _ => .ret
    | _ => cases ho

/-! ### HashTable -/

theorem HashTable.blind_zero (s : Nat) : ∀ n x, Blind (HashTable.zeroSlots s n x)
  | 0, _ => .pure
  | n + 1, x => .dbind .wr fun _ => .dbind .wr fun _ => HashTable.blind_zero s n (x + 1)

theorem HashTable.blind (bits : Nat) : Blind (HashTable.create bits) := by
  unfold HashTable.create HashTable.createBase
  split
  · exact .err
  · exact .dbind .alloc fun _ => .dbind .alloc fun _ => .dbind .wr fun _ => .dbind .wr fun _ => .dbind .wr fun _ => .dbind (HashTable.blind_zero _ _ _) fun _ => .pure

theorem HashTable.make_spec {hash : Bytes → Nat} {bits : Nat} (hb : 2 ≤ bits) (hb2 : bits < 31) (h : Heap) (hk : HeapOk h) : wp (HashTable.create bits) (fun out h' => (out = .err .noMem ∧ HeapOk h') ∨
    ∃ b, out = .ok b ∧ b ≠ 0 ∧ b < W64 ∧ ∃ slots G lk, HashTable.Table hash b slots bits G [] lk h') h := by
  refine wp_mono ?_ (wp_heapOk hk (HashTable.create_spec (hash := hash) h hb hb2))
  rintro out h' ⟨⟨h1, -⟩ | ⟨b, sl, h1, h3, h4⟩, h2⟩
  · exact Or.inl ⟨h1, h2⟩
  · exact Or.inr ⟨b, h1, h3.ne, by have := h3.lt; omega, sl, _, _, h4⟩

theorem HashTable.ro_call {hash : Bytes → Nat} {F : HT.Fp} {b : Nat} (o : HT.Op) (h : o.writes = false) : HRo (HashTable.call hash F b o) := by
  cases o with
  | size => exact HRo.bind (HRo.bind .rd fun _ => .ret) fun _ => .ret
  | «at» k =>
    refine HRo.bind (HRo.bind HashTable.ro_walkTables fun r => ?_) fun _ => .ret
    cases r with
    | none => exact .err
    | some l => exact HRo.bind .rdB fun _ => .ret
  | «exists» k => exact HRo.bind (HRo.bind HashTable.ro_walkTables fun _ => .ret) fun _ => .ret
  | _ => cases h

theorem HashTable.openable {hash : Bytes → Nat} {F : HT.Fp} {bits : Nat} (hb : 2 ≤ bits) (hb2 : bits < 31) :
    Openable (HashTable.create bits) (fun _ => .ret ()) (HashTable.call hash F) HT.Op.writes [] (HT.Spec F)
      (fun b m h => ∃ slots G lk, HashTable.Table hash b slots bits G m lk h) HT.Op.free := by
  refine ⟨HashTable.st_call hash F, make_wp (I := fun b m h => ∃ slots G lk, HashTable.Table hash b slots bits G m lk h) (new := []) (HashTable.blind bits) (HashTable.make_spec hb hb2), ?_, fun b => HashTable.ro_call⟩
  rintro b m o h ho ⟨sl, G, lk, ht⟩
  refine wp_mono ?_ (HashTable.step (F := F) o (m, lk) h ho.ok ht)
  rintro out h' ⟨s', ⟨h1, -⟩, h2⟩
  exact ⟨s'.1, h1, _, _, _, h2⟩

/-! ### PrefixTree -/

theorem PrefixTree.blind_zero (b o : Nat) : ∀ n x, Blind (PrefixTree.zeroSlots b o n x)
  | 0, _ => .pure
  | n + 1, x => .dbind .wr fun _ => PrefixTree.blind_zero b o n (x + 1)

theorem PrefixTree.blind : Blind PrefixTree.create :=
  .dbind .alloc fun _ => .dbind .wr fun _ => .dbind .wr fun _ => .dbind .wr fun _ => .dbind .wr fun _ => .dbind .wr fun _ => .dbind .wr fun _ => .dbind (PrefixTree.blind_zero _ _ _ _) fun _ => .pure

theorem PrefixTree.make_spec (h : Heap) (hk : HeapOk h) : wp PrefixTree.create (fun out h' => (out = .err .noMem ∧ HeapOk h') ∨
    ∃ b, out = .ok b ∧ b ≠ 0 ∧ b < W64 ∧ ∃ F, PrefixTree.Holds b F PT.new h') h := by
  refine wp_mono ?_ (wp_heapOk hk (PrefixTree.create_spec h).wp)
  rintro out h' ⟨⟨h1, -⟩ | ⟨b, h1, h3, h4⟩, h2⟩
  · exact Or.inl ⟨h1, h2⟩
  · exact Or.inr ⟨b, h1, h3.pos, by have := h3.lt; omega, _, PrefixTree.holds_new h4 h2⟩

theorem PrefixTree.openable {add : BitVec 64 → BitVec 64 → BitVec 64} :
    Openable PrefixTree.create (fun _ => .ret ()) (PrefixTree.call add) PT.Op.writes PT.new (PT.Spec add) (fun b s h => ∃ F, PrefixTree.Holds b F s h) PT.Op.free := by
  refine ⟨PrefixTree.st_call add, make_wp (I := fun b s h => ∃ F, PrefixTree.Holds b F s h) (new := PT.new) PrefixTree.blind PrefixTree.make_spec, ?_, fun b => PrefixTree.ro_call⟩
  intro b
  exact PrefixTree.crashable.step

/-! ### C56 -/

/-- **C56, sequentially.** Opening base 0 of a pool that has a base object returns that object and changes nothing, and so does opening a given base. -/
theorem C56_reopen (h : Heap) (b bits : Nat) (hb : b = 0 → h.base ≠ 0) :
    wp (Queue.openAt b) (fun out h' => out = .ok (if b = 0 then h.base else b) ∧ h' = h) h ∧
    wp (PrioQueue.openAt b) (fun out h' => out = .ok (if b = 0 then h.base else b) ∧ h' = h) h ∧
    wp (HashTable.openAt b bits) (fun out h' => out = .ok (if b = 0 then h.base else b) ∧ h' = h) h ∧
    wp (PrefixTree.openAt b) (fun out h' => out = .ok (if b = 0 then h.base else b) ∧ h' = h) h := by
  by_cases e : b = 0
  · have := hb e
    subst e
    refine ⟨?_, ?_, ?_, ?_⟩
    · exact Queue.openAt_existing_spec h this
    all_goals
      first | rw [PrioQueue.openAt_ctor] | rw [HashTable.openAt_ctor] | rw [PrefixTree.openAt_ctor]
      refine wp_getBase ?_
      rw [if_neg this]
      exact ⟨rfl, rfl⟩
  · refine ⟨?_, ?_, ?_, ?_⟩
    · simp only [Queue.openAt, if_neg e, Prog.bind_def, Prog.pure_def, Prog.ret_bind]; exact ⟨rfl, rfl⟩
    · simp only [PrioQueue.openAt, if_neg e, Prog.bind_def, Prog.pure_def, Prog.ret_bind]; exact ⟨rfl, rfl⟩
    · simp only [HashTable.openAt, if_neg e, Prog.bind_def, Prog.pure_def, Prog.ret_bind]; exact ⟨rfl, rfl⟩
    · simp only [PrefixTree.openAt, if_neg e, Prog.bind_def, Prog.pure_def, Prog.ret_bind]; exact ⟨rfl, rfl⟩

/-- a method that only reads leaves the heap as it is at every moment -/
theorem HRo.still {α : Type} {p : HProg α} (hp : HRo p) : ∀ {h : Heap}, always p (fun _ => True) h → always p (fun h' => h' = h) h := by
  induction p with
  | ret a => exact fun _ => rfl
  | err e => exact fun _ => rfl
  | ub => exact fun h => h
  | step op k ih =>
    intro h hw
    cases op with
    | getBase => exact ⟨rfl, ih _ (hp _) hw.2⟩
    | bsize => obtain ⟨-, b, h1, h2⟩ := hw; exact ⟨rfl, b, h1, ih _ (hp _) h2⟩
    | rd | rdB => obtain ⟨-, b, h1, h2, h3⟩ := hw; exact ⟨rfl, b, h1, h2, ih _ (hp _) h3⟩
    | _ => exact hp.elim

/-- the methods that only read survive every death -/
theorem Opening.readers {O R S : Type} {mk : HProg Nat} {fin : Nat → HProg Unit} {call : Nat → O → HProg R} {w : O → Bool} {new : S} {Sp : S → O → Out R → S → Prop}
    {I : Nat → S → Heap → Prop} {ok : O → Prop} (X : Openable mk fin call w new Sp I ok) (b : Nat) :
    Crashable (call b) Sp (fun _ _ _ => False) (I b) (I b) (fun o => ok o ∧ w o = false) := by
  refine ⟨fun s o h ho => X.step b s o h ho.1, ?_, fun _ _ h => h, fun _ _ _ h _ => h⟩
  intro s o h ho hi
  refine always_mono ?_ (HRo.still (X.ro b o ho.2) (wp_always (X.step b s o h ho.1 hi)))
  rintro h' rfl
  exact ⟨s, Or.inl rfl, hi⟩

theorem Opening.Openable.weaken {O R S : Type} {mk : HProg Nat} {fin : Nat → HProg Unit} {call : Nat → O → HProg R} {w : O → Bool} {new : S} {Sp : S → O → Out R → S → Prop}
    {I : Nat → S → Heap → Prop} {ok ok' : O → Prop} (X : Openable mk fin call w new Sp I ok) (h : ∀ o, ok' o → ok o) : Openable mk fin call w new Sp I ok' :=
  ⟨X.stays, X.make, fun b s o g ho => X.step b s o g (h o ho), X.ro⟩

/-- **C56, Queue.** Threads of any number of processes open the base queue of a pool that has no base object (each the way the constructor does: `look` under the read lock, and `enter` under the
write lock, in any order and number), and call its methods, all at the same time; no process dies.  The finished calls have the results of a pool in which at most one queue is ever created, initially
empty: every opener that gets an offset gets the same one, and the methods called behave as those of one deque. -/
theorem C56_queue_open_concurrent {h0 : Heap} {p0 : Pool} (hb : h0.base = 0) (hs0 : Sim h0 p0)
    {calls : Nat → List (Op Deque.Op)} (hok : ∀ t, ∀ o ∈ calls t, Ok Deque.Op.ok o) {pid : Nat → Nat} {fuel : Nat} (hp : PidsOk pid) {s0 s : St (poolMach (Out (Ret Deque.Ret)))}
    (hi : Init pid fuel (fun t => (calls t).map (callSession (prog Queue.allocBase Queue.setupBase Queue.call) (writes Deque.Op.writes) .closed)) p0 s0) (hr : Reach pid s0 s)
    (hal : ∀ t, s.alive (pid t) = true) :
    ∃ (ops : List (Op Deque.Op)) (rs : List (Out (Ret Deque.Ret))) (st : Option (Nat × List Bytes)), Trace (Spec [] Deque.Spec) none ops rs st ∧
      s.log.map (fun e => (e.2.2.1, e.2.2.2)) = (ops.zip rs).map (fun x => (methodBody (prog Queue.allocBase Queue.setupBase Queue.call) x.1, Res.ok x.2)) ∧ ops.length = rs.length ∧
      (∀ b b', b ≠ 0 → b' ≠ 0 → Out.ok (Ret.base b) ∈ rs → Out.ok (Ret.base b') ∈ rs → b = b') ∧
      ((∀ t n, s.st t ≠ some (.write n)) → ∃ h, Inv (fun b q h => ∃ G, Queue.Inv b G q h) st h ∧ Sim h s.mem) :=
  Opening.concurrent Queue.openable hb hs0 hok hp hi hr hal

/-- **C56, PriorityQueue**, as `C56_queue_open_concurrent` -/
theorem C56_prioqueue_open_concurrent {h0 : Heap} {p0 : Pool} (hb : h0.base = 0) (hs0 : Sim h0 p0)
    {calls : Nat → List (Op PQ.Op)} (hok : ∀ t, ∀ o ∈ calls t, Ok PQ.Op.ok o) {pid : Nat → Nat} {fuel : Nat} (hp : PidsOk pid) {s0 s : St (poolMach (Out (Ret PQ.Ret)))}
    (hi : Init pid fuel (fun t => (calls t).map (callSession (prog PrioQueue.create (fun _ => .ret ()) PrioQueue.call) (writes PQ.Op.writes) .closed)) p0 s0) (hr : Reach pid s0 s)
    (hal : ∀ t, s.alive (pid t) = true) :
    ∃ (ops : List (Op PQ.Op)) (rs : List (Out (Ret PQ.Ret))) (st : Option (Nat × List Bytes)), Trace (Spec [] PQ.Spec) none ops rs st ∧
      s.log.map (fun e => (e.2.2.1, e.2.2.2)) = (ops.zip rs).map (fun x => (methodBody (prog PrioQueue.create (fun _ => .ret ()) PrioQueue.call) x.1, Res.ok x.2)) ∧ ops.length = rs.length ∧
      (∀ b b', b ≠ 0 → b' ≠ 0 → Out.ok (Ret.base b) ∈ rs → Out.ok (Ret.base b') ∈ rs → b = b') ∧
      ((∀ t n, s.st t ≠ some (.write n)) → ∃ h, Inv (fun b q h => ∃ G, PrioQueue.Inv b G q h) st h ∧ Sim h s.mem) :=
  Opening.concurrent PrioQueue.openable hb hs0 hok hp hi hr hal

/-- **C56, HashTable**, as `C56_queue_open_concurrent`; every opener asks for `2 ^ bits` slots.  Partial: the methods called are those for which C34 holds in every state (erase, incr and
check_and_set of a deletion are left out, see C37). -/
theorem C56_hashtable_open_concurrent_partial {hash : Bytes → Nat} {F : HT.Fp} {bits : Nat} (hb1 : 2 ≤ bits) (hb2 : bits < 31) {h0 : Heap} {p0 : Pool} (hb : h0.base = 0) (hs0 : Sim h0 p0)
    {calls : Nat → List (Op HT.Op)} (hok : ∀ t, ∀ o ∈ calls t, Ok HT.Op.free o) {pid : Nat → Nat} {fuel : Nat} (hp : PidsOk pid) {s0 s : St (poolMach (Out (Ret HT.Ret)))}
    (hi : Init pid fuel (fun t => (calls t).map (callSession (prog (HashTable.create bits) (fun _ => .ret ()) (HashTable.call hash F)) (writes HT.Op.writes) .closed)) p0 s0) (hr : Reach pid s0 s)
    (hal : ∀ t, s.alive (pid t) = true) :
    ∃ (ops : List (Op HT.Op)) (rs : List (Out (Ret HT.Ret))) (st : Option (Nat × List (Bytes × Bytes))), Trace (Spec [] (HT.Spec F)) none ops rs st ∧
      s.log.map (fun e => (e.2.2.1, e.2.2.2)) = (ops.zip rs).map (fun x => (methodBody (prog (HashTable.create bits) (fun _ => .ret ()) (HashTable.call hash F)) x.1, Res.ok x.2)) ∧
      ops.length = rs.length ∧
      (∀ b b', b ≠ 0 → b' ≠ 0 → Out.ok (Ret.base b) ∈ rs → Out.ok (Ret.base b') ∈ rs → b = b') ∧
      ((∀ t n, s.st t ≠ some (.write n)) → ∃ h, Inv (fun b m h => ∃ slots G lk, HashTable.Table hash b slots bits G m lk h) st h ∧ Sim h s.mem) :=
  Opening.concurrent (HashTable.openable hb1 hb2) hb hs0 hok hp hi hr hal

/-- **C56, PrefixTree, with deaths.** As `C56_queue_open_concurrent`, and any process may die at any time, also inside the constructor: a constructor that is cut short has either created no base object or
a complete empty tree; a method that is cut short leaves the map as `PT.Cut` says.  Partial: calls as in `C19_prefixtree_concurrent_partial`. -/
theorem C56_prefixtree_open_crash_partial {add : BitVec 64 → BitVec 64 → BitVec 64} {h0 : Heap} {p0 : Pool} (hb : h0.base = 0) (hs0 : Sim h0 p0)
    {calls : Nat → List (Op PT.Op)} (hok : ∀ t, ∀ o ∈ calls t, Ok PT.Op.free o) {pid : Nat → Nat} {fuel : Nat} (hp : PidsOk pid) {s0 s : St (poolMach (Out (Ret PT.Ret)))}
    (hi : Init pid fuel (fun t => (calls t).map (callSession (prog PrefixTree.create (fun _ => .ret ()) (PrefixTree.call add)) (writes PT.Op.writes) .closed)) p0 s0) (hr : Reach pid s0 s) :
    ∃ (evs : List (Ev (Op PT.Op) (Ret PT.Ret))) (st : Option (Nat × PT.State)),
      CTrace (Spec PT.new (PT.Spec add)) (Cut PT.new fun s o s' => ∃ m', PT.Cut add s.m o m' ∧ s' = PT.torn m') none evs st ∧
      Logged (prog PrefixTree.create (fun _ => .ret ()) (PrefixTree.call add)) .closed calls s.log (results evs) ∧
      (∀ o, .died o ∈ evs → ∃ t, o ∈ calls t ∧ s.alive (pid t) = false) ∧
      (∀ o o' b b', b ≠ 0 → b' ≠ 0 → Ev.done o (.ok (Ret.base b)) ∈ evs → Ev.done o' (.ok (Ret.base b')) ∈ evs → b = b') ∧
      ((∀ t n, ¬ s.inside pid t (.write n)) → ∃ p' h, run Simple.repair s.mem = (.ok (), p') ∧ Inv (fun b s h => ∃ F, PrefixTree.Holds b F s h) st h ∧ Sim h p') :=
  Opening.concurrent_crash PrefixTree.openable
    (make_cut (I := fun b s h => ∃ F, PrefixTree.Holds b F s h) (J := PrefixTree.Stands) (new := PT.new) PrefixTree.blind PrefixTree.make_spec fun _ _ h => (PrefixTree.crashable (add := noAdd)).weak _ _ h)
    (fun _ => PrefixTree.crashable) hb hs0 hok hp hi hr

/-- **C56, HashTable, with deaths.** Openers and callers of the methods that only read, dying at any time. -/
theorem C56_hashtable_open_crash_partial {hash : Bytes → Nat} {F : HT.Fp} {bits : Nat} (hb1 : 2 ≤ bits) (hb2 : bits < 31) {h0 : Heap} {p0 : Pool} (hb : h0.base = 0) (hs0 : Sim h0 p0)
    {calls : Nat → List (Op HT.Op)} (hok : ∀ t, ∀ o ∈ calls t, Ok (fun o => o.free ∧ o.writes = false) o) {pid : Nat → Nat} {fuel : Nat} (hp : PidsOk pid) {s0 s : St (poolMach (Out (Ret HT.Ret)))}
    (hi : Init pid fuel (fun t => (calls t).map (callSession (prog (HashTable.create bits) (fun _ => .ret ()) (HashTable.call hash F)) (writes HT.Op.writes) .closed)) p0 s0) (hr : Reach pid s0 s) :
    ∃ (evs : List (Ev (Op HT.Op) (Ret HT.Ret))) (st : Option (Nat × List (Bytes × Bytes))), CTrace (Spec [] (HT.Spec F)) (Cut [] fun _ _ _ => False) none evs st ∧
      Logged (prog (HashTable.create bits) (fun _ => .ret ()) (HashTable.call hash F)) .closed calls s.log (results evs) ∧
      (∀ o, .died o ∈ evs → ∃ t, o ∈ calls t ∧ s.alive (pid t) = false) ∧
      (∀ o o' b b', b ≠ 0 → b' ≠ 0 → Ev.done o (.ok (Ret.base b)) ∈ evs → Ev.done o' (.ok (Ret.base b')) ∈ evs → b = b') ∧
      ((∀ t n, ¬ s.inside pid t (.write n)) → ∃ p' h, run Simple.repair s.mem = (.ok (), p') ∧
        Inv (fun b m h => ∃ slots G lk, HashTable.Table hash b slots bits G m lk h) st h ∧ Sim h p') :=
  Opening.concurrent_crash ((HashTable.openable hb1 hb2).weaken fun _ h => h.1)
    (make_cut (I := fun b m h => ∃ slots G lk, HashTable.Table hash b slots bits G m lk h) (new := []) (HashTable.blind bits) (HashTable.make_spec hb1 hb2) fun _ _ h => h)
    (Opening.readers (HashTable.openable hb1 hb2)) hb hs0 hok hp hi hr

/-- **C56, PriorityQueue, with deaths.** Openers and callers of the methods that only read (size), dying at any time. -/
theorem C56_prioqueue_open_crash_partial {h0 : Heap} {p0 : Pool} (hb : h0.base = 0) (hs0 : Sim h0 p0)
    {calls : Nat → List (Op PQ.Op)} (hok : ∀ t, ∀ o ∈ calls t, Ok (fun o => o.ok ∧ o.writes = false) o) {pid : Nat → Nat} {fuel : Nat} (hp : PidsOk pid) {s0 s : St (poolMach (Out (Ret PQ.Ret)))}
    (hi : Init pid fuel (fun t => (calls t).map (callSession (prog PrioQueue.create (fun _ => .ret ()) PrioQueue.call) (writes PQ.Op.writes) .closed)) p0 s0) (hr : Reach pid s0 s) :
    ∃ (evs : List (Ev (Op PQ.Op) (Ret PQ.Ret))) (st : Option (Nat × List Bytes)), CTrace (Spec [] PQ.Spec) (Cut [] fun _ _ _ => False) none evs st ∧
      Logged (prog PrioQueue.create (fun _ => .ret ()) PrioQueue.call) .closed calls s.log (results evs) ∧
      (∀ o, .died o ∈ evs → ∃ t, o ∈ calls t ∧ s.alive (pid t) = false) ∧
      (∀ o o' b b', b ≠ 0 → b' ≠ 0 → Ev.done o (.ok (Ret.base b)) ∈ evs → Ev.done o' (.ok (Ret.base b')) ∈ evs → b = b') ∧
      ((∀ t n, ¬ s.inside pid t (.write n)) → ∃ p' h, run Simple.repair s.mem = (.ok (), p') ∧
        Inv (fun b q h => ∃ G, PrioQueue.Inv b G q h) st h ∧ Sim h p') :=
  Opening.concurrent_crash (PrioQueue.openable.weaken fun _ h => h.1)
    (make_cut (I := fun b q h => ∃ G, PrioQueue.Inv b G q h) (new := []) PrioQueue.blind PrioQueue.make_spec fun _ _ h => h)
    (Opening.readers PrioQueue.openable) hb hs0 hok hp hi hr

/-- the pools below: SimpleAllocator just created, no base object -/
def freshPool : Pool := (run Simple.init (newPool 0)).2

/-- **C56 is false for Queue**: the constructor records the base object before it initialises the queue.  A process that dies right after that leaves a pool in which (after the allocator's repair) the next
process opens the base object and gets it; popping from it then reads outside the pool's blocks, where a queue that had just been created is empty. -/
theorem C56_queue_open_crash_false :
    ∃ (p1 p2 : Pool), run Simple.repair (crashAt 18 (compile (Queue.openAt 0)) freshPool) = (.ok (), p1) ∧ run (compile (Queue.openAt 0)) p1 = (.ok 344, p2) ∧
      (run (compile (Queue.popFront 344)) p2).1 = .ub ∧ (run (compile (Queue.popFront 344)) (run (compile (Queue.openAt 0)) freshPool).2).1 = .err .outOfRange :=
  ⟨_, _, run_eta (by decide +kernel), run_eta (by decide +kernel), by decide +kernel, by decide +kernel⟩

theorem freshPool_ready : ∃ h, h.base = 0 ∧ Sim h freshPool := by
  have hst : Hist (newPool 0) freshPool [] [] true := .start (newPool_geo 0) (by decide +kernel) (run_eta (by decide +kernel))
  obtain ⟨h, hs, -⟩ := hst.sim
  refine ⟨h, ?_, hs⟩
  obtain ⟨L, -, hh⟩ := hs
  rw [← hh.base]
  decide +kernel

/-- the hypotheses of the theorems above are met by a fresh pool and two processes, both opening a tree and using it; both may die at any time -/
example : ∃ h, h.base = 0 ∧ Sim h freshPool ∧ PidsOk (fun t => t % 2 + 1) ∧
    (∀ t, ∀ o ∈ (if t = 0 then [.look, .enter, .on (.insert [0] .null none)] else if t = 1 then [.look, .enter, .on .size] else [] : List (Op PT.Op)), Ok PT.Op.free o) ∧
    ∃ s0, Init (fun t => t % 2 + 1) 10 (fun t => (if t = 0 then [.look, .enter, .on (.insert [0] .null none)] else if t = 1 then [.look, .enter, .on .size] else []).map
      (callSession (prog PrefixTree.create (fun _ => .ret ()) (PrefixTree.call noAdd)) (writes PT.Op.writes) .closed)) freshPool s0 := by
  obtain ⟨h, h1, h2⟩ := freshPool_ready
  generalize freshPool = P at h2 ⊢
  refine ⟨h, h1, h2, fun t => ⟨Nat.succ_ne_zero _, by show t % 2 + 1 < 2 ^ 18; omega⟩, ?_,
    ⟨fun _ => 0, fun _ => true, P, [], fun t => thread 10 (t % 2 + 1) _, fun _ => none, fun _ => none, fun _ => 0⟩,
    ⟨fun _ => rfl, rfl, rfl, fun _ => rfl, fun _ => rfl, fun _ => rfl, fun _ => rfl⟩⟩
  intro t o ho
  split at ho
  · simp only [List.mem_cons, List.not_mem_nil, or_false] at ho
    rcases ho with rfl | rfl | rfl <;> simp [Ok, PT.Op.free]
  · split at ho
    · simp only [List.mem_cons, List.not_mem_nil, or_false] at ho
      rcases ho with rfl | rfl | rfl <;> simp [Ok, PT.Op.free]
    · cases ho

end Verif
