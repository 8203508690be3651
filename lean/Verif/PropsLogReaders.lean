import Verif.PropsLogConc
import Verif.PropsReaders
/-
C81 on a LogarithmicAllocator: processes that only read may die at any time.  (Deaths of writing processes can be harmful there, C54.)
-/
namespace Verif
open Logarithmic

namespace Lock
variable {R O S : Type} {C full : Prop}

/-- the pool's bytes show `h`; the allocator's lists and counters may be anything, as during a repair -/
def LCrash (full : Prop) (h : Heap) (p : Pool) : Prop := (full → Full p) ∧ ∃ T live, DiskLive p T live ∧ LHolds h p live

theorem _root_.Verif.Logarithmic.LSim.lcrash {h : Heap} {p : Pool} (hs : LSim C full h p) : LCrash full h p := by
  obtain ⟨h1, T, live, h2, h3⟩ := hs
  exact ⟨h1, T, live, h2.diskLive, h3⟩

theorem _root_.Verif.Logarithmic.LSim.weaken {h : Heap} {p : Pool} (hs : LSim C full h p) : LSim False full h p := by
  obtain ⟨h1, T, live, h2, h3⟩ := hs
  exact ⟨h1, T, live, h2.weaken, h3⟩

theorem lholds_cru {h : Heap} {p q : Pool} {T : Tiles} {live : List (Nat × Nat)} (hd : DiskLive p T live) (hh : LHolds h p live) (hc : CrU 288 T p q) : LHolds h q live := by
  refine ⟨?_, ?_⟩
  · rw [← hh.base]; exact leRd_congr _ _ _ _ (fun i h1 h2 => hc.kp.hdr i (by omega) (by omega))
  · intro x B hx
    obtain ⟨h3, h4⟩ := hh.blk x B hx
    refine ⟨h3, fun i hi => ?_⟩
    obtain ⟨y, j, rfl, ht, hj⟩ := hd.tile h3
    have := (hd.le ht).1
    rw [hc.kp.blk ht (y + 8 + i) (by omega) (by omega)]
    exact h4 i hi

theorem full_cru {p q : Pool} {T : Tiles} (hf : full → Full p) (hc : CrU 288 T p q) : full → Full q := by
  intro h
  have := hf h
  unfold Full at this ⊢
  rw [hc.kp.mx, hc.kp.lm, hc.sz]
  exact this

theorem lrepair_rwp {h : Heap} {p : Pool} (hs : LCrash full h p) :
    rwp Logarithmic.repair (fun out p' => out = .ok () ∧ LSim False full h p') (fun p' => LCrash full h p') p := by
  obtain ⟨h1, T, live, h2, h3⟩ := hs
  refine rwp_mono ?_ ?_ (Logarithmic.repair_spec h2)
  · rintro out p' ⟨e, h4, h5⟩
    exact ⟨e, full_cru h1 h5, T, live, h4, lholds_cru h2 h3 h5⟩
  · intro p' h5
    exact ⟨full_cru h1 h5, T, live, h2.cru h5, lholds_cru h2 h3 h5⟩

theorem lrepairBody_rwp {dummy : R} {h : Heap} {p : Pool} (hs : LCrash full h p) :
    rwp (lrepairBody dummy) (fun out p' => out = .ok (.ok dummy) ∧ LSim False full h p') (fun p' => LCrash full h p') p := by
  unfold lrepairBody
  refine rwp_bind_of (lrepair_rwp hs) (fun _ h => h) ?_ (by rintro e s' ⟨h, -⟩; cases h)
  rintro a p' ⟨-, h1⟩
  exact ⟨h1.lcrash, rfl, h1⟩

/-- the log of finished sections shows these calls and results (as `Logged`, for a LogarithmicAllocator) -/
inductive LLogged (f : O → HProg R) (dummy : R) (calls : Nat → List O) :
    List (Nat × Option Kind × Body (poolMach (Out R)) × Verif.Res (Out R)) → List (O × Out R) → Prop
  | nil : LLogged f dummy calls [] []
  | call {l cs t kd o r} : LLogged f dummy calls l cs → o ∈ calls t → LLogged f dummy calls (l ++ [(t, some kd, lmethodBody f o, .ok r)]) (cs ++ [(o, r)])
  | repaired {l cs t n o r} : LLogged f dummy calls l cs → o ∈ calls t → n ≠ 0 →
      LLogged f dummy calls (l ++ [(t, some (.write n), (lrepairBody dummy).bind fun _ => lmethodBody f o, .ok r)]) (cs ++ [(o, r)])
  | repair {l cs t n} : LLogged f dummy calls l cs → n ≠ 0 → LLogged f dummy calls (l ++ [(t, some (.write n), lrepairBody dummy, .ok (.ok dummy))]) cs

variable {f : O → HProg R} {Spec : S → O → Out R → S → Prop} {Inv : S → Heap → Prop} {ok : S → O → Prop}

theorem lrepaired_run {dummy : R} {s : S} {o : O} {h : Heap} {p : Pool}
    (hstep : wp (f o) (fun out h' => ∃ s', Spec s o out s' ∧ Inv s' h') h) (hsz : sized (Good full) (f o) h) (hs : LCrash full h p) :
    ∃ (r : Out R) (p' : Pool) (s' : S) (h' : Heap), Body.run ((lrepairBody dummy).bind fun _ => lmethodBody f o) p = (.ok r, p') ∧ Spec s o r s' ∧ Inv s' h' ∧
      LSim False full h' p' := by
  have hw : wp (attempt (f o)) (fun out h' => ∃ r s', out = .ok r ∧ Spec s o r s' ∧ Inv s' h') h := by
    rw [wp_attempt]
    refine wp_mono ?_ hstep
    rintro out h' ⟨s', h1, h2⟩
    exact ⟨out, s', rfl, h1, h2⟩
  have key : rwp (Prog.bind (lrepairBody dummy : RProg (Out R)) fun _ => lcompile (attempt (f o)))
      (fun out p' => ∃ h', (∃ r s', out = .ok r ∧ Spec s o r s' ∧ Inv s' h') ∧ LSim False full h' p') NoCrash p := by
    refine rwp_bind_of (rwp_mono (fun _ _ h => h) (fun _ _ => trivial) (lrepairBody_rwp (R := R) (dummy := dummy) hs)) (fun _ h => h) ?_ (by rintro e s' ⟨h, -⟩; cases h)
    rintro a p' ⟨-, h1⟩
    exact lsim hw (sized_attempt hsz) h1
  obtain ⟨out, p', h1, h', ⟨r, s', rfl, h2, h3⟩, h4⟩ := pool_run key
  exact ⟨r, p', s', h', h1, h2, h3, h4⟩

/-- some thread made a call in a state in which it may not be made; what finished before has the results of `Spec` -/
def LSpoilt (f : O → HProg R) (dummy : R) (calls : Nat → List O) (Spec : S → O → Out R → S → Prop) (ok : S → O → Prop) (st0 : S)
    (log : List (Nat × Option Kind × Body (poolMach (Out R)) × Verif.Res (Out R))) : Prop :=
  ∃ l1 cs st t o, l1 <+: log ∧ Trace Spec st0 (cs.map (·.1)) (cs.map (·.2)) st ∧ LLogged f dummy calls l1 cs ∧ o ∈ calls t ∧ ¬ ok st o

/-- the invariant of the serial execution -/
theorem lserial_readers (hstep : ∀ s o h, ok s o → Inv s h → wp (f o) (fun out h' => ∃ s', Spec s o out s' ∧ Inv s' h') h)
    (hsz : ∀ s o h, ok s o → Inv s h → sized (Good full) (f o) h) {writes : O → Bool} {dummy : R} {calls : Nat → List O}
    {pid : Nat → Nat} {D : Nat → Prop} (hd : ∀ t, D (pid t) → ∀ o ∈ calls t, writes o = false) {p0 : Pool} {h0 : Heap} {st0 : S} (hi0 : Inv st0 h0) (hs0 : LSim False full h0 p0)
    {log : List (Nat × Option Kind × Body (poolMach (Out R)) × Verif.Res (Out R))} {m : Pool} {d : Bool} {T : Prop} (hT : T)
    (hser : Serial (K := poolMach (Out R)) pid T (Allowed (fun t => (calls t).map (lcallSession f writes dummy))) D p0 log m d) :
    (∃ (cs : List (O × Out R)) (st : S) (h : Heap), Trace Spec st0 (cs.map (·.1)) (cs.map (·.2)) st ∧ LLogged f dummy calls log cs ∧ Inv st h ∧ LCrash full h m ∧
      (d = false → LSim False full h m)) ∨ LSpoilt f dummy calls Spec ok st0 log := by
  induction hser with
  | nil => exact Or.inl ⟨[], st0, h0, Trace.nil _, .nil, hi0, hs0.lcrash, fun _ => hs0⟩
  | @done log m d t kd b r m' hser hA hrun hd' hD ih =>
    rcases ih with ⟨cs, st, h, h1, h2, h3, h4, h5⟩ | ⟨l1, cs, st, t', o, hp, e1, e2, ho, hno⟩
    case inr => exact Or.inr ⟨l1, cs, st, t', o, hp.trans (List.prefix_append _ _), e1, e2, ho, hno⟩
    obtain ⟨se, hse, hal⟩ := hA
    obtain ⟨o, ho, rfl⟩ := List.mem_map.1 hse
    by_cases hok : ok st o
    case neg => exact Or.inr ⟨log, cs, st, t, o, List.prefix_append _ _, h1, h2, ho, hok⟩
    refine Or.inl ?_
    have snoc : ∀ {r' : Out R} {st' : S}, Spec st o r' st' → Trace Spec st0 ((cs ++ [(o, r')]).map (·.1)) ((cs ++ [(o, r')]).map (·.2)) st' := by
      intro r' st' hs
      rw [List.map_append, List.map_append]
      exact Trace.snoc h1 hs
    have fin : b = lmethodBody f o → d = false → ∃ (cs : List (O × Out R)) (st : S) (h : Heap), Trace Spec st0 (cs.map (·.1)) (cs.map (·.2)) st ∧
        LLogged f dummy calls (log ++ [(t, some kd, b, r)]) cs ∧ Inv st h ∧ LCrash full h m' ∧ (false = false → LSim False full h m') := by
      intro hb hd0
      subst hb
      obtain ⟨r', p', st', h', e1, e2, e3, e4⟩ := lmethod_run (hstep st o h hok h3) (hsz st o h hok h3) (h5 hd0)
      obtain ⟨e6, e7⟩ := Prod.mk.inj (hrun.symm.trans e1)
      subst e7
      subst e6
      exact ⟨cs ++ [(o, r')], st', h', snoc e2, .call h2 ho, e3, e4.lcrash, fun _ => e4⟩
    have fin2 : ∀ n, n ≠ 0 → kd = .write n → b = (lrepairBody dummy).bind (fun _ => lmethodBody f o) → ∃ (cs : List (O × Out R)) (st : S) (h : Heap),
        Trace Spec st0 (cs.map (·.1)) (cs.map (·.2)) st ∧
        LLogged f dummy calls (log ++ [(t, some kd, b, r)]) cs ∧ Inv st h ∧ LCrash full h m' ∧ (false = false → LSim False full h m') := by
      intro n hn hk hb
      subst hb
      subst hk
      obtain ⟨r', p', st', h', e1, e2, e3, e4⟩ := lrepaired_run (dummy := dummy) (hstep st o h hok h3) (hsz st o h hok h3) h4
      obtain ⟨e6, e7⟩ := Prod.mk.inj (hrun.symm.trans e1)
      subst e7
      subst e6
      exact ⟨cs ++ [(o, r')], st', h', snoc e2, .repaired h2 ho hn, e3, e4.lcrash, fun _ => e4⟩
    have hd0 : (∀ n, n ≠ 0 → kd ≠ .write n) → d = false := by
      intro hk
      cases hdd : d with
      | false => rfl
      | true => obtain ⟨n, hn, e⟩ := hd' hT hdd; exact absurd e (hk n hn)
    unfold lcallSession at hal
    split at hal
    · obtain ⟨n, hk, hb⟩ := hal
      by_cases hn : n = 0
      · subst hn
        refine fin ?_ (hd0 ?_)
        · rw [hb]; unfold afterSteal; rw [if_neg (by simp)]
        · rintro n hn rfl; injection hk with hk; exact hn hk
      · refine fin2 n hn hk ?_
        rw [hb]; unfold afterSteal; rw [if_pos hn]
    · rcases hal with ⟨hk, hb⟩ | ⟨n, hn, hk, hb⟩
      · refine fin hb (hd0 ?_)
        rintro n hn rfl; cases hk
      · subst hb
        subst hk
        obtain ⟨out, p', e1, rfl, e2⟩ := pool_run (lrepairBody_rwp (R := R) (dummy := dummy) h4)
        obtain ⟨e6, e7⟩ := Prod.mk.inj (hrun.symm.trans e1)
        subst e7
        subst e6
        exact ⟨cs, st, h, h1, .repair h2 hn, h3, e2.lcrash, fun _ => e2⟩
  | @crash log m d t n b c hser hA hDt hd' hD ih =>
    rcases ih with ⟨cs, st, h, h1, h2, h3, h4, h5⟩ | ⟨l1, cs, st, t', o, hp, e1, e2, ho, hno⟩
    case inr => exact Or.inr ⟨l1, cs, st, t', o, hp, e1, e2, ho, hno⟩
    refine Or.inl ?_
    obtain ⟨se, hse, hal⟩ := hA
    obtain ⟨o, ho, rfl⟩ := List.mem_map.1 hse
    have hw := hd t hDt o ho
    unfold lcallSession at hal
    rw [hw] at hal
    rcases hal with ⟨hk, hb⟩ | ⟨n', hn, hk, hb⟩
    · cases hk
    · subst hb
      exact ⟨cs, st, h, h1, h2, h3, pool_after c (lrepairBody_rwp (R := R) (dummy := dummy) h4), fun h => by cases h⟩

/-- **C81 for a structure on a LogarithmicAllocator.** As `readers_may_die`, for a structure that asks the allocator only for blocks it serves lawfully; or some thread has made a call
in a state in which it may not be made. -/
theorem lreaders_guarded (hstep : ∀ s o h, ok s o → Inv s h → wp (f o) (fun out h' => ∃ s', Spec s o out s' ∧ Inv s' h') h)
    (hsz : ∀ s o h, ok s o → Inv s h → sized (Good full) (f o) h) {writes : O → Bool} (hro : ∀ o, writes o = false → Ro (lmethodBody f o)) {dummy : R}
    {calls : Nat → List O} {pid : Nat → Nat} {fuel : Nat} {p0 : Pool} {h0 : Heap} {st0 : S}
    (hi0 : Inv st0 h0) (hs0 : LSim C full h0 p0) (hp : PidsOk pid) {s0 s : St (poolMach (Out R))}
    (hi : Init pid fuel (fun t => (calls t).map (lcallSession f writes dummy)) p0 s0) (hr : Reach pid s0 s)
    (hd : ∀ t, s.alive (pid t) = false → ∀ o ∈ calls t, writes o = false) :
    (∃ (cs : List (O × Out R)) (st : S), Trace Spec st0 (cs.map (·.1)) (cs.map (·.2)) st ∧ LLogged f dummy calls s.log cs ∧
      ((∀ t n, ¬ s.inside pid t (.write n)) → ∃ p' h, run Logarithmic.repair s.mem = (.ok (), p') ∧ Inv st h ∧ LSim False full h p')) ∨
    LSpoilt f dummy calls Spec ok st0 s.log := by
  have hro' : ReadOnly (fun t => (calls t).map (lcallSession f writes dummy)) := by
    intro t se hse
    obtain ⟨o, -, rfl⟩ := List.mem_map.1 hse
    unfold lcallSession
    split
    · trivial
    · rename_i h; exact hro o (by simpa using h)
  have hna : NoAny (fun t => (calls t).map (lcallSession f writes dummy)) := by
    intro t se hse
    obtain ⟨o, -, rfl⟩ := List.mem_map.1 hse
    unfold lcallSession
    split <;> exact fun h => h
  obtain ⟨m, d, h1, h2, -⟩ := C19_serializable_partial hp hro' hi hr
  refine (lserial_readers hstep hsz (fun t h => hd t h.2) hi0 hs0.weaken hna h1).imp_left ?_
  rintro ⟨cs, st, h, e1, e2, e3, e4, -⟩
  refine ⟨cs, st, e1, e2, fun hw => ?_⟩
  rw [h2 hw]
  obtain ⟨o, h3, h4, h5⟩ := rwp_run (lrepair_rwp e4)
  exact ⟨_, h, run_eta (h3.trans (by rw [h4]; rfl)), e3, h5⟩

/-- **C81 for a structure on a LogarithmicAllocator**, with calls that may be made in any state. -/
theorem lreaders_may_die {ok : O → Prop} (hstep : ∀ s o h, ok o → Inv s h → wp (f o) (fun out h' => ∃ s', Spec s o out s' ∧ Inv s' h') h)
    (hsz : ∀ s o h, ok o → Inv s h → sized (Good full) (f o) h) {writes : O → Bool} (hro : ∀ o, writes o = false → Ro (lmethodBody f o)) {dummy : R}
    {calls : Nat → List O} (hok : ∀ t, ∀ o ∈ calls t, ok o) {pid : Nat → Nat} {fuel : Nat} {p0 : Pool} {h0 : Heap} {st0 : S}
    (hi0 : Inv st0 h0) (hs0 : LSim C full h0 p0) (hp : PidsOk pid) {s0 s : St (poolMach (Out R))}
    (hi : Init pid fuel (fun t => (calls t).map (lcallSession f writes dummy)) p0 s0) (hr : Reach pid s0 s)
    (hd : ∀ t, s.alive (pid t) = false → ∀ o ∈ calls t, writes o = false) :
    ∃ (cs : List (O × Out R)) (st : S), Trace Spec st0 (cs.map (·.1)) (cs.map (·.2)) st ∧ LLogged f dummy calls s.log cs ∧
      ((∀ t n, ¬ s.inside pid t (.write n)) → ∃ p' h, run Logarithmic.repair s.mem = (.ok (), p') ∧ Inv st h ∧ LSim False full h p') := by
  rcases lreaders_guarded (ok := fun _ o => ok o) hstep hsz hro hi0 hs0 hp hi hr hd with h | ⟨l1, cs, st, t, o, -, -, -, ho, hno⟩
  · exact h
  · exact absurd (hok t o ho) hno

end Lock
open Lock

/-- **C81, Queue on a LogarithmicAllocator.** The strings pushed must fit in a page, or the pool cannot grow (C62). -/
theorem C81_log_queue_partial {C full : Prop} {b : Nat} {G : Nat → Option Block} {q0 : List Bytes} {h0 : Heap} {p0 : Pool}
    (hi0 : Queue.Inv b G q0 h0) (hs0 : LSim C full h0 p0) {calls : Nat → List Deque.Op} (hok : ∀ t, ∀ o ∈ calls t, o.good full) {pid : Nat → Nat} {fuel : Nat}
    (hp : PidsOk pid) {s0 s : St (poolMach (Out Deque.Ret))}
    (hi : Init pid fuel (fun t => (calls t).map (lcallSession (Queue.call b) Deque.Op.writes .unit)) p0 s0)
    (hr : Reach pid s0 s) (hd : ∀ t, s.alive (pid t) = false → ∀ o ∈ calls t, o = .size ∨ o = .bytes) :
    ∃ cs q, Trace Deque.Spec q0 (cs.map (·.1)) (cs.map (·.2)) q ∧ LLogged (Queue.call b) .unit calls s.log cs ∧
      ((∀ t n, ¬ s.inside pid t (.write n)) → ∃ p' h, run Logarithmic.repair s.mem = (.ok (), p') ∧ Queue.Inv b G q h ∧ LSim False full h p') := by
  refine lreaders_may_die (ok := fun o => o.good full) (fun s o h ho => Queue.step b G s o h (by
      cases o <;> simp only [Deque.Op.good, Deque.Op.ok, Good] at ho ⊢ <;> omega))
    (fun s o h ho _ => (Queue.sz_call b o ho).sized h) ?_ hok hi0 hs0 hp hi hr ?_
  · intro o ho
    cases o with
    | size => exact ⟨fun _ => rfl, fun _ => trivial⟩
    | bytes => exact ⟨fun _ => rfl, fun _ => trivial⟩
    | _ => cases ho
  · intro t ht o ho
    rcases hd t ht o ho with rfl | rfl <;> rfl

/-- **C81, PriorityQueue on a LogarithmicAllocator.** The items must not be empty and must fit in a page (or the pool cannot grow); and either all is well, or at some time a thread
called push although 256 items were in the queue already (or 2^26, if the pool cannot grow). -/
theorem C81_log_prioqueue_partial {C full : Prop} {b : Nat} {G : Nat → Option Block} {q0 : List Bytes} {h0 : Heap} {p0 : Pool}
    (hi0 : PrioQueue.Inv b G q0 h0) (hs0 : LSim C full h0 p0) {calls : Nat → List PQ.Op} (hok : ∀ t, ∀ d, PQ.Op.push d ∈ calls t → Good full d.length) {pid : Nat → Nat} {fuel : Nat}
    (hp : PidsOk pid) {s0 s : St (poolMach (Out PQ.Ret))}
    (hi : Init pid fuel (fun t => (calls t).map (lcallSession (PrioQueue.call b) PQ.Op.writes .unit)) p0 s0)
    (hr : Reach pid s0 s) (hd : ∀ t, s.alive (pid t) = false → ∀ o ∈ calls t, o = .size) :
    (∃ cs q, Trace PQ.Spec q0 (cs.map (·.1)) (cs.map (·.2)) q ∧ LLogged (PrioQueue.call b) .unit calls s.log cs ∧
      ((∀ t n, ¬ s.inside pid t (.write n)) → ∃ p' h, run Logarithmic.repair s.mem = (.ok (), p') ∧ PrioQueue.Inv b G q h ∧ LSim False full h p')) ∨
    ∃ l1 cs q, l1 <+: s.log ∧ Trace PQ.Spec q0 (cs.map (·.1)) (cs.map (·.2)) q ∧ LLogged (PrioQueue.call b) .unit calls l1 cs ∧ 256 ≤ q.length ∧
      (full → 2 ^ 30 < q.length * 16 + 8) ∧ ∃ t d, PQ.Op.push d ∈ calls t := by
  refine (lreaders_guarded (ok := fun q o => o.good full q) (fun q o h ho => PrioQueue.step b G q o h (by
      cases o <;> simp only [PQ.Op.good, PQ.Op.ok, Good] at ho ⊢
      omega))
    (fun q o h ho h1 => PrioQueue.sized_call h1 o ho) ?_ hi0 hs0 hp hi hr ?_).imp_right ?_
  · intro o ho
    cases o with
    | size => exact ⟨fun _ => rfl, fun _ => trivial⟩
    | _ => cases ho
  · intro t ht o ho
    rw [hd t ht o ho]; rfl
  · rintro ⟨l1, cs, q, t, o, h1, h2, h3, ho, hno⟩
    cases o with
    | push d =>
      have hg := hok t d ho
      refine ⟨l1, cs, q, h1, h2, h3, ?_, fun hf => ?_, t, d, ho⟩
      · exact Nat.le_of_not_lt fun h => hno ⟨hg, Or.inl h⟩
      · exact Nat.lt_of_not_le fun h => hno ⟨hg, Or.inr ⟨hf, h⟩⟩
    | _ => exact absurd trivial hno

/-- **C81, PrefixTree on a LogarithmicAllocator.** Calls as in `C79_prefixtree_partial`. -/
theorem C81_log_prefixtree_partial {C full : Prop} {add : BitVec 64 → BitVec 64 → BitVec 64} {base : Nat} {F : Nat → Option Block} {st0 : PT.State} {h0 : Heap} {p0 : Pool}
    {calls : Nat → List PT.Op} (_hit : ∀ t, PT.Op.items ∉ calls t) (hok : ∀ t, ∀ o ∈ calls t, o.free ∧ o.good full)
    (hi0 : PrefixTree.Holds base F st0 h0) (hs0 : LSim C full h0 p0) {pid : Nat → Nat} {fuel : Nat} (hp : PidsOk pid) {s0 s : St (poolMach (Out PT.Ret))}
    (hi : Init pid fuel (fun t => (calls t).map (lcallSession (PrefixTree.call add base) PT.Op.writes .unit)) p0 s0)
    (hr : Reach pid s0 s) (hd : ∀ t, s.alive (pid t) = false → ∀ o ∈ calls t, o.writes = false) :
    ∃ cs st, Trace (PT.Spec add) st0 (cs.map (·.1)) (cs.map (·.2)) st ∧ LLogged (PrefixTree.call add base) .unit calls s.log cs ∧
      ((∀ t n, ¬ s.inside pid t (.write n)) → ∃ p' h, run Logarithmic.repair s.mem = (.ok (), p') ∧ PrefixTree.Holds base F st h ∧ LSim False full h p') :=
  lreaders_may_die (ok := fun o => o.free ∧ o.good full) (writes := PT.Op.writes) (fun s o h h1 h2 => PrefixTree.step o s h h1.1.ok h2)
    (fun _ o h ho _ => (PrefixTree.sz_call add base o ho.2).sized h) (fun o ho => (PrefixTree.ro_call o ho).lbody) hok hi0 hs0 hp hi hr hd

/-- **C81, HashTable on a LogarithmicAllocator.** Calls as in `C79_hashtable_partial`. -/
theorem C81_log_hashtable_partial {C full : Prop} {hash : Bytes → Nat} {F : HT.Fp} {base slots bits : Nat} {G : Nat → Option Block} {m0 : HashTable.Pairs} {lk : List Nat} {h0 : Heap} {p0 : Pool}
    {calls : Nat → List HT.Op} (_hit : ∀ t, HT.Op.items ∉ calls t) (hg : ∀ t, ∀ o ∈ calls t, o.good full)
    (hok : (∀ t, ∀ o ∈ calls t, o.free) ∨ ∃ K, HashTable.Apart hash bits K ∧ (∀ k ∈ HashTable.keys m0, K k) ∧ ∀ t, ∀ o ∈ calls t, o.within K)
    (hi0 : HashTable.Table hash base slots bits G m0 lk h0) (hs0 : LSim C full h0 p0) {pid : Nat → Nat} {fuel : Nat}
    (hp : PidsOk pid) {s0 s : St (poolMach (Out HT.Ret))}
    (hi : Init pid fuel (fun t => (calls t).map (lcallSession (HashTable.call hash F base) HT.Op.writes .unit)) p0 s0)
    (hr : Reach pid s0 s) (hd : ∀ t, s.alive (pid t) = false → ∀ o ∈ calls t, o.writes = false) :
    ∃ cs m, Trace (HT.Spec F) m0 (cs.map (·.1)) (cs.map (·.2)) m ∧ LLogged (HashTable.call hash F base) .unit calls s.log cs ∧
      ((∀ t n, ¬ s.inside pid t (.write n)) → ∃ p' h lk, run Logarithmic.repair s.mem = (.ok (), p') ∧ HashTable.Table hash base slots bits G m lk h ∧ LSim False full h p') := by
  rcases hok with hok | ⟨K, ha, hm0, hok⟩
  · have hstep := htStep (hash := hash) (F := F) (base := base) (slots := slots) (bits := bits) (G := G) (ok := HT.Op.free) (P := fun _ => True)
      (fun _ _ _ h => h.ok) (fun _ _ _ _ _ _ _ => trivial)
    obtain ⟨cs, m, h1, h2, h4⟩ := lreaders_may_die (ok := fun o => o.free ∧ o.good full) (writes := HT.Op.writes) (fun s o h h1 h2 => hstep s o h h1.1 h2)
      (fun s o h ho _ => (HashTable.sz_call hash F base o ho.2).sized h) htRoL (fun t o ho => ⟨hok t o ho, hg t o ho⟩) ⟨trivial, lk, hi0⟩ hs0 hp hi hr hd
    refine ⟨cs, m, h1, h2, fun hw => ?_⟩
    obtain ⟨p', h, h3, ⟨-, lk, h5⟩, h6⟩ := h4 hw
    exact ⟨p', h, lk, h3, h5, h6⟩
  · have hstep := htStep (hash := hash) (F := F) (base := base) (slots := slots) (bits := bits) (G := G) (ok := fun o => o.within K)
      (P := fun m => (HashTable.keys m).Nodup ∧ ∀ k ∈ HashTable.keys m, K k) (fun _ _ hm h => h.ok ha hm.1 hm.2) (fun _ _ _ _ ho hm hs => hs.keys ho hm)
    have hn : (HashTable.keys m0).Nodup := by obtain ⟨bk, -, -, hn⟩ := hi0; exact hn
    obtain ⟨cs, m, h1, h2, h4⟩ := lreaders_may_die (ok := fun o => o.within K ∧ o.good full) (writes := HT.Op.writes) (fun s o h h1 h2 => hstep s o h h1.1 h2)
      (fun s o h ho _ => (HashTable.sz_call hash F base o ho.2).sized h) htRoL (fun t o ho => ⟨hok t o ho, hg t o ho⟩) ⟨⟨hn, hm0⟩, lk, hi0⟩ hs0 hp hi hr hd
    refine ⟨cs, m, h1, h2, fun hw => ?_⟩
    obtain ⟨p', h, h3, ⟨-, lk, h5⟩, h6⟩ := h4 hw
    exact ⟨p', h, lk, h3, h5, h6⟩

/-- the hypotheses of `C81_log_queue_partial` are met by a queue on a fresh pool, a process that pushes and pops, and one that only asks for the size and has died -/
example : ∃ h G, Queue.Inv 1224 G [] h ∧ LSim False False h lqPool ∧ PidsOk (fun t => t % 2 + 1) ∧
    ∃ s0 s, Init (fun t => t % 2 + 1) 10 (fun t => (if t = 0 then [Deque.Op.pushBack [1], .popFront] else if t = 1 then [.size, .bytes, .size] else []).map
      (lcallSession (Queue.call 1224) Deque.Op.writes .unit)) lqPool s0 ∧ Reach (fun t => t % 2 + 1) s0 s ∧ s.alive 2 = false ∧
      ∀ t, s.alive (t % 2 + 1) = false → ∀ o ∈ (if t = 0 then [Deque.Op.pushBack [1], .popFront] else if t = 1 then [.size, .bytes, .size] else []), o = .size ∨ o = .bytes := by
  obtain ⟨h, G, h1, h2⟩ := lqPool_ready
  generalize lqPool = P at h2 ⊢
  let s0 : St (poolMach (Out Deque.Ret)) := ⟨fun _ => 0, fun _ => true, P, [], fun t => thread 10 (t % 2 + 1) ((if t = 0 then [Deque.Op.pushBack [1], .popFront] else if t = 1 then [.size, .bytes, .size] else []).map
      (lcallSession (Queue.call 1224) Deque.Op.writes .unit)), fun _ => none, fun _ => none, fun _ => 0⟩
  refine ⟨h, G, h1, h2, fun t => ⟨Nat.succ_ne_zero _, by show t % 2 + 1 < 2 ^ 18; omega⟩, s0, { s0 with alive := fset s0.alive 2 false },
    ⟨fun _ => rfl, rfl, rfl, fun _ => rfl, fun _ => rfl, fun _ => rfl, fun _ => rfl⟩, .step .refl (.die 2), by simp [fset], ?_⟩
  intro t ht o ho
  have h3 : t % 2 = 1 := by
    simp [fset, s0] at ht
    omega
  rw [if_neg (by omega)] at ho
  split at ho
  · simp at ho; rcases ho with rfl | rfl | rfl <;> simp
  · cases ho

end Verif
