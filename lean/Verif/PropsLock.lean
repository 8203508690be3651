import Verif.LockInv
/-
Properties C15-C19: ProcessLock, ProcessReadWriteLock, and operations run under them.

The system (`Step`) interleaves the single atomic steps of any number of threads of any number of processes; any process may die at
any step (`Step.die`).  Threads run any list of sessions (`Session`).
-/
namespace Verif.Lock
open Verif
variable {K : Mach} {pid : Nat → Nat} {fuel : Nat} {prog : Nat → List (Session K)} {m0 : K.M} {s0 s s' : St K} {t u : Nat}

/-- thread `t` is inside a section of kind `kd`: its guard is constructed and not yet destroyed -/
abbrev St.inside (s : St K) (pid : Nat → Nat) (t : Nat) (kd : Kind) : Prop := s.alive (pid t) = true ∧ s.st t = some kd

/-- an operation that thread `t` may run as a section of kind `kd`, according to its sessions -/
def Allowed (prog : Nat → List (Session K)) (t : Nat) (kd : Kind) (b : Body K) : Prop := ∃ s ∈ prog t, s.allows kd b

/-- nobody uses Behavior::READ (the allocators never do; SimpleAllocator.cc 203, LogarithmicAllocator.cc 444) -/
def NoAny (prog : Nat → List (Session K)) : Prop := ∀ t, ∀ s ∈ prog t, ¬ s.isAny

/-- operations passed as read-only are read-only -/
def ReadOnly (prog : Nat → List (Session K)) : Prop := ∀ t, ∀ s ∈ prog t, s.ok

def ctx (prog : Nat → List (Session K)) (t : Nat) : Ctx K := ⟨NoAny prog, Allowed prog t⟩

theorem init_inv (hp : PidsOk pid) (hro : ReadOnly prog) (hi : Init pid fuel prog m0 s0) :
    ∃ G, LInv pid (ctx prog) s0 G ∧ MInv pid (ctx prog) (NoAny prog) m0 s0 G m0 false := by
  refine ⟨fun _ => ⟨fun _ => False, fun _ => False, fun _ => False, 0, False, none⟩, ?_, ?_⟩
  · constructor
    · intro t _
      rw [hi.th t]
      refine thread_lwp (c := ctx prog t) (hp t).1 fuel (prog t) (hro t) (fun s hs kd b h => ⟨s, hs, h⟩) (fun s hs h h' => h' t s hs h) ⟨rfl, fun _ h => h⟩
    · intro t _ w h; exact h.elim
    · intro t _ w h; rw [hi.holder w] at h; cases h
    · intro t _ w h; exact h.elim
    · intro t _ w h; exact h.elim
    · intro t _ h; exact h.elim
    · intro t _; exact hi.st t
    · intro w h; exact absurd (hi.words w) h
    · exact fun w => Or.inl (hi.took w)
  · constructor
    · rw [hi.log]; exact .nil
    · intro t _ kd b rem h; cases h
    · intro t _ kd b rem h; cases h
    · intro _; exact hi.mem
    · intro t _ b rem h; cases h
    · intro _ h; cases h

theorem reach_inv (hp : PidsOk pid) (hro : ReadOnly prog) (hi : Init pid fuel prog m0 s0) (hr : Reach pid s0 s) :
    ∃ G mc d, LInv pid (ctx prog) s G ∧ MInv pid (ctx prog) (NoAny prog) m0 s G mc d := by
  induction hr with
  | refl =>
    obtain ⟨G, h1, h2⟩ := init_inv hp hro hi
    exact ⟨G, m0, false, h1, h2⟩
  | step hr hst ih =>
    obtain ⟨G, mc, d, h1, h2⟩ := ih
    exact inv_step (c := ctx prog) (S := NoAny prog) hp (fun _ => rfl) h1 h2 hst

/-! ### C15 mutual exclusion -/

/-- **C15.** In every reachable state, whatever the interleaving and whoever has died: while a live thread is inside a write section no other live
thread is inside a write or a read section (tokens of live processes below 2^18, see `C15_false`). -/
theorem C15_write_exclusion_partial (hp : PidsOk pid) (hro : ReadOnly prog) (hi : Init pid fuel prog m0 s0) (hr : Reach pid s0 s)
    {n : Nat} {kd : Kind} (ht : s.inside pid t (.write n)) (hu : s.inside pid u kd) (hk : kd = .read ∨ ∃ m, kd = .write m) : u = t := by
  obtain ⟨G, mc, d, h1, h2⟩ := reach_inv hp hro hi hr
  have e1 := h1.sec t ht.1
  have e2 := h1.sec u hu.1
  rw [ht.2] at e1
  rw [hu.2] at e2
  obtain ⟨⟨k1, b1, r1⟩, h3, h4⟩ := Option.map_eq_some_iff.1 e1.symm
  obtain ⟨⟨k2, b2, r2⟩, h5, h6⟩ := Option.map_eq_some_iff.1 e2.symm
  simp only at h4 h6
  subst h4; subst h6
  exact h1.excl hp ht.1 hu.1 h3 h5 hk

/-- **C15** for a plain ProcessLock: two live threads are never inside its guarded section together. -/
theorem C15_mutex_exclusion_partial (hp : PidsOk pid) (hro : ReadOnly prog) (hi : Init pid fuel prog m0 s0) (hr : Reach pid s0 s)
    {w : Nat} (ht : s.inside pid t (.mutex w)) (hu : s.inside pid u (.mutex w)) : u = t := by
  obtain ⟨G, mc, d, h1, h2⟩ := reach_inv hp hro hi hr
  have key : ∀ v, s.inside pid v (.mutex w) → s.holder w = some v := by
    intro v hv
    have e1 := h1.sec v hv.1
    rw [hv.2] at e1
    obtain ⟨⟨k1, b1, r1⟩, h3, h4⟩ := Option.map_eq_some_iff.1 e1.symm
    simp only at h4
    subst h4
    have := h1.ok hv.1
    unfold Ghost.ok at this
    rw [h3] at this
    exact (h1.own v hv.1 w this.1).2
  have a := key t ht
  rw [key u hu] at a
  injection a

/-! ### C16 stealing -/

/-- who holds word `w` -/
theorem holder_word (hp : PidsOk pid) (hro : ReadOnly prog) (hi : Init pid fuel prog m0 s0) (hr : Reach pid s0 s) {w : Nat}
    (hw : s.words w ≠ 0) : ∃ t, s.holder w = some t ∧ s.words w = pid t := by
  obtain ⟨G, mc, d, h1, h2⟩ := reach_inv hp hro hi hr
  exact h1.holder w hw

/-- **C16.** A lock word (or reader slot) that is held only changes when its holder releases it, or when the process of its holder is dead. -/
theorem C16_only_dead_robbed_partial (hp : PidsOk pid) (hro : ReadOnly prog) (hi : Init pid fuel prog m0 s0) (hr : Reach pid s0 s) {a : Option Nat}
    (hst : Step pid a s s') {w : Nat} (hw : s.words w ≠ 0) (hch : s'.words w ≠ s.words w ∨ s'.holder w ≠ s.holder w) :
    ∃ t, s.holder w = some t ∧ s.words w = pid t ∧ (a = some t ∧ s'.words w = 0 ∨ s.alive (pid t) = false) := by
  obtain ⟨G, mc, d, h1, h2⟩ := reach_inv hp hro hi hr
  obtain ⟨t, ht1, ht2⟩ := h1.holder w hw
  refine ⟨t, ht1, ht2, ?_⟩
  have key : ∀ (u x e v : Nat) (p : LProg K Unit), Live pid s u → s.words x = e → (G u).may (ctx prog u) (pid u) x e v → a = some u →
      ((s.store u x v p).words w ≠ s.words w ∨ (s.store u x v p).holder w ≠ s.holder w) →
      (a = some t ∧ (s.store u x v p).words w = 0 ∨ s.alive (pid t) = false) := by
    intro u x e v p hu he hm ha hc
    by_cases ex : w = x
    · subst ex
      rw [ht2] at he
      subst he
      have hdead : (G u).dead (pid t) → s.alive (pid t) = false := by
        intro h
        have := h1.dead u hu _ h
        rwa [Nat.mod_eq_of_lt (hp t).2] at this
      rcases hm with ⟨_, h4 | h4, _⟩ | ⟨h3, _, ⟨h4, _⟩ | ⟨_, h4, _⟩⟩
      · exact absurd h4 (hp t).1
      · exact Or.inr (hdead h4)
      · exact Or.inr (hdead h4)
      · left
        have := (h1.own u hu w h4).2
        rw [ht1] at this
        injection this with this
        subst this
        exact ⟨ha, by show fset s.words w v w = 0; rw [fset_same]; exact h3⟩
    · exfalso
      rcases hc with hc | hc
      · exact hc (fset_ne _ _ ex)
      · exact hc (fset_ne _ _ ex)
  cases hst with
  | @casOk _ u x e v k hu hth he =>
    have hl := h1.lwp u hu
    rw [hth] at hl
    have hcan := h1.can hu x
    rw [he] at hcan
    exact key u x e v _ hu he (hl.2.1 hcan) rfl hch
  | @weakOk _ u x e v k hu hth he =>
    have hl := h1.lwp u hu
    rw [hth] at hl
    obtain ⟨_, h3, h4, h5, h6, _⟩ := hl
    exact key u x e v _ hu he (Or.inl ⟨h3, Or.inl h4, fun h => absurd h h5⟩) rfl hch
  | _ => exact (hch.elim (fun h => h rfl) (fun h => h rfl)).elim

/-- **C16.** `stolen` is exactly the token that was in the write lock when the guard took it (0 if it was free); a non-zero token belongs to a process
that is dead. -/
theorem C16_stolen_reported_partial (hp : PidsOk pid) (hro : ReadOnly prog) (hi : Init pid fuel prog m0 s0) (hr : Reach pid s0 s) {n : Nat}
    (ht : s.inside pid t (.write n)) : s.holder 0 = some t ∧ s.took 0 = n ∧ (n ≠ 0 → s.alive n = false) := by
  obtain ⟨G, mc, d, h1, h2⟩ := reach_inv hp hro hi hr
  have e1 := h1.sec t ht.1
  rw [ht.2] at e1
  obtain ⟨⟨k1, b1, r1⟩, h4, h5⟩ := Option.map_eq_some_iff.1 e1.symm
  simp only at h5
  subst h5
  have hok := h1.ok ht.1
  unfold Ghost.ok at hok
  rw [h4] at hok
  obtain ⟨h6, h7⟩ := h1.stolen hp ht.1 h4
  exact ⟨(h1.own t ht.1 0 hok.1).2, h6, fun hn => (h7.resolve_left hn).2⟩

/-! ### C18 guards release what they took; downgrade -/

/-- **C18.** A live thread that has destroyed its guards (between two sessions, or at the end) holds no lock word and no reader slot. -/
theorem C18_released_partial (hp : PidsOk pid) (hro : ReadOnly prog) (hi : Init pid fuel prog m0 s0) (hr : Reach pid s0 s)
    (ht : s.alive (pid t) = true) (hend : s.th t = .ret () ∨ ∃ k, s.th t = .step .idle k) : ∀ w, s.holder w ≠ some t := by
  obtain ⟨G, mc, d, h1, h2⟩ := reach_inv hp hro hi hr
  intro w hw
  have ho := h1.exact t ht w hw
  have hl := h1.lwp t ht
  rcases hend with h | ⟨k, h⟩
  · rw [h] at hl; exact hl.2.2 w ho
  · rw [h] at hl; exact hl.2.1.2 w ho

/-- **C18.** No guard operation throws: in particular `downgrade()` of a write guard always finds a slot. -/
theorem C18_never_throws_partial (hp : PidsOk pid) (hro : ReadOnly prog) (hi : Init pid fuel prog m0 s0) (hr : Reach pid s0 s)
    (ht : s.alive (pid t) = true) (e : Err) : s.th t ≠ .err e := by
  obtain ⟨G, mc, d, h1, h2⟩ := reach_inv hp hro hi hr
  intro h
  have hl := h1.lwp t ht
  rw [h] at hl
  exact hl

/-- **C18.** `downgrade()` of a guard that is not writing throws and does nothing else. -/
theorem C18_downgrade_of_reader_throws (tok x st : Nat) : (downgrade tok ⟨some x, st⟩ : LProg K Guard) = .err .logicError := rfl

/-- **C18.** The operation that follows a `downgrade()` counts as a read section from before the downgrade starts (see `session`),
so during the downgrade and after it no live thread is writing. -/
theorem C18_downgrade_keeps_protection_partial (hp : PidsOk pid) (hro : ReadOnly prog) (hi : Init pid fuel prog m0 s0) (hr : Reach pid s0 s)
    (ht : s.inside pid t .read) {n : Nat} : ¬ s.inside pid u (.write n) := by
  intro hu
  have := C15_write_exclusion_partial hp hro hi hr hu ht (Or.inl rfl)
  subst this
  have := ht.2.symm.trans hu.2
  cases this

/-! ### C19 serializability -/

/-- **C19.** Whatever the interleaving at memory-access granularity, and whoever dies when: the results and the memory are those of running the
finished operations one at a time, in the order they finished, with operations of dead processes cut short in between; memory is
what that sequential run leaves, except that a live writer may be part-way through its operation. If all readers use READ_UNLESS_STOLEN, an
operation that starts after a crash is one that was told that the lock was stolen (and so runs the repair, `Session.allows`). -/
theorem C19_serializable_partial (hp : PidsOk pid) (hro : ReadOnly prog) (hi : Init pid fuel prog m0 s0) (hr : Reach pid s0 s) :
    ∃ m d, Serial pid (NoAny prog) (Allowed prog) (fun p => (∃ u, p = pid u) ∧ s.alive p = false) m0 s.log m d ∧
      ((∀ t n, ¬ s.inside pid t (.write n)) → s.mem = m) ∧
      (∀ t n, s.inside pid t (.write n) → ∃ b c, Allowed prog t (.write n) b ∧ s.mem = (Body.after c b m).2) := by
  obtain ⟨G, mc, d, h1, h2⟩ := reach_inv hp hro hi hr
  refine ⟨mc, d, h2.ser, ?_, ?_⟩
  · intro h
    refine h2.idle fun t ht n b rem hs => h t n ⟨ht, ?_⟩
    rw [h1.sec t ht, hs]; rfl
  · intro t n ht
    have e1 := h1.sec t ht.1
    rw [ht.2] at e1
    obtain ⟨⟨k1, b1, r1⟩, h4, h5⟩ := Option.map_eq_some_iff.1 e1.symm
    simp only at h5
    subst h5
    obtain ⟨c, hc⟩ := h2.wr t ht.1 n b1 r1 h4
    exact ⟨b1, c, h2.allowed t ht.1 _ _ _ h4, by rw [hc]⟩

/-- sequential runs without crashes -/
inductive SeqRun (m0 : K.M) : List (Body K × Verif.Res K.Res) → K.M → Prop
  | nil : SeqRun m0 [] m0
  | snoc {l m b r m'} : SeqRun m0 l m → Body.run b m = (r, m') → SeqRun m0 (l ++ [(b, r)]) m'

theorem Serial.seqRun {S : Prop} {A : Nat → Kind → Body K → Prop} {D : Nat → Prop} {m : K.M}
    {log : List (Nat × Option Kind × Body K × Verif.Res K.Res)} {d : Bool} (hD : ∀ p, ¬ D p) (h : Serial pid S A D m0 log m d) :
    SeqRun m0 (log.map fun e => (e.2.2.1, e.2.2.2)) m ∧ d = false ∧ ∀ e ∈ log, ∃ kd, e.2.1 = some kd ∧ A e.1 kd e.2.2.1 ∧ ∀ n, kd = .write n → n = 0 := by
  induction h with
  | nil => exact ⟨.nil, rfl, by simp⟩
  | done _ h1 h2 h3 h4 ih =>
    refine ⟨?_, rfl, ?_⟩
    · rw [List.map_append]; exact .snoc ih.1 h2
    · intro e he
      rcases List.mem_append.1 he with he | he
      · exact ih.2.2 e he
      · simp only [List.mem_singleton] at he; subst he; exact ⟨_, rfl, h1, fun n hn => (h4 n hn).resolve_right (hD n)⟩
  | crash c _ h1 h2 h3 h4 ih => exact absurd h2 (hD _)

/-- **C19**, no crash: the finished operations have the results and (when nobody is writing) the memory of a sequential run. -/
theorem C19_sequential_partial (hp : PidsOk pid) (hro : ReadOnly prog) (hi : Init pid fuel prog m0 s0) (hr : Reach pid s0 s)
    (hal : ∀ t, s.alive (pid t) = true) :
    ∃ m, SeqRun m0 (s.log.map fun e => (e.2.2.1, e.2.2.2)) m ∧ (∀ e ∈ s.log, ∃ kd, e.2.1 = some kd ∧ Allowed prog e.1 kd e.2.2.1 ∧ ∀ n, kd = .write n → n = 0) ∧
      ((∀ t n, s.st t ≠ some (.write n)) → s.mem = m) := by
  obtain ⟨m, d, h1, h2, -⟩ := C19_serializable_partial hp hro hi hr
  obtain ⟨h3, -, h4⟩ := h1.seqRun (fun p h => by obtain ⟨⟨u, rfl⟩, h⟩ := h; simp [hal u] at h)
  exact ⟨m, h3, h4, fun h => h2 fun t n ht => h t n ht.2⟩

end Verif.Lock
