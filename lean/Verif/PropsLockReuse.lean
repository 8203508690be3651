import Verif.PropsLockLive
/-
C78: recovery of the lock when the operating system gives the process id of a dead process to a new process.  On Linux a token is the process id alone (ProcessLock.cc 51-61; on
macOS it contains the start time of the process), so the lock cannot tell the two processes apart.  Both halves of the property are false (`C78_false_recovery`, `C78_false_exclusion`).
-/
namespace Verif.Lock
open Verif
variable {K : Mach} {pid proc : Nat → Nat}

/-- The system of Lock.lean in which process ids are reused: `cur p` is the number of the process that has (or, if it is dead, had) process id `p`. -/
structure RSt (K : Mach) where
  s : St K
  cur : Nat → Nat

/-- thread `t` belongs to process number `proc t`, which has process id `pid t`; it runs while this process does -/
def RSt.live (pid proc : Nat → Nat) (x : RSt K) (t : Nat) : Prop := x.s.alive (pid t) = true ∧ x.cur (pid t) = proc t

/-- what can happen -/
inductive Event
  | step (t : Nat)        -- thread t takes a step
  | death (p : Nat)       -- the process with id p dies
  | birth (p q : Nat)     -- process q starts; the operating system gives it the unused id p

/-- ProcessLock.cc 74-90: whether a token's process runs is decided by its id (`Step.running`) -/
inductive RStep (pid proc : Nat → Nat) : Event → RSt K → RSt K → Prop
  | run {x : RSt K} {s' : St K} {t : Nat} : x.live pid proc t → Step pid (some t) x.s s' → RStep pid proc (.step t) x ⟨s', x.cur⟩
  | die {x : RSt K} (p : Nat) : RStep pid proc (.death p) x ⟨{ x.s with alive := fset x.s.alive p false }, x.cur⟩
  | born {x : RSt K} (p q : Nat) : x.s.alive p = false → x.cur p < q → RStep pid proc (.birth p q) x ⟨{ x.s with alive := fset x.s.alive p true }, fset x.cur p q⟩

/-- runs all of whose events are in `E` -/
inductive RRun (pid proc : Nat → Nat) (E : Event → Prop) (x : RSt K) : RSt K → Prop
  | refl : RRun pid proc E x x
  | step {y z e} : RRun pid proc E x y → E e → RStep pid proc e y z → RRun pid proc E x z

theorem RRun.trans {E : Event → Prop} {x y z : RSt K} (h1 : RRun pid proc E x y) (h2 : RRun pid proc E y z) : RRun pid proc E x z := by
  induction h2 with
  | refl => exact h1
  | step _ h3 h4 ih => exact .step ih h3 h4

/-- without births this is the system of Lock.lean -/
theorem RRun.reach {x y : RSt K} (h : RRun pid proc (fun e => ∀ p q, e ≠ .birth p q) x y) : Reach pid x.s y.s := by
  induction h with
  | refl => exact .refl
  | step _ h2 h3 ih =>
    cases h3 with
    | run _ h4 => exact .step ih h4
    | die p => exact .step ih (.die p)
    | born p q _ _ => exact absurd rfl (h2 p q)

/-! ### nobody gets the lock any more -/

/-- a thread with program `p` never enters a section, nor changes a lock word, while word 0 is `c` and the process of token `c` seems to run -/
def never (c : Nat) : LProg K Unit → Prop
  | .ret _ => True
  | .err _ => True
  | .ub => True
  | .step (.cas w e _) k => w = 0 ∧ e ≠ c ∧ never c (k (false, c))
  | .step (.casWeak w e _) k => w = 0 ∧ e ≠ c ∧ never c (k (false, c))
  | .step (.load w) k => ∀ v, (w = 0 → v = c) → never c (k v)
  | .step (.wait _ _) k => ∀ b, never c (k b)
  | .step (.running d) k => d = c ∧ never c (k true)
  | .step (.enter _ _) _ => False
  | .step (.acc _) _ => False
  | .step (.leave _ _) _ => False
  | .step .quit _ => False
  | .step .idle _ => False

theorem never_spin {c tok : Nat} (hc : c ≠ 0) {f : Bool × Nat → LProg K Unit} : ∀ (n last : Nat), (n = 0 → last = c) → never c (f (false, c)) →
    never c ((spin 0 tok n last).bind f) := by
  intro n
  induction n with
  | zero => intro last h hf; rw [show last = c from h rfl]; exact hf
  | succ n ih =>
    intro last _ hf
    exact ⟨rfl, fun e => hc e.symm, ih c (fun _ => rfl) hf⟩

theorem never_acquire {c tok : Nat} (hc : c ≠ 0) (F : Nat) {f : Nat → LProg K Unit} : never c ((acquire 0 tok F).bind f) := by
  induction F with
  | zero => exact trivial
  | succ F ih =>
    unfold acquire
    rw [Prog.bind_assoc]
    refine never_spin hc 10 0 (fun h => absurd h (by omega)) ?_
    simp only [Bool.false_eq_true, if_false]
    rw [Prog.bind_assoc]
    intro b
    show never c (Prog.bind (if b = true then _ else _) f)
    cases b with
    | true => exact ih
    | false => exact ⟨rfl, ih⟩

theorem never_session {c tok F : Nat} (hc : c ≠ 0) {se : Session K} (hm : ∀ w, se ≠ .mutex w) {f : Unit → LProg K Unit} : never c ((session F tok se).bind f) := by
  have hr : ∀ (us : Bool) (g : Guard → LProg K Unit), never c ((guardRead us F tok F).bind g) := by
    intro us g
    cases F with
    | zero => exact trivial
    | succ F => unfold guardRead; rw [Prog.bind_assoc]; exact never_acquire hc _
  have hw : ∀ (g : Guard → LProg K Unit), never c ((guardWrite F tok).bind g) := by
    intro g; unfold guardWrite; rw [Prog.bind_assoc]; exact never_acquire hc _
  cases se with
  | write rep b => unfold session; rw [Prog.bind_assoc]; exact hw _
  | writeThenRead rep b a => unfold session; rw [Prog.bind_assoc]; exact hw _
  | read rep b => unfold session; rw [Prog.bind_assoc]; exact hr _ _
  | readAny b => unfold session; rw [Prog.bind_assoc]; exact hr _ _
  | mutex w => exact absurd rfl (hm w)

theorem never_thread {c tok F : Nat} (hc : c ≠ 0) : ∀ {ss : List (Session K)}, (∀ se ∈ ss, ∀ w, se ≠ .mutex w) → never c (thread F tok ss)
  | [], _ => trivial
  | se :: _, h => never_session hc (h se (List.mem_cons_self ..))

/-- Once the lock word has the token of a dead process whose id a new process has got: while this new process lives, the word stays as it is and no live thread gets into a section. -/
theorem never_run {c : Nat} {x y : RSt K} (hc : c % 2 ^ 18 = c) (hw : x.s.words 0 = c) (ha : x.s.alive c = true)
    (hth : ∀ t, (pid t = c ∧ proc t < x.cur c) ∨ (never c (x.s.th t) ∧ x.s.st t = none))
    (hr : RRun pid proc (· ≠ .death c) x y) : y.s.words 0 = c ∧ y.s.alive c = true ∧ ∀ t, y.live pid proc t → y.s.st t = none := by
  have key : y.s.words 0 = c ∧ y.s.alive c = true ∧ ∀ t, (pid t = c ∧ proc t < y.cur c) ∨ (never c (y.s.th t) ∧ y.s.st t = none) := by
    induction hr with
    | refl => exact ⟨hw, ha, hth⟩
    | @step y z e _ he hs ih =>
      obtain ⟨i1, i2, i3⟩ := ih
      cases hs with
      | die p =>
        refine ⟨i1, ?_, i3⟩
        show fset y.s.alive p false c = true
        rw [fset_ne _ _ (fun h => he (by rw [h]))]; exact i2
      | born p q h1 h2 =>
        have hpc : c ≠ p := fun h => by rw [← h, i2] at h1; cases h1
        refine ⟨i1, ?_, ?_⟩
        · show fset y.s.alive p true c = true
          rw [fset_ne _ _ hpc]; exact i2
        · show ∀ t, (pid t = c ∧ proc t < fset y.cur p q c) ∨ _
          rw [fset_ne _ _ hpc]; exact i3
      | @run _ s' t hl hst =>
        have hn : never c (y.s.th t) ∧ y.s.st t = none := by
          rcases i3 t with ⟨h1, h2⟩ | h
          · have := hl.2; rw [h1] at this; omega
          · exact h
        have go : ∀ p : LProg K Unit, never c p → ∀ u, (pid u = c ∧ proc u < y.cur c) ∨ (never c (fset y.s.th t p u) ∧ y.s.st u = none) := by
          intro p hp u
          by_cases e : u = t
          · subst e; rw [fset_same]; exact Or.inr ⟨hp, hn.2⟩
          · rw [fset_ne _ _ e]; exact i3 u
        cases hst with
        | casOk _ h2 h3 => rw [h2] at hn; obtain ⟨⟨rfl, h5, -⟩, -⟩ := hn; exact absurd (h3.symm.trans i1) h5
        | casFail _ h2 h3 => have hn' := hn.1; rw [h2] at hn'; obtain ⟨rfl, -, h6⟩ := hn'; rw [← i1] at h6; exact ⟨i1, i2, go _ (by rw [i1] at h6 ⊢; exact h6)⟩
        | weakOk _ h2 h3 => rw [h2] at hn; obtain ⟨⟨rfl, h5, -⟩, -⟩ := hn; exact absurd (h3.symm.trans i1) h5
        | weakFail _ h2 => have hn' := hn.1; rw [h2] at hn'; obtain ⟨rfl, -, h6⟩ := hn'; exact ⟨i1, i2, go _ (by rw [i1]; exact h6)⟩
        | load _ h2 => have hn' := hn.1; rw [h2] at hn'; exact ⟨i1, i2, go _ (hn' _ (fun h => by rw [h]; exact i1))⟩
        | wait b _ h2 => have hn' := hn.1; rw [h2] at hn'; exact ⟨i1, i2, go _ (hn' b)⟩
        | running _ h2 => have hn' := hn.1; rw [h2] at hn'; obtain ⟨rfl, h6⟩ := hn'; exact ⟨i1, i2, go _ (by rw [hc, i2]; exact h6)⟩
        | enter _ h2 => rw [h2] at hn; exact hn.1.elim
        | acc _ h2 => rw [h2] at hn; exact hn.1.elim
        | leave _ h2 => rw [h2] at hn; exact hn.1.elim
        | quit _ h2 => rw [h2] at hn; exact hn.1.elim
        | idle _ h2 => rw [h2] at hn; exact hn.1.elim
  refine ⟨key.1, key.2.1, fun t hl => ?_⟩
  rcases key.2.2 t with ⟨h1, h2⟩ | h
  · have := hl.2; rw [h1] at this; omega
  · exact h.2

/-! ### the two witnesses -/

/-- run a schedule: thread `t` takes `n` steps in which nothing fails spuriously and waits time out -/
inductive Go
  | run (t n : Nat)
  | die (p : Nat)
  | born (p q : Nat)

def RSt.go (pid proc : Nat → Nat) : List Go → RSt K → Option (RSt K)
  | [], x => some x
  | .run t n :: l, x => if x.s.alive (pid t) = true ∧ x.cur (pid t) = proc t then (soloN t n x.s).bind fun s' => RSt.go pid proc l ⟨s', x.cur⟩ else none
  | .die p :: l, x => RSt.go pid proc l ⟨{ x.s with alive := fset x.s.alive p false }, x.cur⟩
  | .born p q :: l, x => if x.s.alive p = false ∧ x.cur p < q then RSt.go pid proc l ⟨{ x.s with alive := fset x.s.alive p true }, fset x.cur p q⟩ else none

theorem soloN_run {E : Event → Prop} {n t : Nat} (hE : E (.step t)) : ∀ {x : RSt K} {s' : St K}, x.live pid proc t → soloN t n x.s = some s' → RRun pid proc E x ⟨s', x.cur⟩ := by
  induction n with
  | zero => intro x s' _ h; injection h with h; subst h; exact .refl
  | succ n ih =>
    intro x s' hl h
    unfold soloN at h
    cases hs : solo t x.s with
    | none => rw [hs] at h; cases h
    | some s1 =>
      rw [hs] at h
      have e := solo_alive hs
      exact (RRun.step .refl hE (.run hl (solo_step hl.1 hs))).trans (ih (x := ⟨s1, x.cur⟩) ⟨by show s1.alive _ = true; rw [e]; exact hl.1, hl.2⟩ h)

theorem go_run : ∀ {l : List Go} {x y : RSt K}, RSt.go pid proc l x = some y → RRun pid proc (fun _ => True) x y := by
  intro l
  induction l with
  | nil => intro x y h; injection h with h; subst h; exact .refl
  | cons g l ih =>
    intro x y h
    cases g with
    | run t n =>
      unfold RSt.go at h
      split at h
      · rename_i hl
        cases hs : soloN t n x.s with
        | none => rw [hs] at h; cases h
        | some s1 => rw [hs] at h; exact (soloN_run trivial hl hs).trans (ih h)
      · cases h
    | die p => exact (RRun.step .refl trivial (.die p)).trans (ih h)
    | born p q =>
      unfold RSt.go at h
      split at h
      · rename_i hl
        exact (RRun.step .refl trivial (.born p q hl.1 hl.2)).trans (ih h)
      · cases h

/-- four processes; the last one gets the process id (6) of the first when that is dead -/
def rePid : Nat → Nat
  | 0 => 6 | 1 => 7 | 2 => 8 | 3 => 6 | _ => 9
def reProc : Nat → Nat
  | 3 => 1 | _ => 0
def reProg : Nat → List (Session tiny)
  | 0 => [.write (.ret (0 : Nat)) inc] | 1 => [.write (.ret (0 : Nat)) inc, .read (.ret (0 : Nat)) get] | 2 => [.write (.ret (0 : Nat)) inc] | 3 => [.write (.ret (0 : Nat)) inc] | _ => []
def reInit (F : Nat) : RSt tiny :=
  ⟨⟨fun _ => 0, fun _ => true, (0 : Nat), [], fun t => thread F (rePid t) (reProg t), fun _ => none, fun _ => none, fun _ => 0⟩, fun _ => 0⟩

theorem rePid_ok : PidsOk rePid := by
  intro t
  unfold rePid
  split <;> exact ⟨by decide, by decide⟩

/-- **C78 is false: the lock is not recovered.** Process 6 dies with the write lock; the operating system gives its id to a new process (which need not even use the library).  From then on,
whatever the other processes do and whoever else dies, while that new process runs nobody gets into a section, although the holder of the lock is dead. -/
theorem C78_false_recovery (F : Nat) : ∃ x : RSt tiny, RRun rePid reProc (fun _ => True) (reInit (F + 1)) x ∧ x.s.words 0 = 6 ∧ x.s.holder 0 = some 0 ∧ ¬ x.live rePid reProc 0 ∧
    x.live rePid reProc 1 ∧ x.live rePid reProc 2 ∧
    ∀ y, RRun rePid reProc (· ≠ .death 6) x y → y.s.words 0 = 6 ∧ ∀ t, y.live rePid reProc t → y.s.st t = none := by
  have h0 : (reInit (F + 1)).s.th 0 = .step (.casWeak 0 0 6) _ := rfl
  have r1 : RRun rePid reProc (fun _ => True) (reInit (F + 1)) _ := .step .refl trivial (.run (t := 0) ⟨rfl, rfl⟩ (.weakOk (pid := rePid) rfl h0 rfl))
  have r2 := RRun.step r1 trivial (.die 6)
  have r3 := RRun.step r2 trivial (.born 6 1 rfl (by show (0 : Nat) < 1; omega))
  refine ⟨_, r3, rfl, rfl, ?_, ⟨rfl, rfl⟩, ⟨rfl, rfl⟩, ?_⟩
  · rintro ⟨-, h⟩; exact absurd (show (1 : Nat) = 0 from h) (by omega)
  · intro y hy
    refine (fun h => ⟨h.1, h.2.2⟩ : _ ∧ _ ∧ _ → _) (never_run (c := 6) (by decide) rfl rfl ?_ hy)
    · intro t
      by_cases e : t = 0
      · subst e; exact Or.inl ⟨rfl, by show (0 : Nat) < 1; omega⟩
      · refine Or.inr ⟨?_, rfl⟩
        show never 6 (fset _ 0 _ t)
        rw [fset_ne _ _ e]
        refine never_thread (by omega) ?_
        intro se hse w
        have : se = .write (.ret (0 : Nat)) inc ∨ se = .read (.ret (0 : Nat)) get := by
          unfold reProg at hse
          split at hse <;> simp at hse
          · exact Or.inl hse
          · exact hse
          · exact Or.inl hse
          · exact Or.inl hse
        rcases this with rfl | rfl <;> intro h <;> cases h

/-- the run of `C78_false_exclusion`: 0 takes the lock and dies; 1 finds the lock taken and its holder dead; 2 steals it, finishes and releases it; a new process gets the id of 0 and takes
the lock; 1 compares the word with the token it has seen, and finds it there -/
def abaRun : List Go := [.run 0 67, .die 6, .run 1 12, .run 2 84, .born 6 1, .run 3 67, .run 1 67]

theorem abaRun_ends : ((RSt.go rePid reProc abaRun (reInit 2)).map fun x =>
    (x.s.alive 6 && x.s.alive 7 && decide (x.cur 6 = 1) && decide (x.cur 7 = 0) && decide (x.s.st 3 = some (.write 0)) && decide (x.s.st 1 = some (.write 6)))) = some true := by
  decide +kernel

/-- **C78 is false: mutual exclusion is lost.** There is a run in which process ids are only reused after their owner has died, and two live threads of different processes are inside a write
section at the same time. -/
theorem C78_false_exclusion : ∃ x : RSt tiny, RRun rePid reProc (fun _ => True) (reInit 2) x ∧ x.live rePid reProc 3 ∧ x.live rePid reProc 1 ∧
    x.s.st 3 = some (.write 0) ∧ x.s.st 1 = some (.write 6) := by
  have h := abaRun_ends
  rw [Option.map_eq_some_iff] at h
  obtain ⟨x, h1, h2⟩ := h
  simp only [Bool.and_eq_true, decide_eq_true_eq] at h2
  obtain ⟨⟨⟨⟨⟨e1, e2⟩, e3⟩, e4⟩, e5⟩, e6⟩ := h2
  exact ⟨x, go_run h1, ⟨e1, e3⟩, ⟨e2, e4⟩, e5, e6⟩

/-! ### without reuse -/

/-- **C78**, the true part: in runs in which no process id is reused, two live threads are never inside sections that exclude each other, ... -/
theorem C78_exclusion_partial {fuel : Nat} {prog : Nat → List (Session K)} {m0 : K.M} {x y : RSt K} (hp : PidsOk pid) (hro : ReadOnly prog) (hi : Init pid fuel prog m0 x.s)
    (hr : RRun pid proc (fun e => ∀ p q, e ≠ .birth p q) x y) {t u n : Nat} {kd : Kind} (ht : y.live pid proc t) (hu : y.live pid proc u) (h1 : y.s.st t = some (.write n))
    (h2 : y.s.st u = some kd) (hk : kd = .read ∨ ∃ m, kd = .write m) : u = t :=
  C15_write_exclusion_partial hp hro hi hr.reach ⟨ht.1, h1⟩ ⟨hu.1, h2⟩ hk

theorem re_readOnly : ReadOnly reProg := by
  intro t se hse
  have : se = .write (.ret (0 : Nat)) inc ∨ se = .read (.ret (0 : Nat)) get := by
    unfold reProg at hse
    split at hse <;> simp at hse
    · exact Or.inl hse
    · exact hse
    · exact Or.inl hse
    · exact Or.inl hse
  rcases this with rfl | rfl
  · trivial
  · exact ⟨fun m => rfl, fun _ => trivial⟩

/-- the hypotheses are met: thread 0 gets into its write section, then thread 1 tries in vain -/
example : ∃ y : RSt tiny, Init rePid 2 reProg (0 : Nat) (reInit 2).s ∧ RRun rePid reProc (fun e => ∀ p q, e ≠ .birth p q) (reInit 2) y ∧ y.live rePid reProc 0 ∧ y.live rePid reProc 1 ∧
    y.s.st 0 = some (.write 0) ∧ y.s.st 1 = none := by
  have h : ((soloN 0 67 (reInit 2).s).bind fun s => (soloN 1 11 s).map fun s => (s.alive 6 && s.alive 7 && decide (s.st 0 = some (.write 0)) && decide (s.st 1 = none))) = some true := by
    decide +kernel
  obtain ⟨s1, h1, h2⟩ := Option.bind_eq_some_iff.1 h
  obtain ⟨s2, h3, h4⟩ := Option.map_eq_some_iff.1 h2
  simp only [Bool.and_eq_true, decide_eq_true_eq] at h4
  obtain ⟨⟨⟨e1, e2⟩, e3⟩, e4⟩ := h4
  have a1 : s1.alive 7 = true := by
    have h : (soloN 0 67 (reInit 2).s).map (fun s => s.alive 7) = some true := by decide +kernel
    rw [h1] at h; exact Option.some.inj h
  refine ⟨⟨s2, (reInit 2).cur⟩, ⟨fun _ => rfl, rfl, rfl, fun _ => rfl, fun _ => rfl, fun _ => rfl, fun _ => rfl⟩,
    (soloN_run (t := 0) (by intro p q h; cases h) ⟨rfl, rfl⟩ h1).trans (soloN_run (t := 1) (by intro p q h; cases h) (x := ⟨s1, (reInit 2).cur⟩) ⟨a1, rfl⟩ h3), ⟨e1, rfl⟩, ⟨e2, rfl⟩, e3, e4⟩

end Verif.Lock
