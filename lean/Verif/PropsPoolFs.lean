import Verif.PoolFsNames
/-
C70: what a pool's name means.  The model is in PoolFs.lean: the constructor and delete_pool as programs of system calls, a system with names and files, executions in which any number
of threads construct and delete pools and use the ones they have.
-/
namespace Verif.Fs
open Verif

/-! ### One process at a time -/

/-- running a program when nobody else runs -/
inductive Runs (bad : Bool) {α : Type} : SProg α → OS → Out α → OS → Prop
  | ret {a s} : Runs bad (.ret a) s (.ok a) s
  | err {e s} : Runs bad (.err e) s (.err e) s
  | step {op k s r s' o s''} : Sys bad op s r s' → Runs bad (k r) s' o s'' → Runs bad (.step op k) s o s''

/-- **What opening a pool by name does**: a new name gets a new file of one page that is exactly the empty pool of C01; an existing name gives the pool of that name, unchanged, in its
full size; a name whose creator died before it set the size cannot be opened. -/
def opens (s : OS) (n : Name) : Out PoolObj × OS :=
  match s.names n with
  | none => (.ok ⟨s.next, 4096⟩, ⟨upd s.names n (some s.next), upd s.files s.next ⟨4096, (newPool 0).mem⟩, s.next + 1⟩)
  | some i => if (s.files i).fsize = 0 then (.err .runtimeError, s) else (.ok ⟨i, (s.files i).fsize⟩, s)

theorem upd_upd {β : Type} (f : Nat → β) (i : Nat) (a b : β) : upd (upd f i a) i b = upd f i b := by
  funext j
  simp only [upd]
  split <;> rfl

theorem new_bytes : leWr (fun i => if i < 0 ∧ i < 4096 then (fun _ => (0 : UInt8)) i else 0) 0 8 4096 = (newPool 0).mem := by
  funext i
  show _ = if i = 1 then 16 else 0
  by_cases h : i < 8
  · have : i = 0 ∨ i = 1 ∨ i = 2 ∨ i = 3 ∨ i = 4 ∨ i = 5 ∨ i = 6 ∨ i = 7 := by omega
    rcases this with rfl | rfl | rfl | rfl | rfl | rfl | rfl | rfl <;> decide +kernel
  · simp [leWr, h, show i ≠ 1 by omega]

theorem ctor_eq (n : Name) : ctor n = .step (.create n) fun r => afterCreate n r := by
  refine congrArg (Prog.step (SysOp.create n)) (funext fun r => ?_)
  cases r <;> rfl

/-- **C70, one process at a time**: the constructor, in every state of the system, does exactly what `opens` says. -/
theorem C70_open (n : Name) (s : OS) (o : Out PoolObj) (s' : OS) : Runs false (ctor n) s o s' ↔ (o, s') = opens s n := by
  constructor
  · intro h
    rw [ctor_eq] at h
    cases h with
    | step h1 h2 =>
    unfold opens
    cases h1 with
    | createFails h => cases h
    | createExists hn =>
      rename_i i
      rw [hn]
      cases h2 with
      | step h3 h4 =>
      cases h3 with
      | openFails h => cases h
      | «open» =>
      rw [hn] at h4
      cases h4 with
      | step h5 h6 =>
      cases h5
      replace h6 : Runs false (if (s.files i).fsize = 0 then .err .runtimeError else ctorMap i (s.files i).fsize : SProg PoolObj) s o s' := h6
      by_cases h0 : (s.files i).fsize = 0
      · rw [if_pos h0] at h6
        cases h6
        exact (if_pos h0).symm
      · rw [if_neg h0] at h6
        refine Eq.trans ?_ (if_neg h0).symm
        cases h6 with
        | step h7 h8 =>
        generalize hl : (s.files i).fsize = len at h7 h8 h0
        cases h7 with
        | mmapFails h => cases h
        | mmapZero => exact absurd rfl h0
        | mmap _ => cases h8; rfl
    | createNew hn =>
      rw [hn]
      cases h2 with
      | step h3 h4 =>
      cases h3 with
      | truncateFails h => cases h
      | truncate =>
      cases h4 with
      | step h5 h6 =>
      cases h5 with
      | mmapFails h => cases h
      | mmap _ =>
      cases h6 with
      | step h7 h8 =>
      cases h7
      cases h8
      simp only [upd_upd, upd_self, File.resize, new_bytes]
  · intro h
    unfold opens at h
    rw [ctor_eq]
    cases hn : s.names n with
    | none =>
      rw [hn] at h
      obtain ⟨rfl, rfl⟩ := Prod.mk.inj h
      refine .step (.createNew hn) (.step .truncate (.step (.mmap (by decide)) (.step .store ?_)))
      simp only [upd_upd, upd_self, File.resize, new_bytes]
      exact .ret
    | some i =>
      rw [hn] at h
      refine .step (.createExists hn) ?_
      have := Sys.open (bad := false) (n := n) (s := s)
      rw [hn] at this
      refine .step this (.step .fstat ?_)
      show Runs false (if (s.files i).fsize = 0 then .err .runtimeError else ctorMap i (s.files i).fsize : SProg PoolObj) s o s'
      by_cases h0 : (s.files i).fsize = 0
      · obtain ⟨rfl, rfl⟩ := Prod.mk.inj (h.trans (if_pos h0))
        rw [if_pos h0]
        exact .err
      · obtain ⟨rfl, rfl⟩ := Prod.mk.inj (h.trans (if_neg h0))
        rw [if_neg h0]
        exact .step (.mmap h0) .ret

/-- **C70**: delete_pool removes the name, changes no file and no other name, and returns whether there was such a pool. -/
theorem C70_delete (n : Name) (s : OS) (o : Out Bool) (s' : OS) :
    Runs false (deletePool n) s o s' ↔ o = .ok (s.names n).isSome ∧ s' = ⟨upd s.names n none, s.files, s.next⟩ := by
  have hnone : s.names n = none → s = ⟨upd s.names n none, s.files, s.next⟩ := by
    intro h
    cases s
    simp only [OS.mk.injEq, and_true]
    funext m
    simp only [upd]
    split
    · subst m; exact h
    · rfl
  constructor
  · intro h
    cases h with
    | step h1 h2 =>
    cases h1 with
    | unlinkFails h => cases h
    | unlink hn => cases h2; exact ⟨by rw [hn]; rfl, rfl⟩
    | unlinkNone hn => cases h2; exact ⟨by rw [hn]; rfl, hnone hn⟩
  · rintro ⟨rfl, rfl⟩
    cases hn : s.names n with
    | none =>
      rw [← hnone hn]
      exact .step (.unlinkNone hn) .ret
    | some i => exact .step (.unlink hn) .ret

attribute [local irreducible] File.word in
/-- A Pool object opened while its creator had not yet stored the size cannot be used: the first check_size_and_remap throws. -/
theorem C70_unfinished (p : PoolObj) (s : OS) (hp : p.len ≠ 0) (hw : (s.files p.ino).word = 0) (o : Out PoolObj) (s' : OS) :
    Runs false (checkRemap p) s o s' ↔ o = .err .runtimeError ∧ s' = s := by
  constructor
  · intro h
    cases h with
    | step h1 h2 =>
    cases h1
    replace h2 : Runs false (if (s.files p.ino).word = p.len then .ret p else remapTo p (s.files p.ino).word : SProg PoolObj) s o s' := h2
    rw [hw, if_neg (fun h => hp h.symm)] at h2
    cases h2 with
    | step h3 h4 =>
    cases h3 with
    | mmap h => exact absurd rfl h
    | mmapFails h => cases h
    | mmapZero => cases h4; exact ⟨rfl, rfl⟩
  · rintro ⟨rfl, hs⟩
    rw [hs]
    refine .step .load ?_
    show Runs false (if (s.files p.ino).word = p.len then .ret p else remapTo p (s.files p.ino).word : SProg PoolObj) s _ s
    rw [hw, if_neg (fun h => hp h.symm)]
    exact .step .mmapZero .err

/-! ### Any number of processes -/

/-- **C70, mappings**: whatever fails and whoever runs, the memory that a constructed Pool maps lies within its file, and stays there for ever. -/
theorem C70_mapped {bad : Bool} {s0 s1 s : St} (h0 : Init s0) (h : Reach bad s0 s1) {t n p} (hp : (t, .ctor n, .ok (.pool p)) ∈ s1.log) (h' : Reach bad s1 s) :
    4096 ≤ p.len ∧ p.len ≤ (s.os.files p.ino).fsize := by
  have : (t, .ctor n, .ok (.pool p)) ∈ s.log := by
    induction h' with
    | refl => exact hp
    | step _ hs ih =>
      cases hs with
      | start => exact ih
      | sys => exact ih
      | finish => exact List.mem_append_left _ ih
      | throws => exact List.mem_append_left _ ih
      | use => exact ih
  exact ((inv_reach h0 (h.trans h')).log t n p this).2

/-- **C70, one name, one pool**: if no call of the system fails and nobody deletes the pool, then all Pool objects constructed under a name, by whichever processes in whichever
interleaving, are the same pool, and it is the one that the name has. -/
theorem C70_same {s0 s : St} (h0 : Init s0) (h : Reach false s0 s) {n : Name} (hd : .del n ∉ s.started) {t t' p p'}
    (hp : (t, .ctor n, .ok (.pool p)) ∈ s.log) (hp' : (t', .ctor n, .ok (.pool p')) ∈ s.log) : p.ino = p'.ino ∧ s.os.names n = some p.ino := by
  have h1 := (named_reach h0 h).log t n p hp hd
  have h2 := (named_reach h0 h).log t' n p' hp' hd
  exact ⟨Option.some.inj (h1.symm.trans h2), h1⟩

/-- **C70, names stay**: if no call of the system fails, a name keeps its pool until somebody calls delete_pool for that name. -/
theorem C70_stays {s0 s s' : St} (h0 : Init s0) (h : Reach false s0 s) (h' : Reach false s s') {n i} (hn : s.os.names n = some i) (hd : .del n ∉ s'.started) : s'.os.names n = some i :=
  names_keep h0 h h' hn hd

/-- what has happened since `s1` -/
structure Since (s1 : St) (t : Nat) (s : St) : Prop where
  next : s1.os.next ≤ s.os.next
  names : ∀ m i, s.os.names m = some i → i < s1.os.next → s1.os.names m = some i
  run : ∀ m q i, s.run t = some (.ctor m, q) → target q = some i → i < s1.os.next → s1.os.names m = some i
  log : ∃ l, s.log = s1.log ++ l ∧ ∀ m p, (t, .ctor m, .ok (.pool p)) ∈ l → p.ino < s1.os.next → s1.os.names m = some p.ino

theorem sys_names {bad : Bool} {s s' : OS} {op : SysOp} {r : SysRe op} (hs : Sys bad op s r s') :
    s.next ≤ s'.next ∧ ∀ m i, s'.names m = some i → i < s.next → s.names m = some i := by
  cases hs with
  | createNew h =>
    refine ⟨Nat.le_succ _, ?_⟩
    intro m i hm hi
    simp only [upd] at hm
    split at hm
    · cases hm; exact absurd hi (Nat.lt_irrefl _)
    · exact hm
  | unlink h =>
    refine ⟨Nat.le_refl _, ?_⟩
    intro m i hm hi
    simp only [upd] at hm
    split at hm
    · cases hm
    · exact hm
  | _ => exact ⟨Nat.le_refl _, fun _ _ h _ => h⟩

theorem since_step {bad : Bool} {s1 s s' : St} {t : Nat} (hi : Inv s) (h : Since s1 t s) (hs : Step bad s s') : Since s1 t s' := by
  obtain ⟨l, hl, hlog⟩ := h.log
  cases hs with
  | start c hr =>
    rename_i t'
    refine ⟨h.next, h.names, ?_, h.log⟩
    intro m q i hq ht
    simp only [upd] at hq
    split at hq
    · obtain ⟨rfl, rfl⟩ := Prod.mk.inj (Option.some.inj hq)
      cases ht
    · exact h.run m q i hq ht
  | sys hrun hsys =>
    rename_i t' c op k r os'
    obtain ⟨h1, h2⟩ := sys_names hsys
    have hn := h.next
    have hnames : ∀ m i, os'.names m = some i → i < s1.os.next → s1.os.names m = some i :=
      fun m i hm hi => h.names m i (h2 m i hm (by omega)) hi
    refine ⟨Nat.le_trans h.next h1, hnames, ?_, h.log⟩
    intro m q i hq ht hlt
    simp only [upd] at hq
    split at hq
    · rename_i e
      obtain ⟨rfl, rfl⟩ := Prod.mk.inj (Option.some.inj hq)
      rcases target_step (hi.pos _ _ _ hrun) hsys i ht with ⟨h3, -⟩ | ⟨m', h3, h4⟩
      · exact h.run m _ i (e ▸ hrun) h3 hlt
      · cases h3
        exact hnames _ _ h4 hlt
    · exact h.run m q i hq ht hlt
  | finish hrun =>
    rename_i t' c a
    refine ⟨h.next, h.names, fun m q i hq => h.run m q i (run_drop hq), l ++ [(t', c, .ok a)], by rw [hl, List.append_assoc], ?_⟩
    intro m p hp hlt
    rcases List.mem_append.1 hp with hp | hp
    · exact hlog m p hp hlt
    · obtain ⟨rfl, h1⟩ := Prod.mk.inj (List.mem_singleton.1 hp)
      obtain ⟨rfl, h2⟩ := Prod.mk.inj h1
      cases h2
      exact h.run m _ _ hrun rfl hlt
  | throws hrun =>
    rename_i t' c e
    refine ⟨h.next, h.names, fun m q i hq => h.run m q i (run_drop hq), l ++ [(t', c, .err e)], by rw [hl, List.append_assoc], ?_⟩
    intro m p hp hlt
    rcases List.mem_append.1 hp with hp | hp
    · exact hlog m p hp hlt
    · obtain ⟨-, h1⟩ := Prod.mk.inj (List.mem_singleton.1 hp)
      obtain ⟨-, h2⟩ := Prod.mk.inj h1
      cases h2
  | use f h1 h2 h3 => exact ⟨h.next, h.names, h.run, h.log⟩

theorem since_reach {bad : Bool} {s0 s1 s : St} {t : Nat} (h0 : Init s0) (h : Reach bad s0 s1) (hidle : s1.run t = none) (h' : Reach bad s1 s) : Since s1 t s := by
  induction h' with
  | refl => exact ⟨Nat.le_refl _, fun _ _ h _ => h, (fun m q i hq => by rw [hidle] at hq; cases hq), [], (List.append_nil _).symm, fun _ _ h => by cases h⟩
  | step hr hs ih => exact since_step (inv_reach h0 (h.trans hr)) ih hs

/-- **C70, after a deletion**: at a moment when there is no pool of name n, all constructors that a thread calls from then on (it is idle at that moment) return a pool that is none of
the pools anybody has constructed until then, under whatever name.  This holds whatever fails. -/
theorem C70_new_pool {bad : Bool} {s0 s1 s : St} (h0 : Init s0) (h : Reach bad s0 s1) {t : Nat} (hidle : s1.run t = none) {n : Name} (hn : s1.os.names n = none) (h' : Reach bad s1 s) :
    ∃ l, s.log = s1.log ++ l ∧ ∀ p, (t, .ctor n, .ok (.pool p)) ∈ l → ∀ t' n' p', (t', .ctor n', .ok (.pool p')) ∈ s1.log → p.ino ≠ p'.ino := by
  obtain ⟨l, hl, hlog⟩ := (since_reach h0 h hidle h').log
  refine ⟨l, hl, ?_⟩
  intro p hp t' n' p' hp' e
  have h1 := ((inv_reach h0 h).log _ _ _ hp').1
  have h2 := hlog n p hp (e ▸ h1)
  rw [hn] at h2
  cases h2

/-- **C70, existing pools are not touched**: take a moment at which no constructor and no deletion is running.  From then on, in every execution, no step of any constructor or
deletion changes a byte or the size of a file that exists at that moment, be its name deleted or not: only the users of the pool do. -/
theorem C70_untouched {bad : Bool} {s1 s s' : St} (hidle : ∀ t, s1.run t = none) (h : Reach bad s1 s) (hs : Step bad s s') {i : Ino} (hi : i < s1.os.next) :
    s'.os.files i = s.os.files i ∨ ∃ t n p f, (t, .ctor n, .ok (.pool p)) ∈ s.log ∧ p.ino = i ∧ s' = { s with os := { s.os with files := upd s.os.files p.ino f } } := by
  have key : s1.os.next ≤ s.os.next ∧ ∀ t c q, s.run t = some (c, q) → q = code c ∨ ¬ Writes i q := by
    clear hs
    induction h with
    | refl => exact ⟨Nat.le_refl _, fun t c q hq => by rw [hidle t] at hq; cases hq⟩
    | step hr hs ih =>
      obtain ⟨h1, h2⟩ := ih
      cases hs with
      | start c h =>
        refine ⟨h1, ?_⟩
        intro t' c' q hq
        simp only [upd] at hq
        split at hq
        · obtain ⟨rfl, rfl⟩ := Prod.mk.inj (Option.some.inj hq)
          exact Or.inl rfl
        · exact h2 t' c' q hq
      | sys hrun hsys =>
        refine ⟨Nat.le_trans h1 (sys_names hsys).1, ?_⟩
        intro t' c' q hq
        simp only [upd] at hq
        split at hq
        · obtain ⟨rfl, rfl⟩ := Prod.mk.inj (Option.some.inj hq)
          right
          rcases h2 _ _ _ hrun with e | h3
          · exact writes_after hsys e (Nat.lt_of_lt_of_le hi h1)
          · exact fun hw => h3 (Or.inr ⟨_, hw⟩)
        · exact h2 t' c' q hq
      | finish hrun => exact ⟨h1, fun t c q hq => h2 t c q (run_drop hq)⟩
      | throws hrun => exact ⟨h1, fun t c q hq => h2 t c q (run_drop hq)⟩
      | use f => exact ⟨h1, h2⟩
  obtain ⟨h1, h2⟩ := key
  cases hs with
  | start => exact Or.inl rfl
  | finish => exact Or.inl rfl
  | throws => exact Or.inl rfl
  | use f hf =>
    rename_i t n p _ _
    by_cases e : p.ino = i
    · exact Or.inr ⟨t, n, p, f, hf, e, rfl⟩
    · exact Or.inl (upd_ne (fun h => e h.symm))
  | sys hrun hsys =>
    rename_i t c op k r os'
    refine Or.inl (sys_files hsys (Nat.lt_of_lt_of_le hi h1) ?_).1
    rcases h2 _ _ _ hrun with e | h3
    · intro hw
      cases c with
      | ctor n => rw [code_ctor] at e; obtain ⟨rfl, -⟩ := step_inj e; cases hw
      | del n => rw [code_del] at e; obtain ⟨rfl, -⟩ := step_inj e; cases hw
    · exact fun hw => h3 (Or.inl hw)

/-! ### What failures of the system and races of creation do -/

theorem Runs.weaken {α : Type} {p : SProg α} {s o s'} (h : Runs false p s o s') : Runs true p s o s' := by
  induction h with
  | ret => exact .ret
  | err => exact .err
  | step hs _ ih =>
    refine .step ?_ ih
    cases hs with
    | createNew h => exact .createNew h
    | createExists h => exact .createExists h
    | createFails h => cases h
    | «open» => exact .open
    | openFails h => cases h
    | fstat => exact .fstat
    | truncate => exact .truncate
    | truncateFails h => cases h
    | truncateBadFd => exact .truncateBadFd
    | mmap h => exact .mmap h
    | mmapZero => exact .mmapZero
    | mmapFails h => cases h
    | load => exact .load
    | store => exact .store
    | unlink h => exact .unlink h
    | unlinkNone h => exact .unlinkNone h
    | unlinkFails h => cases h

/-- the outcome of a constructor as the outcome of a call -/
def asPool : Out PoolObj → Out Ret
  | .ok p => .ok (.pool p)
  | .err e => .err e

theorem Runs.pool {bad : Bool} {p : SProg PoolObj} {s o s'} (h : Runs bad p s o s') : Runs bad (p.bind K) s (asPool o) s' := by
  induction h with
  | ret => exact .ret
  | err => exact .err
  | step hs _ ih => exact .step hs ih

theorem runs_reach {bad : Bool} {t : Nat} {c : Call} {q : SProg Ret} {os o os'} (h : Runs bad q os o os') : ∀ (s : St), s.os = os → s.run t = some (c, q) →
    Reach bad s ⟨os', upd s.run t none, s.started, s.log ++ [(t, c, o)]⟩ := by
  induction h with
  | ret =>
    rintro ⟨os, run, st, log⟩ rfl hr
    exact .step .refl (.finish hr)
  | err =>
    rintro ⟨os, run, st, log⟩ rfl hr
    exact .step .refl (.throws hr)
  | step hs _ ih =>
    rintro ⟨os, run, st, log⟩ rfl hr
    have h1 := ih ⟨_, upd run t (some (c, _)), st, log⟩ rfl upd_self
    rw [upd_upd] at h1
    exact (Reach.step .refl (.sys hr hs)).trans h1

/-- a thread that is idle makes a call, alone -/
theorem call_reach {bad : Bool} {s : St} {t : Nat} {c : Call} {o os'} (hr : s.run t = none) (h : Runs bad (code c) s.os o os') :
    Reach bad s ⟨os', upd s.run t none, c :: s.started, s.log ++ [(t, c, o)]⟩ := by
  have h1 := runs_reach (t := t) (c := c) h { s with run := upd s.run t (some (c, code c)), started := c :: s.started } rfl upd_self
  simp only [upd_upd] at h1
  exact (Reach.step .refl (.start c hr)).trans h1

theorem idle_upd {run : Nat → Option (Call × SProg Ret)} (h : ∀ t, run t = none) (t : Nat) : upd run t none = run := by
  funext t'
  simp only [upd]
  split
  · exact (h t').symm
  · rfl

/-- a system without pools -/
def os0 : OS := ⟨fun _ => none, fun _ => ⟨0, fun _ => 0⟩, 0⟩
def st0 : St := ⟨os0, fun _ => none, [], []⟩
theorem st0_init : Init st0 := ⟨fun _ => rfl, rfl, rfl, (fun _ _ h => by cases h), fun _ => rfl⟩

/-- the system after one process has constructed pool 7 -/
def os1 : OS := (opens os0 7).2
/-- … and after its name was lost -/
def os2 : OS := ⟨upd os1.names 7 none, os1.files, os1.next⟩

/-- a constructor whose open fails for a reason other than EEXIST -/
theorem ctor_unlinks {s : OS} {n : Name} {i : Ino} (hn : s.names n = some i) : Runs true (code (.ctor n)) s (.err .runtimeError) ⟨upd s.names n none, s.files, s.next⟩ := by
  rw [code_ctor]
  refine .step (.createFails rfl) ?_
  show Runs true ((ctorCreate n none).bind K) _ _ _
  rw [noFd_eq]
  exact .step .truncateBadFd (.step (.unlink hn) .err)

/-- **C70 fails when system calls fail.**  Process 0 constructs pool 7.  Process 1 calls the constructor for pool 7, and its open fails with, say, EMFILE: the constructor takes this for
the creation of the pool, ftruncate fails, and it unlinks the name of the existing pool (Pool.cc 43, 63-69).  Process 2 then constructs pool 7: it gets another pool than process 0.
Nobody has deleted anything. -/
theorem C70_failure_false : ∃ s, Reach true st0 s ∧ (∀ n, .del n ∉ s.started) ∧
    ∃ p p', (0, .ctor 7, .ok (.pool p)) ∈ s.log ∧ (2, .ctor 7, .ok (.pool p')) ∈ s.log ∧ p.ino ≠ p'.ino := by
  have r0 : Runs true (code (.ctor 7)) os0 (.ok (.pool ⟨0, 4096⟩)) os1 := ((C70_open 7 os0 _ _).2 rfl).weaken.pool
  have r1 : Runs true (code (.ctor 7)) os1 (.err .runtimeError) os2 := ctor_unlinks (i := 0) rfl
  have r2 : Runs true (code (.ctor 7)) os2 (.ok (.pool ⟨1, 4096⟩)) (opens os2 7).2 := ((C70_open 7 os2 _ _).2 rfl).weaken.pool
  have h := ((call_reach (s := st0) (t := 0) rfl r0).trans (call_reach (t := 1) rfl r1)).trans (call_reach (t := 2) rfl r2)
  refine ⟨_, h, ?_, ⟨0, 4096⟩, ⟨1, 4096⟩, ?_, ?_, by decide⟩
  · intro n
    simp [st0]
  · simp [st0]
  · simp [st0]

/-- **Creation is not race-free** (README.md 381 says so): process 0 has just created the name; process 1's constructor throws, although no call of the system has failed and nobody has
deleted anything.  The same is seen for ever if process 0 dies at this point. -/
theorem C70_race_false : ∃ s, Reach false st0 s ∧ (∀ n, .del n ∉ s.started) ∧ (1, .ctor 7, .err .runtimeError) ∈ s.log := by
  have hr : upd st0.run 0 (some (.ctor 7, code (.ctor 7))) 0 = some (.ctor 7, .step (.create 7) fun r => (afterCreate 7 r).bind K) := by
    rw [upd_self, code_ctor]
  have h1 : Reach false st0 _ := .step (.step .refl (.start (t := 0) (.ctor 7) rfl)) (.sys (t := 0) hr (.createNew (n := 7) rfl))
  have r : Runs false (code (.ctor 7)) ⟨upd os0.names 7 (some 0), upd os0.files 0 ⟨0, fun _ => 0⟩, 1⟩ (.err .runtimeError) ⟨upd os0.names 7 (some 0), upd os0.files 0 ⟨0, fun _ => 0⟩, 1⟩ :=
    ((C70_open 7 _ _ _).2 rfl).pool
  refine ⟨_, h1.trans (call_reach (t := 1) rfl r), ?_, ?_⟩
  · intro n
    simp [st0]
  · simp [st0]

/-! ### Cases -/

/-- two processes construct pool 7, one after the other: the same pool -/
theorem two_opens : ∃ s, Reach false st0 s ∧ (0, .ctor 7, .ok (.pool ⟨0, 4096⟩)) ∈ s.log ∧ (1, .ctor 7, .ok (.pool ⟨0, 4096⟩)) ∈ s.log ∧ .del 7 ∉ s.started ∧
    s.run 2 = none := by
  have r0 : Runs false (code (.ctor 7)) os0 (.ok (.pool ⟨0, 4096⟩)) os1 := ((C70_open 7 os0 _ _).2 rfl).pool
  have r1 : Runs false (code (.ctor 7)) os1 (.ok (.pool ⟨0, 4096⟩)) os1 := ((C70_open 7 os1 _ _).2 rfl).pool
  refine ⟨_, (call_reach (s := st0) (t := 0) rfl r0).trans (call_reach (t := 1) rfl r1), ?_, ?_, ?_, rfl⟩
  · simp [st0]
  · simp [st0]
  · simp [st0]

/-- the hypotheses of C70_same and C70_mapped -/
example : ∃ s p p', Reach false st0 s ∧ Init st0 ∧ .del 7 ∉ s.started ∧ (0, .ctor 7, .ok (.pool p)) ∈ s.log ∧ (1, .ctor 7, .ok (.pool p')) ∈ s.log := by
  obtain ⟨s, h1, h2, h3, h4, -⟩ := two_opens
  exact ⟨s, _, _, h1, st0_init, h4, h2, h3⟩

/-- the hypotheses of C70_new_pool, and its conclusion at work: a pool is constructed, deleted, and constructed again -/
example : ∃ s1 s, Init st0 ∧ Reach false st0 s1 ∧ s1.run 0 = none ∧ s1.os.names 7 = none ∧ Reach false s1 s ∧ (0, .ctor 7, .ok (.pool ⟨0, 4096⟩)) ∈ s1.log ∧
    s.log = s1.log ++ [(0, .ctor 7, .ok (.pool ⟨1, 4096⟩))] := by
  have r0 : Runs false (code (.ctor 7)) os0 (.ok (.pool ⟨0, 4096⟩)) os1 := ((C70_open 7 os0 _ _).2 rfl).pool
  have r1 : Runs false (code (.del 7)) os1 (.ok (.bool true)) os2 := .step (.unlink (i := 0) rfl) .ret
  have r2 : Runs false (code (.ctor 7)) os2 (.ok (.pool ⟨1, 4096⟩)) (opens os2 7).2 := ((C70_open 7 os2 _ _).2 rfl).pool
  refine ⟨_, _, st0_init, (call_reach (s := st0) (t := 0) rfl r0).trans (call_reach (t := 1) rfl r1), rfl, rfl, call_reach (t := 0) rfl r2, ?_, rfl⟩
  simp [st0]

end Verif.Fs
