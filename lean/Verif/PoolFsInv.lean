import Verif.PoolFs
/-
Where a constructor or a deletion can be, and the invariant of the name space.
-/
namespace Verif.Fs
open Verif

def K (p : PoolObj) : SProg Ret := .ret (.pool p)

/-- the rest of a call -/
inductive Pos (s : OS) (c : Call) (q : SProg Ret) : Prop
  | start : q = code c → Pos s c q
  | exist (n) : c = .ctor n → q = (ctorExists n).bind K → Pos s c q
  | opened (n i) : c = .ctor n → q = (ctorOpened i).bind K → i < s.next → Pos s c q
  | map (n i len) : c = .ctor n → q = (ctorMap i len).bind K → i < s.next → 4096 ≤ len → len ≤ (s.files i).fsize → Pos s c q
  | pool (n p) : c = .ctor n → q = .ret (.pool p) → p.ino < s.next → 4096 ≤ p.len → p.len ≤ (s.files p.ino).fsize → Pos s c q
  | create (n i) : c = .ctor n → q = (ctorCreate n (some i)).bind K → i < s.next → (s.files i).fsize = 0 → Pos s c q
  | createMap (n i) : c = .ctor n → q = (ctorCreateMap n i).bind K → i < s.next → 4096 ≤ (s.files i).fsize → Pos s c q
  | store (n i) : c = .ctor n → q = (ctorStore i).bind K → i < s.next → 4096 ≤ (s.files i).fsize → Pos s c q
  | noFd (n) : c = .ctor n → q = (ctorCreate n none).bind K → Pos s c q
  | undo (n e) : c = .ctor n → q = (ctorUndo n e).bind K → Pos s c q
  | err (e) : q = .err e → Pos s c q
  | bool (n b) : c = .del n → q = .ret (.bool b) → Pos s c q

/-- the file that the next step gives a size to -/
def head : SProg Ret → Option Ino
  | .step (.ftruncate fd _) _ => fd
  | _ => none

/-- thread t has created file i and not yet given it a size -/
def Fresh (s : St) (t : Nat) (i : Ino) : Prop := ∃ c q, s.run t = some (c, q) ∧ head q = some i

structure Inv (s : St) : Prop where
  pos : ∀ t c q, s.run t = some (c, q) → Pos s.os c q
  one : ∀ t t' i, Fresh s t i → Fresh s t' i → t = t'
  log : ∀ t n p, (t, .ctor n, .ok (.pool p)) ∈ s.log → p.ino < s.os.next ∧ 4096 ≤ p.len ∧ p.len ≤ (s.os.files p.ino).fsize
  range : ∀ n i, s.os.names n = some i → i < s.os.next
  page : ∀ i, (s.os.files i).fsize % 4096 = 0

/-- what a system call of a thread can do to the others -/
structure Mono (s s' : OS) (own : Option Ino) : Prop where
  next : s.next ≤ s'.next
  size : ∀ i, i < s.next → (s.files i).fsize ≤ (s'.files i).fsize
  zero : ∀ i, i < s.next → some i ≠ own → (s'.files i).fsize = (s.files i).fsize

theorem Pos.mono {s s' : OS} {c q own} (h : Mono s s' own) (hp : Pos s c q) (ho : ∀ i, head q = some i → some i ≠ own) : Pos s' c q := by
  have hn := h.next
  cases hp with
  | start e => exact .start e
  | exist n h1 h2 => exact .exist n h1 h2
  | opened n i h1 h2 h3 => exact .opened n i h1 h2 (by omega)
  | map n i len h1 h2 h3 h4 h5 => exact .map n i len h1 h2 (by omega) h4 (by have := h.size i h3; omega)
  | pool n p h1 h2 h3 h4 h5 => exact .pool n p h1 h2 (by omega) h4 (by have := h.size p.ino h3; omega)
  | create n i h1 h2 h3 h4 => exact .create n i h1 h2 (by omega) (by rw [h.zero i h3 (ho i (by rw [h2]; rfl))]; exact h4)
  | createMap n i h1 h2 h3 h4 => exact .createMap n i h1 h2 (by omega) (by have := h.size i h3; omega)
  | store n i h1 h2 h3 h4 => exact .store n i h1 h2 (by omega) (by have := h.size i h3; omega)
  | noFd n h1 h2 => exact .noFd n h1 h2
  | undo n e h1 h2 => exact .undo n e h1 h2
  | err e h1 => exact .err e h1
  | bool n b h1 h2 => exact .bool n b h1 h2

theorem upd_self {β : Type} {f : Nat → β} {i : Nat} {b : β} : upd f i b i = b := by simp [upd]
theorem upd_ne {β : Type} {f : Nat → β} {i j : Nat} {b : β} (h : j ≠ i) : upd f i b j = f j := by simp [upd, h]

def afterCreate (n : Name) : CreateRe → SProg PoolObj
  | .eexist => ctorExists n
  | .fd i => ctorCreate n (some i)
  | .other => ctorCreate n none
def afterUnlink : UnlinkRe → SProg Bool
  | .ok => pure true
  | .enoent => pure false
  | .other => .err .runtimeError
def afterOpen : Option Ino → SProg PoolObj
  | none => .err .runtimeError
  | some i => ctorOpened i
def afterMap (i : Ino) (len : Nat) (ok : Bool) : SProg PoolObj := if ok then pure ⟨i, len⟩ else .err .noMem

theorem code_ctor (n : Name) : code (.ctor n) = .step (.create n) fun r => (afterCreate n r).bind K := by
  refine congrArg (Prog.step (SysOp.create n)) (funext fun r => ?_)
  cases r <;> rfl
theorem code_del (n : Name) : code (.del n) = .step (.unlink n) fun r => (afterUnlink r).bind fun b => .ret (.bool b) := by
  refine congrArg (Prog.step (SysOp.unlink n)) (funext fun r => ?_)
  cases r <;> rfl
theorem exists_eq (n : Name) : (ctorExists n).bind K = .step (.open n) fun fd => (afterOpen fd).bind K := by
  refine congrArg (Prog.step (SysOp.open n)) (funext fun r => ?_)
  cases r <;> rfl
theorem opened_eq (i : Ino) : (ctorOpened i).bind K = .step (.fstat i) fun len => (if len = 0 then .err .runtimeError else ctorMap i len).bind K := rfl
theorem map_eq (i : Ino) (len : Nat) : (ctorMap i len).bind K = .step (.mmap i len) fun ok => (afterMap i len ok).bind K := rfl
theorem create_eq (n : Name) (i : Ino) : (ctorCreate n (some i)).bind K = .step (.ftruncate (some i) 4096) fun ok => (if ok = true then ctorCreateMap n i else ctorUndo n .runtimeError).bind K := rfl
theorem noFd_eq (n : Name) : (ctorCreate n none).bind K = .step (.ftruncate none 4096) fun ok => (if ok = true then .ub else ctorUndo n .runtimeError).bind K := rfl
theorem createMap_eq (n : Name) (i : Ino) : (ctorCreateMap n i).bind K = .step (.mmap i 4096) fun ok => (if ok = true then ctorStore i else ctorUndo n .noMem).bind K := rfl
theorem store_eq (i : Ino) : (ctorStore i).bind K = .step (.store i 4096) fun _ => .ret (.pool ⟨i, 4096⟩) := rfl
theorem undo_eq (n : Name) (e : Err) : (ctorUndo n e).bind K = .step (.unlink n) fun _ => .err e := rfl

theorem step_inj {op op' : SysOp} {k : SysRe op → SProg Ret} {k' : SysRe op' → SProg Ret} (h : (Prog.step op k : SProg Ret) = .step op' k') : ∃ e : op = op', e ▸ k = k' := by
  injection h with h1 h2
  subst h1
  exact ⟨rfl, eq_of_heq h2⟩

theorem Mono.refl (s : OS) : Mono s s none := ⟨Nat.le_refl _, fun _ _ => Nat.le_refl _, fun _ _ _ => rfl⟩

theorem Pos.head_lt {s : OS} {c q i} (hp : Pos s c q) (hh : head q = some i) : i < s.next ∧ (s.files i).fsize = 0 := by
  cases hp with
  | start e => subst e; cases c <;> cases hh
  | exist n h1 h2 => subst h2; cases hh
  | opened n i h1 h2 h3 => subst h2; cases hh
  | map n i len h1 h2 h3 h4 h5 => subst h2; cases hh
  | pool n p h1 h2 h3 h4 h5 => subst h2; cases hh
  | create n j h1 h2 h3 h4 => subst h2; cases (show some j = some i from hh); exact ⟨h3, h4⟩
  | createMap n i h1 h2 h3 h4 => subst h2; cases hh
  | store n i h1 h2 h3 h4 => subst h2; cases hh
  | noFd n h1 h2 => subst h2; cases hh
  | undo n e h1 h2 => subst h2; cases hh
  | err e h1 => subst h1; cases hh
  | bool n b h1 h2 => subst h2; cases hh

theorem nohead {q : SProg Ret} {b : Nat} (h : head q = none) : ∀ i, head q = some i → b ≤ i := by
  intro i hi; rw [h] at hi; cases hi
theorem noown {q : SProg Ret} : ∀ i, none = some i → head q = some i := by
  intro i hi; cases hi

/-- **One system call of a call**: where the call is afterwards, and what the others can notice. -/
theorem sys_step {bad : Bool} {s s' : OS} {c : Call} {op : SysOp} {k : SysRe op → SProg Ret} {r : SysRe op}
    (hp : Pos s c (.step op k)) (hs : Sys bad op s r s') (hr : ∀ n i, s.names n = some i → i < s.next) (hg : ∀ i, (s.files i).fsize % 4096 = 0) :
    Pos s' c (k r) ∧ (∀ n i, s'.names n = some i → i < s'.next) ∧ (∀ i, (s'.files i).fsize % 4096 = 0) ∧
      (∀ i, head (k r) = some i → s.next ≤ i) ∧
      ∃ own, Mono s s' own ∧ (∀ i, own = some i → head (.step op k) = some i) := by
  cases hp with
  | start e =>
    cases c with
    | ctor n =>
      rw [code_ctor] at e
      obtain ⟨rfl, rfl⟩ := step_inj e
      cases hs with
      | createNew h =>
        refine ⟨.create n s.next rfl rfl (Nat.lt_succ_self _) (by simp [upd_self]), ?_, ?_, ?_, none, ⟨Nat.le_succ _, ?_, ?_⟩, noown⟩
        · intro m i hm
          simp only [upd] at hm
          split at hm
          · cases hm; exact Nat.lt_succ_self _
          · exact Nat.lt_succ_of_lt (hr m i hm)
        · intro i
          simp only [upd]
          split
          · rfl
          · exact hg i
        · intro i h
          cases (show some s.next = some i from h)
          exact Nat.le_refl _
        · intro i hi; simp [upd, Nat.ne_of_lt hi]
        · intro i hi _; simp [upd, Nat.ne_of_lt hi]
      | createExists h => 
        exact ⟨.exist n rfl rfl, hr, hg, nohead rfl, none, Mono.refl s, noown⟩
      | createFails h =>
        exact ⟨.noFd n rfl rfl, hr, hg, nohead rfl, none, Mono.refl s, noown⟩
    | del n =>
      rw [code_del] at e
      obtain ⟨rfl, rfl⟩ := step_inj e
      cases hs with
      | unlink h =>
        refine ⟨.bool n true rfl rfl, ?_, hg, nohead rfl, none, ⟨Nat.le_refl _, fun _ _ => Nat.le_refl _, fun _ _ _ => rfl⟩, noown⟩
        intro m i hm
        simp only [upd] at hm
        split at hm
        · cases hm
        · exact hr m i hm
      | unlinkNone h => exact ⟨.bool n false rfl rfl, hr, hg, nohead rfl, none, Mono.refl s, noown⟩
      | unlinkFails h => exact ⟨.err _ rfl, hr, hg, nohead rfl, none, Mono.refl s, noown⟩
  | exist n h1 h2 =>
    rw [exists_eq] at h2
    obtain ⟨rfl, rfl⟩ := step_inj h2
    cases hs with
    | «open» =>
      cases hn : s.names n with
      | none => exact ⟨.err _ rfl, hr, hg, nohead rfl, none, Mono.refl s, noown⟩
      | some j => exact ⟨.opened n j h1 rfl (hr n j hn), hr, hg, nohead rfl, none, Mono.refl s, noown⟩
    | openFails => exact ⟨.err _ rfl, hr, hg, nohead rfl, none, Mono.refl s, noown⟩
  | opened n j h1 h2 h3 =>
    rw [opened_eq] at h2
    obtain ⟨rfl, rfl⟩ := step_inj h2
    cases hs with
    | fstat =>
      have h4 := hg j
      by_cases h0 : (s.files j).fsize = 0
      · simp only [if_pos h0]
        exact ⟨.err _ rfl, hr, hg, nohead rfl, none, Mono.refl s, noown⟩
      · simp only [if_neg h0]
        exact ⟨.map n j _ h1 rfl h3 (by omega) (Nat.le_refl _), hr, hg, nohead rfl, none, Mono.refl s, noown⟩
  | map n j len h1 h2 h3 h4 h5 =>
    rw [map_eq] at h2
    obtain ⟨rfl, rfl⟩ := step_inj h2
    cases hs with
    | mmap h => exact ⟨.pool n ⟨j, len⟩ h1 rfl h3 h4 h5, hr, hg, nohead rfl, none, Mono.refl s, noown⟩
    | mmapZero => exact absurd h4 (by omega)
    | mmapFails h => exact ⟨.err _ rfl, hr, hg, nohead rfl, none, Mono.refl s, noown⟩
  | pool n p h1 h2 => cases h2
  | create n j h1 h2 h3 h4 =>
    have h2' := h2
    rw [create_eq] at h2
    obtain ⟨rfl, rfl⟩ := step_inj h2
    cases hs with
    | truncate =>
      refine ⟨.createMap n j h1 rfl h3 (by simp [upd_self, File.resize]), hr, ?_, nohead rfl, some j, ⟨Nat.le_refl _, ?_, ?_⟩, fun i h => by cases h; rfl⟩
      · intro i
        simp only [upd]
        split
        · simp [File.resize]
        · exact hg i
      · intro i hi
        simp only [upd]
        split
        · subst i; rw [h4]; exact Nat.zero_le _
        · exact Nat.le_refl _
      · intro i hi hne
        show (upd s.files j _ i).fsize = _
        rw [upd_ne (fun h => hne (by rw [h]))]
    | truncateFails h => exact ⟨.undo n _ h1 rfl, hr, hg, nohead rfl, none, Mono.refl s, noown⟩
  | createMap n j h1 h2 h3 h4 =>
    rw [createMap_eq] at h2
    obtain ⟨rfl, rfl⟩ := step_inj h2
    cases hs with
    | mmap h => exact ⟨.store n j h1 rfl h3 h4, hr, hg, nohead rfl, none, Mono.refl s, noown⟩
    | mmapFails h => exact ⟨.undo n _ h1 rfl, hr, hg, nohead rfl, none, Mono.refl s, noown⟩
  | store n j h1 h2 h3 h4 =>
    rw [store_eq] at h2
    obtain ⟨rfl, rfl⟩ := step_inj h2
    cases hs with
    | store =>
      have e : ∀ i, (upd s.files j ⟨(s.files j).fsize, leWr (s.files j).mem 0 8 4096⟩ i).fsize = (s.files i).fsize := by
        intro i
        simp only [upd]
        split
        · subst i; rfl
        · rfl
      exact ⟨.pool n ⟨j, 4096⟩ h1 rfl h3 (Nat.le_refl _) (by rw [e]; exact h4), hr, fun i => by simp only [e]; exact hg i, nohead rfl, none,
        ⟨Nat.le_refl _, fun i _ => by simp only [e]; exact Nat.le_refl _, fun i _ _ => e i⟩, noown⟩
  | noFd n h1 h2 =>
    rw [noFd_eq] at h2
    obtain ⟨rfl, rfl⟩ := step_inj h2
    cases hs with
    | truncateBadFd => exact ⟨.undo n _ h1 rfl, hr, hg, nohead rfl, none, Mono.refl s, noown⟩
  | undo n e h1 h2 =>
    rw [undo_eq] at h2
    obtain ⟨rfl, rfl⟩ := step_inj h2
    cases hs with
    | unlink h =>
      refine ⟨.err _ rfl, ?_, hg, nohead rfl, none, ⟨Nat.le_refl _, fun _ _ => Nat.le_refl _, fun _ _ _ => rfl⟩, noown⟩
      intro m i hm
      simp only [upd] at hm
      split at hm
      · cases hm
      · exact hr m i hm
    | unlinkNone h => exact ⟨.err _ rfl, hr, hg, nohead rfl, none, Mono.refl s, noown⟩
    | unlinkFails h => exact ⟨.err _ rfl, hr, hg, nohead rfl, none, Mono.refl s, noown⟩
  | err e h1 => cases h1
  | bool n b h1 h2 => cases h2

theorem inv_init {s : St} (h : Init s) : Inv s where
  pos := by intro t c q hq; rw [h.run t] at hq; cases hq
  one := by rintro t t' i ⟨n, q, hn, _⟩; rw [h.run t] at hn; cases hn
  log := by intro t n p hp; rw [h.log] at hp; cases hp
  range := h.range
  page := h.page

theorem pos_drop {os : OS} {run : Nat → Option (Call × SProg Ret)} {t : Nat} (h : ∀ t c q, run t = some (c, q) → Pos os c q) :
    ∀ t' c q, upd run t none t' = some (c, q) → Pos os c q := by
  intro t' c q hq
  simp only [upd] at hq
  split at hq
  · cases hq
  · exact h t' c q hq

theorem one_drop {s : St} {t : Nat} {log} (h : ∀ t t' i, Fresh s t i → Fresh s t' i → t = t') :
    ∀ t1 t2 i, Fresh { s with run := upd s.run t none, log := log } t1 i → Fresh { s with run := upd s.run t none, log := log } t2 i → t1 = t2 := by
  have key : ∀ t' i, Fresh { s with run := upd s.run t none, log := log } t' i → Fresh s t' i := by
    rintro t' i ⟨c', q, hn, hh⟩
    simp only [upd] at hn
    split at hn
    · cases hn
    · exact ⟨c', q, hn, hh⟩
  intro t1 t2 i h1 h2
  exact h t1 t2 i (key _ _ h1) (key _ _ h2)

theorem Pos.done {s : OS} {c p} (hp : Pos s c (.ret (.pool p))) : p.ino < s.next ∧ 4096 ≤ p.len ∧ p.len ≤ (s.files p.ino).fsize := by
  cases hp with
  | start e => cases c <;> cases e
  | exist n h1 h2 => cases h2
  | opened n i h1 h2 h3 => cases h2
  | map n i len h1 h2 h3 h4 h5 => cases h2
  | pool n p h1 h2 h3 h4 h5 => cases h2; exact ⟨h3, h4, h5⟩
  | create n j h1 h2 h3 h4 => cases h2
  | createMap n i h1 h2 h3 h4 => cases h2
  | store n i h1 h2 h3 h4 => cases h2
  | noFd n h1 h2 => cases h2
  | undo n e h1 h2 => cases h2
  | err e h1 => cases h1
  | bool n b h1 h2 => cases h2

theorem inv_step {bad : Bool} {s s' : St} (hi : Inv s) (h : Step bad s s') : Inv s' := by
  cases h with
  | start c h =>
    rename_i t
    refine ⟨?_, ?_, hi.log, hi.range, hi.page⟩
    · intro t' c' q hq
      simp only [upd] at hq
      split at hq
      · cases hq; exact .start rfl
      · exact hi.pos t' c' q hq
    · have key : ∀ t' i, Fresh { s with run := upd s.run t (some (c, code c)), started := c :: s.started } t' i → Fresh s t' i := by
        rintro t' i ⟨c', q, hn, hh⟩
        simp only [upd] at hn
        split at hn
        · exfalso
          obtain ⟨rfl, rfl⟩ := Prod.mk.inj (Option.some.inj hn)
          cases c with
          | ctor m => cases hh
          | del m => cases hh
        · exact ⟨c', q, hn, hh⟩
      intro t1 t2 i h1 h2
      exact hi.one t1 t2 i (key _ _ h1) (key _ _ h2)
  | sys hrun hs =>
    rename_i t c op k r os'
    obtain ⟨h1, h2, h3, h4, own, hm, ho⟩ := sys_step (hi.pos _ _ _ hrun) hs hi.range hi.page
    have other : ∀ t', t' ≠ t → ∀ c' q i, s.run t' = some (c', q) → head q = some i → some i ≠ own := by
      intro t' hne c' q i hr hh e
      exact hne (hi.one t' t i ⟨c', q, hr, hh⟩ ⟨_, _, hrun, ho i e.symm⟩)
    refine ⟨?_, ?_, ?_, h2, h3⟩
    · intro t' c' q hq
      simp only [upd] at hq
      split at hq
      · cases hq; exact h1
      · rename_i hne
        refine (hi.pos t' c' q hq).mono hm ?_
        intro i hh
        exact other t' hne c' q i hq hh
    · have key : ∀ t' i, Fresh { s with os := os', run := upd s.run t (some (c, k r)) } t' i → (t' = t ∧ s.os.next ≤ i) ∨ (Fresh s t' i ∧ i < s.os.next) := by
        rintro t' i ⟨c', q, hn, hh⟩
        simp only [upd] at hn
        split at hn
        · rename_i e
          obtain ⟨rfl, rfl⟩ := Prod.mk.inj (Option.some.inj hn)
          exact Or.inl ⟨e, h4 i hh⟩
        · exact Or.inr ⟨⟨c', q, hn, hh⟩, (hi.pos _ _ _ hn).head_lt hh |>.1⟩
      intro t1 t2 i h1 h2
      rcases key _ _ h1 with ⟨rfl, h1⟩ | ⟨h1, h1'⟩
      · rcases key _ _ h2 with ⟨rfl, -⟩ | ⟨-, h2⟩
        · rfl
        · omega
      · rcases key _ _ h2 with ⟨rfl, h2⟩ | ⟨h2, -⟩
        · omega
        · exact hi.one _ _ _ h1 h2
    · intro t' n p hp
      obtain ⟨a, b, d⟩ := hi.log t' n p hp
      have := hm.next
      have := hm.size _ a
      exact ⟨by show p.ino < os'.next; omega, b, by show p.len ≤ (os'.files p.ino).fsize; omega⟩
  | finish hrun =>
    rename_i t c a
    refine ⟨?_, ?_, ?_, hi.range, hi.page⟩
    · exact pos_drop hi.pos
    · exact one_drop hi.one
    · intro t' n p hp
      rcases List.mem_append.1 hp with hp | hp
      · exact hi.log t' n p hp
      · obtain ⟨-, h1⟩ := Prod.mk.inj (List.mem_singleton.1 hp)
        obtain ⟨h1, h2⟩ := Prod.mk.inj h1
        cases h2
        exact (hi.pos _ _ _ hrun).done
  | throws hrun =>
    rename_i t c e
    refine ⟨?_, ?_, ?_, hi.range, hi.page⟩
    · exact pos_drop hi.pos
    · exact one_drop hi.one
    · intro t' n p hp
      rcases List.mem_append.1 hp with hp | hp
      · exact hi.log t' n p hp
      · obtain ⟨-, h1⟩ := Prod.mk.inj (List.mem_singleton.1 hp)
        obtain ⟨h1, h2⟩ := Prod.mk.inj h1
        cases h2
  | use f h1 h2 h3 =>
    rename_i t n p
    obtain ⟨a1, a2, a3⟩ := hi.log _ _ _ h1
    have hm : Mono s.os { s.os with files := upd s.os.files p.ino f } (some p.ino) := by
      refine ⟨Nat.le_refl _, ?_, ?_⟩
      · intro i _
        simp only [upd]
        split
        · subst i; exact h2
        · exact Nat.le_refl _
      · intro i _ hne
        show (upd s.os.files p.ino _ i).fsize = _
        rw [upd_ne (fun h => hne (by rw [h]))]
    refine ⟨?_, hi.one, ?_, hi.range, ?_⟩
    · intro t' c q hq
      refine (hi.pos t' c q hq).mono hm ?_
      intro i hh e
      cases e
      have := ((hi.pos t' c q hq).head_lt hh).2
      omega
    · intro t' m p' hp
      obtain ⟨b1, b2, b3⟩ := hi.log _ _ _ hp
      have := hm.size _ b1
      exact ⟨b1, b2, Nat.le_trans b3 this⟩
    · intro i
      simp only [upd]
      split
      · exact h3
      · exact hi.page i

theorem inv_reach {bad : Bool} {s0 s : St} (h0 : Init s0) (h : Reach bad s0 s) : Inv s := by
  induction h with
  | refl => exact inv_init h0
  | step _ hs ih => exact inv_step ih hs

end Verif.Fs
