import Verif.PoolFsInv
/-
The invariants about names, and the frame of existing files.
-/
namespace Verif.Fs
open Verif

/-- the file that the rest of a constructor is about -/
def target : SProg Ret → Option Ino
  | .step (.ftruncate fd _) _ => fd
  | .step (.mmap i _) _ => some i
  | .step (.fstat i) _ => some i
  | .step (.store i _) _ => some i
  | .ret (.pool p) => some p.ino
  | _ => none

/-- a call that has not seen a failure of the system: only deletions unlink -/
def Calm (c : Call) : SProg Ret → Prop
  | .step (.unlink m) _ => c = .del m
  | .step (.ftruncate none _) _ => False
  | _ => True

theorem target_step {bad : Bool} {s s' : OS} {c : Call} {op : SysOp} {k : SysRe op → SProg Ret} {r : SysRe op}
    (hp : Pos s c (.step op k)) (hs : Sys bad op s r s') :
    (∀ i, target (k r) = some i → (target (.step op k) = some i ∧ s'.names = s.names) ∨ (∃ n, c = .ctor n ∧ s'.names n = some i)) := by
  cases hp with
  | start e =>
    cases c with
    | ctor n =>
      rw [code_ctor] at e
      obtain ⟨rfl, rfl⟩ := step_inj e
      cases hs with
      | createNew h =>
        intro i hi
        cases (show some s.next = some i from hi)
        exact Or.inr ⟨n, rfl, upd_self⟩
      | createExists h => exact fun i hi => by cases hi
      | createFails h => exact fun i hi => by cases hi
    | del n =>
      rw [code_del] at e
      obtain ⟨rfl, rfl⟩ := step_inj e
      cases hs with
      | unlink h =>
        exact fun i hi => by cases hi
      | unlinkNone h => exact fun i hi => by cases hi
      | unlinkFails h => exact fun i hi => by cases hi
  | exist n h1 h2 =>
    rw [exists_eq] at h2
    obtain ⟨rfl, rfl⟩ := step_inj h2
    cases hs with
    | «open» =>
      generalize hn : s.names n = o
      cases o with
      | none => exact fun i hi => by cases hi
      | some j => exact fun i hi => Or.inr ⟨n, h1, by rw [hn]; exact hi⟩
    | openFails h => exact fun i hi => by cases hi
  | opened n j h1 h2 h3 =>
    rw [opened_eq] at h2
    obtain ⟨rfl, rfl⟩ := step_inj h2
    cases hs with
    | fstat =>
      by_cases h0 : (s.files j).fsize = 0
      · simp only [if_pos h0]
        exact fun i hi => by cases hi
      · simp only [if_neg h0]
        exact fun i hi => Or.inl ⟨hi, trivial⟩
  | map n j len h1 h2 h3 h4 h5 =>
    rw [map_eq] at h2
    obtain ⟨rfl, rfl⟩ := step_inj h2
    cases hs with
    | mmap h => exact fun i hi => Or.inl ⟨hi, rfl⟩
    | mmapZero => exact absurd h4 (by omega)
    | mmapFails h => exact fun i hi => by cases hi
  | pool n p h1 h2 => cases h2
  | create n j h1 h2 h3 h4 =>
    rw [create_eq] at h2
    obtain ⟨rfl, rfl⟩ := step_inj h2
    cases hs with
    | truncate => exact fun i hi => Or.inl ⟨hi, rfl⟩
    | truncateFails h => exact fun i hi => by cases hi
  | createMap n j h1 h2 h3 h4 =>
    rw [createMap_eq] at h2
    obtain ⟨rfl, rfl⟩ := step_inj h2
    cases hs with
    | mmap h => exact fun i hi => Or.inl ⟨hi, rfl⟩
    | mmapFails h => exact fun i hi => by cases hi
  | store n j h1 h2 h3 h4 =>
    rw [store_eq] at h2
    obtain ⟨rfl, rfl⟩ := step_inj h2
    cases hs with
    | store => exact fun i hi => Or.inl ⟨hi, rfl⟩
  | noFd n h1 h2 =>
    rw [noFd_eq] at h2
    obtain ⟨rfl, rfl⟩ := step_inj h2
    cases hs with
    | truncateBadFd => exact fun i hi => by cases hi
  | undo n e h1 h2 =>
    rw [undo_eq] at h2
    obtain ⟨rfl, rfl⟩ := step_inj h2
    exact fun i hi => by cases hi
  | err e h1 => cases h1
  | bool n b h1 h2 => cases h2

theorem calm_step {s s' : OS} {c : Call} {op : SysOp} {k : SysRe op → SProg Ret} {r : SysRe op}
    (hp : Pos s c (.step op k)) (hs : Sys false op s r s') (hc : Calm c (.step op k)) :
    Calm c (k r) ∧ (∀ i, target (k r) = some i → (target (.step op k) = some i ∧ s'.names = s.names) ∨ (∃ n, c = .ctor n ∧ s'.names n = some i)) ∧
      (∀ m, s.names m ≠ none → c ≠ .del m → s'.names m = s.names m) := by
  cases hp with
  | start e =>
    cases c with
    | ctor n =>
      rw [code_ctor] at e
      obtain ⟨rfl, rfl⟩ := step_inj e
      cases hs with
      | createNew h =>
        refine ⟨trivial, ?_, ?_⟩
        · intro i hi
          cases (show some s.next = some i from hi)
          exact Or.inr ⟨n, rfl, upd_self⟩
        · intro m hm _
          exact upd_ne (fun e => hm (e ▸ h))
      | createExists h => exact ⟨trivial, (fun i hi => by cases hi), fun _ _ _ => rfl⟩
      | createFails h => cases h
    | del n =>
      rw [code_del] at e
      obtain ⟨rfl, rfl⟩ := step_inj e
      cases hs with
      | unlink h =>
        refine ⟨trivial, (fun i hi => by cases hi), ?_⟩
        intro m _ hne
        exact upd_ne (fun e => hne (e ▸ rfl))
      | unlinkNone h => exact ⟨trivial, (fun i hi => by cases hi), fun _ _ _ => rfl⟩
      | unlinkFails h => cases h
  | exist n h1 h2 =>
    rw [exists_eq] at h2
    obtain ⟨rfl, rfl⟩ := step_inj h2
    cases hs with
    | «open» =>
      generalize hn : s.names n = o
      cases o with
      | none => exact ⟨trivial, (fun i hi => by cases hi), fun _ _ _ => rfl⟩
      | some j => exact ⟨trivial, (fun i hi => Or.inr ⟨n, h1, by rw [hn]; exact hi⟩), fun _ _ _ => rfl⟩
    | openFails h => cases h
  | opened n j h1 h2 h3 =>
    rw [opened_eq] at h2
    obtain ⟨rfl, rfl⟩ := step_inj h2
    cases hs with
    | fstat =>
      by_cases h0 : (s.files j).fsize = 0
      · simp only [if_pos h0]
        exact ⟨trivial, (fun i hi => by cases hi), fun _ _ _ => trivial⟩
      · simp only [if_neg h0]
        exact ⟨trivial, (fun i hi => Or.inl ⟨hi, trivial⟩), fun _ _ _ => trivial⟩
  | map n j len h1 h2 h3 h4 h5 =>
    rw [map_eq] at h2
    obtain ⟨rfl, rfl⟩ := step_inj h2
    cases hs with
    | mmap h => exact ⟨trivial, (fun i hi => Or.inl ⟨hi, rfl⟩), fun _ _ _ => rfl⟩
    | mmapZero => exact absurd h4 (by omega)
    | mmapFails h => cases h
  | pool n p h1 h2 => cases h2
  | create n j h1 h2 h3 h4 =>
    rw [create_eq] at h2
    obtain ⟨rfl, rfl⟩ := step_inj h2
    cases hs with
    | truncate => exact ⟨trivial, (fun i hi => Or.inl ⟨hi, rfl⟩), fun _ _ _ => rfl⟩
    | truncateFails h => cases h
  | createMap n j h1 h2 h3 h4 =>
    rw [createMap_eq] at h2
    obtain ⟨rfl, rfl⟩ := step_inj h2
    cases hs with
    | mmap h => exact ⟨trivial, (fun i hi => Or.inl ⟨hi, rfl⟩), fun _ _ _ => rfl⟩
    | mmapFails h => cases h
  | store n j h1 h2 h3 h4 =>
    rw [store_eq] at h2
    obtain ⟨rfl, rfl⟩ := step_inj h2
    cases hs with
    | store => exact ⟨trivial, (fun i hi => Or.inl ⟨hi, rfl⟩), fun _ _ _ => rfl⟩
  | noFd n h1 h2 =>
    rw [noFd_eq] at h2
    obtain ⟨rfl, rfl⟩ := step_inj h2
    exact hc.elim
  | undo n e h1 h2 =>
    rw [undo_eq] at h2
    obtain ⟨rfl, rfl⟩ := step_inj h2
    rw [h1] at hc
    cases (show Call.ctor n = .del n from hc)
  | err e h1 => cases h1
  | bool n b h1 h2 => cases h2

/-- the invariant of executions without failures of the system -/
structure Named (s : St) : Prop where
  inv : Inv s
  calm : ∀ t c q, s.run t = some (c, q) → Calm c q
  started : ∀ t c q, s.run t = some (c, q) → c ∈ s.started
  run : ∀ t n q i, s.run t = some (.ctor n, q) → target q = some i → .del n ∉ s.started → s.os.names n = some i
  log : ∀ t n p, (t, .ctor n, .ok (.pool p)) ∈ s.log → .del n ∉ s.started → s.os.names n = some p.ino

theorem named_init {s : St} (h : Init s) : Named s where
  inv := inv_init h
  calm := by intro t c q hq; rw [h.run t] at hq; cases hq
  started := by intro t c q hq; rw [h.run t] at hq; cases hq
  run := by intro t c q i hq; rw [h.run t] at hq; cases hq
  log := by intro t n p hp; rw [h.log] at hp; cases hp

theorem run_drop {run : Nat → Option (Call × SProg Ret)} {t t' : Nat} {x} (h : upd run t none t' = some x) : run t' = some x := by
  simp only [upd] at h
  split at h
  · cases h
  · exact h

theorem named_step {s s' : St} (hi : Named s) (h : Step false s s') : Named s' := by
  have hinv := inv_step hi.inv h
  cases h with
  | start c h =>
    rename_i t
    have key : ∀ t' x, upd s.run t (some (c, code c)) t' = some x → x = (c, code c) ∨ s.run t' = some x := by
      intro t' x hx
      simp only [upd] at hx
      split at hx
      · exact Or.inl (Option.some.inj hx).symm
      · exact Or.inr hx
    refine ⟨hinv, ?_, ?_, ?_, ?_⟩
    · intro t' c' q hq
      rcases key _ _ hq with e | hq
      · obtain ⟨rfl, rfl⟩ := Prod.mk.inj e
        cases c'
        · trivial
        · rfl
      · exact hi.calm t' c' q hq
    · intro t' c' q hq
      rcases key _ _ hq with e | hq
      · obtain ⟨rfl, rfl⟩ := Prod.mk.inj e
        exact List.mem_cons_self
      · exact List.mem_cons_of_mem _ (hi.started t' c' q hq)
    · intro t' n q i hq ht hd
      rcases key _ _ hq with e | hq
      · obtain ⟨rfl, rfl⟩ := Prod.mk.inj e
        cases ht
      · exact hi.run t' n q i hq ht (fun h => hd (List.mem_cons_of_mem _ h))
    · intro t' n p hp hd
      exact hi.log t' n p hp (fun h => hd (List.mem_cons_of_mem _ h))
  | sys hrun hs =>
    rename_i t c op k r os'
    obtain ⟨h1, h2, h3⟩ := calm_step (hi.inv.pos _ _ _ hrun) hs (hi.calm _ _ _ hrun)
    have hst := hi.started _ _ _ hrun
    have key : ∀ t' x, upd s.run t (some (c, k r)) t' = some x → x = (c, k r) ∨ s.run t' = some x := by
      intro t' x hx
      simp only [upd] at hx
      split at hx
      · exact Or.inl (Option.some.inj hx).symm
      · exact Or.inr hx
    have keep : ∀ n i, .del n ∉ s.started → s.os.names n = some i → os'.names n = some i := by
      intro n i hd hn
      rw [h3 n (by rw [hn]; exact Option.some_ne_none _) (fun e => hd (e ▸ hst))]
      exact hn
    refine ⟨hinv, ?_, ?_, ?_, ?_⟩
    · intro t' c' q hq
      rcases key _ _ hq with e | hq
      · obtain ⟨rfl, rfl⟩ := Prod.mk.inj e
        exact h1
      · exact hi.calm t' c' q hq
    · intro t' c' q hq
      rcases key _ _ hq with e | hq
      · obtain ⟨rfl, rfl⟩ := Prod.mk.inj e
        exact hst
      · exact hi.started t' c' q hq
    · intro t' n q i hq ht hd
      rcases key _ _ hq with e | hq
      · obtain ⟨rfl, rfl⟩ := Prod.mk.inj e
        rcases h2 i ht with ⟨h4, h5⟩ | ⟨m, h4, h5⟩
        · show os'.names n = some i
          rw [h5]
          exact hi.run t n _ i hrun h4 hd
        · cases h4
          exact h5
      · exact keep n i hd (hi.run t' n q i hq ht hd)
    · intro t' n p hp hd
      exact keep n _ hd (hi.log t' n p hp hd)
  | finish hrun =>
    rename_i t c a
    refine ⟨hinv, fun t' c' q hq => hi.calm t' c' q (run_drop hq), fun t' c' q hq => hi.started t' c' q (run_drop hq),
      fun t' n q i hq => hi.run t' n q i (run_drop hq), ?_⟩
    intro t' n p hp hd
    rcases List.mem_append.1 hp with hp | hp
    · exact hi.log t' n p hp hd
    · obtain ⟨-, h1⟩ := Prod.mk.inj (List.mem_singleton.1 hp)
      obtain ⟨rfl, h2⟩ := Prod.mk.inj h1
      cases h2
      exact hi.run t n _ _ hrun rfl hd
  | throws hrun =>
    rename_i t c e
    refine ⟨hinv, fun t' c' q hq => hi.calm t' c' q (run_drop hq), fun t' c' q hq => hi.started t' c' q (run_drop hq),
      fun t' n q i hq => hi.run t' n q i (run_drop hq), ?_⟩
    intro t' n p hp hd
    rcases List.mem_append.1 hp with hp | hp
    · exact hi.log t' n p hp hd
    · obtain ⟨-, h1⟩ := Prod.mk.inj (List.mem_singleton.1 hp)
      obtain ⟨-, h2⟩ := Prod.mk.inj h1
      cases h2
  | use f h1 h2 h3 => exact ⟨hinv, hi.calm, hi.started, hi.run, hi.log⟩

theorem named_reach {s0 s : St} (h0 : Init s0) (h : Reach false s0 s) : Named s := by
  induction h with
  | refl => exact named_init h0
  | step _ hs ih => exact named_step ih hs

theorem Reach.trans {bad : Bool} {s0 s1 s : St} (h1 : Reach bad s0 s1) (h2 : Reach bad s1 s) : Reach bad s0 s := by
  induction h2 with
  | refl => exact h1
  | step _ hs ih => exact .step ih hs

theorem started_mono {bad : Bool} {s s' : St} (h : Reach bad s s') : ∀ c ∈ s.started, c ∈ s'.started := by
  induction h with
  | refl => exact fun _ h => h
  | step _ hs ih =>
    intro c hc
    have := ih c hc
    cases hs with
    | start => exact List.mem_cons_of_mem _ this
    | sys => exact this
    | finish => exact this
    | throws => exact this
    | use => exact this

theorem names_keep {s0 s s' : St} (h0 : Init s0) (h : Reach false s0 s) (h' : Reach false s s') {n i} (hn : s.os.names n = some i) (hd : .del n ∉ s'.started) : s'.os.names n = some i := by
  induction h' with
  | refl => exact hn
  | step hr hs ih =>
    have hN := named_reach h0 (h.trans hr)
    cases hs with
    | start => exact ih (fun h => hd (List.mem_cons_of_mem _ h))
    | sys hrun hs =>
      have hn' := ih hd
      obtain ⟨-, -, h3⟩ := calm_step (hN.inv.pos _ _ _ hrun) hs (hN.calm _ _ _ hrun)
      have hst := hN.started _ _ _ hrun
      refine (h3 n (by rw [hn']; exact Option.some_ne_none _) ?_).trans hn'
      rintro rfl
      exact hd hst
    | finish => exact ih hd
    | throws => exact ih hd
    | use => exact ih hd

/-! ### Files that exist -/

def opWrites (i : Ino) : SysOp → Prop
  | .ftruncate fd _ => fd = some i
  | .store j _ => j = i
  | _ => False

/-- the rest of the call may change file i -/
def Writes (i : Ino) : SProg Ret → Prop
  | .ret _ => False
  | .err _ => False
  | .ub => False
  | .step op k => opWrites i op ∨ ∃ r, Writes i (k r)

theorem sys_files {bad : Bool} {s s' : OS} {op : SysOp} {r : SysRe op} (hs : Sys bad op s r s') {i : Ino} (hi : i < s.next) (hw : ¬ opWrites i op) :
    s'.files i = s.files i ∧ s.next ≤ s'.next := by
  cases hs with
  | createNew h => exact ⟨upd_ne (Nat.ne_of_lt hi), Nat.le_succ _⟩
  | truncate => exact ⟨upd_ne (fun e => hw (e ▸ rfl)), Nat.le_refl _⟩
  | store => exact ⟨upd_ne (fun e => hw (e ▸ rfl)), Nat.le_refl _⟩
  | _ => exact ⟨rfl, Nat.le_refl _⟩

theorem writes_after {i : Ino} {s s' : OS} {c : Call} {bad : Bool} {op : SysOp} {k : SysRe op → SProg Ret} {r : SysRe op} (hs : Sys bad op s r s')
    (e : .step op k = code c) (hi : i < s.next) : ¬ Writes i (k r) := by
  cases c with
  | ctor n =>
    rw [code_ctor] at e
    obtain ⟨rfl, rfl⟩ := step_inj e
    have hu : ∀ e, ¬ Writes i ((ctorUndo n e).bind K) := by
      rintro e (h | ⟨r, h⟩) <;> cases h
    cases hs with
    | createNew h =>
      show ¬ Writes i ((ctorCreate n (some s.next)).bind K)
      rw [create_eq]
      rintro (h | ⟨r, h⟩)
      · cases h; exact Nat.lt_irrefl _ hi
      · cases r
        · exact hu _ h
        · rcases h with h | ⟨r, h⟩
          · cases h
          · cases r
            · exact hu _ h
            · rcases h with h | ⟨r, h⟩
              · exact Nat.ne_of_gt hi h
              · cases h
    | createExists h =>
      show ¬ Writes i ((ctorExists n).bind K)
      rw [exists_eq]
      rintro (h | ⟨r, h⟩)
      · cases h
      · cases r with
        | none => cases h
        | some j =>
          rcases h with h | ⟨r, h⟩
          · cases h
          · replace h : Writes i ((if r = 0 then .err .runtimeError else ctorMap j r : SProg PoolObj).bind K) := h
            by_cases h0 : r = 0
            · rw [if_pos h0] at h; cases h
            · rw [if_neg h0] at h
              rcases h with h | ⟨r, h⟩
              · cases h
              · cases r <;> cases h
    | createFails h =>
      show ¬ Writes i ((ctorCreate n none).bind K)
      rw [noFd_eq]
      rintro (h | ⟨r, h⟩)
      · cases h
      · cases r
        · exact hu _ h
        · cases h
  | del n =>
    rw [code_del] at e
    obtain ⟨rfl, rfl⟩ := step_inj e
    generalize r = r
    intro h
    cases r <;> cases h

end Verif.Fs
