import Verif.PropsTickets
import Mathlib.Tactic.IntervalCases
/-
C94: a spin lock made of a bit of an AtomicVector (/repo/src/AtomicVector.hh, store_bit): store_bit(b, true) that returns false takes the lock, store_bit(b, false) gives it back.
-/
namespace Verif.AtomicVec
open Verif
variable {sz w : Nat}

/-- By the history `H`, thread `t` has the lock `b`: a store_bit(b, true) of it has returned false, and it has not begun a store_bit(b, false) since. -/
def Locked (b t : Nat) (H : List (Ev w)) : Prop :=
  ∃ H1 H2, H = H1 ++ .res t (.storeBit b true) (.ok (.bit false)) :: H2 ∧ .inv t (.storeBit b false) ∉ H2

/-- only a thread that has the lock begins to give it back -/
def Proper (b : Nat) (H : List (Ev w)) : Prop := ∀ H1 t H2, H = H1 ++ .inv t (.storeBit b false) :: H2 → Locked b t H1

/-- calls that change bit `b` at most as a lock: by setting it and by clearing it with store_bit -/
def Locking (b : Nat) (op : Op w) : Prop := Setting b op ∨ op = .storeBit b false

theorem locked_snoc {b t : Nat} {H : List (Ev w)} {e : Ev w} (h : Locked b t (H ++ [e])) :
    (Locked b t H ∧ e ≠ .inv t (.storeBit b false)) ∨ e = .res t (.storeBit b true) (.ok (.bit false)) := by
  obtain ⟨c1, c2, e1, hn⟩ := h
  rcases List.eq_nil_or_concat c2 with rfl | ⟨K, y, rfl⟩
  · right
    exact (List.append_inj' e1 rfl).2 |> List.singleton_inj.1
  · left
    rw [List.concat_eq_append, ← List.cons_append, ← List.append_assoc] at e1
    obtain ⟨e3, e2⟩ := List.append_inj' e1 rfl
    rw [List.singleton_inj] at e2
    subst e2
    rw [List.concat_eq_append, List.mem_append, List.mem_singleton, not_or] at hn
    exact ⟨⟨c1, K, e3, hn.1⟩, fun h => hn.2 h.symm⟩

theorem locked_keep {b t : Nat} {H : List (Ev w)} {e : Ev w} (h : Locked b t H) (he : e ≠ .inv t (.storeBit b false)) : Locked b t (H ++ [e]) := by
  obtain ⟨c1, c2, rfl, hn⟩ := h
  refine ⟨c1, c2 ++ [e], by simp, ?_⟩
  rw [List.mem_append, List.mem_singleton, not_or]
  exact ⟨hn, fun h => he h.symm⟩

theorem locked_new {b t : Nat} (H : List (Ev w)) : Locked b t (H ++ [.res t (.storeBit b true) (.ok (.bit false))]) := ⟨H, [], rfl, by simp⟩

theorem Proper.init {b : Nat} {H : List (Ev w)} {e : Ev w} (h : Proper b (H ++ [e])) : Proper b H := fun H1 t H2 h1 => h H1 t (H2 ++ [e]) (by rw [h1]; simp)

/-- thread `t` has the lock in the run: by the history, or it is in a call that has taken it, or in one that has not given it back yet -/
def Has (b t : Nat) (H : List (Ev w)) (c : Option (Op w × Option (Out (Ret w)))) : Prop :=
  Locked b t H ∨ c = some (.storeBit b true, some (.ok (.bit false))) ∨ c = some (.storeBit b false, none)

/-- at every moment of a run the bit is set if and only if a thread has the lock, and only one has it -/
theorem LinRun.lock (hw : 0 < w) {a0 : List (BitVec w)} {b : Nat} (hl : b / w < a0.length) (h0 : bitOf a0 b = false) {H : List (Ev w)} {lin : List (Nat × Op w × Out (Ret w))} {a : List (BitVec w)}
    {st : Nat → Option (Op w × Option (Out (Ret w)))} (h : LinRun a0 H lin a st) (hA : ∀ t op, .inv t op ∈ H → Locking b op) (hP : Proper b H) :
    a0.length ≤ a.length ∧ (∀ t, Has b t H (st t) → bitOf a b = true) ∧ (∀ t u, Has b t H (st t) → Has b u H (st u) → t = u) ∧ (bitOf a b = true → ∃ t, Has b t H (st t)) ∧
      (∀ t op c, st t = some (op, c) → Locking b op) ∧ ∀ t c, st t = some (.storeBit b false, c) → ¬ Locked b t H := by
  induction h with
  | nil =>
    have hn : ∀ t, ¬ Has b t ([] : List (Ev w)) none := by
      rintro t (⟨H1, H2, e, -⟩ | h | h)
      · simp at e
      · cases h
      · cases h
    exact ⟨Nat.le_refl _, fun t h => absurd h (hn t), fun t u h => absurd h (hn t), by rw [h0]; simp, by simp, by simp⟩
  | @inv H lin a st t op _ hn ih =>
    obtain ⟨h1, h2, h3, h4, h5, h6⟩ := ih (fun t op hm => hA t op (List.mem_append_left _ hm)) hP.init
    have same : ∀ u, Has b u (H ++ [.inv t op]) (upd st t (some (op, none)) u) ↔ Has b u H (st u) := by
      intro u
      by_cases e : u = t
      · subst e
        rw [upd_same, hn]
        constructor
        · rintro (h | h | h)
          · exact Or.inl ((locked_snoc h).resolve_right (by intro h; cases h)).1
          · cases h
          · cases h
            exact Or.inl (hP H u [] rfl)
        · rintro (h | h | h)
          · by_cases e : op = .storeBit b false
            · subst e; exact Or.inr (Or.inr rfl)
            · exact Or.inl (locked_keep h (by intro h; cases h; exact e rfl))
          · cases h
          · cases h
      · rw [upd_ne _ _ e]
        refine or_congr_left ⟨fun h => ((locked_snoc h).resolve_right (by intro h; cases h)).1, fun h => locked_keep h (by intro h; cases h; exact e rfl)⟩
    refine ⟨h1, fun u h => h2 u ((same u).1 h), fun u v hu hv => h3 u v ((same u).1 hu) ((same v).1 hv), fun hb => ?_, ?_, ?_⟩
    · obtain ⟨u, hu⟩ := h4 hb
      exact ⟨u, (same u).2 hu⟩
    · intro u op' c hu
      by_cases e : u = t
      · subst e; rw [upd_same] at hu; cases hu; exact hA u _ (by simp)
      · rw [upd_ne _ _ e] at hu; exact h5 u op' c hu
    · intro u c hu hL
      by_cases e : u = t
      · subst e; rw [upd_same] at hu; cases hu
        rcases locked_snoc hL with ⟨-, h⟩ | h
        · exact h rfl
        · cases h
      · rw [upd_ne _ _ e] at hu
        exact h6 u c hu ((locked_snoc hL).resolve_right (by intro h; cases h)).1
  | @effect H lin a st t op r a' _ hn hsp ih =>
    obtain ⟨h1, h2, h3, h4, h5, h6⟩ := ih hA hP
    have hl' : b / w < a.length := by omega
    have oth : ∀ u, u ≠ t → (Has b u H (upd st t (some (op, some r)) u) ↔ Has b u H (st u)) := fun u e => by rw [upd_ne _ _ e]
    refine ⟨Nat.le_trans h1 (spec_len hsp), ?_⟩
    suffices h : (∀ t', Has b t' H (upd st t (some (op, some r)) t') → bitOf a' b = true) ∧
        (∀ t' u, Has b t' H (upd st t (some (op, some r)) t') → Has b u H (upd st t (some (op, some r)) u) → t' = u) ∧
        (bitOf a' b = true → ∃ t', Has b t' H (upd st t (some (op, some r)) t')) by
      refine ⟨h.1, h.2.1, h.2.2, ?_, ?_⟩
      · intro u op' c hu
        by_cases e : u = t
        · subst e; rw [upd_same] at hu; cases hu; exact h5 u _ _ hn
        · rw [upd_ne _ _ e] at hu; exact h5 u op' c hu
      · intro u c hu
        by_cases e : u = t
        · subst e; rw [upd_same] at hu; cases hu; exact h6 u _ hn
        · rw [upd_ne _ _ e] at hu; exact h6 u c hu
    -- nothing changes
    have keep : (∀ u, Has b u H (upd st t (some (op, some r)) u) ↔ Has b u H (st u)) → bitOf a' b = bitOf a b →
        (∀ t', Has b t' H (upd st t (some (op, some r)) t') → bitOf a' b = true) ∧
        (∀ t' u, Has b t' H (upd st t (some (op, some r)) t') → Has b u H (upd st t (some (op, some r)) u) → t' = u) ∧
        (bitOf a' b = true → ∃ t', Has b t' H (upd st t (some (op, some r)) t')) := by
      intro same hb
      rw [hb]
      refine ⟨fun u h => h2 u ((same u).1 h), fun u v hu hv => h3 u v ((same u).1 hu) ((same v).1 hv), fun hb => ?_⟩
      obtain ⟨u, hu⟩ := h4 hb
      exact ⟨u, (same u).2 hu⟩
    have hop := h5 t op _ hn
    by_cases hf : op = .storeBit b false
    · subst hf
      have hmine : Has b t H (st t) := Or.inr (Or.inr hn)
      have hclear : bitOf a' b = false := by
        rcases hsp with ⟨h, -⟩ | ⟨hc, -, x, rfl, hx⟩
        · omega
        · rw [bitOf_set hc, if_pos rfl, hx _ (Nat.mod_lt _ hw), if_pos rfl]
      have none' : ∀ u, ¬ Has b u H (upd st t (some (.storeBit b false, some r)) u) := by
        intro u hu
        by_cases e : u = t
        · subst e
          rw [upd_same] at hu
          rcases hu with h | h | h
          · exact h6 u _ hn h
          · cases h
          · cases h
        · exact e (h3 u t ((oth u e).1 hu) hmine)
      exact ⟨fun u h => absurd h (none' u), fun u v h => absurd h (none' u), by rw [hclear]; simp⟩
    · have hset := hop.resolve_right hf
      obtain ⟨f1, f2, -⟩ := spec_flag hw hsp hl' hset t
      by_cases hs : op = .storeBit b true
      · subst hs
        obtain ⟨rfl, e2⟩ := f1 (by simp [sets])
        rcases Bool.eq_false_or_eq_true (bitOf a b) with hb | hb
        · refine keep (fun u => ?_) (by rw [e2, hb])
          by_cases e : u = t
          · subst e
            rw [upd_same, hn, hb]
            refine or_congr_right ?_
            simp
          · exact oth u e
        · rw [hb]
          have none' : ∀ u, ¬ Has b u H (st u) := fun u h => by rw [h2 u h] at hb; cases hb
          have only : ∀ u, Has b u H (upd st t (some (.storeBit b true, some (.ok (.bit false)))) u) → u = t := by
            intro u hu
            refine Classical.byContradiction fun e => ?_
            rw [upd_ne _ _ e] at hu
            exact none' u hu
          refine ⟨fun _ _ => e2, fun u v hu hv => (only u hu).trans (only v hv).symm, fun _ => ⟨t, ?_⟩⟩
          rw [upd_same]
          exact Or.inr (Or.inl rfl)
      · have hq : sets b op = false := by
          cases op <;> simp only [sets]
          case storeBit c v =>
            rw [Bool.and_eq_false_iff]
            by_cases e : c = b
            · subst e
              exact Or.inr (by cases v with | false => rfl | true => exact absurd rfl hs)
            · exact Or.inl (by simpa using e)
        refine keep (fun u => ?_) (f2 hq)
        by_cases e : u = t
        · subst e
          rw [upd_same, hn]
          refine or_congr_right ⟨?_, ?_⟩
          · rintro (h | h)
            · cases h; exact absurd rfl hs
            · cases h
          · rintro (h | h)
            · cases h
            · cases h; exact absurd rfl hf
        · exact oth u e
  | @res H lin a st t op r _ hn ih =>
    obtain ⟨h1, h2, h3, h4, h5, h6⟩ := ih (fun t op hm => hA t op (List.mem_append_left _ hm)) hP.init
    have same : ∀ u, Has b u (H ++ [.res t op r]) (upd st t none u) ↔ Has b u H (st u) := by
      intro u
      by_cases e : u = t
      · subst e
        rw [upd_same, hn]
        constructor
        · rintro (h | h | h)
          · rcases locked_snoc h with ⟨h, -⟩ | h
            · exact Or.inl h
            · cases h; exact Or.inr (Or.inl rfl)
          · cases h
          · cases h
        · rintro (h | h | h)
          · exact Or.inl (locked_keep h (by intro h; cases h))
          · cases h; exact Or.inl (locked_new H)
          · cases h
      · rw [upd_ne _ _ e]
        refine or_congr_left ⟨fun h => ?_, fun h => locked_keep h (by intro h; cases h)⟩
        rcases locked_snoc h with ⟨h, -⟩ | h
        · exact h
        · cases h; exact absurd rfl e
    refine ⟨h1, fun u h => h2 u ((same u).1 h), fun u v hu hv => h3 u v ((same u).1 hu) ((same v).1 hv), fun hb => ?_, ?_, ?_⟩
    · obtain ⟨u, hu⟩ := h4 hb
      exact ⟨u, (same u).2 hu⟩
    · intro u op' c hu
      by_cases e : u = t
      · subst e; rw [upd_same] at hu; cases hu
      · rw [upd_ne _ _ e] at hu; exact h5 u op' c hu
    · intro u c hu hL
      by_cases e : u = t
      · subst e; rw [upd_same] at hu; cases hu
      · rw [upd_ne _ _ e] at hu
        rcases locked_snoc hL with ⟨h, -⟩ | h
        · exact h6 u c hu h
        · cases h; exact e rfl

/-- **C94: a spin lock made of a bit.** Bit `b` is clear at first and changed only by store_bit(b, true) and store_bit(b, false), and a thread begins the latter only when it has the lock; other bits of the same
element may be changed in any way.  Then at every moment, whatever the interleaving and whoever has died: no two threads have the lock; while one has it, the bit is set in memory; and if the bit is set, then a
thread has the lock, or is in (or has died in) a call that takes it or gives it back - so the lock is never lost without a death. -/
theorem C94_spinlock (hs : 0 < sz) {fuel : Nat} (hf : 0 < fuel) {a0 : List (BitVec (8 * sz))} {s0 s : Sys (8 * sz)} (hi : Init sz a0 s0)
    (hr : Reach sz fuel (Polite sz) s0 s) {b : Nat} (hl : b / (8 * sz) < a0.length) (h0 : bitOf a0 b = false)
    (hlock : ∀ t op, .inv t op ∈ s.hist → Locking b op) (hp : Proper b s.hist) :
    (∀ t u, Locked b t s.hist → Locked b u s.hist → t = u) ∧
    ∃ a, Shows sz s.sh a ∧ b / (8 * sz) < a.length ∧ ((∃ t, Locked b t s.hist) → bitOf a b = true) ∧
      (bitOf a b = true → ∃ t, Locked b t s.hist ∨ pending t s.hist = some (.storeBit b true) ∨ pending t s.hist = some (.storeBit b false)) := by
  obtain ⟨g, lin, st, h⟩ := reach_inv hs hf hi hr
  obtain ⟨h1, h2, h3, h4, -, -⟩ := h.lin.lock (by omega) hl h0 hlock hp
  refine ⟨fun t u ht hu => h3 t u (Or.inl ht) (Or.inl hu), g.a, h.rep.shows, by omega, fun ⟨t, ht⟩ => h2 t (Or.inl ht), fun hb => ?_⟩
  obtain ⟨t, ht⟩ := h4 hb
  refine ⟨t, ht.imp id ?_⟩
  rw [h.lin.pending]
  rintro (e | e)
  · rw [e]; exact Or.inl rfl
  · rw [e]; exact Or.inr rfl

/-! ### what the lock protects -/

/-- the calls on element `i` are loads and stores that a thread begins when it has the lock `b` -/
def Protected (b i : Nat) (H : List (Ev w)) : Prop :=
  ∀ H1 t op H2, H = H1 ++ .inv t op :: H2 → op.idx = some i → (op = .load i ∨ ∃ v, op = .store i v) ∧ Locked b t H1

/-- the value that the last finished store to element `i` has written, at first `v` -/
def lastStored (i : Nat) (v : BitVec w) (H : List (Ev w)) : BitVec w :=
  H.foldl (fun x e => match e with
    | .res _ (.store j y) _ => if j = i then y else x
    | _ => x) v

theorem Protected.init {b i : Nat} {H : List (Ev w)} {e : Ev w} (h : Protected b i (H ++ [e])) : Protected b i H :=
  fun H1 t op H2 h1 => h H1 t op (H2 ++ [e]) (by rw [h1]; simp)

theorem lastStored_inv {i : Nat} {v : BitVec w} {H : List (Ev w)} {t : Nat} {op : Op w} : lastStored i v (H ++ [.inv t op]) = lastStored i v H := by
  simp [lastStored, List.foldl_append]

theorem lastStored_store {i : Nat} {v x : BitVec w} {H : List (Ev w)} {t : Nat} {r : Out (Ret w)} : lastStored i v (H ++ [.res t (.store i x) r]) = x := by
  simp [lastStored, List.foldl_append]

theorem lastStored_other {i : Nat} {v : BitVec w} {H : List (Ev w)} {t : Nat} {op : Op w} {r : Out (Ret w)} (h : ∀ x, op ≠ .store i x) :
    lastStored i v (H ++ [.res t op r]) = lastStored i v H := by
  simp only [lastStored, List.foldl_append, List.foldl_cons, List.foldl_nil]
  split
  · rename_i e
    cases e
    rw [if_neg]
    intro e
    subst e
    exact h _ rfl
  · rfl

/-- at every moment of a run the element has the value of the last store, except while a store that has taken effect is about to return -/
theorem LinRun.protect (hw : 0 < w) {a0 : List (BitVec w)} {b i : Nat} (hl : b / w < a0.length) (hi : i < a0.length) (h0 : bitOf a0 b = false) {H : List (Ev w)}
    {lin : List (Nat × Op w × Out (Ret w))} {a : List (BitVec w)} {st : Nat → Option (Op w × Option (Out (Ret w)))} (h : LinRun a0 H lin a st)
    (hA : ∀ t op, .inv t op ∈ H → Locking b op) (hP : Proper b H) (hD : Protected b i H) :
    (∀ t op c, st t = some (op, c) → op.idx = some i → (op = .load i ∨ ∃ v, op = .store i v) ∧ Locked b t H) ∧
    (∀ t v r, st t = some (.store i v, some r) → a.getD i 0 = v) ∧ ((∀ t v r, st t ≠ some (.store i v, some r)) → a.getD i 0 = lastStored i a0[i] H) ∧
    (∀ t r, st t = some (.load i, some r) → r = .ok (.word (lastStored i a0[i] H))) ∧
    ∀ H1 t r H2, H = H1 ++ .res t (.load i) r :: H2 → r = .ok (.word (lastStored i a0[i] H1)) := by
  induction h with
  | nil => exact ⟨by simp, by simp, fun _ => by simp [lastStored, hi], by simp, by simp⟩
  | @inv H lin a st t op h0' hn ih =>
    obtain ⟨j1, j2, j3, j4, j5⟩ := ih (fun t op hm => hA t op (List.mem_append_left _ hm)) hP.init hD.init
    refine ⟨?_, ?_, ?_, ?_, ?_⟩
    · intro u op' c hu hx
      by_cases e : u = t
      · subst e; rw [upd_same] at hu; cases hu
        obtain ⟨h1, h2⟩ := hD H u op [] rfl hx
        refine ⟨h1, locked_keep h2 ?_⟩
        intro e; cases e
        rcases h1 with h1 | ⟨v, h1⟩ <;> cases h1
      · rw [upd_ne _ _ e] at hu
        obtain ⟨h1, h2⟩ := j1 u op' c hu hx
        exact ⟨h1, locked_keep h2 (by intro h; cases h; exact e rfl)⟩
    · intro u v r hu
      by_cases e : u = t
      · subst e; rw [upd_same] at hu; cases hu
      · rw [upd_ne _ _ e] at hu; exact j2 u v r hu
    · intro hno
      rw [lastStored_inv]
      refine j3 fun u v r hu => ?_
      by_cases e : u = t
      · subst e; rw [hn] at hu; cases hu
      · exact hno u v r (by rw [upd_ne _ _ e]; exact hu)
    · intro u r hu
      rw [lastStored_inv]
      by_cases e : u = t
      · subst e; rw [upd_same] at hu; cases hu
      · rw [upd_ne _ _ e] at hu; exact j4 u r hu
    · intro H1 u r H2 e
      rcases List.eq_nil_or_concat H2 with rfl | ⟨K, y, rfl⟩
      · have := (List.append_inj' e rfl).2; simp at this
      · rw [List.concat_eq_append, ← List.cons_append, ← List.append_assoc] at e
        exact j5 H1 u r K (List.append_inj' e rfl).1
  | @effect H lin a st t op r a' h0' hn hsp ih =>
    obtain ⟨j1, j2, j3, j4, j5⟩ := ih hA hP hD
    obtain ⟨g1, -, g3, -⟩ := h0'.lock hw hl h0 hA hP
    have hia : i < a.length := by omega
    have alone : op.idx = some i → ∀ u op' c, u ≠ t → st u = some (op', c) → op'.idx ≠ some i := fun hx u op' c e hu hx' =>
      e (g3 u t (Or.inl (j1 u op' c hu hx').2) (Or.inl (j1 t op _ hn hx).2))
    refine ⟨?_, ?_, ?_, ?_, j5⟩
    · intro u op' c hu hx
      by_cases e : u = t
      · subst e; rw [upd_same] at hu; cases hu; exact j1 u _ _ hn hx
      · rw [upd_ne _ _ e] at hu; exact j1 u op' c hu hx
    · intro u v r' hu
      by_cases e : u = t
      · subst e; rw [upd_same] at hu; cases hu
        rcases hsp with ⟨h, -⟩ | ⟨_, -, rfl⟩
        · omega
        · simp [hia]
      · rw [upd_ne _ _ e] at hu
        rw [spec_other hsp fun hx => alone hx u _ _ e hu rfl]
        exact j2 u v r' hu
    · intro hno
      have hst : ∀ v, op ≠ .store i v := fun v e => hno t v r (by rw [upd_same, e])
      have hsame : a'.getD i 0 = a.getD i 0 := by
        by_cases hx : op.idx = some i
        · rcases (j1 t op _ hn hx).1 with rfl | ⟨v, rfl⟩
          · rcases hsp with ⟨-, -, rfl⟩ | ⟨_, -, rfl⟩
            · rfl
            · rw [List.set_getElem_self]
          · exact absurd rfl (hst v)
        · exact spec_other hsp hx
      rw [hsame]
      refine j3 fun u v r' hu => ?_
      by_cases e : u = t
      · subst e; rw [hn] at hu; cases hu
      · exact hno u v r' (by rw [upd_ne _ _ e]; exact hu)
    · intro u r' hu
      by_cases e : u = t
      · subst e; rw [upd_same] at hu; cases hu
        have hv := j3 fun u' v r'' hu' => by
          by_cases e : u' = u
          · subst e; rw [hn] at hu'; cases hu'
          · exact alone rfl u' _ _ e hu' rfl
        rcases hsp with ⟨h, -⟩ | ⟨_, rfl, -⟩
        · omega
        · rw [← hv]; simp [hia]
      · rw [upd_ne _ _ e] at hu; exact j4 u r' hu
  | @res H lin a st t op r h0' hn ih =>
    have hA' : ∀ t op, .inv t op ∈ H → Locking b op := fun t op hm => hA t op (List.mem_append_left _ hm)
    obtain ⟨j1, j2, j3, j4, j5⟩ := ih hA' hP.init hD.init
    obtain ⟨g1, -, g3, -⟩ := h0'.lock hw hl h0 hA' hP.init
    have alone : op.idx = some i → ∀ u op' c, u ≠ t → st u = some (op', c) → op'.idx ≠ some i := fun hx u op' c e hu hx' =>
      e (g3 u t (Or.inl (j1 u op' c hu hx').2) (Or.inl (j1 t op _ hn hx).2))
    have hold : (∀ v, op ≠ .store i v) → lastStored i a0[i] (H ++ [.res t op r]) = lastStored i a0[i] H := lastStored_other
    refine ⟨?_, ?_, ?_, ?_, ?_⟩
    · intro u op' c hu hx
      by_cases e : u = t
      · subst e; rw [upd_same] at hu; cases hu
      · rw [upd_ne _ _ e] at hu
        obtain ⟨h1, h2⟩ := j1 u op' c hu hx
        exact ⟨h1, locked_keep h2 (by intro h; cases h)⟩
    · intro u v r' hu
      by_cases e : u = t
      · subst e; rw [upd_same] at hu; cases hu
      · rw [upd_ne _ _ e] at hu; exact j2 u v r' hu
    · intro hno
      by_cases hs : ∃ v, op = .store i v
      · obtain ⟨v, rfl⟩ := hs
        rw [lastStored_store]
        exact j2 t v r hn
      · rw [hold fun v e => hs ⟨v, e⟩]
        refine j3 fun u v r' hu => ?_
        by_cases e : u = t
        · subst e; rw [hn] at hu; cases hu; exact hs ⟨v, rfl⟩
        · exact hno u v r' (by rw [upd_ne _ _ e]; exact hu)
    · intro u r' hu
      by_cases e : u = t
      · subst e; rw [upd_same] at hu; cases hu
      · rw [upd_ne _ _ e] at hu
        rw [hold fun v h => alone (by rw [h]; rfl) u _ _ e hu rfl]
        exact j4 u r' hu
    · intro H1 u r' H2 e
      rcases List.eq_nil_or_concat H2 with rfl | ⟨K, y, rfl⟩
      · obtain ⟨e1, e2⟩ := List.append_inj' e rfl
        subst e1
        cases e2
        exact j4 t r hn
      · rw [List.concat_eq_append, ← List.cons_append, ← List.append_assoc] at e
        exact j5 H1 u r' K (List.append_inj' e rfl).1

/-- **C94, critical sections.** If moreover the calls on element `i` are loads and stores that a thread begins when it has the lock, then every load returns the value that the last store to return before it has
written (at first, the initial value); so a load, a computation and a store done between taking the lock and giving it back lose no other thread's store.  If no thread is in (or has died in) a store, memory has that value. -/
theorem C94_protects (hs : 0 < sz) {fuel : Nat} (hf : 0 < fuel) {a0 : List (BitVec (8 * sz))} {s0 s : Sys (8 * sz)} (hi : Init sz a0 s0)
    (hr : Reach sz fuel (Polite sz) s0 s) {b i : Nat} (hl : b / (8 * sz) < a0.length) (hil : i < a0.length) (h0 : bitOf a0 b = false)
    (hlock : ∀ t op, .inv t op ∈ s.hist → Locking b op) (hp : Proper b s.hist) (hd : Protected b i s.hist) :
    (∀ H1 t r H2, s.hist = H1 ++ .res t (.load i) r :: H2 → r = .ok (.word (lastStored i a0[i] H1))) ∧
    ((∀ t v, pending t s.hist ≠ some (.store i v)) → ∃ a, Shows sz s.sh a ∧ a.getD i 0 = lastStored i a0[i] s.hist) := by
  obtain ⟨g, lin, st, h⟩ := reach_inv hs hf hi hr
  obtain ⟨-, -, h3, -, h5⟩ := h.lin.protect (by omega) hl hil h0 hlock hp hd
  refine ⟨h5, fun hno => ⟨g.a, h.rep.shows, h3 fun t v r e => hno t v ?_⟩⟩
  rw [h.lin.pending, e]
  rfl

/-- Thread 0 takes the lock (bit 3), thread 1 does not get it, thread 0 gives it back; thread 2 takes it before that call has returned, and dies; thread 1 does not get it; thread 3 changes another bit of the word. -/
def spinning : List (Cmd (8 * 8)) := [.call 0 (.storeBit 3 true), .go 0 6, .call 1 (.storeBit 3 true), .go 1 6, .call 0 (.storeBit 3 false), .go 0 4, .call 2 (.storeBit 3 true), .go 2 6, .go 0 2,
  .die 2, .call 1 (.storeBit 3 true), .go 1 6, .call 3 (.xorBit 5), .go 3 6]

/-- the history of that run -/
def spun : List (Ev (8 * 8)) := [.inv 0 (.storeBit 3 true), .res 0 (.storeBit 3 true) (.ok (.bit false)), .inv 1 (.storeBit 3 true), .res 1 (.storeBit 3 true) (.ok (.bit true)), .inv 0 (.storeBit 3 false),
  .inv 2 (.storeBit 3 true), .res 2 (.storeBit 3 true) (.ok (.bit false)), .res 0 (.storeBit 3 false) (.ok (.bit true)), .inv 1 (.storeBit 3 true), .res 1 (.storeBit 3 true) (.ok (.bit true)),
  .inv 3 (.xorBit 5), .res 3 (.xorBit 5) (.ok (.bit true))]

/-- the hypotheses of C94_spinlock are met: thread 2 has the lock in the end, and the bit is set -/
example : ∃ s, Reach 8 1 (Polite 8) par s ∧ (∀ t op, .inv t op ∈ s.hist → Locking 3 op) ∧ Proper 3 s.hist ∧ bitOf ([0] : List (BitVec 64)) 3 = false ∧
    leRd s.sh.mem 16 8 = 2 ^ 60 + 2 ^ 58 ∧ Locked 3 2 s.hist ∧ pending 2 s.hist = none := by
  have e : seen (playAll 8 1 spinning par) = some (spun, 2 ^ 60 + 2 ^ 58) := by unfold par one; decide +kernel
  obtain ⟨s, h1, h2, h3⟩ := par_seen e
  refine ⟨s, h1, ?_, ?_, by decide, h3, ?_, ?_⟩
  · rw [h2]
    intro t op hm
    simp only [spun, List.mem_cons, Ev.inv.injEq, reduceCtorEq, List.not_mem_nil, or_false, false_or] at hm
    rcases hm with ⟨-, rfl⟩ | ⟨-, rfl⟩ | ⟨-, rfl⟩ | ⟨-, rfl⟩ | ⟨-, rfl⟩ | ⟨-, rfl⟩
    · exact Or.inl fun _ => rfl
    · exact Or.inl fun _ => rfl
    · exact Or.inr rfl
    · exact Or.inl fun _ => rfl
    · exact Or.inl fun _ => rfl
    · exact Or.inl (by decide : (5 : Nat) ≠ 3)
  · rw [h2]
    intro H1 t H2 e
    have hn : H1.length < 12 := by
      have := congrArg List.length e
      simp [spun] at this
      omega
    have h4 : H1 = spun.take H1.length := by rw [e]; simp
    have h5 : spun[H1.length]? = some (.inv t (.storeBit 3 false)) := by rw [e]; simp
    rw [h4]
    generalize H1.length = n at hn h5
    interval_cases n <;> simp [spun] at h5
    subst h5
    exact ⟨[.inv 0 (.storeBit 3 true)], [.inv 1 (.storeBit 3 true), .res 1 (.storeBit 3 true) (.ok (.bit true))], rfl, by simp⟩
  · rw [h2]
    exact ⟨spun.take 6, spun.drop 7, rfl, by simp [spun]⟩
  · rw [h2]; rfl

/-- two zero words in a vector on a fresh pool -/
def duo : Sh := (vrun 8 (call 8 1 (.expand 2)) (fresh 1000000) ⟨4096, 0⟩).2.1

theorem duo_shows : Shows 8 duo [0, 0] := by
  have e : (vrun 8 (call 8 1 (.expand 2)) (fresh 1000000) ⟨4096, 0⟩).1 = .ok .unit := by decide +kernel
  have h := C31_expand_partial (sz := 8) (by decide) (fuel := 1) (by decide) (fresh_shows (by decide) (lim := 1000000) (by decide))
    (p := ⟨4096, 0⟩) (Nat.le_refl _) 2 (by decide)
  unfold duo
  generalize vrun 8 (call 8 1 (.expand 2)) (fresh 1000000) ⟨4096, 0⟩ = r at h e ⊢
  rcases h with ⟨s', p', rfl, h⟩ | ⟨-, s', p', rfl, -⟩
  · exact h
  · cases e

def pair : Sys (8 * 8) := ⟨duo, fun _ => ⟨4096, 0⟩, fun _ => true, fun _ => none, []⟩

theorem pair_init : Init 8 [0, 0] pair := ⟨duo_shows, fun _ => rfl, fun _ => rfl, fun _ => Nat.le_refl _, rfl⟩

/-- Thread 0 takes the lock and writes 5 to element 1 while thread 1 tries to take the lock; then thread 1 takes it and increments the element by a load and a store. -/
def guarding : List (Cmd (8 * 8)) := [.call 0 (.storeBit 3 true), .go 0 6, .call 1 (.storeBit 3 true), .go 1 3, .call 0 (.store 1 5), .go 0 4, .go 1 3, .go 0 2, .call 0 (.storeBit 3 false), .go 0 6,
  .call 1 (.storeBit 3 true), .go 1 6, .call 1 (.load 1), .go 1 6, .call 1 (.store 1 6), .go 1 6, .call 1 (.load 1), .go 1 6]

/-- the history of that run -/
def guarded : List (Ev (8 * 8)) := [.inv 0 (.storeBit 3 true), .res 0 (.storeBit 3 true) (.ok (.bit false)), .inv 1 (.storeBit 3 true), .inv 0 (.store 1 5), .res 1 (.storeBit 3 true) (.ok (.bit true)),
  .res 0 (.store 1 5) (.ok .unit), .inv 0 (.storeBit 3 false), .res 0 (.storeBit 3 false) (.ok (.bit true)), .inv 1 (.storeBit 3 true), .res 1 (.storeBit 3 true) (.ok (.bit false)),
  .inv 1 (.load 1), .res 1 (.load 1) (.ok (.word 5)), .inv 1 (.store 1 6), .res 1 (.store 1 6) (.ok .unit), .inv 1 (.load 1), .res 1 (.load 1) (.ok (.word 6))]

/-- the hypotheses of C94_protects are met: the second load returns what has been stored after the first -/
example : ∃ s, Reach 8 1 (Polite 8) pair s ∧ (∀ t op, .inv t op ∈ s.hist → Locking 3 op) ∧ Proper 3 s.hist ∧ Protected 3 1 s.hist ∧ bitOf ([0, 0] : List (BitVec 64)) 3 = false ∧
    s.hist = guarded ∧ lastStored 1 0 s.hist = 6 := by
  have e : seen (playAll 8 1 guarding pair) = some (guarded, 2 ^ 60) := by unfold pair duo; decide +kernel
  obtain ⟨s, h1, h2⟩ : ∃ s, Reach 8 1 (Polite 8) pair s ∧ s.hist = guarded := by
    unfold seen at e
    cases e1 : playAll 8 1 guarding pair with
    | none => rw [e1] at e; cases e
    | some s => rw [e1] at e; exact ⟨s, playAll_reach _ .refl e1, (Prod.mk.inj (Option.some.inj e)).1⟩
  have at' : ∀ {H1 H2 : List (Ev (8 * 8))} {y : Ev (8 * 8)}, guarded = H1 ++ y :: H2 → H1.length < 16 ∧ H1 = guarded.take H1.length ∧ guarded[H1.length]? = some y := by
    intro H1 H2 y e
    refine ⟨?_, by rw [e]; simp, by rw [e]; simp⟩
    have := congrArg List.length e
    simp [guarded] at this
    omega
  have l0 : ∀ n, 2 ≤ n → n ≤ 6 → Locked 3 0 (guarded.take n) := by
    intro n h1 h2
    refine ⟨guarded.take 1, (guarded.take n).drop 2, ?_, ?_⟩ <;> interval_cases n <;> first | rfl | simp [guarded]
  have l1 : ∀ n, 10 ≤ n → n ≤ 16 → Locked 3 1 (guarded.take n) := by
    intro n h1 h2
    refine ⟨guarded.take 9, (guarded.take n).drop 10, ?_, ?_⟩ <;> interval_cases n <;> first | rfl | simp [guarded]
  refine ⟨s, h1, ?_, ?_, ?_, by decide, h2, by rw [h2]; rfl⟩
  · rw [h2]
    intro t op hm
    simp only [guarded, List.mem_cons, Ev.inv.injEq, reduceCtorEq, List.not_mem_nil, or_false, false_or] at hm
    rcases hm with ⟨-, rfl⟩ | ⟨-, rfl⟩ | ⟨-, rfl⟩ | ⟨-, rfl⟩ | ⟨-, rfl⟩ | ⟨-, rfl⟩ | ⟨-, rfl⟩ | ⟨-, rfl⟩
    · exact Or.inl fun _ => rfl
    · exact Or.inl fun _ => rfl
    · exact Or.inl (by simp [Setting, Op.idx])
    · exact Or.inr rfl
    · exact Or.inl fun _ => rfl
    · exact Or.inl trivial
    · exact Or.inl (by simp [Setting, Op.idx])
    · exact Or.inl trivial
  · rw [h2]
    intro H1 t H2 e
    obtain ⟨hn, h4, h5⟩ := at' e
    rw [h4]
    generalize H1.length = n at hn h5
    interval_cases n <;> simp [guarded] at h5
    subst h5
    exact l0 6 (by omega) (by omega)
  · rw [h2]
    intro H1 t op H2 e hx
    obtain ⟨hn, h4, h5⟩ := at' e
    rw [h4]
    generalize H1.length = n at hn h5
    interval_cases n <;> simp [guarded] at h5
    all_goals obtain ⟨rfl, rfl⟩ := h5
    all_goals first
      | exact absurd hx (by decide)
      | exact ⟨Or.inr ⟨_, rfl⟩, l0 _ (by omega) (by omega)⟩
      | exact ⟨Or.inl rfl, l1 _ (by omega) (by omega)⟩
      | exact ⟨Or.inr ⟨_, rfl⟩, l1 _ (by omega) (by omega)⟩

end Verif.AtomicVec
