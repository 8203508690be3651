import Verif.PropsLockLive
/-
C77: who waits for whom at the read-write lock.  A reader does not wait for other readers while there is a free reader slot; a writer waits only for the readers
that were inside when it took the write lock; a reader that once found all slots taken waits for one particular reader (false as stated).
-/
namespace Verif.Lock
open Verif
variable {K : Mach} {pid : Nat → Nat} {fuel : Nat} {prog : Nat → List (Session K)} {m0 : K.M} {s0 s s' : St K} {t : Nat}

/-! ### readers and readers -/

/-- the slot taken is the first free one -/
theorem takeSlot_first {al : Nat → Bool} {tok : Nat} {W : Nat → Nat} (n : Nat) : ∀ (x : Nat), x + n = 65 → lone (K := K) al (takeSlot tok n x) W (fun k r W' => k ≤ n ∧
    ((∃ y, r = some y ∧ x ≤ y ∧ y < 65 ∧ W (y + 1) = 0 ∧ (∀ z, x ≤ z → z < y → W (z + 1) ≠ 0) ∧ W' = fset W (y + 1) tok) ∨
      (r = none ∧ W' = W ∧ ∀ w, x + 1 ≤ w → w ≤ 65 → W w ≠ 0))) := by
  induction n with
  | zero => intro x hx; exact ⟨Nat.le_refl _, Or.inr ⟨rfl, rfl, fun w h1 h2 => by omega⟩⟩
  | succ n ih =>
    intro x hx
    unfold takeSlot
    show lone al (.step (.cas (x + 1) 0 tok) _) W _
    simp only [lone, Prog.ret_bind]
    split <;> rename_i hc
    · exact ⟨by omega, Or.inl ⟨x, rfl, Nat.le_refl _, by omega, hc, fun z h1 h2 => by omega, rfl⟩⟩
    · refine lone_mono ?_ (ih (x + 1) (by omega))
      rintro k r W' ⟨h1, ⟨y, h2, h3, h4, h5, h6, h7⟩ | ⟨h2, h3, h4⟩⟩
      · refine ⟨by omega, Or.inl ⟨y, h2, by omega, h4, h5, fun z e1 e2 => ?_, h7⟩⟩
        by_cases e : z = x
        · subst e; exact hc
        · exact h6 z (by omega) e2
      · refine ⟨by omega, Or.inr ⟨h2, h3, fun w e1 e2 => ?_⟩⟩
        by_cases e : w = x + 1
        · subst e; exact hc
        · exact h4 w (by omega) e2

theorem guardRead_open {al : Nat → Bool} {tok : Nat} {W : Nat → Nat} (us : Bool) (F f : Nat) (h0 : W 0 = 0 ∨ us = false ∧ Stale al W 0)
    {w : Nat} (hw : slot w) (hfree : W w = 0) :
    lone (K := K) al (guardRead us (F + 1) tok (f + 1)) W (fun n g W' => n ≤ 79 ∧ g.stolen = W 0 ∧ ∃ x, g.slot = some x ∧ x < 65 ∧ W (x + 1) = 0 ∧
      (∀ y, y < x → W (y + 1) ≠ 0) ∧ W' = fset (fset W 0 0) (x + 1) tok) := by
  have hs : Stale al W 0 := h0.elim Or.inl (fun h => h.2)
  unfold guardRead
  refine lone_bind (lone_mono ?_ (acquire_lone F hs))
  rintro n r W' ⟨h1, rfl, rfl⟩
  have hc : ¬ (W 0 ≠ 0 ∧ us = true) := by
    rintro ⟨a, b⟩
    rcases h0 with h0 | ⟨h0, -⟩
    · exact a h0
    · rw [h0] at b; cases b
  rw [if_neg hc]
  refine lone_bind (lone_mono ?_ (takeSlot_first 65 0 rfl))
  rintro k1 sl W2 ⟨h2, ⟨y, rfl, -, h3, h4, h5, rfl⟩ | ⟨rfl, rfl, h3⟩⟩
  · refine lone_bind (lone_mono ?_ (release_lone (by rw [fset_ne _ _ (by omega), fset_same])))
    rintro k2 _ W3 ⟨rfl, rfl⟩
    refine ⟨by omega, rfl, y, rfl, h3, ?_, ?_, ?_⟩
    · rwa [fset_ne _ _ (by omega)] at h4
    · intro z hz; have := h5 z (by omega) hz; rwa [fset_ne _ _ (by omega)] at this
    · funext x
      by_cases e0 : x = 0
      · subst e0; rw [fset_same, fset_ne _ _ (by omega), fset_same]
      · rw [fset_ne _ _ e0]
        by_cases ey : x = y + 1
        · subst ey; rw [fset_same, fset_same]
        · rw [fset_ne _ _ ey, fset_ne _ _ e0, fset_ne _ _ ey, fset_ne _ _ e0]
  · exact absurd hfree (by
      have := h3 w (by unfold slot at hw; omega) hw.2
      rwa [fset_ne _ _ (by unfold slot at hw; omega)] at this)

/-- **C77.** In any reachable state in which no writer has the lock and a reader slot is free, a thread about to construct a read guard has it after at most 79 steps
of its own, however many live readers are inside and although none of them moves.  (READ_UNLESS_STOLEN, after the death of a writer, has to wait for the readers: it becomes a writer.) -/
theorem C77_reader_enters_partial (hp : PidsOk pid) (hro : ReadOnly prog) (hi : Init pid fuel prog m0 s0) (hr : Reach pid s0 s)
    {us : Bool} (h0 : s.words 0 = 0 ∨ us = false ∧ s.alive (s.words 0) = false) {w : Nat} (hw : 1 ≤ w ∧ w ≤ 65) (hfree : s.words w = 0)
    {F F' : Nat} {f : Guard → LProg K Unit} (hth : s.th t = (guardRead us (F + 1) (pid t) (F' + 1)).bind f) :
    ∃ n s' x, n ≤ 79 ∧ soloN t n s = some s' ∧ s'.th t = f ⟨some x, s.words 0⟩ ∧ x < 65 ∧ s.words (x + 1) = 0 ∧ s'.words (x + 1) = pid t ∧ s'.words 0 = 0 ∧
      ∀ y, y ≠ x + 1 → y ≠ 0 → s'.words y = s.words y := by
  have h0' : s.words 0 = 0 ∨ us = false ∧ Stale s.alive s.words 0 := by
    by_cases hz : s.words 0 = 0
    · exact Or.inl hz
    · rcases h0 with h0 | ⟨h1, h2⟩
      · exact Or.inl h0
      · refine Or.inr ⟨h1, Or.inr ?_⟩
        obtain ⟨u, -, e⟩ := holder_word hp hro hi hr hz
        rw [e] at h2 ⊢
        rwa [Nat.mod_eq_of_lt (hp u).2]
  obtain ⟨n, a, s', h1, h2, ⟨h3, h4, x, h5, h6, h7, -, h8⟩, -⟩ := lone_run (guardRead_open us F F' h0' hw hfree) hth
  have ha : a = ⟨some x, s.words 0⟩ := by cases a; simp only at h4 h5; rw [h4, h5]
  subst ha
  refine ⟨n, s', x, h3, h1, h2, h6, h7, ?_, ?_, ?_⟩
  · rw [h8, fset_same]
  · rw [h8, fset_ne _ _ (by omega), fset_same]
  · intro y hy hy0; rw [h8, fset_ne _ _ hy, fset_ne _ _ hy0]

/-! ### writers and readers -/

/-- only the thread that holds the write lock puts a token in an empty reader slot -/
theorem slot_entry (hp : PidsOk pid) (hro : ReadOnly prog) (hi : Init pid fuel prog m0 s0) (hr : Reach pid s0 s) {a : Option Nat} (hst : Step pid a s s')
    {w : Nat} (hw : slot w) (h0 : s.words w = 0) (h1 : s'.words w ≠ 0) : ∃ u, a = some u ∧ s.alive (pid u) = true ∧ s.holder 0 = some u ∧ s.words 0 = pid u := by
  obtain ⟨G, mc, d, hl, -⟩ := reach_inv hp hro hi hr
  cases hst with
  | @casOk _ u x e v k hu hth he =>
    have e1 := hl.lwp u hu
    rw [hth] at e1
    have hcan := hl.can hu x
    rw [he] at hcan
    have hm := e1.2.1 hcan
    by_cases ex : w = x
    · subst ex
      have hv : v ≠ 0 := by
        intro hv; apply h1; show fset s.words w v w = 0; rw [fset_same]; exact hv
      rcases hm with ⟨-, -, h4⟩ | ⟨h4, -⟩
      · have := hl.own u hu 0 (h4 hw).1
        exact ⟨u, rfl, hu, this.2, this.1⟩
      · exact absurd h4 hv
    · exact absurd (show fset s.words x v w = 0 by rw [fset_ne _ _ ex]; exact h0) h1
  | @weakOk _ u x e v k hu hth he =>
    have e1 := hl.lwp u hu
    rw [hth] at e1
    have hx : w ≠ x := fun ex => e1.2.2.2.1 (ex ▸ hw)
    exact absurd (show fset s.words x v w = 0 by rw [fset_ne _ _ hx]; exact h0) h1
  | _ => exact absurd h0 h1

/-- a reader slot that is taken is only ever emptied -/
theorem slot_changes_to_zero (hp : PidsOk pid) (hro : ReadOnly prog) (hi : Init pid fuel prog m0 s0) (hr : Reach pid s0 s) {a : Option Nat} (hst : Step pid a s s')
    {w : Nat} (hw : slot w) (h0 : s.words w ≠ 0) (hch : s'.words w ≠ s.words w ∨ s'.holder w ≠ s.holder w) (h1 : s'.words w ≠ 0) : False := by
  obtain ⟨G, mc, d, hl, -⟩ := reach_inv hp hro hi hr
  cases hst with
  | @casOk _ u x e v k hu hth he =>
    have e1 := hl.lwp u hu
    rw [hth] at e1
    have hcan := hl.can hu x
    rw [he] at hcan
    have hm := e1.2.1 hcan
    by_cases ex : w = x
    · subst ex
      rcases hm with ⟨-, -, h4⟩ | ⟨h4, -⟩
      · exact h0 (he.trans (h4 hw).2.1)
      · exact h1 (show fset s.words w v w = 0 by rw [fset_same]; exact h4)
    · exact hch.elim (fun h => h (fset_ne _ _ ex)) (fun h => h (fset_ne _ _ ex))
  | @weakOk _ u x e v k hu hth he =>
    have e1 := hl.lwp u hu
    rw [hth] at e1
    have hx : w ≠ x := fun ex => e1.2.2.2.1 (ex ▸ hw)
    exact hch.elim (fun h => h (fset_ne _ _ hx)) (fun h => h (fset_ne _ _ hx))
  | _ => exact hch.elim (fun h => h rfl) (fun h => h rfl)

/-- only deaths change who is alive -/
theorem step_alive {u : Nat} (hst : Step pid (some u) s s') : s'.alive = s.alive := by
  cases hst <;> rfl

/-- the other threads run, processes other than that of `t` may die; `t` does not move -/
inductive Others (pid : Nat → Nat) (t : Nat) (s : St K) : St K → Prop
  | refl : Others pid t s s
  | step {s1 s' u} : Others pid t s s1 → u ≠ t → Step pid (some u) s1 s' → Others pid t s s'
  | die {s1 s'} : Others pid t s s1 → Step pid none s1 s' → s'.alive (pid t) = true → Others pid t s s'

/-- **C77.** From the moment a live thread holds the write lock, and for as long as it does not release it, no reader gets in, whatever the other threads do: every reader slot that is
taken later was taken by the same reader at that moment.  So a writer waits only for the readers it found inside. -/
theorem C77_writer_waits_partial (hp : PidsOk pid) (hro : ReadOnly prog) (hi : Init pid fuel prog m0 s0) (hr : Reach pid s0 s)
    (hl : s.alive (pid t) = true) (h0 : s.words 0 = pid t ∧ s.holder 0 = some t) (hs : Others pid t s s') :
    (s'.words 0 = pid t ∧ s'.holder 0 = some t) ∧ ∀ w, 1 ≤ w → w ≤ 65 → s'.words w ≠ 0 → s'.words w = s.words w ∧ s'.holder w = s.holder w := by
  have key : ∀ {s1 s2 : St K} {a : Option Nat}, Reach pid s0 s1 → s1.alive (pid t) = true → s1.words 0 = pid t ∧ s1.holder 0 = some t → a ≠ some t → Step pid a s1 s2 →
      (s2.words 0 = pid t ∧ s2.holder 0 = some t) ∧ ∀ w, 1 ≤ w → w ≤ 65 → s2.words w ≠ 0 → s2.words w = s1.words w ∧ s2.holder w = s1.holder w := by
    intro s1 s2 a r1 l1 e1 ha hst
    have hz : s1.words 0 ≠ 0 := by rw [e1.1]; exact (hp t).1
    refine ⟨?_, ?_⟩
    · by_cases hch : s2.words 0 ≠ s1.words 0 ∨ s2.holder 0 ≠ s1.holder 0
      · obtain ⟨u, h1, -, h2 | h2⟩ := C16_only_dead_robbed_partial hp hro hi r1 hst hz hch
        · rw [e1.2] at h1; injection h1 with h1; subst h1; exact absurd h2.1 ha
        · rw [e1.2] at h1; injection h1 with h1; subst h1; rw [l1] at h2; cases h2
      · have h3 : s2.words 0 = s1.words 0 := Classical.byContradiction fun h => hch (Or.inl h)
        have h4 : s2.holder 0 = s1.holder 0 := Classical.byContradiction fun h => hch (Or.inr h)
        exact ⟨h3.trans e1.1, h4.trans e1.2⟩
    · intro w hw1 hw2 hne
      by_cases hw0 : s1.words w = 0
      · obtain ⟨u, h1, -, h2, -⟩ := slot_entry hp hro hi r1 hst ⟨hw1, hw2⟩ hw0 hne
        rw [e1.2] at h2; injection h2 with h2; subst h2
        exact absurd h1 ha
      · by_cases hch : s2.words w ≠ s1.words w ∨ s2.holder w ≠ s1.holder w
        · exfalso
          obtain ⟨u, h1, h2, h3⟩ := C16_only_dead_robbed_partial hp hro hi r1 hst hw0 hch
          exact slot_changes_to_zero hp hro hi r1 hst ⟨hw1, hw2⟩ hw0 hch hne
        · exact ⟨Classical.byContradiction fun h => hch (Or.inl h), Classical.byContradiction fun h => hch (Or.inr h)⟩
  have main : Reach pid s0 s' ∧ s'.alive (pid t) = true ∧ (s'.words 0 = pid t ∧ s'.holder 0 = some t) ∧
      ∀ w, 1 ≤ w → w ≤ 65 → s'.words w ≠ 0 → s'.words w = s.words w ∧ s'.holder w = s.holder w := by
    induction hs with
    | refl => exact ⟨hr, hl, h0, fun w _ _ _ => ⟨rfl, rfl⟩⟩
    | @step s1 s2 u h1 hu hst ih =>
      obtain ⟨i1, i2, i3, i4⟩ := ih
      obtain ⟨k1, k2⟩ := key i1 i2 i3 (by intro h; injection h with h; exact hu h) hst
      refine ⟨.step i1 hst, ?_, k1, ?_⟩
      · rw [step_alive hst]; exact i2
      · intro w a b c
        obtain ⟨e1, e2⟩ := k2 w a b c
        obtain ⟨e3, e4⟩ := i4 w a b (by rw [← e1]; exact c)
        exact ⟨e1.trans e3, e2.trans e4⟩
    | @die s1 s2 h1 hst hal ih =>
      obtain ⟨i1, i2, i3, i4⟩ := ih
      obtain ⟨k1, k2⟩ := key i1 i2 i3 (by intro h; cases h) hst
      refine ⟨.step i1 hst, hal, k1, ?_⟩
      intro w a b c
      obtain ⟨e1, e2⟩ := k2 w a b c
      obtain ⟨e3, e4⟩ := i4 w a b (by rw [← e1]; exact c)
      exact ⟨e1.trans e3, e2.trans e4⟩
  exact ⟨main.2.2.1, main.2.2.2⟩

/-! ### a reader that waits for one particular reader -/

/-- a thread that waits for a slot held by a live process goes on waiting while the holder does not move -/
theorem stuck {w F : Nat} {f : Bool → LProg K Unit} : ∀ {n : Nat} {s : St K}, n ≤ 3 * F → s.th t = (readerRelease w F).bind f → s.words w ≠ 0 → s.alive (s.words w % 2 ^ 18) = true →
    ∃ s', soloN t n s = some s' ∧ s'.st = s.st ∧ s'.words = s.words ∧ s'.log = s.log := by
  induction F with
  | zero => intro n s hn _ _ _; have : n = 0 := by omega
            subst this; exact ⟨s, rfl, rfl, rfl, rfl⟩
  | succ F ih =>
    intro n s hn hth hw hal
    have e1 : solo t s = some (s.goto t ((if s.words w = 0 then (.ret false : LProg K Bool) else (L.wait w (s.words w)).bind fun woken =>
        if woken then readerRelease w F else (L.running (s.words w)).bind fun live => if live then readerRelease w F
          else (L.cas w (s.words w) 0).bind fun c => if c.1 then .ret true else readerRelease w F).bind f)) := by
      unfold solo; rw [hth]; rfl
    rw [if_neg hw] at e1
    generalize e : s.goto t _ = s1 at e1
    have e2 : solo t s1 = some (s1.goto t ((if decide (s1.words w ≠ s.words w) then readerRelease w F else (L.running (s.words w)).bind fun live => if live then readerRelease w F
          else (L.cas w (s.words w) 0).bind fun c => if c.1 then .ret true else readerRelease w F).bind f)) := by
      subst e; unfold solo; simp only [St.goto, fset_same]; rfl
    have hw1 : s1.words = s.words := by subst e; rfl
    rw [hw1, decide_eq_false (by simp)] at e2
    simp only [Bool.false_eq_true, if_false] at e2
    generalize e' : s1.goto t _ = s2 at e2
    have hw2 : s2.words = s.words := by subst e'; exact hw1
    have ha2 : s2.alive = s.alive := by subst e'; subst e; rfl
    have e3 : solo t s2 = some (s2.goto t ((if s2.alive (s.words w % 2 ^ 18) then readerRelease w F
          else (L.cas w (s.words w) 0).bind fun c => if c.1 then .ret true else readerRelease w F).bind f)) := by
      subst e'; unfold solo; simp only [St.goto, fset_same]; rfl
    rw [ha2, hal] at e3
    simp only [if_true] at e3
    generalize e'' : s2.goto t _ = s3 at e3
    match n, hn with
    | 0, _ => exact ⟨s, rfl, rfl, rfl, rfl⟩
    | 1, _ => exact ⟨s1, by simp only [soloN, e1]; rfl, by subst e; rfl, hw1, by subst e; rfl⟩
    | 2, _ => exact ⟨s2, by simp only [soloN, e1, e2, Option.bind], by subst e'; subst e; rfl, hw2, by subst e'; subst e; rfl⟩
    | n + 3, hn =>
      obtain ⟨s', h1, h2, h3, h4⟩ := ih (n := n) (s := s3) (by omega) (by subst e''; exact fset_same _ _ _) (by subst e''; show s2.words w ≠ 0; rw [hw2]; exact hw)
        (by subst e''; show s2.alive (s2.words w % 2 ^ 18) = true; rw [hw2, ha2]; exact hal)
      refine ⟨s', by simp only [soloN, e1, e2, e3, Option.bind]; exact h1, h2.trans ?_, h3.trans ?_, h4.trans ?_⟩
      · subst e''; subst e'; subst e; rfl
      · subst e''; exact hw2
      · subst e''; subst e'; subst e; rfl

/-- 66 readers and a writer; there are 65 slots -/
def crowdProg (t : Nat) : List (Session tiny) := if t < 66 then [.read (.ret (0 : Nat)) get] else if t = 66 then [.write (.ret (0 : Nat)) inc] else []
def crowdPid (t : Nat) : Nat := t % 1000 + 1
def crowdInit (F : Nat) : St tiny :=
  ⟨fun _ => 0, fun _ => true, (0 : Nat), [], fun t => thread F (crowdPid t) (crowdProg t), fun _ => none, fun _ => none, fun _ => 0⟩

theorem crowdInit_init (F : Nat) : Init crowdPid F crowdProg (0 : Nat) (crowdInit F) := ⟨fun _ => rfl, rfl, rfl, fun _ => rfl, fun _ => rfl, fun _ => rfl, fun _ => rfl⟩

theorem crowdPid_ok : PidsOk crowdPid := by
  intro t
  have := Nat.mod_lt t (show 1000 > 0 by omega)
  unfold crowdPid
  exact ⟨by omega, Nat.lt_of_lt_of_le (show t % 1000 + 1 < 1001 by omega) (by decide)⟩

theorem crowd_readOnly : ReadOnly crowdProg := by
  intro t s hs
  unfold crowdProg at hs
  split at hs
  · simp only [List.mem_cons, List.not_mem_nil, or_false] at hs; subst hs
    exact ⟨fun m => rfl, fun _ => trivial⟩
  · split at hs
    · simp only [List.mem_cons, List.not_mem_nil, or_false] at hs; subst hs
      trivial
    · simp at hs

/-- what a reader does once it is inside -/
def onward (F i : Nat) : LProg tiny Unit :=
  (embed get get).bind fun _ => (destroy (i + 1) ⟨some i, 0⟩).bind fun _ => (.step .idle .ret : LProg tiny Unit).bind fun _ => thread F (i + 1) []

/-- the first `k` readers are inside -/
structure Crowd (F k : Nat) (s : St tiny) : Prop where
  reach : Reach crowdPid (crowdInit F) s
  alive : ∀ p, s.alive p = true
  zero : s.words 0 = 0
  full : ∀ i, i < k → s.words (i + 1) = i + 1
  free : ∀ i, k ≤ i → s.words (i + 1) = 0
  inn : ∀ i, i < k → s.th i = onward F i
  out : ∀ i, k ≤ i → s.th i = thread F (crowdPid i) (crowdProg i)
  st : ∀ i, k ≤ i → s.st i = none
  log : s.log = []
  sec : ∀ i, i < k → s.st i = some .read

theorem crowd (F : Nat) : ∀ k, k ≤ 65 → ∃ s, Crowd (F + 1) k s := by
  intro k
  induction k with
  | zero => exact fun _ => ⟨crowdInit (F + 1), .refl, fun _ => rfl, rfl, fun i h => absurd h (by omega), fun _ _ => rfl, fun i h => absurd h (by omega), fun _ _ => rfl, fun _ _ => rfl, rfl, fun i h => absurd h (by omega)⟩
  | succ k ih =>
    intro hk
    obtain ⟨s, h⟩ := ih (by omega)
    have hpid : crowdPid k = k + 1 := by unfold crowdPid; omega
    have hth : s.th k = (guardRead true (F + 1) (k + 1) (F + 1)).bind fun g => ((if g.stolen ≠ 0 then
        (section_ (.write g.stolen) (.ret (0 : Nat) : Body tiny)).bind fun _ =>
          (L.enter .read get).bind fun _ => (downgrade (k + 1) g).bind fun g => (embed get get).bind fun _ => destroy (k + 1) g
      else (section_ .read get).bind fun _ => destroy (k + 1) g)).bind fun _ => (.step .idle .ret : LProg tiny Unit).bind fun _ => thread (F + 1) (k + 1) [] := by
      rw [h.out k (Nat.le_refl _), hpid]
      unfold crowdProg
      rw [if_pos (by omega)]
      show (Prog.bind (Prog.bind _ _) _) = _
      rw [Prog.bind_assoc]
    obtain ⟨n, a, s1, h1, h2, ⟨-, h4, x, h5, h6, h7, h8, h9⟩, e1, e2, e3, e4⟩ :=
      lone_run (guardRead_open (al := s.alive) true F F (Or.inl h.zero) (w := k + 1) ⟨by omega, by omega⟩ (h.free k (Nat.le_refl _))) hth
    have hx : x = k := by
      apply Nat.le_antisymm
      · apply Nat.le_of_not_lt
        intro hlt; exact h8 k hlt (h.free k (Nat.le_refl _))
      · apply Nat.le_of_not_lt
        intro hlt; rw [h.full x hlt] at h7; omega
    subst hx
    have ha : a = ⟨some x, 0⟩ := by cases a; simp only at h4 h5; rw [h4, h5, h.zero]
    subst ha
    obtain ⟨r1, r2⟩ := soloN_reach (pid := crowdPid) (by rw [h.alive]) h.reach h1
    have h2' : s1.th x = .step (.enter .read get) fun _ => onward (F + 1) x := by
      rw [h2]
      simp only [ne_eq, not_true, if_false]
      unfold onward section_
      simp only [Prog.bind_assoc]
      rfl
    refine ⟨_, .step r1 (.enter (pid := crowdPid) (t := x) (by rw [r2]; exact h.alive _) h2'), ?_, ?_, ?_, ?_, ?_, ?_, ?_, ?_, ?_⟩
    · intro p; show s1.alive p = true; rw [r2]; exact h.alive p
    · show s1.words 0 = 0; rw [h9, fset_ne _ _ (by omega), fset_same]
    · intro i hi
      show s1.words (i + 1) = i + 1
      rw [h9]
      by_cases e : i = x
      · subst e; rw [fset_same]
      · rw [fset_ne _ _ (by omega), fset_ne _ _ (by omega)]; exact h.full i (by omega)
    · intro i hi
      show s1.words (i + 1) = 0
      rw [h9, fset_ne _ _ (by omega), fset_ne _ _ (by omega)]; exact h.free i (by omega)
    · intro i hi
      show fset s1.th x _ i = _
      by_cases e : i = x
      · subst e; rw [fset_same]
      · rw [fset_ne _ _ e, e4 i e]; exact h.inn i (by omega)
    · intro i hi
      show fset s1.th x _ i = _
      rw [fset_ne _ _ (by omega), e4 i (by omega)]; exact h.out i (by omega)
    · intro i hi
      show fset s1.st x _ i = none
      rw [fset_ne _ _ (by omega), e1]; exact h.st i (by omega)
    · show s1.log = []; rw [e3]; exact h.log
    · intro i hi
      show fset s1.st x _ i = some .read
      by_cases e : i = x
      · subst e; rw [fset_same]
      · rw [fset_ne _ _ e, e1]; exact h.sec i (by omega)

/-- the hypotheses of `C77_reader_enters_partial` are met with 64 live readers inside: the 65th gets in -/
example (F : Nat) : ∃ s s' n, Reach crowdPid (crowdInit (F + 1)) s ∧ (∀ i, i < 64 → s.words (i + 1) = i + 1 ∧ s.alive (i + 1) = true) ∧
    n ≤ 79 ∧ soloN 64 n s = some s' ∧ s'.words 65 = 65 := by
  obtain ⟨s, h⟩ := crowd F 64 (by omega)
  have hth : s.th 64 = thread (F + 1) (crowdPid 64) [.read (.ret (0 : Nat)) get] := by
    rw [h.out 64 (Nat.le_refl _)]; unfold crowdProg; rw [if_pos (by omega)]
  obtain ⟨f, hf⟩ : ∃ f : Guard → LProg tiny Unit, s.th 64 = (guardRead true (F + 1) (crowdPid 64) (F + 1)).bind f := by
    refine ⟨fun g => ((if g.stolen ≠ 0 then
        (section_ (.write g.stolen) (.ret (0 : Nat) : Body tiny)).bind fun _ =>
          (L.enter .read get).bind fun _ => (downgrade 65 g).bind fun g => (embed get get).bind fun _ => destroy 65 g
      else (section_ .read get).bind fun _ => destroy 65 g)).bind fun _ => (.step .idle .ret : LProg tiny Unit).bind fun _ => thread (F + 1) 65 [], ?_⟩
    rw [hth]
    show (Prog.bind (Prog.bind _ _) _) = _
    rw [Prog.bind_assoc]
    rfl
  obtain ⟨n, s', x, h1, h2, -, h4, h5, h6, -, -⟩ := C77_reader_enters_partial crowdPid_ok crowd_readOnly (crowdInit_init (F + 1)) h.reach (Or.inl h.zero)
    (w := 65) ⟨by omega, by omega⟩ (h.free 64 (Nat.le_refl _)) hf
  have hx : x = 64 := by
    apply Classical.byContradiction; intro hne
    rw [h.full x (by omega)] at h5; omega
  subst hx
  exact ⟨s, s', n, h.reach, fun i hi => ⟨h.full i hi, h.alive _⟩, h1, h2, h6⟩

/-- the hypotheses of `C77_writer_waits_partial` are met: with 64 readers inside, the writer takes the write lock, a reader asks for it in vain, and another dies -/
example (F : Nat) : ∃ s s', Reach crowdPid (crowdInit (F + 1)) s ∧ (∀ i, i < 64 → s.words (i + 1) = i + 1) ∧ s.words 65 = 0 ∧
    s.alive (crowdPid 66) = true ∧ s.words 0 = crowdPid 66 ∧ s.holder 0 = some 66 ∧ Others crowdPid 66 s s' ∧ s'.alive 1 = false := by
  obtain ⟨s, h⟩ := crowd F 64 (by omega)
  obtain ⟨k, hk⟩ : ∃ k, s.th 66 = .step (.casWeak 0 0 67) k := by
    rw [h.out 66 (by omega)]; exact ⟨_, rfl⟩
  obtain ⟨k', hk'⟩ : ∃ k', s.th 64 = .step (.casWeak 0 0 65) k' := by
    rw [h.out 64 (by omega)]; exact ⟨_, rfl⟩
  have r1 := h.reach.step (Step.weakOk (pid := crowdPid) (t := 66) (h.alive _) hk h.zero)
  have hk2 : (s.store 66 0 67 (k (true, 0))).th 64 = .step (.casWeak 0 0 65) k' := by
    rw [← hk']; exact fset_ne s.th (a := 66) (x := 64) (k (true, 0)) (by omega)
  refine ⟨_, _, r1, ?_, ?_, h.alive _, ?_, ?_,
    .die (.step .refl (by decide : (64 : Nat) ≠ 66) (Step.weakFail (pid := crowdPid) (t := 64) (h.alive _) hk2)) (Step.die 1) ?_, ?_⟩
  · intro i hi; show fset s.words 0 67 (i + 1) = i + 1; rw [fset_ne _ _ (by omega)]; exact h.full i hi
  · show fset s.words 0 67 65 = 0; rw [fset_ne _ _ (by omega)]; exact h.free 64 (Nat.le_refl _)
  · show fset s.words 0 67 0 = _; rw [fset_same]; rfl
  · show fset s.holder 0 _ 0 = _; rw [fset_same]; rfl
  · show fset s.alive 1 false 67 = true; rw [fset_ne _ _ (by omega)]; exact h.alive _
  · show fset s.alive 1 false 1 = false; rw [fset_same]

/-- **C77 is false as stated**: 65 readers are inside and a 66th finds no slot; a reader leaves, so that there is a free slot and no writer, but the 66th does not get in however long it tries, because it waits for the
reader in slot number pid % 65 (ProcessLock.cc 231-233) to leave.  A reader that comes later is let in at once (`C77_reader_enters_partial`). -/
theorem C77_false (N : Nat) : ∃ F s, Reach crowdPid (crowdInit F) s ∧ s.words 0 = 0 ∧ s.words 1 = 0 ∧ (∀ p, s.alive p = true) ∧
    ∀ n, n ≤ N → ∃ s', soloN 65 n s = some s' ∧ s'.st 65 = none ∧ ∀ e ∈ s'.log, e.1 ≠ 65 := by
  obtain ⟨s, h⟩ := crowd (N + 1) 65 (by omega)
  refine ⟨N + 2, ?_⟩
  obtain ⟨rest, hth⟩ : ∃ rest : Guard → LProg tiny Unit, s.th 65 = (acquire 0 66 (N + 2)).bind fun st => ((if st ≠ 0 ∧ true = true then (drainAll (N + 2) 65 0).bind fun _ => (.ret ⟨none, st⟩ : LProg tiny Guard)
      else (takeSlot 66 65 0).bind fun sl =>
        (release 0 66).bind fun _ =>
          match sl with
          | some x => .ret ⟨some x, st⟩
          | none => (drainAny 66 (N + 2) (N + 2)).bind fun _ => guardRead true (N + 2) 66 (N + 1))).bind rest := by
    refine ⟨fun g => ((if g.stolen ≠ 0 then
        (section_ (.write g.stolen) (.ret (0 : Nat) : Body tiny)).bind fun _ =>
          (L.enter .read get).bind fun _ => (downgrade 66 g).bind fun g => (embed get get).bind fun _ => destroy 66 g
      else (section_ .read get).bind fun _ => destroy 66 g)).bind fun _ => (.step .idle .ret : LProg tiny Unit).bind fun _ => thread (N + 2) 66 [], ?_⟩
    rw [h.out 65 (Nat.le_refl _)]
    show (Prog.bind (Prog.bind (Prog.bind _ _) _) _) = _
    rw [Prog.bind_assoc, Prog.bind_assoc]
    rfl
  -- it takes the write lock, finds no slot, releases the write lock
  obtain ⟨n1, a1, s1, k1, t1, ⟨-, b1, w1⟩, st1, -, l1, o1⟩ := lone_run (acquire_lone (N + 1) (Or.inl h.zero)) hth
  have q1 := soloN_reach (pid := crowdPid) (h.alive _) h.reach k1
  rw [h.zero] at b1
  subst b1
  rw [if_neg (by simp), Prog.bind_assoc] at t1
  obtain ⟨n2, a2, s2, k2, t2, ⟨-, w2⟩, st2, -, l2, o2⟩ := lone_run (takeSlot_lone (al := s1.alive) 65 0 rfl) t1
  have q2 := soloN_reach (pid := crowdPid) (by rw [q1.2]; exact h.alive _) q1.1 k2
  have hfull : ∀ w, 1 ≤ w → w ≤ 65 → s1.words w = w := by
    intro w a b
    obtain ⟨i, rfl⟩ : ∃ i, w = i + 1 := ⟨w - 1, by omega⟩
    rw [w1, fset_ne _ _ (by omega)]; exact h.full i (by omega)
  rcases w2 with ⟨y, -, -, e1, e2, -⟩ | ⟨e1, e2, -⟩
  · rw [hfull (y + 1) (by omega) (by omega)] at e2; omega
  subst e1
  rw [Prog.bind_assoc] at t2
  obtain ⟨n3, a3, s3, k3, t3, ⟨-, w3⟩, st3, -, l3, o3⟩ := lone_run (release_lone (al := s2.alive) (W := s2.words) (w := 0) (by rw [e2, w1, fset_same])) t2
  have q3 := soloN_reach (pid := crowdPid) (by rw [q2.2, q1.2]; exact h.alive _) q2.1 k3
  have hfull3 : ∀ w, 1 ≤ w → w ≤ 65 → s3.words w = w := by
    intro w a b
    rw [w3, fset_ne _ _ (by omega), e2]; exact hfull w a b
  -- it looks for a free slot once more, and then waits for slot 1
  have t3' : s3.th 65 = (anyFree 65 0).bind fun b => (if b then .ret () else (readerRelease (66 % 65 + 1) (N + 2)).bind fun _ => drainAny 66 (N + 2) (N + 1)).bind
      fun _ => (guardRead true (N + 2) 66 (N + 1)).bind rest := by
    have e : drainAny (K := tiny) 66 (N + 2) (N + 2) = (anyFree 65 0).bind fun b => if b then .ret () else (readerRelease (66 % 65 + 1) (N + 2)).bind fun _ => drainAny 66 (N + 2) (N + 1) := rfl
    rw [t3]; show Prog.bind (Prog.bind (drainAny 66 (N + 2) (N + 2)) _) rest = _
    rw [e, Prog.bind_assoc, Prog.bind_assoc]
  obtain ⟨n4, a4, s4, k4, t4, ⟨-, w4, b4⟩, st4, -, l4, o4⟩ := lone_run (anyFree_lone (al := s3.alive) 65 0) t3'
  have q4 := soloN_reach (pid := crowdPid) (by rw [q3.2, q2.2, q1.2]; exact h.alive _) q3.1 k4
  have ha4 : a4 = false := by
    cases a4 with
    | false => rfl
    | true =>
      obtain ⟨w, c1, c2, c3⟩ := b4.1 rfl
      rw [hfull3 w (by omega) (by omega)] at c3; omega
  subst ha4
  simp only [Bool.false_eq_true, if_false] at t4
  rw [Prog.bind_assoc] at t4
  have al4 : ∀ p, s4.alive p = true := by intro p; rw [q4.2, q3.2, q2.2, q1.2]; exact h.alive p
  have lg4 : s4.log = [] := by rw [l4, l3, l2, l1]; exact h.log
  have sx4 : s4.st 65 = none := by rw [st4, st3, st2, st1]; exact h.st 65 (Nat.le_refl _)
  -- reader 0 leaves
  have t0 : s4.th 0 = onward (N + 2) 0 := by rw [o4 0 (by omega), o3 0 (by omega), o2 0 (by omega), o1 0 (by omega)]; exact h.inn 0 (by omega)
  have u1 : s4.th 0 = .step (.acc (0 : Nat)) fun v => .step (.leave get (.ok v)) fun _ => .step (.cas 1 1 0) fun _ => (.step .idle .ret : LProg tiny Unit).bind fun _ => thread (N + 2) 1 [] := t0
  have r5 := q4.1.step (Step.acc (pid := crowdPid) (t := 0) (al4 _) u1)
  generalize g5 : ({ s4.goto 0 _ with mem := _ } : St tiny) = s5 at r5
  have u2 : s5.th 0 = .step (.leave get (.ok (tiny.exec (0 : Nat) s4.mem).1)) fun _ => .step (.cas 1 1 0) fun _ => (.step .idle .ret : LProg tiny Unit).bind fun _ => thread (N + 2) 1 [] := by
    subst g5; simp [St.goto]
  have al5 : ∀ p, s5.alive p = true := by subst g5; exact al4
  have r6 := r5.step (Step.leave (pid := crowdPid) (t := 0) (al5 _) u2)
  generalize g6 : ({ s5.goto 0 _ with st := _, log := _ } : St tiny) = s6 at r6
  have u3 : s6.th 0 = .step (.cas 1 1 0) fun _ => (.step .idle .ret : LProg tiny Unit).bind fun _ => thread (N + 2) 1 [] := by
    subst g6; simp [St.goto]
  have al6 : ∀ p, s6.alive p = true := by subst g6; exact al5
  have w6 : s6.words = s4.words := by subst g6; subst g5; rfl
  have r7 := r6.step (Step.casOk (pid := crowdPid) (t := 0) (al6 _) u3 (by rw [w6, w4]; exact hfull3 1 (by omega) (by omega)))
  refine ⟨_, r7, ?_, ?_, al6, ?_⟩
  · show fset s6.words 1 0 0 = 0
    rw [fset_ne _ _ (by omega), w6, w4, w3, fset_same]
  · show fset s6.words 1 0 1 = 0; rw [fset_same]
  · intro n hn
    have hlog : ∀ e ∈ s6.log, e.1 ≠ 65 := by
      intro e he
      subst g6; subst g5
      have : e ∈ s4.log ++ [_] := he
      rw [lg4, List.nil_append, List.mem_singleton] at this
      subst this
      show (0 : Nat) ≠ 65
      omega
    have hw2 : (s6.store 0 1 0 ((.step .idle .ret : LProg tiny Unit).bind fun _ => thread (N + 2) 1 [])).words 2 = 2 := by
      show fset s6.words 1 0 2 = 2
      rw [fset_ne _ _ (by omega), w6, w4]; exact hfull3 2 (by omega) (by omega)
    have hth7 : (s6.store 0 1 0 ((.step .idle .ret : LProg tiny Unit).bind fun _ => thread (N + 2) 1 [])).th 65 =
        (readerRelease (66 % 65 + 1) (N + 2)).bind fun _ => (drainAny 66 (N + 2) (N + 1)).bind fun _ => (guardRead true (N + 2) 66 (N + 1)).bind rest := by
      rw [← t4]
      subst g6; subst g5
      simp [St.store, St.goto, fset]
    obtain ⟨s', h1, h2, h3, h4⟩ := stuck (n := n) (by omega) hth7
      (by show (s6.store 0 1 0 _).words 2 ≠ 0; rw [hw2]; omega) (al6 _)
    refine ⟨s', h1, ?_, ?_⟩
    · rw [h2]
      show s6.st 65 = none
      subst g6; subst g5
      simpa [St.goto, fset] using sx4
    · rw [h4]; exact hlog

end Verif.Lock
