import Verif.Observe
import Mathlib.Data.List.Nodup
import Mathlib.Data.List.Perm.Subperm
/-
C82: what `is_locked` and `reader_count` tell about a lock that others are using meanwhile.
-/
namespace Verif.Lock
open Verif
variable {K : Mach} {pid : Nat → Nat} {fuel : Nat} {prog : Nat → List (Session K)} {m0 : K.M} {s0 s s' : St K} {t : Nat}

/-- a live thread inside a write section has its token in the write lock -/
theorem writer_word (hp : PidsOk pid) (hro : ReadOnly prog) (hi : Init pid fuel prog m0 s0) (hr : Reach pid s0 s) {n : Nat} (h : s.inside pid t (.write n)) :
    s.words 0 = pid t := by
  obtain ⟨G, mc, d, h1, -⟩ := reach_inv hp hro hi hr
  have e1 := h1.sec t h.1
  rw [h.2] at e1
  obtain ⟨⟨k1, b1, r1⟩, h3, h4⟩ := Option.map_eq_some_iff.1 e1.symm
  simp only at h4
  subst h4
  have := h1.ok h.1
  unfold Ghost.ok at this
  rw [h3] at this
  exact (h1.own t h.1 0 this.1).1

/-- a live thread inside a section of a ProcessLock has its token in it -/
theorem mutex_word (hp : PidsOk pid) (hro : ReadOnly prog) (hi : Init pid fuel prog m0 s0) (hr : Reach pid s0 s) {w : Nat} (h : s.inside pid t (.mutex w)) :
    s.words w = pid t := by
  obtain ⟨G, mc, d, h1, -⟩ := reach_inv hp hro hi hr
  have e1 := h1.sec t h.1
  rw [h.2] at e1
  obtain ⟨⟨k1, b1, r1⟩, h3, h4⟩ := Option.map_eq_some_iff.1 e1.symm
  simp only at h4
  subst h4
  have := h1.ok h.1
  unfold Ghost.ok at this
  rw [h3] at this
  exact (h1.own t h.1 w this.1).1

/-- a live thread is a reader: inside a read section, and it does not (any more) hold the write lock -/
def St.reader (s : St K) (pid : Nat → Nat) (t : Nat) : Prop := s.inside pid t .read ∧ s.holder 0 ≠ some t

/-- a reader has its token in a reader slot -/
theorem reader_slot (hp : PidsOk pid) (hro : ReadOnly prog) (hi : Init pid fuel prog m0 s0) (hr : Reach pid s0 s) (h : s.reader pid t) :
    ∃ w, slot w ∧ s.words w = pid t ∧ s.holder w = some t := by
  obtain ⟨h, h0⟩ := h
  obtain ⟨G, mc, d, h1, -⟩ := reach_inv hp hro hi hr
  have e1 := h1.sec t h.1
  rw [h.2] at e1
  obtain ⟨⟨k1, b1, r1⟩, h3, h4⟩ := Option.map_eq_some_iff.1 e1.symm
  simp only at h4
  subst h4
  have := h1.ok h.1
  unfold Ghost.ok at this
  rw [h3] at this
  obtain ⟨-, -, ⟨h5, -⟩ | ⟨w, h5, h6⟩⟩ := this
  · exact absurd (h1.own t h.1 0 h5).2 h0
  · exact ⟨w, h5, h1.own t h.1 w h6⟩

/-- a reader that does not hold the write lock takes no further slot: the slots it has after a step it had before -/
theorem slot_before (hp : PidsOk pid) (hro : ReadOnly prog) (hi : Init pid fuel prog m0 s0) (hr : Reach pid s0 s) {a : Option Nat} (hst : Step pid a s s')
    (h0 : s.holder 0 ≠ some t) {w : Nat} (hw : slot w) (hh : s'.holder w = some t) : s.holder w = some t := by
  obtain ⟨G, mc, d, hl, -⟩ := reach_inv hp hro hi hr
  cases hst with
  | @casOk _ u x e v k hu hth he =>
    by_cases ex : w = x
    · subst ex
      have hh' : (if v = 0 then none else some u) = some t := by
        have : fset s.holder w (if v = 0 then none else some u) w = some t := hh
        rwa [fset_same] at this
      have hv : v ≠ 0 := by intro hv; rw [if_pos hv] at hh'; cases hh'
      rw [if_neg hv] at hh'
      injection hh' with hh'
      subst hh'
      have e1 := hl.lwp u hu
      rw [hth] at e1
      have hcan := hl.can hu w
      rw [he] at hcan
      rcases e1.2.1 hcan with ⟨-, -, h4⟩ | ⟨h4, -⟩
      · exact absurd (hl.own u hu 0 (h4 hw).1).2 h0
      · exact absurd h4 hv
    · have : fset s.holder x (if v = 0 then none else some u) w = some t := hh
      rwa [fset_ne _ _ ex] at this
  | @weakOk _ u x e v k hu hth he =>
    have e1 := hl.lwp u hu
    rw [hth] at e1
    have hx : w ≠ x := fun ex => e1.2.2.2.1 (ex ▸ hw)
    have : fset s.holder x (if v = 0 then none else some u) w = some t := hh
    rwa [fset_ne _ _ hx] at this
  | _ => exact hh

/-- a thread that is a reader throughout an observation has one slot throughout -/
theorem slot_throughout (hp : PidsOk pid) (hro : ReadOnly prog) (hi : Init pid fuel prog m0 s0) {ss : List (St K)} (hr : Reach pid s0 s) (hpath : Path pid (s :: ss))
    (h : ∀ x ∈ s :: ss, x.reader pid t) : ∃ w, slot w ∧ ∀ x ∈ s :: ss, x.words w = pid t ∧ x.holder w = some t := by
  have own : ∀ {x : St K} {w : Nat}, Reach pid s0 x → x.reader pid t → x.holder w = some t → x.words w = pid t := by
    intro x w hx hrd hh
    obtain ⟨G, mc, d, hl, -⟩ := reach_inv hp hro hi hx
    exact (hl.own t hrd.1.1 w (hl.exact t hrd.1.1 w hh)).1
  induction ss generalizing s with
  | nil =>
    obtain ⟨w, h1, h2⟩ := reader_slot hp hro hi hr (h s (List.mem_cons_self ..))
    refine ⟨w, h1, fun x hx => ?_⟩
    rcases List.mem_singleton.1 hx with rfl
    exact h2
  | cons s1 ss ih =>
    cases hpath with
    | cons hs hpath =>
      obtain ⟨w, h1, h2⟩ := ih (.step hr hs) hpath (fun x hx => h x (List.mem_cons_of_mem _ hx))
      refine ⟨w, h1, fun x hx => ?_⟩
      rcases List.mem_cons.1 hx with rfl | hx
      · have hrd := h x (List.mem_cons_self ..)
        have := slot_before hp hro hi hr hs hrd.2 h1 (h2 s1 (List.mem_cons_self ..)).2
        exact ⟨own hr hrd this, this⟩
      · exact h2 x hx

theorem length_le_of_inj {T : List Nat} (hT : T.Nodup) {f : Nat → Nat} {l : List Nat} (hf : ∀ t ∈ T, f t ∈ l) (hinj : ∀ t ∈ T, ∀ u ∈ T, f t = f u → t = u) :
    T.length ≤ l.length := by
  have h1 : (T.map f).Nodup := by
    rw [List.nodup_map_iff_inj_on hT]
    exact hinj
  have h2 : (T.map f) ⊆ l := by
    intro y hy
    obtain ⟨t, h3, rfl⟩ := List.mem_map.1 hy
    exact hf t h3
  have := (List.subperm_of_subset h1 h2).length_le
  rwa [List.length_map] at this

/-- **C82.** `reader_count()` counts every thread that is a reader throughout the call, whatever other readers and writers do meanwhile, and never reports more than 65. -/
theorem C82_reader_count_partial (hp : PidsOk pid) (hro : ReadOnly prog) (hi : Init pid fuel prog m0 s0) (hr : Reach pid s0 s) {ss : List (St K)} {n : Nat}
    (hw : Watch pid readerCount (s :: ss) n) {T : List Nat} (hT : T.Nodup) (hrd : ∀ t ∈ T, ∀ x ∈ s :: ss, x.reader pid t) : T.length ≤ n ∧ n ≤ 65 := by
  obtain ⟨f, h1, h2⟩ := Watch.count hw
  refine ⟨?_, ?_⟩
  · have hx : ∀ t, ∃ w, t ∈ T → slot w ∧ ∀ x ∈ s :: ss, x.words w = pid t ∧ x.holder w = some t := by
      intro t
      by_cases ht : t ∈ T
      · obtain ⟨w, h⟩ := slot_throughout hp hro hi hr hw.path (hrd t ht)
        exact ⟨w, fun _ => h⟩
      · exact ⟨0, fun h => absurd h ht⟩
    obtain ⟨g, hg⟩ := Classical.axiomOfChoice hx
    rw [h2, Nat.zero_add]
    refine length_le_of_inj hT (f := fun t => g t - 1) ?_ ?_
    · intro t ht
      obtain ⟨⟨h3, h4⟩, h5⟩ := hg t ht
      rw [List.mem_filter]
      refine ⟨List.mem_range'_1.2 ⟨by omega, by omega⟩, ?_⟩
      have h6 := (h5 (f (g t - 1)) (h1 _ (by omega) (by omega))).1
      have e : g t - 1 + 1 = g t := by omega
      rw [e, h6]
      exact decide_eq_true (hp t).1
    · intro t ht u hu e
      obtain ⟨⟨h3, h4⟩, h5⟩ := hg t ht
      obtain ⟨⟨h6, h7⟩, h8⟩ := hg u hu
      have e : g t = g u := by omega
      have a := (h5 s (List.mem_cons_self ..)).2
      have b := (h8 s (List.mem_cons_self ..)).2
      rw [e, b] at a
      injection a with a
      exact a.symm
  · rw [h2, Nat.zero_add]
    have := List.length_filter_le (fun i => decide ((f i).words (i + 1) ≠ 0)) (List.range' 0 65)
    rwa [List.length_range'] at this

/-- **C82.** Every reader that `reader_count()` counts was there: with the answer `n` there are `n` different slots, each of which held, in some state during the call, the token of a thread that had put it there. -/
theorem C82_counted_partial (hp : PidsOk pid) (hro : ReadOnly prog) (hi : Init pid fuel prog m0 s0) (hr : Reach pid s0 s) {ss : List (St K)} {n : Nat}
    (hw : Watch pid readerCount (s :: ss) n) : ∃ l : List Nat, l.Nodup ∧ l.length = n ∧
      ∀ w ∈ l, 1 ≤ w ∧ w ≤ 65 ∧ ∃ x ∈ s :: ss, ∃ t, x.holder w = some t ∧ x.words w = pid t := by
  obtain ⟨f, h1, h2⟩ := Watch.count hw
  refine ⟨((List.range' 0 65).filter fun i => (f i).words (i + 1) ≠ 0).map (· + 1), ?_, ?_, ?_⟩
  · refine List.Nodup.map (fun a b h => by simpa using h) (List.Nodup.filter _ List.nodup_range')
  · rw [List.length_map, h2, Nat.zero_add]
  · intro w hw'
    obtain ⟨i, h3, rfl⟩ := List.mem_map.1 hw'
    obtain ⟨h4, h5⟩ := List.mem_filter.1 h3
    have h6 := List.mem_range'_1.1 h4
    have h7 := h1 i h6.1 h6.2
    exact ⟨by omega, by omega, f i, h7, holder_word hp hro hi (hw.path.reach hr _ h7) (of_decide_eq_true h5)⟩

/-- **C82.** While no lock word changes, `reader_count()` is exactly the number of slots that hold a token. -/
theorem C82_count_exact {ss : List (St K)} {n : Nat} (hw : Watch pid readerCount (s :: ss) n) (hq : ∀ x ∈ s :: ss, ∀ w, 1 ≤ w → w ≤ 65 → x.words w = s.words w) :
    n = ((List.range' 1 65).filter fun w => s.words w ≠ 0).length := by
  obtain ⟨f, h1, h2⟩ := Watch.count hw
  rw [h2, Nat.zero_add]
  have e : List.range' 1 65 = (List.range' 0 65).map (· + 1) := by decide
  rw [e, List.filter_map, List.length_map]
  congr 1
  apply List.filter_congr
  intro i hi'
  have := List.mem_range'_1.1 hi'
  simp only [Function.comp_apply]
  rw [hq (f i) (h1 i this.1 this.2) (i + 1) (by omega) (by omega)]

/-- **C82.** `is_locked(true)` answers yes whenever some thread is inside a write section throughout the call - in particular always to the writer itself, as the assertions of
LogarithmicAllocator.cc 104, 326 want -, and when it answers no there was a moment during the call at which no live thread was inside a write section.  When it answers yes, there was a moment
at which the write lock had the token of the thread that had taken it last. -/
theorem C82_write_locked_partial (hp : PidsOk pid) (hro : ReadOnly prog) (hi : Init pid fuel prog m0 s0) (hr : Reach pid s0 s) {ss : List (St K)} {b : Bool}
    (hw : Watch pid (isLocked true) (s :: ss) b) :
    ((∀ x ∈ s :: ss, ∃ t n, x.inside pid t (.write n)) → b = true) ∧
    (b = false → ∃ x ∈ s :: ss, ∀ t n, ¬ x.inside pid t (.write n)) ∧
    (b = true → ∃ x ∈ s :: ss, ∃ t, x.holder 0 = some t ∧ x.words 0 = pid t) := by
  obtain ⟨pre, x, post, e, h⟩ := Watch.load_inv (k := fun v => (.ret (decide (v ≠ 0)) : LProg K Bool)) hw
  have hb := h.ret_inv
  have hx : x ∈ s :: ss := by rw [e]; simp
  have hrx := hw.path.reach hr x hx
  have hin : ∀ t n, x.inside pid t (.write n) → x.words 0 ≠ 0 := fun t n h => by rw [writer_word hp hro hi hrx h]; exact (hp t).1
  refine ⟨fun hall => ?_, fun hf => ⟨x, hx, fun t n h => ?_⟩, fun ht => ⟨x, hx, ?_⟩⟩
  · obtain ⟨t, n, h⟩ := hall x hx
    rw [hb]; exact decide_eq_true (hin t n h)
  · rw [hb] at hf; exact of_decide_eq_false hf (hin t n h)
  · rw [hb] at ht; exact holder_word hp hro hi hrx (of_decide_eq_true ht)

/-- **C82.** `is_locked(false)` answers yes whenever some thread is a reader throughout the call; when it answers yes some slot had, at some moment during the call, the token of the thread that took it. -/
theorem C82_read_locked_partial (hp : PidsOk pid) (hro : ReadOnly prog) (hi : Init pid fuel prog m0 s0) (hr : Reach pid s0 s) {ss : List (St K)} {b : Bool}
    (hw : Watch pid (isLocked false) (s :: ss) b) :
    (∀ t, (∀ x ∈ s :: ss, x.reader pid t) → b = true) ∧
    (b = true → ∃ x ∈ s :: ss, ∃ w t, 1 ≤ w ∧ w ≤ 65 ∧ x.holder w = some t ∧ x.words w = pid t) := by
  refine ⟨fun t h => ?_, fun hb => ?_⟩
  · obtain ⟨w, ⟨h1, h2⟩, h3⟩ := slot_throughout hp hro hi hr hw.path h
    cases b with
    | true => rfl
    | false =>
      obtain ⟨y, h4, h5⟩ := Watch.none_taken (n := 65) (x := 0) hw (w - 1) (by omega) (by omega)
      rw [show w - 1 + 1 = w by omega, (h3 y h4).1] at h5
      exact absurd h5 (hp t).1
  · subst hb
    obtain ⟨i, h1, h2, y, h3, h4⟩ := Watch.one_taken (n := 65) (x := 0) hw
    obtain ⟨t, h5⟩ := holder_word hp hro hi (hw.path.reach hr y h3) h4
    exact ⟨y, h3, i + 1, t, by omega, by omega, h5⟩

/-- **C82.** `ProcessLock::is_locked()` answers yes whenever some thread is inside the section of that lock throughout the call, and no only if at some moment during the call nobody alive was. -/
theorem C82_mutex_locked_partial (hp : PidsOk pid) (hro : ReadOnly prog) (hi : Init pid fuel prog m0 s0) (hr : Reach pid s0 s) {ss : List (St K)} {b : Bool} {w : Nat}
    (hw : Watch pid (mutexIsLocked w) (s :: ss) b) :
    ((∀ x ∈ s :: ss, ∃ t, x.inside pid t (.mutex (w + 66))) → b = true) ∧
    (b = false → ∃ x ∈ s :: ss, ∀ t, ¬ x.inside pid t (.mutex (w + 66))) := by
  obtain ⟨pre, x, post, e, h⟩ := Watch.load_inv (k := fun v => (.ret (decide (v ≠ 0)) : LProg K Bool)) hw
  have hb := h.ret_inv
  have hx : x ∈ s :: ss := by rw [e]; simp
  have hrx := hw.path.reach hr x hx
  have hin : ∀ t, x.inside pid t (.mutex (w + 66)) → x.words (w + 66) ≠ 0 := fun t h => by rw [mutex_word hp hro hi hrx h]; exact (hp t).1
  refine ⟨fun hall => ?_, fun hf => ⟨x, hx, fun t h => ?_⟩⟩
  · obtain ⟨t, h⟩ := hall x hx
    rw [hb]; exact decide_eq_true (hin t h)
  · rw [hb] at hf; exact of_decide_eq_false hf (hin t h)

/-! ### examples, and what the observers do not tell -/

/-- an observation during which nothing happens -/
theorem watch_still (s : St K) : ∀ n x c, ∃ r, Watch pid (countFrom n x c) [s] r := by
  intro n
  induction n with
  | zero => exact fun x c => ⟨c, .ret⟩
  | succ n ih =>
    intro x c
    obtain ⟨r, h⟩ := ih (x + 1) (c + if s.words (x + 1) ≠ 0 then 1 else 0)
    exact ⟨r, Watch.load (k := fun v => countFrom n (x + 1) (c + if v ≠ 0 then 1 else 0)) h⟩

theorem Crowd.reader {F k : Nat} {s : St tiny} (h : Crowd F k s) {i : Nat} (hi : i < k) : s.reader crowdPid i := by
  refine ⟨⟨h.alive _, h.sec i hi⟩, fun e => ?_⟩
  obtain ⟨G, mc, d, hl, -⟩ := reach_inv crowdPid_ok crowd_readOnly (crowdInit_init F) h.reach
  have := (hl.own i (h.alive _) 0 (hl.exact i (h.alive _) 0 e)).1
  rw [h.zero] at this
  exact (crowdPid_ok i).1 this.symm

/-- The hypotheses of `C82_reader_count_partial` are met: with 3 readers inside, `reader_count()` is called, a writer takes the write lock during the call, and the answer is at least 3. -/
example (F : Nat) : ∃ s s1 n, Reach crowdPid (crowdInit (F + 1)) s ∧ Watch crowdPid readerCount [s, s1] n ∧ s1.words 0 = 67 ∧
    (∀ t ∈ [0, 1, 2], ∀ x ∈ [s, s1], x.reader crowdPid t) ∧ 3 ≤ n := by
  obtain ⟨s, h⟩ := crowd F 3 (by omega)
  obtain ⟨k, hk⟩ : ∃ k, s.th 66 = .step (.casWeak 0 0 67) k := by
    rw [h.out 66 (by omega)]; exact ⟨_, rfl⟩
  have st := Step.weakOk (pid := crowdPid) (t := 66) (h.alive _) hk h.zero
  obtain ⟨n, hn⟩ := watch_still (pid := crowdPid) (s.store 66 0 67 (k (true, 0))) 65 0 0
  have hw : Watch crowdPid readerCount [s, s.store 66 0 67 (k (true, 0))] n := .env st hn
  have hrd : ∀ t ∈ [0, 1, 2], ∀ x ∈ [s, s.store 66 0 67 (k (true, 0))], x.reader crowdPid t := by
    intro t ht x hx
    have ht3 : t < 3 := by
      simp only [List.mem_cons, List.not_mem_nil, or_false] at ht; omega
    simp only [List.mem_cons, List.not_mem_nil, or_false] at hx
    rcases hx with rfl | rfl
    · exact h.reader ht3
    · refine ⟨(h.reader ht3).1, ?_⟩
      show fset s.holder 0 _ 0 ≠ some t
      rw [fset_same]
      intro e
      have e : some 66 = some t := e
      injection e with e
      omega
  have := C82_reader_count_partial crowdPid_ok crowd_readOnly (crowdInit_init (F + 1)) h.reach hw (T := [0, 1, 2]) (by decide) hrd
  exact ⟨s, _, n, h.reach, hw, by show fset s.words 0 67 0 = 67; rw [fset_same], hrd, this.1⟩

/-- **C82 is false of dead readers**: a reader that dies is counted (and `is_locked(false)` stays true) as long as no writer, and no reader that finds all slots taken, comes along: here
`reader_count()` answers at least 1 although no live thread is inside any section. -/
theorem C82_false (F : Nat) : ∃ s n, Reach crowdPid (crowdInit (F + 1)) s ∧ Watch crowdPid readerCount [s] n ∧ 1 ≤ n ∧ Watch crowdPid (isLocked false) [s] true ∧
    ∀ t kd, ¬ s.inside crowdPid t kd := by
  obtain ⟨s, h⟩ := crowd F 1 (by omega)
  obtain ⟨n, hn⟩ := watch_still (pid := crowdPid) { s with alive := fset s.alive 1 false } 65 0 0
  refine ⟨{ s with alive := fset s.alive 1 false }, n, h.reach.step (.die 1), hn, ?_, ?_, ?_⟩
  · rw [C82_count_exact (s := { s with alive := fset s.alive 1 false }) hn (fun x hx w _ _ => by rcases List.mem_singleton.1 hx with rfl; rfl)]
    apply List.length_pos_of_mem (a := 1)
    rw [List.mem_filter]
    refine ⟨List.mem_range'_1.2 ⟨by omega, by omega⟩, decide_eq_true ?_⟩
    show s.words 1 ≠ 0
    rw [h.full 0 (by omega)]; omega
  · refine Watch.load (k := fun v => if v ≠ 0 then (.ret true : LProg tiny Bool) else anyTaken 64 1) ?_
    rw [if_pos (by show s.words 1 ≠ 0; rw [h.full 0 (by omega)]; omega)]
    exact .ret
  · rintro t kd ⟨h1, h2⟩
    by_cases ht : t = 0
    · subst ht
      have : fset s.alive 1 false 1 = true := h1
      rw [fset_same] at this; cases this
    · have : s.st t = some kd := h2
      rw [h.st t (by omega)] at this; cases this

end Verif.Lock
