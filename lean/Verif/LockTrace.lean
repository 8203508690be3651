import Verif.PropsLockOrder
/-
The sequential execution behind an interleaved one, with the operations cut short by deaths in it, and in it the order that each thread's program asks for.
-/
namespace Verif.Lock
open Verif
variable {K : Mach}

/-- one operation of a sequential execution: thread, section, operation, and its result, or none if the thread died inside it -/
abbrev Entry (K : Mach) := Nat × Kind × Body K × Option (Verif.Res K.Res)

/-- the finished operations -/
def fin (es : List (Entry K)) : List (Nat × Option Kind × Body K × Verif.Res K.Res) :=
  es.filterMap fun e => e.2.2.2.map fun r => (e.1, some e.2.1, e.2.2.1, r)

/-- the finished operations of thread `t` in a log -/
def mineIn (log : List (Nat × Option Kind × Body K × Verif.Res K.Res)) (t : Nat) : Ops K := (log.filter fun e => e.1 = t).map fun e => (e.2.1, e.2.2.1)

theorem mineIn_log (s : St K) (t : Nat) : mineIn s.log t = s.mine t := rfl

theorem mineIn_snoc_self (log : List (Nat × Option Kind × Body K × Verif.Res K.Res)) (t : Nat) (kd : Option Kind) (b : Body K) (r : Verif.Res K.Res) :
    mineIn (log ++ [(t, kd, b, r)]) t = mineIn log t ++ [(kd, b)] := by
  simp [mineIn, List.filter_append]

theorem mineIn_snoc_ne (log : List (Nat × Option Kind × Body K × Verif.Res K.Res)) {t u : Nat} (h : u ≠ t) (kd : Option Kind) (b : Body K) (r : Verif.Res K.Res) :
    mineIn (log ++ [(t, kd, b, r)]) u = mineIn log u := by
  simp [mineIn, List.filter_append, Ne.symm h]

theorem fin_done (es : List (Entry K)) (t : Nat) (kd : Kind) (b : Body K) (r : Verif.Res K.Res) : fin (es ++ [(t, kd, b, some r)]) = fin es ++ [(t, some kd, b, r)] := by
  simp [fin, List.filterMap_append]

theorem fin_died (es : List (Entry K)) (t : Nat) (kd : Kind) (b : Body K) : fin (es ++ [(t, kd, b, none)]) = fin es := by
  simp [fin, List.filterMap_append]

/-- Sequential executions in program order, going on from the execution `es0`, which left memory `m0`.  As `Serial`, but with the operations cut short in the list, and: each operation, whether
finished or cut short, is the next one of the program of its thread (`prog t`), and a thread in whose operation a death fell has none after it. -/
inductive Ordered (pid : Nat → Nat) (S : Prop) (prog : Nat → List (Session K)) (D : Nat → Prop) (es0 : List (Entry K)) (m0 : K.M) (d0 : Bool) : List (Entry K) → K.M → Bool → Prop
  | nil : Ordered pid S prog D es0 m0 d0 es0 m0 d0
  | done {es m d t kd b r m'} : Ordered pid S prog D es0 m0 d0 es m d → Next (prog t) (mineIn (fin es) t) kd b → (∀ e ∈ es, e.1 = t → e.2.2.2 ≠ none) → Body.run b m = (r, m') →
      (S → d = true → ∃ n, n ≠ 0 ∧ kd = .write n) → (∀ n, kd = .write n → n = 0 ∨ D n) →
      Ordered pid S prog D es0 m0 d0 (es ++ [(t, kd, b, some r)]) m' false
  | crash {es m d t n b} (c : Nat) : Ordered pid S prog D es0 m0 d0 es m d → Next (prog t) (mineIn (fin es) t) (.write n) b → (∀ e ∈ es, e.1 = t → e.2.2.2 ≠ none) → D (pid t) →
      (S → d = true → n ≠ 0) → (n = 0 ∨ D n) → Ordered pid S prog D es0 m0 d0 (es ++ [(t, .write n, b, none)]) (Body.after c b m).2 true

variable {pid : Nat → Nat} {fuel : Nat} {prog : Nat → List (Session K)} {m0 : K.M} {s0 s : St K}

theorem Ordered.mono {S : Prop} {D D' : Nat → Prop} {m : K.M} {es es0 : List (Entry K)} {d d0 : Bool} (hD : ∀ p, D p → D' p) (h : Ordered pid S prog D es0 m0 d0 es m d) :
    Ordered pid S prog D' es0 m0 d0 es m d := by
  induction h with
  | nil => exact .nil
  | done _ h1 h2 h3 h4 h5 ih => exact .done ih h1 h2 h3 h4 (fun n hn => (h5 n hn).imp id (hD _))
  | crash c _ h1 h2 h3 h4 h5 ih => exact .crash c ih h1 h2 (hD _ h3) h4 (h5.imp id (hD _))

theorem dead_stays {s s' : St K} {a : Option Nat} (hs : Step pid a s s') (p : Nat) (h : s.alive p = false) : s'.alive p = false := by
  cases hs with
  | die q =>
    show fset s.alive q false p = false
    unfold fset
    split
    · rfl
    · exact h
  | _ => exact h

/-- the ghost state and the sequential execution `es` go with state `s` -/
structure OInv (pid : Nat → Nat) (prog : Nat → List (Session K)) (m0 : K.M) (s : St K) (G : Nat → Ghost K) (mc : K.M) (d : Bool) (es : List (Entry K)) : Prop where
  lock : LInv pid (ctx prog) s G
  mem : MInv pid (ctx prog) (NoAny prog) m0 s G mc d
  log : fin es = s.log
  next : ∀ t, Live pid s t → ∀ kd b rem, (G t).sec = some (kd, b, rem) → (kd = .read ∨ ∃ n, kd = .write n) → Next (prog t) (s.mine t) kd b
  died : ∀ e ∈ es, e.2.2.2 = none → s.alive (pid e.1) = false

theorem init_ordered (hp : PidsOk pid) (hro : ReadOnly prog) (hi : Init pid fuel prog m0 s0) : ∃ G, OInv pid prog m0 s0 G m0 false [] := by
  obtain ⟨G, h1, h2⟩ := init_inv hp hro hi
  refine ⟨G, h1, h2, hi.log.symm, ?_, fun e he => by cases he⟩
  intro t ht kd b rem hs
  have := h1.sec t ht
  rw [hi.st t, hs] at this
  cases this

/-- **The sequential execution.** Each step of the system lengthens the sequential execution, in program order, of the finished operations (in the order they finished) and of those cut
short by deaths, or leaves it as it is. -/
theorem step_ordered (hp : PidsOk pid) (hi : Init pid fuel prog m0 s0) (hr : Reach pid s0 s) {s' : St K} {a : Option Nat} (hst : Step pid a s s')
    {G : Nat → Ghost K} {mc : K.M} {d : Bool} {es : List (Entry K)} (ho : OInv pid prog m0 s G mc d es) :
    ∃ G' mc' d' es', OInv pid prog m0 s' G' mc' d' es' ∧ Ordered pid (NoAny prog) prog (fun p => (∃ u, p = pid u) ∧ s'.alive p = false) es mc d es' mc' d' := by
  obtain ⟨h1, h2, h3, h5, h6⟩ := ho
  obtain ⟨G', mc', d', ⟨hadv, hevo⟩, h1', h2'⟩ := inv_adv (c := ctx prog) (S := NoAny prog) hp (fun _ => rfl) h1 h2 hst
  have hmono : ∀ p, s.alive p = false → s'.alive p = false := dead_stays hst
  have hD : ∀ p, ((∃ u, p = pid u) ∧ s.alive p = false) → (∃ u, p = pid u) ∧ s'.alive p = false := fun p h => ⟨h.1, hmono p h.2⟩
  -- the sections that threads are in
  have hent : ∀ u, Live pid s u → ∀ kd b k, s.th u = .step (.enter kd b) k → (kd = .read ∨ ∃ n, kd = .write n) → Next (prog u) (s.mine u) kd b := by
    intro u hu kd b k he hk
    have := reach_ow hi hr u
    rw [he] at this
    exact this.1.2 hk
  have hkeep : ∀ u, Live pid s' u → ∀ kd b rem, (G' u).sec = some (kd, b, rem) → (kd = .read ∨ ∃ n, kd = .write n) → Next (prog u) (s.mine u) kd b := by
    intro u hu kd b rem hs hk
    obtain ⟨hl, he⟩ := hevo u hu
    rcases he kd b rem hs with ⟨rem', h7⟩ | ⟨k, h7⟩
    · exact h5 u hl kd b rem' h7 hk
    · exact hent u hl kd b k h7 hk
  have hnone : ∀ u, Live pid s u → ∀ e ∈ es, e.1 = u → e.2.2.2 ≠ none := by
    rintro u hu e he rfl h7
    have := h6 e he h7
    rw [Live, this] at hu
    cases hu
  cases hadv with
  | same hlog =>
    refine ⟨G', mc, d, es, ⟨h1', h2', h3.trans hlog.symm, ?_, fun e he h7 => hmono _ (h6 e he h7)⟩, .nil⟩
    intro u hu kd b rem hs hk
    have : s'.mine u = s.mine u := by rw [St.mine, hlog]; rfl
    rw [this]
    exact hkeep u hu kd b rem hs hk
  | @done t kd b rem r m' hlog hal ht hk hs hs' hrun hd hD' =>
    refine ⟨G', mc', false, es ++ [(t, kd, b, some r)], ⟨h1', h2', ?_, ?_, ?_⟩, ?_⟩
    · rw [fin_done, h3, hlog]
    · intro u hu kd' b' rem' hs2 hk2
      have hne : u ≠ t := by rintro rfl; rw [hs'] at hs2; cases hs2
      have : s'.mine u = s.mine u := by rw [← mineIn_log, hlog, mineIn_snoc_ne _ hne]; rfl
      rw [this]
      exact hkeep u hu kd' b' rem' hs2 hk2
    · intro e he h7
      rcases List.mem_append.1 he with h8 | h8
      · exact hmono _ (h6 e h8 h7)
      · rw [List.mem_singleton.1 h8] at h7; cases h7
    · refine .done .nil ?_ (hnone t ht) hrun hd (fun n hn => (hD' n hn).imp id (hD n))
      rw [h3]
      exact h5 t ht kd b rem hs hk
  | @crash t n b rem j hlog ht ht' hs hd hD' =>
    have hdead : s'.alive (pid t) = false := by simpa [Live] using ht'
    refine ⟨G', _, true, es ++ [(t, .write n, b, none)], ⟨h1', h2', ?_, ?_, ?_⟩, ?_⟩
    · rw [fin_died, h3, hlog]
    · intro u hu kd' b' rem' hs2 hk2
      have : s'.mine u = s.mine u := by rw [St.mine, hlog]; rfl
      rw [this]
      exact hkeep u hu kd' b' rem' hs2 hk2
    · intro e he h7
      rcases List.mem_append.1 he with h8 | h8
      · exact hmono _ (h6 e h8 h7)
      · rw [List.mem_singleton.1 h8]; exact hdead
    · refine .crash j .nil ?_ (hnone t ht) ⟨⟨t, rfl⟩, hdead⟩ hd hD'
      rw [h3]
      exact h5 t ht _ b rem hs (Or.inr ⟨n, rfl⟩)

end Verif.Lock
