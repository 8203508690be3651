import Verif.PropsLock
/-
C19: the order in which the finished operations are listed is one that the threads see themselves.  Whatever the interleaving and whoever dies, each thread's finished
operations are exactly those of its first sessions, in program order and each exactly once; and an operation that finished before another one began comes before it.
-/
namespace Verif.Lock
open Verif
variable {K : Mach} {α β : Type}

/-- a list of finished operations of one thread: the section and the operation -/
abbrev Ops (K : Mach) := List (Option Kind × Body K)

/-- What one finished session contributes to the list of finished operations.  `st` is the token of the process it took the lock from (0: of none): a session
that took the lock of a dead process runs the repair first. -/
inductive Ran : Session K → Ops K → Prop
  | write (rep b : Body K) (st : Nat) : Ran (.write rep b) [(some (.write st), if st = 0 then b else rep.bind fun _ => b)]
  | writeThenRead (rep b a : Body K) (st : Nat) : Ran (.writeThenRead rep b a) [(some (.write st), if st = 0 then b else rep.bind fun _ => b), (some .read, a)]
  | read (rep b : Body K) : Ran (.read rep b) [(some .read, b)]
  | readRepair (rep b : Body K) {st : Nat} : st ≠ 0 → Ran (.read rep b) [(some (.write st), rep), (some .read, b)]
  | readAny (b : Body K) : Ran (.readAny b) [(some .read, b)]
  | mutex (w : Nat) : Ran (.mutex w) []

/-- the operations of a list of finished sessions -/
inductive RanAll : List (Session K) → Ops K → Prop
  | nil : RanAll [] []
  | snoc {ss : List (Session K)} {s : Session K} {l l' : Ops K} : RanAll ss l → Ran s l' → RanAll (ss ++ [s]) (l ++ l')

/-- the operations a thread with this program may have finished when it is through with its first `n` sessions and maybe part-way through the next one -/
def Upto (prog : List (Session K)) (n : Nat) (l : Ops K) : Prop :=
  RanAll (prog.take n) l ∨ ∃ s l1 l2 l3, prog[n]? = some s ∧ RanAll (prog.take n) l1 ∧ Ran s (l2 ++ l3) ∧ l = l1 ++ l2

/-- Whatever it is told, `p`, in section `cur` and with `l` done, always has a list of finished operations with `I`, enters sections of the read-write lock only as `N` says, and
ends with `Q`. -/
def ow (I : Ops K → Prop) (N : Ops K → Kind → Body K → Prop) : LProg K α → (α → Option Kind → Ops K → Prop) → Option Kind → Ops K → Prop
  | .ret a, Q, cur, l => I l ∧ Q a cur l
  | .err _, _, _, l => I l
  | .ub, _, _, l => I l
  | .step (.enter kd b) k, Q, _, l => (I l ∧ ((kd = .read ∨ ∃ n, kd = .write n) → N l kd b)) ∧ ow I N (k ()) Q (some kd) l
  | .step (.leave b _) k, Q, cur, l => I l ∧ ow I N (k ()) Q none (l ++ [(cur, b)])
  | .step .quit k, Q, _, l => I l ∧ ow I N (k ()) Q none l
  | .step (.cas _ _ _) k, Q, cur, l => I l ∧ ∀ v, ow I N (k v) Q cur l
  | .step (.casWeak _ _ _) k, Q, cur, l => I l ∧ ∀ v, ow I N (k v) Q cur l
  | .step (.load _) k, Q, cur, l => I l ∧ ∀ v, ow I N (k v) Q cur l
  | .step (.wait _ _) k, Q, cur, l => I l ∧ ∀ v, ow I N (k v) Q cur l
  | .step (.running _) k, Q, cur, l => I l ∧ ∀ v, ow I N (k v) Q cur l
  | .step (.acc _) k, Q, cur, l => I l ∧ ∀ v, ow I N (k v) Q cur l
  | .step .idle k, Q, cur, l => I l ∧ ow I N (k ()) Q cur l

/-- the operations that a thread with this program may be in when it has finished `l`: the next one of its program -/
def Next (prog : List (Session K)) (l : Ops K) (kd : Kind) (b : Body K) : Prop :=
  ∃ i se l1 l2 l3, prog[i]? = some se ∧ RanAll (prog.take i) l1 ∧ Ran se (l2 ++ (some kd, b) :: l3) ∧ l = l1 ++ l2

variable {I : Ops K → Prop} {N : Ops K → Kind → Body K → Prop} {Q Q' : α → Option Kind → Ops K → Prop} {cur : Option Kind} {l : Ops K}

theorem ow_inv {p : LProg K α} (h : ow I N p Q cur l) : I l := by
  cases p with
  | ret a => exact h.1
  | err | ub => exact h
  | step op k =>
    cases op with
    | enter => exact h.1.1
    | _ => exact h.1

theorem ow_mono {p : LProg K α} (hQ : ∀ a c l, Q a c l → Q' a c l) : ∀ {cur : Option Kind} {l : Ops K}, ow I N p Q cur l → ow I N p Q' cur l := by
  induction p with
  | ret a => exact fun h => ⟨h.1, hQ _ _ _ h.2⟩
  | err | ub => exact fun h => h
  | step op k ih =>
    intro cur l h
    cases op with
    | enter | leave | quit | idle => exact ⟨h.1, ih _ h.2⟩
    | _ => exact ⟨h.1, fun v => ih v (h.2 v)⟩

theorem ow_bind {p : LProg K α} {f : α → LProg K β} {Q : β → Option Kind → Ops K → Prop} : ∀ {cur : Option Kind} {l : Ops K},
    ow I N p (fun a c l => ow I N (f a) Q c l) cur l → ow I N (p.bind f) Q cur l := by
  induction p with
  | ret a => exact fun h => h.2
  | err | ub => exact fun h => h
  | step op k ih =>
    intro cur l h
    cases op with
    | enter | leave | quit | idle => exact ⟨h.1, ih _ h.2⟩
    | _ => exact ⟨h.1, fun v => ih v (h.2 v)⟩

/-- programs of the lock itself: they change neither the section nor the list -/
def Plain : LProg K α → Prop
  | .ret _ => True
  | .err _ => True
  | .ub => True
  | .step (.cas _ _ _) k => ∀ v, Plain (k v)
  | .step (.casWeak _ _ _) k => ∀ v, Plain (k v)
  | .step (.load _) k => ∀ v, Plain (k v)
  | .step (.wait _ _) k => ∀ v, Plain (k v)
  | .step (.running _) k => ∀ v, Plain (k v)
  | .step _ _ => False

theorem Plain.bind {p : LProg K α} {f : α → LProg K β} (hp : Plain p) (hf : ∀ a, Plain (f a)) : Plain (p.bind f) := by
  induction p with
  | ret a => exact hf a
  | err | ub => trivial
  | step op k ih =>
    cases op with
    | cas | casWeak | load | wait | running => exact fun v => ih v (hp v)
    | _ => exact hp.elim

theorem Plain.ite {c : Prop} [Decidable c] {p q : LProg K α} (hp : Plain p) (hq : Plain q) : Plain (if c then p else q) := by
  split <;> assumption

theorem Plain.ow {p : LProg K α} (hp : Plain p) (hI : I l) (hQ : ∀ a, Q a cur l) : ow I N p Q cur l := by
  induction p with
  | ret a => exact ⟨hI, hQ a⟩
  | err | ub => exact hI
  | step op k ih =>
    cases op with
    | cas | casWeak | load | wait | running => exact ⟨hI, fun v => ih v (hp v)⟩
    | _ => exact hp.elim

theorem plain_cas {w e v : Nat} : Plain (L.cas w e v : LProg K _) := fun _ => trivial
theorem plain_casWeak {w e v : Nat} : Plain (L.casWeak w e v : LProg K _) := fun _ => trivial
theorem plain_load {w : Nat} : Plain (L.load w : LProg K _) := fun _ => trivial
theorem plain_wait {w v : Nat} : Plain (L.wait w v : LProg K _) := fun _ => trivial
theorem plain_running {w : Nat} : Plain (L.running w : LProg K _) := fun _ => trivial
theorem plain_spin {w t : Nat} : ∀ n x, Plain (spin w t n x : LProg K _)
  | 0, _ => trivial
  | n + 1, x => .bind plain_casWeak fun _ => .ite trivial (plain_spin n _)
theorem plain_acquire {w t : Nat} : ∀ n, Plain (acquire w t n : LProg K _)
  | 0 => trivial
  | n + 1 => .bind (plain_spin _ _) fun _ => .ite trivial (.bind plain_wait fun _ => .ite (plain_acquire n) (.bind plain_running fun _ =>
      .ite (plain_acquire n) (.bind plain_cas fun _ => .ite trivial (plain_acquire n))))
theorem plain_release {w t : Nat} : Plain (release w t : LProg K _) := .bind plain_cas fun _ => trivial
theorem plain_readerRelease {w : Nat} : ∀ n, Plain (readerRelease w n : LProg K _)
  | 0 => trivial
  | n + 1 => .bind plain_load fun _ => .ite trivial (.bind plain_wait fun _ => .ite (plain_readerRelease n) (.bind plain_running fun _ =>
      .ite (plain_readerRelease n) (.bind plain_cas fun _ => .ite trivial (plain_readerRelease n))))
theorem plain_drainAll {f : Nat} : ∀ n x, Plain (drainAll f n x : LProg K _)
  | 0, _ => trivial
  | n + 1, x => .bind plain_load fun _ => .ite (plain_drainAll n _) (.bind (plain_readerRelease _) fun _ => plain_drainAll n _)
theorem plain_anyFree : ∀ n x, Plain (anyFree n x : LProg K _)
  | 0, _ => trivial
  | n + 1, x => .bind plain_load fun _ => .ite trivial (plain_anyFree n _)
theorem plain_drainAny {t f : Nat} : ∀ n, Plain (drainAny t f n : LProg K _)
  | 0 => trivial
  | n + 1 => .bind (plain_anyFree _ _) fun _ => .ite trivial (.bind (plain_readerRelease _) fun _ => plain_drainAny n)
theorem plain_takeSlot {t : Nat} : ∀ n x, Plain (takeSlot t n x : LProg K _)
  | 0, _ => trivial
  | n + 1, x => .bind plain_cas fun _ => .ite trivial (plain_takeSlot n _)
theorem plain_guardWrite {f t : Nat} : Plain (guardWrite f t : LProg K _) := .bind (plain_acquire _) fun _ => .bind (plain_drainAll _ _) fun _ => trivial
theorem plain_guardRead {u : Bool} {f t : Nat} : ∀ n, Plain (guardRead u f t n : LProg K _)
  | 0 => trivial
  | n + 1 => .bind (plain_acquire _) fun st => .ite (.bind (plain_drainAll _ _) fun _ => trivial) (.bind (plain_takeSlot _ _) fun sl => .bind plain_release fun _ => by
      cases sl with
      | none => exact .bind (plain_drainAny _) fun _ => plain_guardRead n
      | some x => trivial)
theorem plain_destroy {t : Nat} (g : Guard) : Plain (destroy t g : LProg K _) := by
  unfold destroy
  split <;> exact plain_release
theorem plain_downgrade {t : Nat} (g : Guard) : Plain (downgrade t g : LProg K _) := by
  unfold downgrade
  split
  · trivial
  · refine .bind (plain_takeSlot _ _) fun sl => ?_
    cases sl with
    | none => trivial
    | some x => exact .bind plain_release fun _ => trivial

theorem ow_plain {p : LProg K α} {f : α → LProg K β} {Q : β → Option Kind → Ops K → Prop} (hp : Plain p) (hI : I l) (hf : ∀ a, ow I N (f a) Q cur l) :
    ow I N (p.bind f) Q cur l := ow_bind (hp.ow hI hf)

theorem ow_embed {b : Body K} {f : Unit → LProg K β} {Q : β → Option Kind → Ops K → Prop} (hI : I l) (hf : ow I N (f ()) Q none (l ++ [(cur, b)])) :
    ∀ rem : Body K, ow I N ((embed b rem).bind f) Q cur l := by
  intro rem
  induction rem with
  | ret | err | ub => exact ⟨hI, hf⟩
  | step op k ih => exact ⟨hI, fun v => ih v⟩

theorem ow_section {kd : Kind} {b : Body K} {f : Unit → LProg K β} {Q : β → Option Kind → Ops K → Prop} (hI : I l) (hN : N l kd b)
    (hf : ow I N (f ()) Q none (l ++ [(some kd, b)])) : ow I N ((section_ kd b).bind f) Q cur l := by
  unfold section_
  rw [Prog.bind_assoc]
  exact ⟨⟨hI, fun _ => hN⟩, ow_embed hI hf b⟩

theorem ow_enter {kd : Kind} {b : Body K} {f : Unit → LProg K β} {Q : β → Option Kind → Ops K → Prop} (hI : I l) (hN : (kd = .read ∨ ∃ n, kd = .write n) → N l kd b)
    (hf : ow I N (f ()) Q (some kd) l) : ow I N ((L.enter kd b).bind f) Q cur l := ⟨⟨hI, hN⟩, hf⟩

theorem ow_quit {f : Unit → LProg K β} {Q : β → Option Kind → Ops K → Prop} (hI : I l)
    (hf : ow I N (f ()) Q none l) : ow I N ((.step .quit .ret : LProg K Unit).bind f) Q cur l := ⟨hI, hf⟩

/-- one session -/
theorem ow_session {fuel tok : Nat} {s : Session K} {f : Unit → LProg K β} {Q : β → Option Kind → Ops K → Prop} (hI : ∀ l1 l2, Ran s (l1 ++ l2) → I (l ++ l1))
    (hN : ∀ l1 l2 kd b, Ran s (l1 ++ (some kd, b) :: l2) → N (l ++ l1) kd b)
    (hf : ∀ cur l', Ran s l' → ow I N (f ()) Q cur (l ++ l')) : ow I N ((session fuel tok s).bind f) Q cur l := by
  have h0 : I l := by
    cases s with
    | write rep b => simpa using hI [] _ (.write rep b 0)
    | writeThenRead rep b a => simpa using hI [] _ (.writeThenRead rep b a 0)
    | read rep b => simpa using hI [] _ (.read rep b)
    | readAny b => simpa using hI [] _ (.readAny b)
    | mutex w => simpa using hI [] [] (.mutex w)
  have est : ∀ (st : Nat) (rep b : Body K), afterSteal st rep b = if st = 0 then b else rep.bind fun _ => b := by
    intro st rep b
    unfold afterSteal
    by_cases e : st = 0 <;> simp [e]
  cases s with
  | write rep b =>
    simp only [session, Prog.bind_assoc, est]
    refine ow_plain plain_guardWrite h0 fun g => ?_
    have hr := Ran.write rep b g.stolen
    exact ow_section h0 (by simpa using hN [] [] _ _ hr) (ow_plain (plain_destroy _) (hI _ [] (by simpa using hr)) fun _ => hf _ _ hr)
  | writeThenRead rep b a =>
    simp only [session, Prog.bind_assoc, est]
    refine ow_plain plain_guardWrite h0 fun g => ?_
    have hr := Ran.writeThenRead rep b a g.stolen
    have h1 := hI [_] [_] hr
    refine ow_section h0 (by simpa using hN [] [_] _ _ hr) (ow_enter h1 (fun _ => hN [_] [] _ _ hr) (ow_plain (plain_downgrade _) h1 fun g' => ow_embed h1 ?_ _))
    rw [List.append_assoc]
    exact ow_plain (plain_destroy _) (hI _ [] (by simpa using hr)) fun _ => hf _ _ hr
  | read rep b =>
    simp only [session, Prog.bind_assoc]
    refine ow_plain (plain_guardRead _) h0 fun g => ?_
    by_cases e : g.stolen = 0
    · rw [if_neg (fun h => h e), Prog.bind_assoc]
      have hr := Ran.read rep b
      exact ow_section h0 (by simpa using hN [] [] _ _ hr) (ow_plain (plain_destroy _) (hI _ [] (by simpa using hr)) fun _ => hf _ _ hr)
    · rw [if_pos e]
      simp only [Prog.bind_assoc]
      have hr := Ran.readRepair rep b e
      have h1 := hI [_] [_] hr
      refine ow_section h0 (by simpa using hN [] [_] _ _ hr) (ow_enter h1 (fun _ => hN [_] [] _ _ hr) (ow_plain (plain_downgrade _) h1 fun g' => ow_embed h1 ?_ _))
      rw [List.append_assoc]
      exact ow_plain (plain_destroy _) (hI _ [] (by simpa using hr)) fun _ => hf _ _ hr
  | readAny b =>
    simp only [session, Prog.bind_assoc]
    refine ow_plain (plain_guardRead _) h0 fun g => ?_
    have hr := Ran.readAny b
    exact ow_section h0 (by simpa using hN [] [] _ _ hr) (ow_plain (plain_destroy _) (hI _ [] (by simpa using hr)) fun _ => hf _ _ hr)
  | mutex w =>
    simp only [session, Prog.bind_assoc]
    refine ow_plain (plain_acquire _) h0 fun g => ow_enter h0 (fun h => by rcases h with h | ⟨n, h⟩ <;> cases h) (ow_quit h0 (ow_plain plain_release h0 fun _ => ?_))
    simpa using hf none [] (.mutex w)

theorem ow_thread {fuel tok : Nat} {prog : List (Session K)} : ∀ {ss : List (Session K)} {n : Nat} {l : Ops K} {cur : Option Kind}, prog.drop n = ss → RanAll (prog.take n) l →
    ow (fun l => ∃ n, Upto prog n l) (Next prog) (thread fuel tok ss) (fun _ _ l => RanAll prog l) cur l := by
  intro ss
  induction ss with
  | nil =>
    intro n l cur h1 h2
    exact ⟨⟨n, Or.inl h2⟩, by rwa [List.take_of_length_le (List.drop_eq_nil_iff.1 h1)] at h2⟩
  | cons s ss ih =>
    intro n l cur h1 h2
    have hn : n < prog.length := by
      rcases Nat.lt_or_ge n prog.length with h | h
      · exact h
      · rw [List.drop_eq_nil_of_le h] at h1; cases h1
    have hc := List.drop_eq_getElem_cons hn
    rw [h1] at hc
    injection hc with e1 e2
    have hg : prog[n]? = some s := by rw [List.getElem?_eq_getElem hn, ← e1]
    have ht : prog.take (n + 1) = prog.take n ++ [s] := by rw [List.take_succ_eq_append_getElem hn, ← e1]
    refine ow_session (fun l1 l2 hr => ⟨n, Or.inr ⟨s, l, l1, l2, hg, h2, hr, rfl⟩⟩) (fun l1 l2 kd b hr => ⟨n, s, l, l1, l2, hg, h2, hr, rfl⟩) fun cur l' hr => ?_
    have h3 : RanAll (prog.take (n + 1)) (l ++ l') := ht ▸ RanAll.snoc h2 hr
    exact ⟨⟨n + 1, Or.inl h3⟩, ih e2.symm h3⟩

/-- the finished operations of thread `t`, in the order they finished -/
def St.mine (s : St K) (t : Nat) : Ops K := (s.log.filter fun e => e.1 = t).map fun e => (e.2.1, e.2.2.1)

variable {pid : Nat → Nat} {fuel : Nat} {prog : Nat → List (Session K)} {m0 : K.M} {s0 s s' : St K}

theorem order_step {a : Option Nat} {J : Nat → Ops K → Prop} {N : Nat → Ops K → Kind → Body K → Prop} {E : Nat → Ops K → Prop} (h : ∀ t, ow (J t) (N t) (s.th t) (fun _ _ l => E t l) (s.st t) (s.mine t)) (hs : Step pid a s s') (t : Nat) :
    ow (J t) (N t) (s'.th t) (fun _ _ l => E t l) (s'.st t) (s'.mine t) := by
  have key : ∀ {u : Nat} {p : LProg K Unit} {c : Option Kind} {l : Ops K}, s'.th = fset s.th u p → s'.st u = c → (∀ v, v ≠ u → s'.st v = s.st v) →
      s'.mine u = l → (∀ v, v ≠ u → s'.mine v = s.mine v) → ow (J u) (N u) p (fun _ _ l => E u l) c l →
      ow (J t) (N t) (s'.th t) (fun _ _ l => E t l) (s'.st t) (s'.mine t) := by
    intro u p c l h1 h2 h3 h4 h5 h6
    by_cases e : t = u
    · subst e
      rw [h1, fset_same, h2, h4]
      exact h6
    · rw [h1, fset_ne _ _ e, h3 t e, h5 t e]
      exact h t
  cases hs with
  | @casOk _ u w e v k _ h2 _ =>
    have := h u; rw [h2] at this
    exact key rfl rfl (fun _ _ => rfl) rfl (fun _ _ => rfl) (this.2 _)
  | @casFail _ u w e v k _ h2 _ =>
    have := h u; rw [h2] at this
    exact key rfl rfl (fun _ _ => rfl) rfl (fun _ _ => rfl) (this.2 _)
  | @weakOk _ u w e v k _ h2 _ =>
    have := h u; rw [h2] at this
    exact key rfl rfl (fun _ _ => rfl) rfl (fun _ _ => rfl) (this.2 _)
  | @weakFail _ u w e v k _ h2 =>
    have := h u; rw [h2] at this
    exact key rfl rfl (fun _ _ => rfl) rfl (fun _ _ => rfl) (this.2 _)
  | @load _ u w k _ h2 =>
    have := h u; rw [h2] at this
    exact key rfl rfl (fun _ _ => rfl) rfl (fun _ _ => rfl) (this.2 _)
  | @wait _ u w v k b _ h2 =>
    have := h u; rw [h2] at this
    exact key rfl rfl (fun _ _ => rfl) rfl (fun _ _ => rfl) (this.2 _)
  | @running _ u d k _ h2 =>
    have := h u; rw [h2] at this
    exact key rfl rfl (fun _ _ => rfl) rfl (fun _ _ => rfl) (this.2 _)
  | @enter _ u kd b k _ h2 =>
    have := h u; rw [h2] at this
    exact key rfl (fset_same _ _ _) (fun v hv => fset_ne _ _ hv) rfl (fun _ _ => rfl) this.2
  | @acc _ u op k _ h2 =>
    have := h u; rw [h2] at this
    exact key rfl rfl (fun _ _ => rfl) rfl (fun _ _ => rfl) (this.2 _)
  | @leave _ u b r k _ h2 =>
    have := h u; rw [h2] at this
    refine key rfl (fset_same _ _ _) (fun v hv => fset_ne _ _ hv) ?_ ?_ this.2
    · simp [St.mine, List.filter_append]
    · intro v hv
      simp [St.mine, List.filter_append, Ne.symm hv]
  | @quit _ u k _ h2 =>
    have := h u; rw [h2] at this
    exact key rfl (fset_same _ _ _) (fun v hv => fset_ne _ _ hv) rfl (fun _ _ => rfl) this.2
  | @idle _ u k _ h2 =>
    have := h u; rw [h2] at this
    exact key rfl rfl (fun _ _ => rfl) rfl (fun _ _ => rfl) this.2
  | die p => exact h t

theorem reach_ow (hi : Init pid fuel prog m0 s0) (hr : Reach pid s0 s) (t : Nat) :
    ow (fun l => ∃ n, Upto (prog t) n l) (Next (prog t)) (s.th t) (fun _ _ l => RanAll (prog t) l) (s.st t) (s.mine t) := by
  revert t
  induction hr with
  | refl =>
    intro t
    rw [hi.th t]
    have e : s0.mine t = [] := by simp [St.mine, hi.log]
    rw [e]
    exact ow_thread (n := 0) rfl .nil
  | step _ h2 ih => exact fun t => order_step ih h2 t

/-- **C19, program order.** In every reachable state, whatever the interleaving and whoever died, the finished operations of each thread are those of its first `n` sessions (and maybe the
first part of the next one), in the order of its program, each exactly once; when the thread has come to its end, they are those of all its sessions. -/
theorem C19_program_order (hi : Init pid fuel prog m0 s0) (hr : Reach pid s0 s) (t : Nat) :
    (∃ n, Upto (prog t) n (s.mine t)) ∧ (s.th t = .ret () → RanAll (prog t) (s.mine t)) := by
  have key := reach_ow hi hr t
  refine ⟨ow_inv key, fun e => ?_⟩
  rw [e] at key
  exact key.2

/-- **C19, real-time order.** What has finished stays where it is in the list: an operation that finished before another began comes before it. -/
theorem C19_real_time_order (hr : Reach pid s s') : s.log <+: s'.log := by
  induction hr with
  | refl => exact List.prefix_refl _
  | step _ h2 ih =>
    cases h2 with
    | leave => exact ih.trans (List.prefix_append _ _)
    | _ => exact ih

/-! ### calls of methods -/

variable {O : Type} {body : O → Body K} {rep : Body K} {writes : O → Bool}

/-- the session of a call: `lock(true)` for methods that write, `lock(false)` for the others -/
def sessionOf (body : O → Body K) (rep : Body K) (writes : O → Bool) (o : O) : Session K := if writes o then .write rep (body o) else .read rep (body o)

/-- nothing was taken from a dead process -/
def NoSteal (l : Ops K) : Prop := ∀ e ∈ l, ∀ n, e.1 = some (.write n) → n = 0

theorem ran_sessionOf {o : O} {l : Ops K} (h : Ran (sessionOf body rep writes o) l) (hn : NoSteal l) : l.map (·.2) = [body o] := by
  unfold sessionOf at h
  split at h
  · cases h with
    | write _ _ st =>
      have := hn _ (List.mem_singleton.2 rfl) st rfl
      subst this
      rfl
  · cases h with
    | read => rfl
    | readRepair _ _ hst => exact absurd (hn _ (List.mem_cons_self ..) _ rfl) hst

theorem ranAll_sessionOf {ss : List (Session K)} {l : Ops K} (h : RanAll ss l) : ∀ {os : List O}, ss = os.map (sessionOf body rep writes) → NoSteal l → l.map (·.2) = os.map body := by
  induction h with
  | nil => intro os e _; rw [List.map_eq_nil_iff.1 e.symm]; rfl
  | @snoc ss s l l' _ h2 ih =>
    intro os e hn
    obtain ⟨o1, o2, rfl, e1, e2⟩ := List.map_eq_append_iff.1 e.symm
    obtain ⟨o, rfl, e3⟩ := List.map_eq_singleton_iff.1 e2
    subst e3
    rw [List.map_append, List.map_append, ih e1.symm (fun e he => hn e (List.mem_append_left _ he)),
      ran_sessionOf h2 (fun e he => hn e (List.mem_append_right _ he))]
    rfl

/-- **C19, program order of calls.** If no process dies, the finished calls of each thread are its first `n` calls, in the order it made them, each exactly once; all of them, when the thread has come to its end. -/
theorem C19_calls_in_order {calls : Nat → List O} (hp : PidsOk pid) (hro : ReadOnly fun t => (calls t).map (sessionOf body rep writes))
    (hi : Init pid fuel (fun t => (calls t).map (sessionOf body rep writes)) m0 s0) (hr : Reach pid s0 s) (hal : ∀ t, s.alive (pid t) = true) (t : Nat) :
    (∃ n, (s.log.filter fun e => e.1 = t).map (·.2.2.1) = ((calls t).take n).map body) ∧
      (s.th t = .ret () → (s.log.filter fun e => e.1 = t).map (·.2.2.1) = (calls t).map body) := by
  obtain ⟨-, -, h2, -⟩ := C19_sequential_partial hp hro hi hr hal
  have hn : NoSteal (s.mine t) := by
    intro e he n h
    obtain ⟨e', he', rfl⟩ := List.mem_map.1 he
    obtain ⟨kd, h3, -, h4⟩ := h2 e' ((List.mem_filter.1 he').1)
    simp only at h
    rw [h3] at h
    injection h with h
    exact h4 n h
  have em : (s.log.filter fun e => e.1 = t).map (·.2.2.1) = (s.mine t).map (·.2) := by simp [St.mine]
  rw [em]
  obtain ⟨⟨n, h1⟩, h3⟩ := C19_program_order hi hr t
  refine ⟨?_, fun h => ranAll_sessionOf (h3 h) rfl hn⟩
  simp only [Upto, ← List.map_take] at h1
  rcases h1 with h1 | ⟨se, l1, l2, l3, g1, g2, g3, g4⟩
  · exact ⟨n, ranAll_sessionOf h1 rfl hn⟩
  · rw [g4] at hn ⊢
    have e1 := ranAll_sessionOf g2 rfl (fun e he => hn e (List.mem_append_left _ he))
    rw [List.getElem?_map] at g1
    obtain ⟨o, ho, rfl⟩ := Option.map_eq_some_iff.1 g1
    have hlt : n < (calls t).length := (List.getElem?_eq_some_iff.1 ho).1
    have e2 : l2 = [] ∨ l2.map (·.2) = [body o] := by
      have hn2 : NoSteal l2 := fun e he => hn e (List.mem_append_right _ he)
      cases l2 with
      | nil => exact Or.inl rfl
      | cons x l2 =>
        right
        unfold sessionOf at g3
        split at g3
        · generalize hL : x :: l2 ++ l3 = L at g3
          cases g3 with
          | write _ _ st =>
            simp only [List.cons_append, List.cons.injEq, List.append_eq_nil_iff] at hL
            obtain ⟨rfl, rfl, -⟩ := hL
            have := hn2 _ (List.mem_singleton.2 rfl) st rfl
            subst this
            rfl
        · generalize hL : x :: l2 ++ l3 = L at g3
          cases g3 with
          | read =>
            simp only [List.cons_append, List.cons.injEq, List.append_eq_nil_iff] at hL
            obtain ⟨rfl, rfl, -⟩ := hL
            rfl
          | readRepair _ _ hst =>
            simp only [List.cons_append, List.cons.injEq] at hL
            obtain ⟨rfl, -⟩ := hL
            exact absurd (hn2 _ (List.mem_cons_self ..) _ rfl) hst
    rcases e2 with rfl | e2
    · exact ⟨n, by simpa using e1⟩
    · refine ⟨n + 1, ?_⟩
      rw [List.map_append, e1, e2, List.take_succ, ho, List.map_append]
      rfl

end Verif.Lock
