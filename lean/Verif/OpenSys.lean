import Verif.ConcDurable
/-
Threads that decide what to call next from what they have seen so far.  In Lock.lean each thread has the list of its calls from the start; here a thread that is not in a call may begin any
call at any time.  Each run of this open system is a run of a system with lists: those of the calls that were made in it.
-/
namespace Verif.Lock
open Verif
variable {K : Mach} {O R S : Type}

/-- One step of the open system: a step of a call that is under way, a death (both as in `Step`), or the beginning of a call `o` by thread `t`, which is not in a call. -/
inductive OStep (pid : Nat → Nat) (fuel : Nat) (ses : O → Session K) : Option (Nat × O) → St K → St K → Prop
  | go {a s s'} : Step pid a s s' → OStep pid fuel ses none s s'
  | call {s} (t : Nat) (o : O) : s.alive (pid t) = true → s.th t = .ret () →
      OStep pid fuel ses (some (t, o)) s (s.goto t ((session fuel (pid t) (ses o)).bind fun _ => .step .idle .ret))

/-- A run of the open system, `N` steps from `σ 0` to `σ N`; `lab i` is the call that begins in step `i`, if one does. -/
def OpenRun (pid : Nat → Nat) (fuel : Nat) (ses : O → Session K) (N : Nat) (lab : Nat → Option (Nat × O)) (σ : Nat → St K) : Prop :=
  ∀ i, i < N → OStep pid fuel ses (lab i) (σ i) (σ (i + 1))

/-- the calls that thread `t` has begun in the first `i` steps -/
def begun (lab : Nat → Option (Nat × O)) (t : Nat) : Nat → List O
  | 0 => []
  | i + 1 => begun lab t i ++ (match lab i with | some (u, o) => if u = t then [o] else [] | none => [])

/-- initial states: lock words zero, no thread in a call -/
structure OpenInit (m0 : K.M) (s : St K) : Prop where
  words : ∀ w, s.words w = 0
  mem : s.mem = m0
  log : s.log = []
  th : ∀ t, s.th t = .ret ()
  st : ∀ t, s.st t = none
  holder : ∀ w, s.holder w = none
  took : ∀ w, s.took w = 0

theorem begun_none {lab : Nat → Option (Nat × O)} {i : Nat} (h : lab i = none) (t : Nat) : begun lab t (i + 1) = begun lab t i := by simp [begun, h]
theorem begun_self {lab : Nat → Option (Nat × O)} {i t : Nat} {o : O} (h : lab i = some (t, o)) : begun lab t (i + 1) = begun lab t i ++ [o] := by simp [begun, h]
theorem begun_ne {lab : Nat → Option (Nat × O)} {i t u : Nat} {o : O} (h : lab i = some (t, o)) (hu : u ≠ t) : begun lab u (i + 1) = begun lab u i := by simp [begun, h, Ne.symm hu]

theorem begun_mono (lab : Nat → Option (Nat × O)) (t : Nat) {i j : Nat} (h : i ≤ j) : begun lab t i <+: begun lab t j := by
  induction j with
  | zero => obtain rfl : i = 0 := by omega
            exact List.prefix_rfl
  | succ j ih =>
    by_cases e : i ≤ j
    · exact (ih e).trans (List.prefix_append _ _)
    · obtain rfl : i = j + 1 := by omega
      exact List.prefix_rfl

/-! ### an open run is a run with lists of calls -/

/-- every thread goes on with `c t` after what it is doing -/
def lift (c : Nat → LProg K Unit) (s : St K) : St K := { s with th := fun t => (s.th t).bind fun _ => c t }

theorem lift_th {c : Nat → LProg K Unit} {s : St K} (t : Nat) (p : LProg K Unit) : (fun u => (fset s.th t p u).bind fun _ => c u) = fset (fun u => (s.th u).bind fun _ => c u) t (p.bind fun _ => c t) := by
  funext u
  unfold fset
  split
  · rename_i h; subst h; rfl
  · rfl

theorem lift_store {c : Nat → LProg K Unit} {s : St K} (t w v : Nat) (p : LProg K Unit) : lift c (s.store t w v p) = (lift c s).store t w v (p.bind fun _ => c t) := by
  unfold lift St.store
  simp only [lift_th]

theorem lift_goto {c : Nat → LProg K Unit} {s : St K} (t : Nat) (p : LProg K Unit) : lift c (s.goto t p) = (lift c s).goto t (p.bind fun _ => c t) := by
  unfold lift St.goto
  simp only [lift_th]

theorem lift_step {pid : Nat → Nat} {a : Option Nat} {c : Nat → LProg K Unit} {s s' : St K} (h : Step pid a s s') : Step pid a (lift c s) (lift c s') := by
  have ht : ∀ {t op k}, s.th t = .step op k → (lift c s).th t = .step op fun v => (k v).bind fun _ => c t := by
    intro t op k h
    show (s.th t).bind _ = _
    rw [h]; rfl
  cases h with
  | @casOk _ t w e v k h1 h2 h3 => rw [lift_store]; exact .casOk (k := fun x => (k x).bind fun _ => c t) h1 (ht h2) h3
  | @casFail _ t w e v k h1 h2 h3 => rw [lift_goto]; exact .casFail (k := fun x => (k x).bind fun _ => c t) h1 (ht h2) h3
  | @weakOk _ t w e v k h1 h2 h3 => rw [lift_store]; exact .weakOk (k := fun x => (k x).bind fun _ => c t) h1 (ht h2) h3
  | @weakFail _ t w e v k h1 h2 => rw [lift_goto]; exact .weakFail (k := fun x => (k x).bind fun _ => c t) h1 (ht h2)
  | @load _ t w k h1 h2 => rw [lift_goto]; exact .load (k := fun x => (k x).bind fun _ => c t) h1 (ht h2)
  | @wait _ t w v k b h1 h2 => rw [lift_goto]; exact .wait (k := fun x => (k x).bind fun _ => c t) b h1 (ht h2)
  | @running _ t d k h1 h2 => rw [lift_goto]; exact .running (k := fun x => (k x).bind fun _ => c t) h1 (ht h2)
  | @enter _ t kd b k h1 h2 =>
    have e : lift c { s.goto t (k ()) with st := fset s.st t (some kd) } = { (lift c s).goto t ((k ()).bind fun _ => c t) with st := fset s.st t (some kd) } := by
      unfold lift St.goto; simp only [lift_th]
    rw [e]; exact .enter (k := fun x => (k x).bind fun _ => c t) h1 (ht h2)
  | @acc _ t op k h1 h2 =>
    have e : lift c { s.goto t (k (K.exec op s.mem).1) with mem := (K.exec op s.mem).2 } = { (lift c s).goto t ((k (K.exec op s.mem).1).bind fun _ => c t) with mem := (K.exec op s.mem).2 } := by
      unfold lift St.goto; simp only [lift_th]
    rw [e]; exact .acc (k := fun x => (k x).bind fun _ => c t) h1 (ht h2)
  | @leave _ t b r k h1 h2 =>
    have e : lift c { s.goto t (k ()) with st := fset s.st t none, log := s.log ++ [(t, s.st t, b, r)] } =
        { (lift c s).goto t ((k ()).bind fun _ => c t) with st := fset s.st t none, log := s.log ++ [(t, s.st t, b, r)] } := by
      unfold lift St.goto; simp only [lift_th]
    rw [e]; exact .leave (k := fun x => (k x).bind fun _ => c t) h1 (ht h2)
  | @quit _ t k h1 h2 =>
    have e : lift c { s.goto t (k ()) with st := fset s.st t none } = { (lift c s).goto t ((k ()).bind fun _ => c t) with st := fset s.st t none } := by
      unfold lift St.goto; simp only [lift_th]
    rw [e]; exact .quit (k := fun x => (k x).bind fun _ => c t) h1 (ht h2)
  | @idle _ t k h1 h2 => rw [lift_goto]; exact .idle (k := fun x => (k x).bind fun _ => c t) h1 (ht h2)
  | die p => exact .die p

/-- the state of the system with lists that goes with state `i` of an open run of `N` steps: each thread has still to make the calls that it begins later -/
def closed (pid : Nat → Nat) (fuel : Nat) (ses : O → Session K) (lab : Nat → Option (Nat × O)) (σ : Nat → St K) (N i : Nat) : St K :=
  lift (fun t => thread fuel (pid t) (((begun lab t N).drop (begun lab t i).length).map ses)) (σ i)

section
variable {pid : Nat → Nat} {fuel : Nat} {ses : O → Session K} {N : Nat} {lab : Nat → Option (Nat × O)} {σ : Nat → St K} {m0 : K.M}

theorem closed_init (hi : OpenInit m0 (σ 0)) : Init pid fuel (fun t => (begun lab t N).map ses) m0 (closed pid fuel ses lab σ N 0) := by
  refine ⟨hi.words, hi.mem, hi.log, fun t => ?_, hi.st, hi.holder, hi.took⟩
  show ((σ 0).th t).bind _ = _
  rw [hi.th t]
  rfl

theorem closed_step (hr : OpenRun pid fuel ses N lab σ) {i : Nat} (hi : i < N) :
    closed pid fuel ses lab σ N (i + 1) = closed pid fuel ses lab σ N i ∨ ∃ a, Step pid a (closed pid fuel ses lab σ N i) (closed pid fuel ses lab σ N (i + 1)) := by
  have h := hr i hi
  revert h
  generalize hl : lab i = l
  generalize hb : σ (i + 1) = b
  generalize ha : σ i = a
  intro h
  cases h with
  | go h =>
    right
    have e : (fun t => thread fuel (pid t) (((begun lab t N).drop (begun lab t (i + 1)).length).map ses)) = fun t => thread fuel (pid t) (((begun lab t N).drop (begun lab t i).length).map ses) := by
      funext t; rw [begun_none hl]
    unfold closed
    rw [e, ha, hb]
    exact ⟨_, lift_step h⟩
  | call t o h1 h2 =>
    left
    unfold closed
    rw [ha, hb, lift_goto]
    have hpre := begun_mono lab t (show i + 1 ≤ N from hi)
    rw [begun_self hl] at hpre
    obtain ⟨r, hr'⟩ := hpre
    have hc : (fun u => thread fuel (pid u) (((begun lab u N).drop (begun lab u i).length).map ses)) =
        fset (fun u => thread fuel (pid u) (((begun lab u N).drop (begun lab u (i + 1)).length).map ses)) t (thread fuel (pid t) ((o :: r).map ses)) := by
      funext u
      unfold fset
      split
      · rename_i e; subst e
        rw [← hr', List.append_assoc, List.drop_left]
        rfl
      · rename_i e; simp only [begun_ne hl e]
    have ht : thread fuel (pid t) (((begun lab t N).drop (begun lab t (i + 1)).length).map ses) = thread fuel (pid t) (r.map ses) := by
      rw [begun_self hl, ← hr', List.drop_left]
    rw [hc, ht]
    unfold lift St.goto
    have e : ∀ u, fset (fun u => (a.th u).bind fun _ => thread fuel (pid u) (((begun lab u N).drop (begun lab u (i + 1)).length).map ses)) t
        (((session fuel (pid t) (ses o)).bind fun _ => .step .idle .ret).bind fun _ => thread fuel (pid t) (r.map ses)) u =
        (a.th u).bind fun _ => fset (fun u => thread fuel (pid u) (((begun lab u N).drop (begun lab u (i + 1)).length).map ses)) t (thread fuel (pid t) ((o :: r).map ses)) u := by
      intro u
      unfold fset
      by_cases e : u = t
      · subst e
        simp only [if_true]
        rw [h2, Prog.bind_assoc]
        rfl
      · simp only [if_neg e]
    simp only [funext e]

theorem bind_ret' {α : Type} : ∀ p : LProg K α, p.bind .ret = p
  | .ret _ => rfl
  | .err _ => rfl
  | .ub => rfl
  | .step op k => congrArg (Prog.step op) (funext fun v => bind_ret' (k v))

theorem closed_end (i : Nat) : closed pid fuel ses lab σ i i = σ i := by
  unfold closed lift
  have e : (fun t => ((σ i).th t).bind fun _ => thread fuel (pid t) (((begun lab t i).drop (begun lab t i).length).map ses)) = (σ i).th := by
    funext t
    rw [List.drop_length]
    exact bind_ret' _
  rw [e]

theorem closed_reach (hr : OpenRun pid fuel ses N lab σ) : ∀ i, i ≤ N → Reach pid (closed pid fuel ses lab σ N 0) (closed pid fuel ses lab σ N i)
  | 0, _ => .refl
  | i + 1, hi => by
    rcases closed_step hr (show i < N from hi) with e | ⟨a, ha⟩
    · rw [e]; exact closed_reach hr i (by omega)
    · exact (closed_reach hr i (by omega)).step ha

theorem OpenRun.cut (hr : OpenRun pid fuel ses N lab σ) {i : Nat} (hi : i ≤ N) : OpenRun pid fuel ses i lab σ := fun j hj => hr j (by omega)

/-- **C19, program order, for threads that decide as they go.** -/
theorem open_program_order (hi : OpenInit m0 (σ 0)) (hr : OpenRun pid fuel ses N lab σ) {i : Nat} (hiN : i ≤ N) (t : Nat) :
    (∃ n, Upto ((begun lab t i).map ses) n ((σ i).mine t)) ∧ ((σ i).th t = .ret () → RanAll ((begun lab t i).map ses) ((σ i).mine t)) := by
  have := C19_program_order (closed_init (pid := pid) (fuel := fuel) (ses := ses) (lab := lab) (N := i) hi) (closed_reach (hr.cut hiN) i (Nat.le_refl i)) t
  rwa [closed_end] at this

/-- a dead process begins no call -/
theorem dead_begins (hr : OpenRun pid fuel ses N lab σ) {i j : Nat} {t : Nat} (hij : i ≤ j) (hj : j ≤ N) (hd : (σ i).alive (pid t) = false) :
    (σ j).alive (pid t) = false ∧ begun lab t j = begun lab t i := by
  induction j with
  | zero => obtain rfl : i = 0 := by omega
            exact ⟨hd, rfl⟩
  | succ j ih =>
    by_cases e : i ≤ j
    · obtain ⟨h1, h2⟩ := ih e (by omega)
      have h := hr j hj
      revert h
      generalize hl : lab j = l
      generalize hb : σ (j + 1) = b
      generalize ha : σ j = a at h1
      intro h
      cases h with
      | go h => exact ⟨dead_stays h _ h1, by rw [begun_none hl, h2]⟩
      | call u o h3 h4 =>
        have hne : t ≠ u := by rintro rfl; rw [h1] at h3; cases h3
        exact ⟨h1, by rw [begun_ne hl hne, h2]⟩
    · obtain rfl : i = j + 1 := by omega
      exact ⟨hd, rfl⟩

end

theorem nDone_upto {writes : O → Bool} {body : O → Body K} {rep : Body K} {os os' : List O} {n : Nat} {l : Ops K} (h : Upto (os.map (sessionOf body rep writes)) n l) : nDone writes (os ++ os') l ≤ os.length := by
  rcases h with h | ⟨se, l1, l2, l3, h1, h2, h3, rfl⟩
  · rw [← List.map_take] at h
    have := nDone_append h (os.drop n ++ os') [] rfl
    rw [← List.append_assoc, List.take_append_drop, List.append_nil, nDone_nil, Nat.add_zero] at this
    rw [this]
    exact List.length_take_le' _ _
  · rw [List.getElem?_map] at h1
    obtain ⟨o, ho, rfl⟩ := Option.map_eq_some_iff.1 h1
    rw [← List.map_take] at h2
    have hlt : n < os.length := (List.getElem?_eq_some_iff.1 ho).1
    have hd : os.drop n = o :: os.drop (n + 1) := by
      rw [List.drop_eq_getElem_cons hlt, (List.getElem?_eq_some_iff.1 ho).2]
    have := nDone_append h2 (os.drop n ++ os') l2 rfl
    rw [← List.append_assoc, List.take_append_drop, List.length_take, Nat.min_eq_left (Nat.le_of_lt hlt), hd] at this
    rw [this]
    have h4 : nDone writes (o :: os.drop (n + 1) ++ os') l2 ≤ 1 := by
      unfold sessionOf at h3
      split at h3
      · rename_i hw
        generalize hL : l2 ++ l3 = L at h3
        cases h3 with
        | write _ _ st =>
          match l2, hL with
          | [], _ => simp [nDone, hw]
          | [x], _ => simp [nDone, hw, nDone_nil]
          | x :: y :: l2, hL => simp at hL
      · rename_i hw
        generalize hL : l2 ++ l3 = L at h3
        cases h3 with
        | read =>
          match l2, hL with
          | [], _ => simp [nDone, hw]
          | [x], hL => simp at hL; obtain ⟨rfl, -⟩ := hL; simp [nDone, hw, nDone_nil]
          | x :: y :: l2, hL => simp at hL
        | readRepair =>
          match l2, hL with
          | [], _ => simp [nDone, hw]
          | [x], hL => simp at hL; obtain ⟨rfl, -⟩ := hL; simp [nDone, hw]
          | [x, y], hL => simp at hL; obtain ⟨rfl, rfl, -⟩ := hL; simp [nDone, hw, nDone_nil]
          | x :: y :: z :: l2, hL => simp at hL
    omega

/-- One history accounts for a whole run of the open system: at each moment a first part of it, which only grows, accounts for what has happened so far, in particular for the calls begun so far. -/
def ToldOpen (f : O → HProg R) (dummy : R) (pid : Nat → Nat) (Spec : S → O → Out R → S → Prop) (Cut : S → O → S → Prop) (Inv : S → Heap → Prop) (st0 : S)
    (N : Nat) (lab : Nat → Option (Nat × O)) (σ : Nat → St (poolMach (Out R))) : Prop :=
  ∃ (evs : List (Nat × Ev O R)) (n : Nat → Nat), (∀ i j, i ≤ j → j ≤ N → n i ≤ n j) ∧ n N = evs.length ∧
    ∀ i, i ≤ N → ∃ st, Accounts f dummy (fun t => begun lab t i) pid Spec Cut Inv st0 (σ i) (evs.take (n i)) st

theorem open_run_durable {f : O → HProg R} {Spec : S → O → Out R → S → Prop} {Cut : S → O → S → Prop} {Inv CI : S → Heap → Prop} {ok : S → O → Prop} {writes : O → Bool}
    (H : Fragile f Spec Cut Inv CI ok) {dummy : R} (hro : ∀ o, writes o = false → Ro (methodBody f o))
    {pid : Nat → Nat} {fuel : Nat} {p0 : Pool} {h0 : Heap} {st0 : S}
    (hi0 : Inv st0 h0) (hs0 : Sim h0 p0) (hp : PidsOk pid) {σ : Nat → St (poolMach (Out R))} {N : Nat} {lab : Nat → Option (Nat × O)}
    (hi : OpenInit p0 (σ 0)) (hrun : OpenRun pid fuel (callSession f writes dummy) N lab σ) :
    ToldOpen f dummy pid Spec Cut Inv st0 N lab σ ∨
    Misused f dummy (fun t => begun lab t N) pid (fun p => (σ N).alive p = false) Spec Cut ok st0 (σ N).log := by
  have hci := closed_init (pid := pid) (fuel := fuel) (ses := callSession f writes dummy) (lab := lab) (N := N) hi
  rcases run_dinv H hro hi0 hs0 hp hci (fun i hi' => closed_step hrun hi') with ⟨evs, n, h1, h2, h3⟩ | hm
  · refine Or.inl ⟨evs, n, h1, h2, fun i hiN => ?_⟩
    obtain ⟨hr, st, G, mc, d, es, h, hI⟩ := h3 i hiN
    obtain ⟨⟨a1, a2, a3⟩, -, a5⟩ := hI.accounts H hci hr
    have hcount := hI.goes.count
    rw [hI.inv.log] at hcount
    replace hcount : ∀ t, finished (evs.take (n i)) t = nDone writes (begun lab t N) ((σ i).mine t) := hcount
    clear hI h3 hr
    generalize hev : evs.take (n i) = ev at *
    have hb : ∀ t, ∃ r, begun lab t N = begun lab t i ++ r := fun t => (begun_mono lab t hiN).imp fun r h => h.symm
    have hord := fun t => open_program_order (m0 := p0) hi hrun hiN t
    rw [callSession_eq] at hord
    have a4 : ∀ t, (evsOf ev t).map Ev.op = (begun lab t N).take (evsOf ev t).length := fun t => (a3 t).1
    have hlen : ∀ t, (evsOf ev t).length ≤ (begun lab t i).length := by
      intro t
      by_cases hdead : (σ i).alive (pid t) = false
      · have e := (dead_begins hrun hiN (Nat.le_refl N) hdead).2
        have := congrArg List.length (a4 t)
        rw [List.length_map, List.length_take, e] at this
        omega
      · have hnd : ∀ o, .died o ∉ evsOf ev t := by
          intro o ho
          obtain ⟨l, l', e⟩ := List.append_of_mem ho
          exact hdead ((a3 t).2 l o l' e).2
        rw [← finished_all hnd, hcount t]
        obtain ⟨r, hr⟩ := hb t
        obtain ⟨m, hm⟩ := (hord t).1
        rw [hr]
        exact nDone_upto hm
    have hops : ∀ t, (evsOf ev t).map Ev.op = (begun lab t i).take (evsOf ev t).length := by
      intro t
      obtain ⟨r, hr⟩ := hb t
      rw [a4 t, hr, List.take_append_of_le_length (hlen t)]
    refine ⟨st, ⟨a1, a2, fun t => ⟨hops t, (a3 t).2⟩⟩, ?_, a5⟩
    intro t ht
    have hall := (hord t).2 ht
    obtain ⟨r, hr⟩ := hb t
    have hc := nDone_append hall r [] rfl
    rw [List.append_nil, nDone_nil, Nat.add_zero, ← hr] at hc
    have hle : finished ev t ≤ (evsOf ev t).length := List.length_filter_le _ _
    have := hcount t
    have := hlen t
    have hfull : finished ev t = (evsOf ev t).length := by omega
    refine ⟨?_, fun o ho => ?_⟩
    · rw [hops t, List.take_of_length_le (by omega)]
    · have := List.length_filter_eq_length_iff.1 hfull _ ho
      cases this
  · exact Or.inr hm

end Verif.Lock

/-! ### concrete runs -/
namespace Verif.Lock
open Verif
variable {K : Mach} {O : Type}

/-- `s` can be reached from `s0` in the open system with the calls `cs` begun on the way -/
def OpenTo (pid : Nat → Nat) (fuel : Nat) (ses : O → Session K) (cs : List (Nat × O)) (s0 s : St K) : Prop :=
  ∃ N lab σ, σ 0 = s0 ∧ σ N = s ∧ OpenRun pid fuel ses N lab σ ∧ (List.range N).filterMap lab = cs

theorem OpenTo.refl {pid : Nat → Nat} {fuel : Nat} {ses : O → Session K} (s : St K) : OpenTo pid fuel ses [] s s :=
  ⟨0, fun _ => none, fun _ => s, rfl, rfl, fun i hi => absurd hi (Nat.not_lt_zero i), rfl⟩

theorem OpenTo.step {pid : Nat → Nat} {fuel : Nat} {ses : O → Session K} {cs : List (Nat × O)} {s0 s s' : St K} {l : Option (Nat × O)} (h : OpenTo pid fuel ses cs s0 s)
    (hs : OStep pid fuel ses l s s') : OpenTo pid fuel ses (cs ++ l.toList) s0 s' := by
  obtain ⟨N, lab, σ, e1, e2, e3, rfl⟩ := h
  refine ⟨N + 1, fun i => if i < N then lab i else l, fun i => if i ≤ N then σ i else s', (if_pos (Nat.zero_le N)).trans e1, if_neg (by omega), fun i hi => ?_, ?_⟩
  · show OStep pid fuel ses (if i < N then lab i else l) (if i ≤ N then σ i else s') (if i + 1 ≤ N then σ (i + 1) else s')
    by_cases hN : i < N
    · rw [if_pos hN, if_pos (by omega), if_pos (by omega)]; exact e3 i hN
    · obtain rfl : i = N := by omega
      rw [if_neg hN, if_pos (Nat.le_refl _), if_neg (by omega), e2]
      exact hs
  · rw [List.range_succ, List.filterMap_append]
    congr 1
    · refine List.filterMap_congr fun i hi => ?_
      exact if_pos (List.mem_range.1 hi)
    · simp only [List.filterMap_cons, List.filterMap_nil]
      rw [if_neg (Nat.lt_irrefl N)]
      cases l <;> rfl

theorem mem_filterMap_range {lab : Nat → Option (Nat × O)} {N i t : Nat} {o : O} (hi : i < N) (hl : lab i = some (t, o)) : (t, o) ∈ (List.range N).filterMap lab :=
  List.mem_filterMap.2 ⟨i, List.mem_range.2 hi, hl⟩

end Verif.Lock
