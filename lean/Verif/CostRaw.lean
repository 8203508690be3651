import Verif.Cost
/-
Bounds on the cost of an allocator method that starts in a given pool (partial correctness; the specifications without costs supply the rest, `rcev_run`).
-/
namespace Verif
variable {α β : Type}

/-- from `c` to `c'` at most `x` accesses to the pool and `t` calls of ftruncate -/
structure Cost.RUp (c c' : Cost) (x t : Nat) : Prop where
  acc : c'.acc ≤ c.acc + x
  truncs : c'.truncs ≤ c.truncs + t

theorem Cost.RUp.refl (c : Cost) {x t : Nat} : c.RUp c x t := ⟨Nat.le_add_right _ _, Nat.le_add_right _ _⟩
theorem Cost.RUp.mono {c c' : Cost} {x t x' t' : Nat} (h : c.RUp c' x t) (h1 : x ≤ x') (h2 : t ≤ t') : c.RUp c' x' t' := by
  obtain ⟨u1, u2⟩ := h
  constructor <;> omega
theorem Cost.RUp.trans {c d e : Cost} {x t x' t' : Nat} (h : c.RUp d x t) (h' : d.RUp e x' t') : c.RUp e (x + x') (t + t') := by
  obtain ⟨u1, u2⟩ := h
  obtain ⟨v1, v2⟩ := h'
  constructor <;> omega

/-- the run of `p` from pool `s` and cost `c`, if it returns or throws, ends in `Q` (outcome, cost, pool) -/
def rcev : RProg α → (Out α → Cost → Pool → Prop) → Cost → Pool → Prop
  | .ret a, Q, c, s => Q (.ok a) c s
  | .err e, Q, c, s => Q (.err e) c s
  | .ub, _, _, _ => True
  | .step (.rd a n) k, Q, c, s => s.inb a n → rcev (k (leRd s.mem a n)) Q (c + rcost (.rd a n)) s
  | .step (.wr a n v) k, Q, c, s => s.inb a n → rcev (k ()) Q (c + rcost (.wr a n v)) { s with mem := leWr s.mem a n v }
  | .step (.rdB a n) k, Q, c, s => s.inb a n → rcev (k (bsRd s.mem a n)) Q (c + rcost (.rdB a n)) s
  | .step (.wrB a bs) k, Q, c, s => s.inb a bs.length → rcev (k ()) Q (c + rcost (.wrB a bs)) { s with mem := bsWr s.mem a bs }
  | .step (.trunc n) k, Q, c, s => (n ≤ s.lim → rcev (k true) Q (c + rcost (.trunc n)) (s.trunc n)) ∧ (¬ n ≤ s.lim → rcev (k false) Q (c + rcost (.trunc n)) s)
  | .step .maxSize k, Q, c, s => rcev (k s.maxSize) Q (c + rcost .maxSize) s

theorem rcev_mono {p : RProg α} {Q Q' : Out α → Cost → Pool → Prop} (hQ : ∀ o c s, Q o c s → Q' o c s) : ∀ {c : Cost} {s : Pool}, rcev p Q c s → rcev p Q' c s := by
  induction p with
  | ret a => exact fun h => hQ _ _ _ h
  | err e => exact fun h => hQ _ _ _ h
  | ub => exact fun h => h
  | step op k ih =>
    intro c s h
    cases op with
    | rd a n | wr a n v | rdB a n | wrB a bs => exact fun hb => ih _ (h hb)
    | trunc n => exact ⟨fun hc => ih _ (h.1 hc), fun hc => ih _ (h.2 hc)⟩
    | maxSize => exact ih _ h

theorem rcev_bind {p : RProg α} {f : α → RProg β} {Q : Out β → Cost → Pool → Prop} {R : Out α → Cost → Pool → Prop}
    (hk : ∀ a c' s', R (.ok a) c' s' → rcev (f a) Q c' s') (he : ∀ e c' s', R (.err e) c' s' → Q (.err e) c' s') :
    ∀ {c : Cost} {s : Pool}, rcev p R c s → rcev (p.bind f) Q c s := by
  induction p with
  | ret a => exact fun h => hk _ _ _ h
  | err e => exact fun h => he _ _ _ h
  | ub => exact fun _ => trivial
  | step op k ih =>
    intro c s h
    cases op with
    | rd a n | wr a n v | rdB a n | wrB a bs => exact fun hb => ih _ (h hb)
    | trunc n => exact ⟨fun hc => ih _ (h.1 hc), fun hc => ih _ (h.2 hc)⟩
    | maxSize => exact ih _ h

/-- from a specification without costs -/
theorem rcev_wp {p : RProg α} {Q : Out α → Pool → Prop} {I : Pool → Prop} {P : Out α → Cost → Pool → Prop} : ∀ {c : Cost} {s : Pool}, rwp p Q I s → rcev p P c s →
    rcev p (fun r c' s' => Q r s' ∧ P r c' s') c s := by
  induction p with
  | ret a => exact fun h1 h2 => ⟨h1.2, h2⟩
  | err e => exact fun h1 h2 => ⟨h1.2, h2⟩
  | ub => exact fun _ _ => trivial
  | step op k ih =>
    intro c s h1 h2
    cases op with
    | rd a n | wr a n v | rdB a n | wrB a bs => exact fun hb => ih _ h1.2.2 (h2 hb)
    | trunc n => exact ⟨fun hc => ih _ (h1.2.1 hc) (h2.1 hc), fun hc => ih _ (h1.2.2 hc) (h2.2 hc)⟩
    | maxSize => exact ih _ h1.2 h2

/-- a bound over all paths -/
theorem rcev_every {p : RProg α} {P : Out α → Cost → Prop} : ∀ {c : Cost} {s : Pool}, REvery p c P → rcev p (fun r c' _ => P r c') c s := by
  induction p with
  | ret a => exact fun h => h
  | err e => exact fun h => h
  | ub => exact fun _ => trivial
  | step op k ih =>
    intro c s he
    cases op with
    | rd a n => exact fun _ => ih _ (he _ (leRd_lt _ _ _))
    | rdB a n => exact fun _ => ih _ (he _ (bsRd_length _ _ _))
    | wr a n v | wrB a bs => exact fun _ => ih _ (he _ trivial)
    | trunc n => exact ⟨fun _ => ih _ (he _ trivial), fun _ => ih _ (he _ trivial)⟩
    | maxSize => exact ih _ (he _ trivial)

theorem rcev_from {p : RProg α} {P : Out α → Cost → Prop} {c : Cost} {s : Pool} (hp : REvery p {} P) : rcev p (fun o c' _ => ∃ e, c' = c + e ∧ P o e) c s := rcev_every hp.from

/-- **soundness**: a specification without costs and a bound give the result and the cost of the run with counters -/
theorem rcev_run {p : RProg α} {Q : Out α → Pool → Prop} {I : Pool → Prop} {P : Out α → Cost → Pool → Prop} : ∀ {c : Cost} {s : Pool}, rwp p Q I s → rcev p P c s →
    ∃ r c' s', run (p.tally rcost c) s = (.ok (r, c'), s') ∧ Q r s' ∧ P r c' s' := by
  induction p with
  | ret a => exact fun h1 h2 => ⟨_, _, _, rfl, h1.2, h2⟩
  | err e => exact fun h1 h2 => ⟨_, _, _, rfl, h1.2, h2⟩
  | ub => exact fun h1 _ => h1.elim
  | step op k ih =>
    intro c s h1 h2
    cases op with
    | rd a n | wr a n v | rdB a n | wrB a bs =>
      simp only [Prog.tally, run, forceN_eq, forceB_eq, if_pos h1.2.1]
      exact ih _ h1.2.2 (h2 h1.2.1)
    | trunc n =>
      simp only [Prog.tally, run]
      by_cases hc : n ≤ s.lim
      · rw [if_pos hc]; exact ih _ (h1.2.1 hc) (h2.1 hc)
      · rw [if_neg hc]; exact ih _ (h1.2.2 hc) (h2.2 hc)
    | maxSize => exact ih _ h1.2 h2

theorem rcev_run' {p : RProg α} {Q : Out α → Pool → Prop} {I : Pool → Prop} {P : Out α → Cost → Pool → Prop} {s : Pool} (h1 : rwp p Q I s) (h2 : rcev p P {} s) :
    ∃ r c' s', run (rcounted p) s = (.ok (r, c'), s') ∧ Q r s' ∧ P r c' s' := rcev_run h1 h2

section rules
variable {Q : Out α → Cost → Pool → Prop} {s : Pool} {a n : Nat} {c : Cost}
theorem rcev_ret {x : α} (hq : Q (.ok x) c s) : rcev (.ret x) Q c s := hq
theorem rcev_err {e : Err} (hq : Q (.err e) c s) : rcev (.err e) Q c s := hq
theorem rcev_rd {k : Nat → RProg α} (hk : rcev (k (leRd s.mem a n)) Q (c + { acc := 1 }) s) : rcev ((R.rd a n).bind k) Q c s := fun _ => hk
theorem rcev_wr {v : Nat} {k : Unit → RProg α} (hk : rcev (k ()) Q (c + { acc := 1 }) { s with mem := leWr s.mem a n v }) : rcev ((R.wr a n v).bind k) Q c s := fun _ => hk
theorem rcev_last {v : Nat} {Q : Out Unit → Cost → Pool → Prop} (hq : Q (.ok ()) (c + { acc := 1 }) { s with mem := leWr s.mem a n v }) : rcev (R.wr a n v) Q c s := fun _ => hq
end rules

/-- Pool::expand: at most three accesses (one of them to this opener's max_size) and one ftruncate -/
theorem expand_every (n : Nat) : REvery (expand n) {} fun _ e => ({} : Cost).RUp e 3 1 := by
  unfold expand
  simp only [Prog.bind_def]
  intro mx _
  by_cases h : mx ≠ 0 ∧ roundPage n > mx
  · simp only [Prog.ret_bind]
    rw [if_pos h]
    constructor <;> simp [rcost]
  · simp only [Prog.ret_bind]
    rw [if_neg h]
    intro v _
    simp only [Prog.ret_bind]
    split
    · constructor <;> simp [rcost]
    · intro ok _
      simp only [Prog.ret_bind]
      split
      · constructor <;> simp [rcost]
      · intro _ _
        constructor <;> simp [rcost]
end Verif
