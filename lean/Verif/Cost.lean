import Verif.Sim
/-
What a method costs.

The README ("Time complexity") states the cost of every method as a number of calls of Allocator::allocate and Allocator::free plus a number of memory accesses and copied
bytes.  `tally` is the method with counters added: the same accesses in the same order (`tally_run`), and the totals returned beside the outcome.  The counters see the single
accesses of the modelled code, so a theorem about them bounds the running time up to the cost of one access and of the arithmetic between two accesses.
-/
namespace Verif

/-- what was used: calls of allocate, calls of free, accesses to the pool (each copy counts as one), bytes copied, calls of ftruncate -/
structure Cost where
  allocs : Nat := 0
  frees : Nat := 0
  acc : Nat := 0
  bytes : Nat := 0
  truncs : Nat := 0
  deriving DecidableEq

namespace Cost
instance : Add Cost := ⟨fun a b => ⟨a.allocs + b.allocs, a.frees + b.frees, a.acc + b.acc, a.bytes + b.bytes, a.truncs + b.truncs⟩⟩
@[simp] theorem add_allocs (a b : Cost) : (a + b).allocs = a.allocs + b.allocs := rfl
@[simp] theorem add_frees (a b : Cost) : (a + b).frees = a.frees + b.frees := rfl
@[simp] theorem add_acc (a b : Cost) : (a + b).acc = a.acc + b.acc := rfl
@[simp] theorem add_bytes (a b : Cost) : (a + b).bytes = a.bytes + b.bytes := rfl
@[simp] theorem add_truncs (a b : Cost) : (a + b).truncs = a.truncs + b.truncs := rfl
@[ext] theorem ext' {a b : Cost} (h1 : a.allocs = b.allocs) (h2 : a.frees = b.frees) (h3 : a.acc = b.acc) (h4 : a.bytes = b.bytes) (h5 : a.truncs = b.truncs) : a = b := by
  cases a; cases b; simp only at h1 h2 h3 h4 h5; subst h1; subst h2; subst h3; subst h4; subst h5; rfl
theorem add_assoc (a b c : Cost) : a + b + c = a + (b + c) := by
  ext <;> simp <;> omega
theorem add_zero (a : Cost) : a + {} = a := by ext <;> simp
theorem zero_add (a : Cost) : ({} : Cost) + a = a := by ext <;> simp
end Cost

/-- what one access of a structure method costs -/
def hcost : HOp → Cost
  | .alloc _ => { allocs := 1 }
  | .free _ => { frees := 1 }
  | .rdB _ _ n => { acc := 1, bytes := n }
  | .wrB _ _ bs => { acc := 1, bytes := bs.length }
  | _ => { acc := 1 }

/-- what one access of an allocator method to the pool costs -/
def rcost : ROp → Cost
  | .rdB _ n => { acc := 1, bytes := n }
  | .wrB _ bs => { acc := 1, bytes := bs.length }
  | .trunc _ => { truncs := 1 }
  | _ => { acc := 1 }

variable {Op : Type} {Re : Op → Type} {α β : Type}

/-- the program with counters: its outcome (also when it throws) and what it cost, from `c` on -/
def Prog.tally (w : Op → Cost) : Prog Op Re α → Cost → Prog Op Re (Out α × Cost)
  | .ret a, c => .ret (.ok a, c)
  | .err e, c => .ret (.err e, c)
  | .ub, _ => .ub
  | .step op k, c => .step op fun r => (k r).tally w (c + w op)

/-- the costs of a structure method, from 0 on -/
def counted (p : HProg α) : HProg (Out α × Cost) := p.tally hcost {}

/-- the costs of a method in accesses to the pool's bytes, from 0 on -/
def rcounted (p : RProg α) : RProg (Out α × Cost) := p.tally rcost {}

/-- the result of a run without the counters -/
def Res.uncount : Res (Out α × Cost) → Res α
  | .ok (r, _) => r.toRes
  | .err e => .err e
  | .ub => .ub

/-- counting changes nothing: same outcome, same bytes in the pool -/
theorem rtally_run (p : RProg α) : ∀ (c : Cost) (s : Pool), ((run (p.tally rcost c) s).1.uncount, (run (p.tally rcost c) s).2) = run p s := by
  induction p with
  | ret a => exact fun _ _ => rfl
  | err e => exact fun _ _ => rfl
  | ub => exact fun _ _ => rfl
  | step op k ih =>
    intro c s
    cases op with
    | rd a n | wr a n v | rdB a n | wrB a bs =>
      simp only [Prog.tally, run, forceN_eq, forceB_eq]
      split
      · exact ih _ _ _
      · rfl
    | trunc n =>
      simp only [Prog.tally, run]
      split
      · exact ih _ _ _
      · exact ih _ _ _
    | maxSize => exact ih _ _ _

theorem run_bind_eq {p : RProg α} {f : α → RProg β} : ∀ {s : Pool}, run (p.bind f) s =
    match run p s with
    | (.ok a, s') => run (f a) s'
    | (.err e, s') => (.err e, s')
    | (.ub, s') => (.ub, s') := by
  induction p with
  | ret a => exact fun {s} => rfl
  | err e => exact fun {s} => rfl
  | ub => exact fun {s} => rfl
  | step op k ih =>
    intro s
    cases op with
    | rd a n | wr a n v | rdB a n | wrB a bs =>
      simp only [Prog.step_bind, run, forceN_eq, forceB_eq]
      split
      · exact ih _
      · rfl
    | trunc n =>
      simp only [Prog.step_bind, run]
      split
      · exact ih _
      · exact ih _
    | maxSize => exact ih _

theorem uncount_bind {γ : Type} {p : RProg γ} {f : γ → RProg (Out α × Cost)} {g : γ → RProg α} {s : Pool}
    (h : ∀ a s, ((run (f a) s).1.uncount, (run (f a) s).2) = run (g a) s) :
    ((run (p.bind f) s).1.uncount, (run (p.bind f) s).2) = run (p.bind g) s := by
  rw [run_bind_eq, run_bind_eq]
  generalize run p s = x
  obtain ⟨r, s'⟩ := x
  cases r with
  | ok r => exact h r s'
  | err e => rfl
  | ub => rfl

attribute [local irreducible] tryAlloc Simple.free Simple.blockSize Simple.getBase Simple.setBase in
theorem compile_tally_run (p : HProg α) : ∀ (c : Cost) (s : Pool),
    ((run (compile (p.tally hcost c)) s).1.uncount, (run (compile (p.tally hcost c)) s).2) = run (compile p) s := by
  induction p with
  | ret a => exact fun _ _ => rfl
  | err e => exact fun _ _ => rfl
  | ub => exact fun _ _ => rfl
  | step op k ih =>
    intro c s
    cases op with
    | rd b o n => exact uncount_bind (p := R.rd (b + o) n) (f := fun v => compile ((k v).tally hcost _)) (g := fun v => compile (k v)) fun a s => ih a _ s
    | wr b o n v => exact uncount_bind (p := R.wr (b + o) n v) (f := fun v => compile ((k v).tally hcost _)) (g := fun v => compile (k v)) fun a s => ih a _ s
    | rdB b o n => exact uncount_bind (p := R.rdB (b + o) n) (f := fun v => compile ((k v).tally hcost _)) (g := fun v => compile (k v)) fun a s => ih a _ s
    | wrB b o bs => exact uncount_bind (p := R.wrB (b + o) bs) (f := fun v => compile ((k v).tally hcost _)) (g := fun v => compile (k v)) fun a s => ih a _ s
    | alloc n => exact uncount_bind (p := tryAlloc n) (f := fun v => compile ((k v).tally hcost _)) (g := fun v => compile (k v)) fun a s => ih a _ s
    | free b => exact uncount_bind (p := Simple.free b) (f := fun v => compile ((k v).tally hcost _)) (g := fun v => compile (k v)) fun a s => ih a _ s
    | bsize b => exact uncount_bind (p := Simple.blockSize b) (f := fun v => compile ((k v).tally hcost _)) (g := fun v => compile (k v)) fun a s => ih a _ s
    | getBase => exact uncount_bind (p := Simple.getBase) (f := fun v => compile ((k v).tally hcost _)) (g := fun v => compile (k v)) fun a s => ih a _ s
    | setBase o => exact uncount_bind (p := Simple.setBase o) (f := fun v => compile ((k v).tally hcost _)) (g := fun v => compile (k v)) fun a s => ih a _ s

/-- the counters of a structure method on a SimpleAllocator pool change nothing: same outcome, same bytes -/
theorem counted_run (p : HProg α) (s : Pool) :
    ((run (compile (counted p)) s).1.uncount, (run (compile (counted p)) s).2) = run (compile p) s := compile_tally_run p {} s

/-! ### Bounds that hold whatever the memory contains -/

/-- responses of the right size -/
def hresp : (op : HOp) → HRe op → Prop
  | .rd _ _ n, r => r < 256 ^ n
  | .rdB _ _ n, r => r.length = n
  | _, _ => True

/-- responses of the right size -/
def rresp : (op : ROp) → RRe op → Prop
  | .rd _ n, r => r < 256 ^ n
  | .rdB _ n, r => r.length = n
  | _, _ => True

/-- every path through the program, whatever is read (`ok` = responses of the right size), ends in `P` (outcome, cost) -/
def Every (ok : (op : Op) → Re op → Prop) (w : Op → Cost) : Prog Op Re α → Cost → (Out α → Cost → Prop) → Prop
  | .ret a, c, P => P (.ok a) c
  | .err e, c, P => P (.err e) c
  | .ub, _, _ => True
  | .step op k, c, P => ∀ r, ok op r → Every ok w (k r) (c + w op) P

section
variable {ok : (op : Op) → Re op → Prop} {w : Op → Cost}

theorem Every.mono {p : Prog Op Re α} {P P' : Out α → Cost → Prop} (h : ∀ o c, P o c → P' o c) : ∀ {c}, Every ok w p c P → Every ok w p c P' := by
  induction p with
  | ret a => exact fun hp => h _ _ hp
  | err e => exact fun hp => h _ _ hp
  | ub => exact fun hp => hp
  | step op k ih => exact fun hp r hr => ih r (hp r hr)

/-- continuation of `Every` through sequencing -/
def everyK (ok : (op : Op) → Re op → Prop) (w : Op → Cost) (f : α → Prog Op Re β) (P : Out β → Cost → Prop) : Out α → Cost → Prop
  | .ok a, c => Every ok w (f a) c P
  | .err e, c => P (.err e) c

theorem every_bind {p : Prog Op Re α} {f : α → Prog Op Re β} {P : Out β → Cost → Prop} :
    ∀ {c}, Every ok w (p.bind f) c P ↔ Every ok w p c (everyK ok w f P) := by
  induction p with
  | ret a => exact Iff.rfl
  | err e => exact Iff.rfl
  | ub => exact Iff.rfl
  | step op k ih =>
    intro c
    constructor
    · exact fun h r hr => (ih r).1 (h r hr)
    · exact fun h r hr => (ih r).2 (h r hr)

/-- use a bound of `p` inside a longer program -/
theorem every_bind_of {p : Prog Op Re α} {f : α → Prog Op Re β} {P : Out β → Cost → Prop} {R : Out α → Cost → Prop} {c : Cost}
    (hp : Every ok w p c R) (hk : ∀ a c', R (.ok a) c' → Every ok w (f a) c' P) (he : ∀ e c', R (.err e) c' → P (.err e) c') :
    Every ok w (p.bind f) c P := by
  rw [every_bind]
  refine hp.mono ?_
  intro o c' hR
  cases o with
  | ok a => exact hk a c' hR
  | err e => exact he e c' hR

/-- bounds are the same from every starting cost -/
theorem Every.shift {p : Prog Op Re α} {P : Out α → Cost → Prop} {d : Cost} : ∀ {c}, Every ok w p c P → Every ok w p (d + c) fun o c' => ∃ e, c' = d + e ∧ P o e := by
  induction p with
  | ret a => exact fun h => ⟨_, rfl, h⟩
  | err e => exact fun h => ⟨_, rfl, h⟩
  | ub => exact fun h => h
  | step op k ih =>
    intro c h r hr
    have := ih r (h r hr)
    rwa [← Cost.add_assoc] at this

/-- a bound from cost 0, used from cost `c` -/
theorem Every.from {p : Prog Op Re α} {P : Out α → Cost → Prop} {c : Cost} (h : Every ok w p {} P) : Every ok w p c fun o c' => ∃ e, c' = c + e ∧ P o e := by
  have := h.shift (d := c)
  rwa [Cost.add_zero] at this

/-- use a bound of `p` from cost 0 inside a longer program -/
theorem every_then {p : Prog Op Re α} {f : α → Prog Op Re β} {P : Out β → Cost → Prop} {R : Out α → Cost → Prop} {c : Cost}
    (hp : Every ok w p {} R) (hk : ∀ a e, R (.ok a) e → Every ok w (f a) (c + e) P) (he : ∀ x e, R (.err x) e → P (.err x) (c + e)) :
    Every ok w (p.bind f) c P := by
  refine every_bind_of hp.from ?_ ?_
  · rintro a c' ⟨e, rfl, h⟩; exact hk a e h
  · rintro x c' ⟨e, rfl, h⟩; exact he x e h
end

/-- a bound over all paths of a structure method -/
abbrev HEvery (p : HProg α) (c : Cost) (P : Out α → Cost → Prop) : Prop := Every hresp hcost p c P
/-- a bound over all paths of a method on pool bytes -/
abbrev REvery (p : RProg α) (c : Cost) (P : Out α → Cost → Prop) : Prop := Every rresp rcost p c P

/-! ### Counting executions -/

/-- the program, run with counters from `c` on, ends in `Q` (outcome, cost, heap), whatever a lawful allocator does -/
def cwp (p : HProg α) (Q : Out α → Cost → Heap → Prop) (c : Cost) (h : Heap) : Prop :=
  wp (p.tally hcost c) (fun o h => ∃ r c', o = .ok (r, c') ∧ Q r c' h) h

theorem cwp_mono {p : HProg α} {Q Q' : Out α → Cost → Heap → Prop} (hQ : ∀ o c h, Q o c h → Q' o c h) {c : Cost} {h : Heap} (hw : cwp p Q c h) : cwp p Q' c h := by
  refine wp_mono ?_ hw
  rintro o h' ⟨r, c', rfl, hq⟩
  exact ⟨r, c', rfl, hQ _ _ _ hq⟩

theorem tally_bind (w : Op → Cost) (p : Prog Op Re α) (f : α → Prog Op Re β) : ∀ c, (p.bind f).tally w c = (p.tally w c).bind fun x =>
    match x.1 with
    | .ok a => (f a).tally w x.2
    | .err e => .ret (.err e, x.2) := by
  induction p with
  | ret a => exact fun _ => rfl
  | err e => exact fun _ => rfl
  | ub => exact fun _ => rfl
  | step op k ih =>
    intro c
    simp only [Prog.step_bind, Prog.tally]
    congr 1
    funext r
    exact ih r _

theorem cwp_bind_of {p : HProg α} {f : α → HProg β} {Q : Out β → Cost → Heap → Prop} {c : Cost} {h : Heap} {R : Out α → Cost → Heap → Prop}
    (hp : cwp p R c h) (hk : ∀ a c' h', R (.ok a) c' h' → cwp (f a) Q c' h') (he : ∀ e c' h', R (.err e) c' h' → Q (.err e) c' h') : cwp (p.bind f) Q c h := by
  unfold cwp
  rw [tally_bind]
  refine wp_bind_of hp ?_ ?_
  · rintro ⟨r, c'⟩ h' ⟨r', c'', h1, h2⟩
    cases h1
    cases r with
    | ok a => exact hk _ _ _ h2
    | err e => exact ⟨_, _, rfl, he _ _ _ h2⟩
  · rintro e h' ⟨r', c'', h1, h2⟩
    cases h1

theorem cwp_ret {a : α} {Q : Out α → Cost → Heap → Prop} {c : Cost} {h : Heap} (hq : Q (.ok a) c h) : cwp (.ret a) Q c h := ⟨_, _, rfl, hq⟩
theorem cwp_err {e : Err} {Q : Out α → Cost → Heap → Prop} {c : Cost} {h : Heap} (hq : Q (.err e) c h) : cwp (.err e) Q c h := ⟨_, _, rfl, hq⟩

section rules
variable {Q : Out α → Cost → Heap → Prop} {h : Heap} {b o n : Nat} {B : Block} {c : Cost}
theorem cwp_rd {k : Nat → HProg α} (hb : h.blk b = some B) (ho : o + n ≤ B.size)
    (hk : cwp (k (B.rd o n)) Q (c + { acc := 1 }) h) : cwp ((H.rd b o n).bind k) Q c h := ⟨B, hb, ho, hk⟩
theorem cwp_wr {v : Nat} {k : Unit → HProg α} (hb : h.blk b = some B) (ho : o + n ≤ B.size)
    (hk : cwp (k ()) Q (c + { acc := 1 }) (h.set b (B.wr o n v))) : cwp ((H.wr b o n v).bind k) Q c h := ⟨B, hb, ho, hk⟩
theorem cwp_free {k : Unit → HProg α} (hb : h.blk b = some B)
    (hk : cwp (k ()) Q (c + { frees := 1 }) (h.del b)) : cwp ((H.free b).bind k) Q c h := ⟨B, hb, hk⟩
theorem cwp_bsize {k : Nat → HProg α} (hb : h.blk b = some B)
    (hk : cwp (k B.size) Q (c + { acc := 1 }) h) : cwp ((H.bsize b).bind k) Q c h := ⟨B, hb, hk⟩
theorem cwp_wrB {bs : Bytes} {k : Unit → HProg α} (hb : h.blk b = some B) (ho : o + bs.length ≤ B.size)
    (hk : cwp (k ()) Q (c + { acc := 1, bytes := bs.length }) (h.set b (B.wrB o bs))) : cwp ((H.wrB b o bs).bind k) Q c h := ⟨B, hb, ho, hk⟩
theorem cwp_alloc {k : Nat → HProg α} (hn : n ≤ maxAlloc) (hk : ∀ o d, Fresh h o n → cwp (k o) Q (c + { allocs := 1 }) (h.set o ⟨n, d⟩))
    (he : Q (.err .noMem) (c + { allocs := 1 }) h) : cwp ((H.alloc n).bind k) Q c h := ⟨hn, hk, ⟨_, _, rfl, he⟩⟩
theorem cwp_rdB {k : Bytes → HProg α} (hb : h.blk b = some B) (ho : o + n ≤ B.size)
    (hk : cwp (k (B.rdB o n)) Q (c + { acc := 1, bytes := n }) h) : cwp ((H.rdB b o n).bind k) Q c h := ⟨B, hb, ho, hk⟩
end rules

/-- a specification without costs and a bound over all paths give a specification with costs -/
theorem cwp_of {p : HProg α} {Q : Out α → Heap → Prop} {P : Out α → Cost → Prop} : ∀ {c : Cost} {h : Heap}, wp p Q h → HEvery p c P →
    cwp p (fun r c' h' => Q r h' ∧ P r c') c h := by
  induction p with
  | ret a => exact fun h1 h2 => ⟨_, _, rfl, h1, h2⟩
  | err e => exact fun h1 h2 => ⟨_, _, rfl, h1, h2⟩
  | ub => exact fun h1 _ => h1
  | step op k ih =>
    intro c h hw he
    cases op with
    | alloc n => exact ⟨hw.1, fun o d hf => ih _ (hw.2.1 o d hf) (he _ trivial), ih _ hw.2.2 (he _ trivial)⟩
    | getBase => exact ih _ hw (he _ trivial)
    | setBase o => exact ⟨hw.1, ih _ hw.2 (he _ trivial)⟩
    | free b | bsize b => obtain ⟨B, h1, h2⟩ := hw; exact ⟨B, h1, ih _ h2 (he _ trivial)⟩
    | rd b o n => obtain ⟨B, h1, h2, h3⟩ := hw; exact ⟨B, h1, h2, ih _ h3 (he _ (B.rd_lt o n))⟩
    | rdB b o n => obtain ⟨B, h1, h2, h3⟩ := hw; exact ⟨B, h1, h2, ih _ h3 (he _ (B.rdB_length o n))⟩
    | wr b o n v | wrB b o bs => obtain ⟨B, h1, h2, h3⟩ := hw; exact ⟨B, h1, h2, ih _ h3 (he _ trivial)⟩

/-- add what is known without costs to a specification with costs -/
theorem cwp_and {p : HProg α} {Q : Out α → Heap → Prop} {P : Out α → Cost → Heap → Prop} : ∀ {c : Cost} {h : Heap}, wp p Q h → cwp p P c h →
    cwp p (fun r c' h' => Q r h' ∧ P r c' h') c h := by
  induction p with
  | ret a => rintro c h h1 ⟨r, c', h2, h3⟩; cases h2; exact ⟨_, _, rfl, h1, h3⟩
  | err e => rintro c h h1 ⟨r, c', h2, h3⟩; cases h2; exact ⟨_, _, rfl, h1, h3⟩
  | ub => exact fun h1 _ => h1
  | step op k ih =>
    intro c h hw he
    cases op with
    | alloc n => exact ⟨hw.1, fun o d hf => ih _ (hw.2.1 o d hf) (he.2.1 o d hf), ih _ hw.2.2 he.2.2⟩
    | getBase => exact ih _ hw he
    | setBase o => exact ⟨hw.1, ih _ hw.2 he.2⟩
    | free b | bsize b =>
      obtain ⟨B, h1, h2⟩ := hw; obtain ⟨B', h1', h2'⟩ := he
      rw [h1] at h1'; cases h1'
      exact ⟨B, h1, ih _ h2 h2'⟩
    | rd b o n | rdB b o n | wr b o n v | wrB b o bs =>
      obtain ⟨B, h1, h2, h3⟩ := hw; obtain ⟨B', h1', h2', h3'⟩ := he
      rw [h1] at h1'; cases h1'
      exact ⟨B, h1, h2, ih _ h3 h3'⟩

/-- forget the costs -/
theorem wp_of_cwp {p : HProg α} {Q : Out α → Cost → Heap → Prop} : ∀ {c : Cost} {h : Heap}, cwp p Q c h → wp p (fun r h' => ∃ c', Q r c' h') h := by
  induction p with
  | ret a => rintro c h ⟨r, c', h2, h3⟩; cases h2; exact ⟨_, h3⟩
  | err e => rintro c h ⟨r, c', h2, h3⟩; cases h2; exact ⟨_, h3⟩
  | ub => exact fun h => h
  | step op k ih =>
    intro c h he
    cases op with
    | alloc n => exact ⟨he.1, fun o d hf => ih _ (he.2.1 o d hf), ih _ he.2.2⟩
    | getBase => exact ih _ he
    | setBase o => exact ⟨he.1, ih _ he.2⟩
    | free b | bsize b => obtain ⟨B, h1, h2⟩ := he; exact ⟨B, h1, ih _ h2⟩
    | rd b o n | rdB b o n | wr b o n v | wrB b o bs => obtain ⟨B, h1, h2, h3⟩ := he; exact ⟨B, h1, h2, ih _ h3⟩

/-- the same, with the specification and the bound both holding from cost 0 -/
theorem cwp_then {p : HProg α} {f : α → HProg β} {Q : Out β → Cost → Heap → Prop} {c : Cost} {h : Heap} {R : Out α → Heap → Prop} {P : Out α → Cost → Prop}
    (hp : wp p R h) (hc : HEvery p {} P) (hk : ∀ a e h', R (.ok a) h' → P (.ok a) e → cwp (f a) Q (c + e) h')
    (he : ∀ x e h', R (.err x) h' → P (.err x) e → Q (.err x) (c + e) h') : cwp (p.bind f) Q c h := by
  refine cwp_bind_of (cwp_of hp hc.from) ?_ ?_
  · rintro a _ h' ⟨h1, e, rfl, h2⟩; exact hk a e h' h1 h2
  · rintro x _ h' ⟨h1, e, rfl, h2⟩; exact he x e h' h1 h2

/-! ### Costs in whole histories -/

/-- a specification with costs: the outcome obeys `Spec`, and the cost obeys `Bound` (state before, call, outcome, cost) -/
def CSpec {S O R : Type} (Spec : S → O → Out R → S → Prop) (Bound : S → O → Out R → Cost → Prop) (s : S) (o : O) (x : Out (Out R × Cost)) (s' : S) : Prop :=
  ∃ r c, x = .ok (r, c) ∧ Spec s o r s' ∧ Bound s o r c

/-- a counting execution of a call, as a step of a history of counted calls -/
theorem cwp_step {S O R : Type} {f : O → HProg R} {Spec : S → O → Out R → S → Prop} {Inv : S → Heap → Prop} {Bound : S → O → Out R → Cost → Prop} {s : S} {o : O} {h : Heap}
    (hw : cwp (f o) (fun r c h' => (∃ s', Spec s o r s' ∧ Inv s' h') ∧ Bound s o r c) {} h) :
    wp (counted (f o)) (fun out h' => ∃ s', CSpec Spec Bound s o out s' ∧ Inv s' h') h := by
  refine wp_mono ?_ hw
  rintro out h' ⟨r, c, rfl, ⟨s', h1, h2⟩, h3⟩
  exact ⟨s', ⟨r, c, rfl, h1, h3⟩, h2⟩

end Verif
