import Verif.AtomicVecSys
/-
C29-C33: AtomicVector (/repo/src/AtomicVector.hh).  `Spec` and `LinRun` (AtomicVecSpec.lean) are the specification.
-/
namespace Verif.AtomicVec
open Verif
variable {sz : Nat}

/-- memory holds exactly the vector `a`: the count word is its length, the elements are its words, all inside the pool and the file, and everything behind
them is zero -/
def Shows (sz : Nat) (s : Sh) (a : List (BitVec (8 * sz))) : Prop := Rep sz s ⟨a, leRd s.mem 0 8, s.fsize, s.lim⟩

theorem Rep.shows {s : Sh} {g : G (8 * sz)} (h : Rep sz s g) : Shows sz s g.a := by
  have e : (⟨g.a, leRd s.mem 0 8, s.fsize, s.lim⟩ : G (8 * sz)) = g := by rw [h.size, h.file, h.lim]
  unfold Shows; rw [e]; exact h

/-- a vector on a pool just created (Pool.cc 63-80) -/
def fresh (lim : Nat) : Sh := ⟨fun i => if i = 1 then 16 else 0, 4096, lim⟩

theorem fresh_shows (hs : 0 < sz) {lim : Nat} (hl : lim < 9223372036854775808) : Shows sz (fresh lim) [] := by
  have e : leRd (fresh lim).mem 0 8 = 4096 := by
    show leRd (fun i => if i = 1 then 16 else 0) 0 8 = 4096
    decide +kernel
  have e2 : leRd (fresh lim).mem 8 8 = 0 := by
    show leRd (fun i => if i = 1 then 16 else 0) 8 8 = 0
    decide +kernel
  refine ⟨⟨hs, ?_, ?_, ?_, hl, ?_⟩, rfl, rfl, rfl, e2, ?_, ?_⟩
  · simp only [e]; omega
  · simp only [e]; exact Nat.le_refl _
  · show 4096 < 9223372036854775808; decide
  · simp only [e]; simp
  · intro i h; simp at h
  · intro j hj
    simp at hj
    show (if j = 1 then (16 : UInt8) else 0) = 0
    rw [if_neg (by omega)]

/-! ### C29-C31: sequential behaviour -/

/-- **C29-C31, one call.** A call on a vector holding `a` has an outcome allowed by `Spec` and leaves memory holding the vector that `Spec` says; it
never touches unmapped memory, whatever the process' mapping was before. -/
theorem call_refines (hs : 0 < sz) {fuel : Nat} (hf : 0 < fuel) {s : Sh} {p : Proc} {a : List (BitVec (8 * sz))} (h : Shows sz s a) (hv : 4096 ≤ p.view)
    (op : Op (8 * sz)) (hok : op.ok sz) :
    ∃ out s' p' a', vrun sz (call sz fuel op) s p = (Out.toRes out, s', p') ∧ Spec a op out a' ∧ Shows sz s' a' ∧ 4096 ≤ p'.view := by
  obtain ⟨out, s', p', g', h1, h2, h3, h4⟩ := twp_run _ (call_twp hs hf op hok hv) trivial h
  rcases h4 with ⟨-, h4⟩ | ⟨h4, -⟩
  · exact ⟨out, s', p', g'.a, h1, h4, h2.shows, h3⟩
  · cases h4

/-- sequences of outcomes allowed by `Spec` -/
inductive VTrace : List (BitVec (8 * sz)) → List (Op (8 * sz)) → List (Res (Ret (8 * sz))) → List (BitVec (8 * sz)) → Prop
  | nil (a : List (BitVec (8 * sz))) : VTrace a [] [] a
  | cons {a a' a'' op ops r rs} : Spec a op r a' → VTrace a' ops rs a'' → VTrace a (op :: ops) (Out.toRes r :: rs) a''

/-- **C29-C31, histories.** Any sequence of calls by one process refines the list of words. -/
theorem C29_history (hs : 0 < sz) {fuel : Nat} (hf : 0 < fuel) (ops : List (Op (8 * sz))) : ∀ {s : Sh} {p : Proc} {a : List (BitVec (8 * sz))}, Shows sz s a →
    4096 ≤ p.view → (∀ o ∈ ops, o.ok sz) → ∃ a', VTrace a ops (vhist sz fuel ops s p).1 a' ∧ Shows sz (vhist sz fuel ops s p).2.1 a' := by
  induction ops with
  | nil => intro s p a h _ _; exact ⟨a, .nil a, h⟩
  | cons o ops ih =>
    intro s p a h hv hok
    obtain ⟨out, s', p', a', h1, h2, h3, h4⟩ := call_refines hs hf h hv o (hok o (by simp))
    obtain ⟨a'', h5, h6⟩ := ih h3 h4 (fun o ho => hok o (by simp [ho]))
    refine ⟨a'', ?_, ?_⟩
    · simp only [vhist, h1]; exact .cons h2 h5
    · simp only [vhist, h1]; exact h6

/-- **C29.** The word operations act on element `i` like the machine operation `f`, return the old value and change no other element. -/
theorem C29_words (hs : 0 < sz) {fuel : Nat} (hf : 0 < fuel) {s : Sh} {p : Proc} {a : List (BitVec (8 * sz))} (h : Shows sz s a) (hv : 4096 ≤ p.view)
    {i : Nat} (hi : i < a.length) (v e d : BitVec (8 * sz)) :
    ∀ op f, (op, f) ∈ ([(.load i, fun x => x), (.exchange i v, fun _ => v), (.cas i e d, fun x => if x = e then d else x), (.add i v, fun x => x + v),
        (.sub i v, fun x => x - v), (.and i v, fun x => x &&& v), (.or i v, fun x => x ||| v), (.xor i v, fun x => x ^^^ v)] :
        List (Op (8 * sz) × (BitVec (8 * sz) → BitVec (8 * sz)))) →
      ∃ s' p', vrun sz (call sz fuel op) s p = (.ok (.word a[i]), s', p') ∧ Shows sz s' (a.set i (f a[i])) := by
  intro op f hm
  have key : ∀ op f, op.ok sz → (∀ r a', Spec a op r a' → OnElem a i f .word r a') → ∃ s' p', vrun sz (call sz fuel op) s p = (.ok (.word a[i]), s', p') ∧
      Shows sz s' (a.set i (f a[i])) := by
    intro op f hok hsp
    obtain ⟨out, s', p', a', h1, h2, h3, h4⟩ := call_refines hs hf h hv op hok
    rcases hsp _ _ h2 with ⟨h5, -⟩ | ⟨h5, rfl, rfl⟩
    · omega
    · exact ⟨s', p', h1, h3⟩
  simp only [List.mem_cons, List.not_mem_nil, or_false, Prod.mk.injEq] at hm
  rcases hm with ⟨rfl, rfl⟩ | ⟨rfl, rfl⟩ | ⟨rfl, rfl⟩ | ⟨rfl, rfl⟩ | ⟨rfl, rfl⟩ | ⟨rfl, rfl⟩ | ⟨rfl, rfl⟩ | ⟨rfl, rfl⟩
  · exact key (.load i) (fun x => x) trivial (by intro _ _ h; exact h)
  · exact key (.exchange i v) (fun _ => v) trivial (by intro _ _ h; exact h)
  · exact key (.cas i e d) (fun x => if x = e then d else x) trivial (by intro _ _ h; exact h)
  · exact key (.add i v) (fun x => x + v) trivial (by intro _ _ h; exact h)
  · exact key (.sub i v) (fun x => x - v) trivial (by intro _ _ h; exact h)
  · exact key (.and i v) (fun x => x &&& v) trivial (by intro _ _ h; exact h)
  · exact key (.or i v) (fun x => x ||| v) trivial (by intro _ _ h; exact h)
  · exact key (.xor i v) (fun x => x ^^^ v) trivial (by intro _ _ h; exact h)

/-- **C29**, store. -/
theorem C29_store (hs : 0 < sz) {fuel : Nat} (hf : 0 < fuel) {s : Sh} {p : Proc} {a : List (BitVec (8 * sz))} (h : Shows sz s a) (hv : 4096 ≤ p.view)
    {i : Nat} (hi : i < a.length) (v : BitVec (8 * sz)) :
    ∃ s' p', vrun sz (call sz fuel (.store i v)) s p = (.ok .unit, s', p') ∧ Shows sz s' (a.set i v) := by
  obtain ⟨out, s', p', a', h1, h2, h3, h4⟩ := call_refines hs hf h hv (.store i v) trivial
  rcases h2 with ⟨h5, -⟩ | ⟨h5, rfl, rfl⟩
  · omega
  · exact ⟨s', p', h1, h3⟩

/-- **C29.** An index outside the vector throws out_of_range and changes nothing. -/
theorem C29_out_of_range (hs : 0 < sz) {fuel : Nat} (hf : 0 < fuel) {s : Sh} {p : Proc} {a : List (BitVec (8 * sz))} (h : Shows sz s a) (hv : 4096 ≤ p.view)
    {op : Op (8 * sz)} {i : Nat} (hop : op.idx = some i) (hi : a.length ≤ i) :
    ∃ s' p', vrun sz (call sz fuel op) s p = (.err .outOfRange, s', p') ∧ Shows sz s' a := by
  have hok : op.ok sz := by cases op <;> first | trivial | cases hop
  obtain ⟨out, s', p', a', h1, h2, h3, h4⟩ := call_refines hs hf h hv op hok
  have e : out = .err .outOfRange ∧ a' = a := by
    cases op <;> simp only [Op.idx, Option.some.injEq, reduceCtorEq] at hop <;> subst hop
    all_goals
      rcases h2 with ⟨-, h5, h6⟩ | ⟨h5, -⟩
      · exact ⟨h5, h6⟩
      · omega
  obtain ⟨rfl, rfl⟩ := e
  exact ⟨s', p', h1, h3⟩

/-- **C30.** The bit operations change only their bit, which is bit `b % w` of element `b / w` counting from the most significant; load_bit and
store_bit return the old value, xor_bit the new one (see `C30_readme_false`). -/
theorem C30_bits_partial (hs : 0 < sz) {fuel : Nat} (hf : 0 < fuel) {s : Sh} {p : Proc} {a : List (BitVec (8 * sz))} (h : Shows sz s a) (hv : 4096 ≤ p.view)
    {b : Nat} (hb : b / (8 * sz) < a.length) (v : Bool) :
    ∀ op new res, (op, new, res) ∈ ([(.loadBit b, fun x => x, fun x => x), (.storeBit b v, fun _ => v, fun x => x), (.xorBit b, fun x => !x, fun x => !x)] :
        List (Op (8 * sz) × (Bool → Bool) × (Bool → Bool))) →
      ∃ s' p' a', vrun sz (call sz fuel op) s p = (.ok (.bit (res (a[b / (8 * sz)].getMsbD (b % (8 * sz))))), s', p') ∧ Shows sz s' a' ∧
        a'.length = a.length ∧ ∀ c (h1 : c / (8 * sz) < a.length) (h2 : c / (8 * sz) < a'.length),
          a'[c / (8 * sz)].getMsbD (c % (8 * sz)) =
            if c = b then new (a[b / (8 * sz)].getMsbD (b % (8 * sz))) else a[c / (8 * sz)].getMsbD (c % (8 * sz)) := by
  intro op new res hm
  have key : ∀ op new res, op.ok sz → (∀ r a', Spec a op r a' → OnBit a b new res r a') →
      ∃ s' p' a', vrun sz (call sz fuel op) s p = (.ok (.bit (res (a[b / (8 * sz)].getMsbD (b % (8 * sz))))), s', p') ∧ Shows sz s' a' ∧
        a'.length = a.length ∧ ∀ c (h1 : c / (8 * sz) < a.length) (h2 : c / (8 * sz) < a'.length),
          a'[c / (8 * sz)].getMsbD (c % (8 * sz)) =
            if c = b then new (a[b / (8 * sz)].getMsbD (b % (8 * sz))) else a[c / (8 * sz)].getMsbD (c % (8 * sz)) := by
    intro op new res hok hsp
    obtain ⟨out, s', p', a', h1, h2, h3, h4⟩ := call_refines hs hf h hv op hok
    rcases hsp _ _ h2 with ⟨h5, -⟩ | ⟨h5, rfl, x, rfl, h6⟩
    · omega
    · refine ⟨s', p', _, h1, h3, by simp, ?_⟩
      intro c hc1 hc2
      have hw : 0 < 8 * sz := by omega
      rw [List.getElem_set]
      by_cases e : b / (8 * sz) = c / (8 * sz)
      · rw [if_pos e, h6 _ (Nat.mod_lt _ hw)]
        by_cases e2 : c = b
        · subst e2; simp
        · have : c % (8 * sz) ≠ b % (8 * sz) := by
            intro e3
            apply e2
            rw [← Nat.div_add_mod c (8 * sz), ← Nat.div_add_mod b (8 * sz), e, e3]
          rw [if_neg this, if_neg e2]
          simp only [e]
      · have e2 : c ≠ b := fun e2 => e (by rw [e2])
        rw [if_neg e, if_neg e2]
  simp only [List.mem_cons, List.not_mem_nil, or_false, Prod.mk.injEq] at hm
  rcases hm with ⟨rfl, rfl, rfl⟩ | ⟨rfl, rfl, rfl⟩ | ⟨rfl, rfl, rfl⟩
  · exact key (.loadBit b) (fun x => x) (fun x => x) trivial (by intro _ _ h; exact h)
  · exact key (.storeBit b v) (fun _ => v) (fun x => x) trivial (by intro _ _ h; exact h)
  · exact key (.xorBit b) (fun x => !x) (fun x => !x) trivial (by intro _ _ h; exact h)

/-- **C31.** expand: the old elements are unchanged, the new ones are zero; or it throws and nothing changes.  `n` elements must fit in
size_t arithmetic (otherwise `C31_false`). -/
theorem C31_expand_partial (hs : 0 < sz) {fuel : Nat} (hf : 0 < fuel) {s : Sh} {p : Proc} {a : List (BitVec (8 * sz))} (h : Shows sz s a) (hv : 4096 ≤ p.view)
    (n : Nat) (hn : 16 + n * sz + 4095 < 2 ^ 64) :
    (∃ s' p', vrun sz (call sz fuel (.expand n)) s p = (.ok .unit, s', p') ∧ Shows sz s' (a ++ List.replicate (n - a.length) 0)) ∨
    (a.length < n ∧ ∃ s' p', vrun sz (call sz fuel (.expand n)) s p = (.err .noMem, s', p') ∧ Shows sz s' a) := by
  obtain ⟨out, s', p', a', h1, h2, h3, h4⟩ := call_refines hs hf h hv (.expand n) hn
  rcases h2 with ⟨rfl, rfl⟩ | ⟨h5, rfl, rfl⟩
  · exact Or.inl ⟨s', p', h1, h3⟩
  · exact Or.inr ⟨h5, s', p', h1, h3⟩

/-- **C31.** expand_bits(n) leaves room for at least `n` bits. -/
theorem C31_expand_bits_partial (hs : 0 < sz) {fuel : Nat} (hf : 0 < fuel) {s : Sh} {p : Proc} {a : List (BitVec (8 * sz))} (h : Shows sz s a) (hv : 4096 ≤ p.view)
    (n : Nat) (hn : n + 8 * sz ≤ 2 ^ 64) (hn2 : 16 + (n + 8 * sz - 1) / (8 * sz) * sz + 4095 < 2 ^ 64) :
    (∃ s' p' k, vrun sz (call sz fuel (.expandBits n)) s p = (.ok .unit, s', p') ∧ Shows sz s' (a ++ List.replicate k 0) ∧ n ≤ (a.length + k) * (8 * sz)) ∨
    ∃ s' p', vrun sz (call sz fuel (.expandBits n)) s p = (.err .noMem, s', p') ∧ Shows sz s' a := by
  obtain ⟨out, s', p', a', h1, h2, h3, h4⟩ := call_refines hs hf h hv (.expandBits n) ⟨by show _ < 2 ^ 64; omega, hn2⟩
  rcases h2 with ⟨rfl, rfl⟩ | ⟨h5, rfl, rfl⟩
  · refine Or.inl ⟨s', p', _, h1, h3, ?_⟩
    have hw : 0 < 8 * sz := by omega
    have e1 : n ≤ (n + 8 * sz - 1) / (8 * sz) * (8 * sz) := by
      have h1 := Nat.div_add_mod (n + 8 * sz - 1) (8 * sz)
      have h2 := Nat.mod_lt (n + 8 * sz - 1) hw
      have h3 := Nat.mul_comm ((n + 8 * sz - 1) / (8 * sz)) (8 * sz)
      omega
    refine Nat.le_trans e1 (Nat.mul_le_mul_right _ ?_)
    omega
  · exact Or.inr ⟨s', p', h1, h3⟩

/-- a concrete history on a fresh pool: growing past the first page, words, bits, out of range -/
example : (vhist 8 1 [.expand 600, .store 599 5, .add 599 (-1), .load 599, .xorBit 63, .load 0, .load 600, .size] (fresh 1000000) ⟨4096, 0⟩).1 =
    [.ok .unit, .ok .unit, .ok (.word 5), .ok (.word 4), .ok (.bit true), .ok (.word 1), .err .outOfRange, .ok (.num 600)] := by decide +kernel

/-- **C30 is false** where the README says that xor_bit returns the old value: on a fresh vector of one zero word xor_bit(0) returns true. -/
theorem C30_readme_false : (vhist 8 1 [.expand 1, .loadBit 0, .xorBit 0] (fresh 1000000) ⟨4096, 0⟩).1 = [.ok .unit, .ok (.bit false), .ok (.bit true)] := by
  decide +kernel

/-- **C31 is false** for huge counts: 16 + n * 8 wraps around, so expand(2^61) "succeeds" without growing the pool; size() is then 2^61 and an access to
element 1000 faults. -/
theorem C31_false : (vhist 8 1 [.expand (2 ^ 61), .size, .load 1000] (fresh 1000000) ⟨4096, 0⟩).1 = [.ok .unit, .ok (.num (2 ^ 61)), .ub] := by
  decide +kernel

/-! ### C32, C33: several processes -/

/-- initial states: a vector `a0` in memory, every process alive and idle with a mapping of at least one page -/
structure Init (sz : Nat) (a0 : List (BitVec (8 * sz))) (s : Sys (8 * sz)) : Prop where
  shows_ : Shows sz s.sh a0
  alive : ∀ t, s.alive t = true
  idle : ∀ t, s.th t = none
  view : ∀ t, 4096 ≤ (s.proc t).view
  hist : s.hist = []

theorem reach_inv (hs : 0 < sz) {fuel : Nat} (hf : 0 < fuel) {a0 : List (BitVec (8 * sz))} {s0 s : Sys (8 * sz)} (hi : Init sz a0 s0)
    (hr : Reach sz fuel (Polite sz) s0 s) : ∃ g lin st, SInv sz a0 s g lin st := by
  induction hr with
  | refl =>
    refine ⟨_, [], fun _ => none, hi.shows_, ?_, ?_, ?_, ?_, ?_⟩
    · rw [hi.hist]; exact .nil
    · intro t _ _; exact ⟨rfl, hi.view t⟩
    · intro t op c _ h; rw [hi.idle t] at h; cases h
    · intro t h; rw [hi.alive t] at h; cases h
    · intro t u op op' c c' h; rw [hi.idle t] at h; cases h
  | step _ hst ih =>
    obtain ⟨g, lin, st, h⟩ := ih
    obtain ⟨g', lin', st', h', -⟩ := h.step hs hf hst
    exact ⟨g', lin', st', h'⟩

/-- **C32.** If calls of expand overlap neither each other nor a call on an element that did not exist when that call started (`Polite`), then for every interleaving
of the single steps of any number of processes, dying at any time: the history of calls is linearizable with respect to `Spec`, memory holds the
resulting vector, and no process faults. -/
theorem C32_linearizable_partial (hs : 0 < sz) {fuel : Nat} (hf : 0 < fuel) {a0 : List (BitVec (8 * sz))} {s0 s : Sys (8 * sz)} (hi : Init sz a0 s0)
    (hr : Reach sz fuel (Polite sz) s0 s) :
    (∃ lin a st, LinRun a0 s.hist lin a st ∧ Shows sz s.sh a) ∧ ∀ t op, s.th t ≠ some (op, .ub) := by
  obtain ⟨g, lin, st, h⟩ := reach_inv hs hf hi hr
  refine ⟨⟨lin, g.a, st, h.lin, h.rep.shows⟩, ?_⟩
  intro t op hth
  cases ha : s.alive t with
  | false => rw [h.dead t ha] at hth; cases hth
  | true =>
    obtain ⟨τ, J, -, -, -, h4⟩ := h.busy t _ _ ha hth
    exact h4

/-- **C32.** Under the same restriction the count never decreases, and the pool always has room for count elements. -/
theorem C32_size_monotone_partial (hs : 0 < sz) {fuel : Nat} (hf : 0 < fuel) {a0 : List (BitVec (8 * sz))} {s0 s s' : Sys (8 * sz)} (hi : Init sz a0 s0)
    (hr : Reach sz fuel (Polite sz) s0 s) (hst : Step sz fuel (Polite sz) s s') :
    leRd s.sh.mem 8 8 ≤ leRd s'.sh.mem 8 8 ∧ 16 + leRd s.sh.mem 8 8 * sz ≤ leRd s.sh.mem 0 8 ∧ leRd s.sh.mem 0 8 ≤ s.sh.fsize := by
  obtain ⟨g, lin, st, h⟩ := reach_inv hs hf hi hr
  obtain ⟨g', lin', st', h', hl⟩ := h.step hs hf hst
  rw [h.rep.count, h'.rep.count, h.rep.size, h.rep.file]
  exact ⟨hl, h.rep.ok.fit, h.rep.ok.zf⟩

/-! a scheduler, to exhibit concrete executions -/

/-- process `t` does its next step (`none`), or calls `op` -/
def act (sz fuel : Nat) (s : Sys (8 * sz)) (t : Nat) : Option (Op (8 * sz)) → Sys (8 * sz)
  | some op =>
    match s.alive t, s.th t with
    | true, none => { s with th := upd s.th t (some (op, call sz fuel op)), hist := s.hist ++ [.inv t op] }
    | _, _ => s
  | none =>
    match s.alive t, s.th t with
    | true, some (op, .step o k) =>
      match exec sz o s.sh (s.proc t) with
      | some (v, sh', p') => { s with sh := sh', proc := upd s.proc t p', th := upd s.th t (some (op, k v)) }
      | none => { s with th := upd s.th t (some (op, .ub)) }
    | true, some (op, .ret r) => { s with th := upd s.th t none, hist := s.hist ++ [.res t op (.ok r)] }
    | true, some (op, .err e) => { s with th := upd s.th t none, hist := s.hist ++ [.res t op (.err e)] }
    | _, _ => s

theorem act_step {fuel : Nat} {ok : Sys (8 * sz) → Nat → Op (8 * sz) → Prop} {s0 s : Sys (8 * sz)} (h : Reach sz fuel ok s0 s) (t : Nat) :
    Reach sz fuel ok s0 (act sz fuel s t none) := by
  cases h1 : s.alive t with
  | false => simp only [act, h1]; exact h
  | true =>
    cases h2 : s.th t with
    | none => simp only [act, h1, h2]; exact h
    | some x =>
      obtain ⟨op, c⟩ := x
      cases c with
      | ret r => simp only [act, h1, h2]; exact .step h (.ret h1 h2)
      | err e => simp only [act, h1, h2]; exact .step h (.throw h1 h2)
      | ub => simp only [act, h1, h2]; exact h
      | step o k =>
        cases h3 : exec sz o s.sh (s.proc t) with
        | none => simp only [act, h1, h2, h3]; exact .step h (.fault h1 h2 h3)
        | some y => obtain ⟨v, sh', p'⟩ := y; simp only [act, h1, h2, h3]; exact .step h (.step h1 h2 h3)

theorem act_call {fuel : Nat} {ok : Sys (8 * sz) → Nat → Op (8 * sz) → Prop} {s0 s : Sys (8 * sz)} (h : Reach sz fuel ok s0 s) (t : Nat) (op : Op (8 * sz))
    (hok : ok s t op) : Reach sz fuel ok s0 (act sz fuel s t (some op)) := by
  cases h1 : s.alive t with
  | false => simp only [act, h1]; exact h
  | true =>
    cases h2 : s.th t with
    | none => simp only [act, h1, h2]; exact .step h (.call op h1 h2 hok)
    | some x => simp only [act, h1, h2]; exact h

theorem act_reach {fuel : Nat} {s0 s : Sys (8 * sz)} (h : Reach sz fuel (fun _ _ _ => True) s0 s) (t : Nat) (o : Option (Op (8 * sz))) :
    Reach sz fuel (fun _ _ _ => True) s0 (act sz fuel s t o) := by
  cases o with
  | some op => exact act_call h t op trivial
  | none => exact act_step h t

/-- a schedule: (process, number of steps, or a call followed by that many steps) -/
def acts (sz fuel : Nat) : List (Nat × Option (Op (8 * sz)) × Nat) → Sys (8 * sz) → Sys (8 * sz)
  | [], s => s
  | (t, o, n) :: l, s => acts sz fuel l (Nat.rec (match o with | some op => act sz fuel s t (some op) | none => s) (fun _ s => act sz fuel s t none) n)

theorem acts_reach {fuel : Nat} {s0 : Sys (8 * sz)} (l : List (Nat × Option (Op (8 * sz)) × Nat)) : ∀ {s : Sys (8 * sz)},
    Reach sz fuel (fun _ _ _ => True) s0 s → Reach sz fuel (fun _ _ _ => True) s0 (acts sz fuel l s) := by
  induction l with
  | nil => exact fun h => h
  | cons x l ih =>
    obtain ⟨t, o, n⟩ := x
    intro s h
    refine ih ?_
    induction n with
    | zero =>
      cases o with
      | some op => exact act_reach h t (some op)
      | none => exact h
    | succ n ihn => exact act_reach ihn t none

/-- all processes idle on a fresh pool -/
def sys0 (sz : Nat) : Sys (8 * sz) := ⟨fresh 1000000, fun _ => ⟨4096, 0⟩, fun _ => true, fun _ => none, []⟩

theorem sys0_init (hs : 0 < sz) : Init sz [] (sys0 sz) :=
  ⟨fresh_shows hs (by decide), fun _ => rfl, fun _ => rfl, fun _ => Nat.le_refl _, rfl⟩

/-- has process `t` been killed by a memory fault? -/
def faulted {w : Nat} (s : Sys w) (t : Nat) : Bool :=
  match s.th t with
  | some (_, .ub) => true
  | _ => false

/-- process 0 stops just before its ftruncate; process 1 grows the vector further and stores an element; then process 0 goes on and cuts the file;
finally process 1 reads its element -/
def race1 : Sys (8 * 8) := acts 8 3 [(0, some (.expand 1000), 5), (1, some (.expand 2000), 20), (1, some (.store 1999 7), 6), (0, none, 20),
  (2, some .size, 5), (1, some (.load 1999), 10)] (sys0 8)

/-- **C32 is false** in general.  Two overlapping expands: process 0 decides to grow the pool to 8192 bytes, process 1 grows it to 16384 bytes, makes 2000
elements and stores into the last one; process 0 then truncates the file to 8192 bytes.  All these calls return normally, size() is still 2000, and
process 1 is killed when it reads the element it stored. -/
theorem C32_false : Reach 8 3 (fun _ _ _ => True) (sys0 8) race1 ∧
    race1.hist = [.inv 0 (.expand 1000), .inv 1 (.expand 2000), .res 1 (.expand 2000) (.ok .unit), .inv 1 (.store 1999 7), .res 1 (.store 1999 7) (.ok .unit),
      .res 0 (.expand 1000) (.ok .unit), .inv 2 .size, .res 2 .size (.ok (.num 2000)), .inv 1 (.load 1999)] ∧
    race1.sh.fsize = 8192 ∧ faulted race1 1 = true :=
  ⟨acts_reach _ .refl, by decide +kernel, by decide +kernel, by decide +kernel⟩

/-- process 0 starts load(999) and checks the pool size; process 1 grows the vector to 1000 elements; process 0 goes on -/
def race2 : Sys (8 * 8) := acts 8 3 [(0, some (.load 999), 2), (1, some (.expand 1000), 20), (0, none, 10)] (sys0 8)

/-- **C32 is false** even with a single growing process: `at` compares the index with a count newer than the mapping it uses, so an access that races with expand
is killed instead of returning 0 or throwing out_of_range. -/
theorem C32_access_false : Reach 8 3 (fun _ _ _ => True) (sys0 8) race2 ∧
    race2.hist = [.inv 0 (.load 999), .inv 1 (.expand 1000), .res 1 (.expand 1000) (.ok .unit)] ∧ faulted race2 0 = true :=
  ⟨acts_reach _ .refl, by decide +kernel, by decide +kernel⟩

/-! ### C33 -/

/-- the responses in a history -/
def resps {w : Nat} : List (Ev w) → List (Nat × Op w × Out (Ret w))
  | [] => []
  | .inv _ _ :: H => resps H
  | .res t op r :: H => (t, op, r) :: resps H

theorem resps_append {w : Nat} (H K : List (Ev w)) : resps (H ++ K) = resps H ++ resps K := by
  induction H with
  | nil => rfl
  | cons e H ih => cases e <;> simp [resps, ih]

/-- the effects are the responses plus the calls that have taken effect and not responded -/
theorem LinRun.perm {w : Nat} {a0 : List (BitVec w)} {H : List (Ev w)} {lin : List (Nat × Op w × Out (Ret w))} {a : List (BitVec w)}
    {st : Nat → Option (Op w × Option (Out (Ret w)))} (h : LinRun a0 H lin a st) :
    ∃ rest, lin.Perm (resps H ++ rest) ∧ rest.Nodup ∧ ∀ t op r, (t, op, r) ∈ rest ↔ st t = some (op, some r) := by
  induction h with
  | nil => exact ⟨[], .refl _, .nil, fun t op r => by simp⟩
  | @inv H lin a st t op _ hn ih =>
    obtain ⟨rest, h1, h2, h3⟩ := ih
    refine ⟨rest, by rw [resps_append]; simpa [resps] using h1, h2, ?_⟩
    intro u op' r
    by_cases e : u = t
    · subst e; rw [upd_same, h3, hn]; simp
    · rw [upd_ne _ _ e]; exact h3 u op' r
  | @effect H lin a st t op r a' _ hn hsp ih =>
    obtain ⟨rest, h1, h2, h3⟩ := ih
    refine ⟨(t, op, r) :: rest, ?_, ?_, ?_⟩
    · refine (List.perm_append_singleton _ _).trans ?_
      refine (List.Perm.cons _ h1).trans ?_
      exact List.perm_middle.symm
    · refine List.nodup_cons.2 ⟨?_, h2⟩
      rw [h3, hn]; simp
    · intro u op' r'
      by_cases e : u = t
      · subst e
        rw [upd_same, List.mem_cons, h3, hn]
        simp only [Prod.mk.injEq, true_and, Option.some.injEq, reduceCtorEq, and_false, or_false]
        constructor
        · rintro ⟨rfl, rfl⟩; exact ⟨rfl, rfl⟩
        · rintro ⟨rfl, rfl⟩; exact ⟨rfl, rfl⟩
      · rw [upd_ne _ _ e, List.mem_cons, ← h3]
        simp only [Prod.mk.injEq, e, false_and, false_or]
  | @res H lin a st t op r _ hn ih =>
    obtain ⟨rest, h1, h2, h3⟩ := ih
    have hm : (t, op, r) ∈ rest := (h3 t op r).2 hn
    refine ⟨rest.erase (t, op, r), ?_, h2.erase _, ?_⟩
    · rw [resps_append]
      simp only [resps]
      refine h1.trans ?_
      rw [List.append_assoc]
      exact List.Perm.append_left _ (List.perm_cons_erase hm)
    · intro u op' r'
      rw [h2.mem_erase_iff, h3]
      by_cases e : u = t
      · subst e
        rw [upd_same, hn]
        simp only [Option.some.injEq, Prod.mk.injEq, reduceCtorEq, iff_false]
        rintro ⟨h4, rfl, rfl⟩
        exact h4 rfl
      · rw [upd_ne _ _ e]
        simp [e]

/-- what a call adds to element `i` -/
def delta {w : Nat} (i : Nat) : Op w → BitVec w
  | .add j v => if j = i then v else 0
  | .sub j v => if j = i then -v else 0
  | _ => 0

/-- calls that change element `i` at most by adding or subtracting -/
def Additive {w : Nat} (i : Nat) : Op w → Prop
  | .add _ _ | .sub _ _ | .load _ | .loadBit _ | .size | .expand _ | .expandBits _ => True
  | op => op.idx ≠ some i

def total {w : Nat} (i : Nat) (l : List (Nat × Op w × Out (Ret w))) : BitVec w := (l.map fun x => delta i x.2.1).foldr (· + ·) 0

theorem total_append {w : Nat} (i : Nat) (l m : List (Nat × Op w × Out (Ret w))) : total i (l ++ m) = total i l + total i m := by
  induction l with
  | nil => simp [total]
  | cons x l ih =>
    simp only [total, List.cons_append, List.map_cons, List.foldr_cons] at ih ⊢
    rw [ih, BitVec.add_assoc]

theorem total_perm {w : Nat} (i : Nat) {l m : List (Nat × Op w × Out (Ret w))} (h : l.Perm m) : total i l = total i m := by
  induction h with
  | nil => rfl
  | cons x _ ih => simp only [total, List.map_cons, List.foldr_cons] at ih ⊢; rw [ih]
  | swap x y l => simp only [total, List.map_cons, List.foldr_cons]; rw [← BitVec.add_assoc, ← BitVec.add_assoc, BitVec.add_comm (delta i y.2.1)]
  | trans _ _ h1 h2 => exact h1.trans h2

theorem onElem_len {w : Nat} {a a' : List (BitVec w)} {i : Nat} {f : BitVec w → BitVec w} {res : BitVec w → Ret w} {r : Out (Ret w)}
    (h : OnElem a i f res r a') : a'.length = a.length := by
  rcases h with ⟨-, -, rfl⟩ | ⟨_, -, rfl⟩
  · rfl
  · simp

theorem onElem_other {w : Nat} {a a' : List (BitVec w)} {i j : Nat} {f : BitVec w → BitVec w} {res : BitVec w → Ret w} {r : Out (Ret w)}
    (h : OnElem a j f res r a') (hj : j ≠ i) : a'.getD i 0 = a.getD i 0 := by
  rcases h with ⟨-, -, rfl⟩ | ⟨_, -, rfl⟩
  · rfl
  · simp only [List.getD_eq_getElem?_getD, List.getElem?_set_ne hj]

theorem onBit_other {w : Nat} {a a' : List (BitVec w)} {b i : Nat} {f res : Bool → Bool} {r : Out (Ret w)}
    (h : OnBit a b f res r a') (hj : b / w ≠ i) : a'.getD i 0 = a.getD i 0 := by
  rcases h with ⟨-, -, rfl⟩ | ⟨_, -, x, rfl, -⟩
  · rfl
  · simp only [List.getD_eq_getElem?_getD, List.getElem?_set_ne hj]

theorem onBit_same {w : Nat} {a a' : List (BitVec w)} {b i : Nat} {res : Bool → Bool} {r : Out (Ret w)}
    (h : OnBit a b (fun x => x) res r a') : a'.getD i 0 = a.getD i 0 := by
  rcases h with ⟨-, -, rfl⟩ | ⟨hb, -, x, rfl, hx⟩
  · rfl
  · have : x = a[b / w] := ext_msb fun j hj => by rw [hx j hj]; simp
    subst this
    rw [List.set_getElem_self]

theorem onExpand_same {w : Nat} {a a' : List (BitVec w)} {n i : Nat} {r : Out (Ret w)} (h : OnExpand a n r a') : a'.getD i 0 = a.getD i 0 := by
  rcases h with ⟨-, rfl⟩ | ⟨-, -, rfl⟩
  · simp only [List.getD_eq_getElem?_getD]
    by_cases hi : i < a.length
    · rw [List.getElem?_append_left hi]
    · rw [List.getElem?_append_right (by omega), List.getElem?_eq_none (by omega : a.length ≤ i)]
      simp only [List.getElem?_replicate]
      split <;> rfl
  · rfl

theorem spec_len {w : Nat} {a a' : List (BitVec w)} {op : Op w} {r : Out (Ret w)} (h : Spec a op r a') : a.length ≤ a'.length := by
  cases op
  case loadBit | storeBit | xorBit =>
    rcases h with ⟨-, -, rfl⟩ | ⟨_, -, _, rfl, -⟩
    · exact Nat.le_refl _
    · simp
  case size => rw [h.2]; exact Nat.le_refl _
  case expand | expandBits =>
    rcases h with ⟨-, rfl⟩ | ⟨-, -, rfl⟩
    · simp
    · exact Nat.le_refl _
  all_goals (simp only [Spec] at h; exact Nat.le_of_eq (onElem_len h).symm)

/-- a call that does not touch element `i` leaves it alone -/
theorem spec_other {w : Nat} {a a' : List (BitVec w)} {op : Op w} {r : Out (Ret w)} {i : Nat} (h : Spec a op r a') (hi : op.idx ≠ some i) :
    a'.getD i 0 = a.getD i 0 := by
  cases op
  case loadBit b => simp only [Spec] at h; exact onBit_other h (fun e => hi (by rw [← e]; rfl))
  case storeBit b v => simp only [Spec] at h; exact onBit_other h (fun e => hi (by rw [← e]; rfl))
  case xorBit b => simp only [Spec] at h; exact onBit_other h (fun e => hi (by rw [← e]; rfl))
  case size => rw [h.2]
  case expand => simp only [Spec] at h; exact onExpand_same h
  case expandBits => simp only [Spec] at h; exact onExpand_same h
  all_goals (simp only [Spec] at h; exact onElem_other h (fun e => hi (by rw [← e]; rfl)))

theorem spec_delta {w : Nat} {a a' : List (BitVec w)} {op : Op w} {r : Out (Ret w)} {i : Nat} (h : Spec a op r a') (hi : i < a.length) (ha : Additive i op) :
    a'.getD i 0 = a.getD i 0 + delta i op := by
  have key : op.idx ≠ some i → delta i op = 0 → a'.getD i 0 = a.getD i 0 + delta i op := by
    intro h1 h2; rw [h2, spec_other h h1]; simp
  cases op
  case load j =>
    simp only [Spec] at h
    show _ = _ + 0#w
    rw [BitVec.add_zero]
    by_cases e : j = i
    · subst e
      rcases h with ⟨-, -, rfl⟩ | ⟨_, -, rfl⟩
      · rfl
      · rw [List.set_getElem_self]
    · exact onElem_other h e
  case loadBit => simp only [Spec] at h; show _ = _ + 0#w; rw [BitVec.add_zero]; exact onBit_same h
  case add j v =>
    by_cases e : j = i
    · subst e
      rcases h with ⟨h, -⟩ | ⟨_, -, rfl⟩
      · omega
      · simp [delta, hi]
    · exact key (by simpa [Op.idx] using e) (by simp [delta, e])
  case sub j v =>
    by_cases e : j = i
    · subst e
      rcases h with ⟨h, -⟩ | ⟨_, -, rfl⟩
      · omega
      · simp [delta, hi, BitVec.sub_eq_add_neg]
    · exact key (by simpa [Op.idx] using e) (by simp [delta, e])
  case size => exact key (by simp [Op.idx]) rfl
  case expand => exact key (by simp [Op.idx]) rfl
  case expandBits => exact key (by simp [Op.idx]) rfl
  all_goals exact key ha rfl

/-- **C33.** Let several processes run any calls of which those that touch element `i` are fetch_adds, fetch_subs and loads (under the restriction on expand). When every
call has returned, element `i` is its initial value plus the sum of all added values minus the sum of all subtracted ones, modulo the word size. -/
theorem C33_no_lost_update_partial (hs : 0 < sz) {fuel : Nat} (hf : 0 < fuel) {a0 : List (BitVec (8 * sz))} {s0 s : Sys (8 * sz)} (hi : Init sz a0 s0)
    (hr : Reach sz fuel (Polite sz) s0 s) {i : Nat} (hl : i < a0.length) (hadd : ∀ t op, .inv t op ∈ s.hist → Additive i op)
    (hal : ∀ t, s.alive t = true) (hidle : ∀ t, s.th t = none) :
    ∃ a, Shows sz s.sh a ∧ ∃ h : i < a.length, a[i] = a0[i] + total i (resps s.hist) := by
  obtain ⟨g, lin, st, h⟩ := reach_inv hs hf hi hr
  have key : ∀ {H lin a st}, LinRun a0 H lin a st → (∀ t op, .inv t op ∈ H → Additive i op) →
      a0.length ≤ a.length ∧ a.getD i 0 = a0.getD i 0 + total i lin ∧ (∀ t op τ, st t = some (op, τ) → Additive i op) := by
    intro H lin a st h
    induction h with
    | nil => intro _; exact ⟨Nat.le_refl _, by simp [total], by simp⟩
    | @inv H lin a st t op _ hn ih =>
      intro hh
      obtain ⟨h1, h2, h3⟩ := ih (fun t op hm => hh t op (List.mem_append_left _ hm))
      refine ⟨h1, h2, ?_⟩
      intro u op' τ hu
      by_cases e : u = t
      · subst e; rw [upd_same] at hu; cases hu; exact hh u _ (by simp)
      · rw [upd_ne _ _ e] at hu; exact h3 u op' τ hu
    | @effect H lin a st t op r a' _ hn hsp ih =>
      intro hh
      obtain ⟨h1, h2, h3⟩ := ih hh
      refine ⟨Nat.le_trans h1 (spec_len hsp), ?_, ?_⟩
      · rw [spec_delta hsp (by omega) (h3 t op _ hn), h2, total_append, BitVec.add_assoc]
        simp [total]
      · intro u op' τ hu
        by_cases e : u = t
        · subst e; rw [upd_same] at hu; cases hu; exact h3 u _ _ hn
        · rw [upd_ne _ _ e] at hu; exact h3 u op' τ hu
    | @res H lin a st t op r _ hn ih =>
      intro hh
      obtain ⟨h1, h2, h3⟩ := ih (fun t op hm => hh t op (List.mem_append_left _ hm))
      refine ⟨h1, h2, ?_⟩
      intro u op' τ hu
      by_cases e : u = t
      · subst e; rw [upd_same] at hu; cases hu
      · rw [upd_ne _ _ e] at hu; exact h3 u op' τ hu
  obtain ⟨k1, k2, -⟩ := key h.lin hadd
  obtain ⟨rest, p1, -, p3⟩ := h.lin.perm
  have hrest : rest = [] := by
    rw [List.eq_nil_iff_forall_not_mem]
    rintro ⟨t, op, r⟩ hm
    have := (p3 t op r).1 hm
    rw [(h.idle t (hal t) (hidle t)).1] at this
    cases this
  rw [hrest, List.append_nil] at p1
  refine ⟨g.a, h.rep.shows, by omega, ?_⟩
  rw [total_perm i p1] at k2
  simpa [List.getD_eq_getElem?_getD, hl, Nat.lt_of_lt_of_le hl k1] using k2

/-- a compare_exchange of element `i` from `e` that succeeded -/
def won {w : Nat} (i : Nat) (e : BitVec w) (x : Nat × Op w × Out (Ret w)) : Bool :=
  match x.2.1, x.2.2 with
  | .cas j e' _, .ok (.word v) => j == i && e' == e && v == e
  | _, _ => false

/-- calls that change element `i` at most from `e` to something else -/
def Racing {w : Nat} (i : Nat) (e : BitVec w) : Op w → Prop
  | .cas j e' d => j = i → e' = e ∧ d ≠ e
  | .load _ | .loadBit _ | .size | .expand _ | .expandBits _ => True
  | op => op.idx ≠ some i

theorem spec_race {w : Nat} {a a' : List (BitVec w)} {op : Op w} {r : Out (Ret w)} {i : Nat} {e : BitVec w} (h : Spec a op r a') (hi : i < a.length)
    (ha : Racing i e op) (t : Nat) : (won i e (t, op, r) = true → a.getD i 0 = e ∧ a'.getD i 0 ≠ e) ∧ (a.getD i 0 ≠ e → a'.getD i 0 ≠ e) := by
  have key : op.idx ≠ some i → won i e (t, op, r) = false →
      (won i e (t, op, r) = true → a.getD i 0 = e ∧ a'.getD i 0 ≠ e) ∧ (a.getD i 0 ≠ e → a'.getD i 0 ≠ e) := by
    intro h1 h2; rw [h2, spec_other h h1]; exact ⟨(by intro h; cases h), fun h => h⟩
  cases op
  case load j =>
    simp only [Spec] at h
    have : a'.getD i 0 = a.getD i 0 := by
      by_cases e : j = i
      · subst e
        rcases h with ⟨-, -, rfl⟩ | ⟨_, -, rfl⟩
        · rfl
        · rw [List.set_getElem_self]
      · exact onElem_other h e
    rw [this]; exact ⟨(by intro h; cases h), fun h => h⟩
  case loadBit =>
    simp only [Spec] at h
    rw [onBit_same h]; exact ⟨(by intro h; cases h), fun h => h⟩
  case cas j e' d =>
    by_cases ej : j = i
    · subst ej
      obtain ⟨rfl, hd⟩ := ha rfl
      rcases h with ⟨h, -⟩ | ⟨_, rfl, rfl⟩
      · omega
      · simp only [won, beq_self_eq_true, Bool.true_and, beq_iff_eq, List.getD_eq_getElem?_getD, List.getElem?_set_self hi, Option.getD_some,
          List.getElem?_eq_getElem hi]
        constructor
        · intro h; rw [if_pos h]; exact ⟨h, hd⟩
        · intro h; rw [if_neg h]; exact h
    · refine key (by simpa [Op.idx] using ej) ?_
      have : (j == i) = false := by simpa using ej
      rcases r with ⟨⟨⟩⟩ | e <;> simp [won, this]
  case size => exact key (by simp [Op.idx]) rfl
  case expand => exact key (by simp [Op.idx]) rfl
  case expandBits => exact key (by simp [Op.idx]) rfl
  all_goals exact key ha rfl

/-- **C33.** If the calls that touch element `i` are compare_exchanges from `e` to values other than `e`, and loads, then at most one of them returns `e`,
i.e. succeeds. -/
theorem C33_one_winner_partial (hs : 0 < sz) {fuel : Nat} (hf : 0 < fuel) {a0 : List (BitVec (8 * sz))} {s0 s : Sys (8 * sz)} (hi : Init sz a0 s0)
    (hr : Reach sz fuel (Polite sz) s0 s) {i : Nat} (hl : i < a0.length) (e : BitVec (8 * sz)) (hrace : ∀ t op, .inv t op ∈ s.hist → Racing i e op) :
    ((resps s.hist).filter (won i e)).length ≤ 1 := by
  obtain ⟨g, lin, st, h⟩ := reach_inv hs hf hi hr
  have key : ∀ {H lin a st}, LinRun a0 H lin a st → (∀ t op, .inv t op ∈ H → Racing i e op) →
      a0.length ≤ a.length ∧ (lin.filter (won i e)).length ≤ 1 ∧ ((lin.filter (won i e)).length = 1 → a.getD i 0 ≠ e) ∧
        (∀ t op τ, st t = some (op, τ) → Racing i e op) := by
    intro H lin a st h
    induction h with
    | nil => intro _; exact ⟨Nat.le_refl _, by simp, by simp, by simp⟩
    | @inv H lin a st t op _ hn ih =>
      intro hh
      obtain ⟨h1, h2, h2', h3⟩ := ih (fun t op hm => hh t op (List.mem_append_left _ hm))
      refine ⟨h1, h2, h2', ?_⟩
      intro u op' τ hu
      by_cases e : u = t
      · subst e; rw [upd_same] at hu; cases hu; exact hh u _ (by simp)
      · rw [upd_ne _ _ e] at hu; exact h3 u op' τ hu
    | @effect H lin a st t op r a' _ hn hsp ih =>
      intro hh
      obtain ⟨h1, h2, h2', h3⟩ := ih hh
      obtain ⟨r1, r2⟩ := spec_race hsp (by omega) (h3 t op _ hn) t
      refine ⟨Nat.le_trans h1 (spec_len hsp), ?_, ?_, ?_⟩
      · rw [List.filter_append, List.length_append]
        cases hw : won i e (t, op, r) with
        | false => simpa [List.filter_cons, hw] using h2
        | true =>
          have := (r1 hw).1
          have h0 : (lin.filter (won i e)).length ≠ 1 := fun hc => h2' hc this
          simp only [List.filter_cons, hw, if_true, List.filter_nil, List.length_singleton]
          omega
      · rw [List.filter_append, List.length_append]
        cases hw : won i e (t, op, r) with
        | false =>
          intro hc
          simp only [List.filter_cons, hw, Bool.false_eq_true, if_false, List.filter_nil, List.length_nil, Nat.add_zero] at hc
          exact r2 (h2' hc)
        | true => intro _; exact (r1 hw).2
      · intro u op' τ hu
        by_cases e : u = t
        · subst e; rw [upd_same] at hu; cases hu; exact h3 u _ _ hn
        · rw [upd_ne _ _ e] at hu; exact h3 u op' τ hu
    | @res H lin a st t op r _ hn ih =>
      intro hh
      obtain ⟨h1, h2, h2', h3⟩ := ih (fun t op hm => hh t op (List.mem_append_left _ hm))
      refine ⟨h1, h2, h2', ?_⟩
      intro u op' τ hu
      by_cases e : u = t
      · subst e; rw [upd_same] at hu; cases hu
      · rw [upd_ne _ _ e] at hu; exact h3 u op' τ hu
  obtain ⟨-, k2, -⟩ := key h.lin hrace
  obtain ⟨rest, p1, -⟩ := h.lin.perm
  have := (p1.filter (won i e)).length_eq
  rw [List.filter_append, List.length_append] at this
  omega

/-- one zero word in a vector on a fresh pool -/
def one : Sh := (vrun 8 (call 8 1 (.expand 1)) (fresh 1000000) ⟨4096, 0⟩).2.1

theorem one_shows : Shows 8 one [0] := by
  have e : (vrun 8 (call 8 1 (.expand 1)) (fresh 1000000) ⟨4096, 0⟩).1 = .ok .unit := by decide +kernel
  have h := C31_expand_partial (sz := 8) (by decide) (fuel := 1) (by decide) (fresh_shows (by decide) (lim := 1000000) (by decide))
    (p := ⟨4096, 0⟩) (Nat.le_refl _) 1 (by decide)
  unfold one
  generalize vrun 8 (call 8 1 (.expand 1)) (fresh 1000000) ⟨4096, 0⟩ = r at h e ⊢
  rcases h with ⟨s', p', rfl, h⟩ | ⟨-, s', p', rfl, -⟩
  · exact h
  · cases e

/-- processes 0 and 1 add 5 and 7 to the same element with interleaved steps while process 2 grows the vector -/
def par : Sys (8 * 8) := ⟨one, fun _ => ⟨4096, 0⟩, fun _ => true, fun _ => none, []⟩

theorem par_init : Init 8 [0] par := ⟨one_shows, fun _ => rfl, fun _ => rfl, fun _ => Nat.le_refl _, rfl⟩

def par1 : Sys (8 * 8) := act 8 1 par 0 (some (.add 0 5))
def par2 : Sys (8 * 8) := act 8 1 par1 1 (some (.add 0 7))
def par3 : Sys (8 * 8) := act 8 1 par2 2 (some (.expand 600))
def par4 : Sys (8 * 8) := acts 8 1 [(0, none, 2), (1, none, 3), (2, none, 6), (1, none, 3), (0, none, 4), (2, none, 12)] par3

theorem par_reach : Reach 8 1 (Polite 8) par par4 := by
  have hc : leRd par.sh.mem 8 8 = 1 := by unfold par one; decide +kernel
  have r1 : Reach 8 1 (Polite 8) par par1 := by
    refine act_call .refl 0 _ ⟨trivial, ?_, ?_⟩
    · intro h; cases h
    · intro i _ _ u op' c h; cases h
  have hc1 : leRd par1.sh.mem 8 8 = 1 := hc
  have r2 : Reach 8 1 (Polite 8) par par2 := by
    refine act_call r1 1 _ ⟨trivial, ?_, ?_⟩
    · intro h; cases h
    · intro i hi h; cases hi; rw [hc1] at h; omega
  have hc2 : leRd par2.sh.mem 8 8 = 1 := hc
  have r3 : Reach 8 1 (Polite 8) par par3 := by
    refine act_call r2 2 _ ⟨by show 16 + 600 * 8 + 4095 < 2 ^ 64; decide, ?_, ?_⟩
    · intro _ u op' c hu h
      have h' : (if u = 1 then some (Op.add 0 (7 : BitVec 64), call 8 1 (.add 0 7)) else if u = 0 then some (Op.add 0 5, call 8 1 (.add 0 5)) else none) =
          some (op', c) := h
      split at h'
      · cases h'; exact ⟨rfl, fun i hi => by cases hi; rw [hc2]; decide⟩
      · split at h'
        · cases h'; exact ⟨rfl, fun i hi => by cases hi; rw [hc2]; decide⟩
        · cases h'
    · intro i hi; cases hi
  exact act_step (act_step (act_step (act_step (act_step (act_step (act_step (act_step (act_step (act_step (act_step (act_step
    (act_step (act_step (act_step (act_step (act_step (act_step (act_step (act_step (act_step (act_step (act_step (act_step (act_step (act_step
    (act_step (act_step (act_step (act_step r3 0) 0) 1) 1) 1) 2) 2) 2) 2) 2) 2) 1) 1) 1) 0) 0) 0) 0) 2) 2) 2) 2) 2) 2) 2) 2) 2) 2) 2) 2

/-- the hypotheses of C32 and C33 are met, and their conclusions say something: both additions are there -/
example : Init 8 [0] par ∧ Reach 8 1 (Polite 8) par par4 ∧ (∀ t op, .inv t op ∈ par4.hist → Additive 0 op) ∧
    total 0 (resps par4.hist) = 12 ∧ (par4.hist.length = 6 ∧ leRd par4.sh.mem 16 8 = 12 ∧ leRd par4.sh.mem 8 8 = 600) := by
  have e : par4.hist = [.inv 0 (.add 0 5), .inv 1 (.add 0 7), .inv 2 (.expand 600), .res 1 (.add 0 7) (.ok (.word 0)), .res 0 (.add 0 5) (.ok (.word 7)),
      .res 2 (.expand 600) (.ok .unit)] := by unfold par4 par3 par2 par1 par one; decide +kernel
  refine ⟨par_init, par_reach, ?_, ?_, ?_, ?_, ?_⟩
  · intro t op hm
    rw [e] at hm
    simp only [List.mem_cons, Ev.inv.injEq, reduceCtorEq, List.not_mem_nil, or_false] at hm
    rcases hm with ⟨rfl, rfl⟩ | ⟨rfl, rfl⟩ | ⟨rfl, rfl⟩ <;> trivial
  · rw [e]; decide
  · rw [e]; rfl
  · unfold par4 par3 par2 par1 par one; decide +kernel
  · unfold par4 par3 par2 par1 par one; decide +kernel

end Verif.AtomicVec
