import Verif.PyVector
/-
C66: the Python class IntVector.
-/
namespace Verif.Py
open AtomicVec (Sh Proc Shows vrun VProg)

/-! ### Specification: a list of ints -/

/-- the int is one of the 64-bit signed integers -/
def fits (n : Int) : Prop := -2 ^ 63 ≤ n ∧ n < 2 ^ 63

instance (n : Int) : Decidable (fits n) := inferInstanceAs (Decidable (_ ∧ _))

/-- the 64-bit signed integer that is congruent to `n` modulo 2^64 -/
def wrap (n : Int) : Int := n.bmod (2 ^ 64)

/-- A method with the index `i` and further arguments `args` replaces the int at index `i` by `f` of it and returns `res` of the old one.  It raises OverflowError if an argument does
not fit 64 bits and the exception `e` if the index is not one of 0, ..., len-1, and then changes nothing. -/
def AtIndex (e : Exc) (i : Int) (args : List Int) (f : Int → Int) (res : Int → IRes) (a : List Int) (r : Out IRes) (a' : List Int) : Prop :=
  if ∀ n ∈ i :: args, fits n then
    (¬ (0 ≤ i ∧ i < a.length) ∧ r = .ok (.raised e) ∧ a' = a) ∨
      ∃ j : Nat, ∃ h : j < a.length, i = j ∧ r = .ok (res a[j]) ∧ a' = a.set j (f a[j])
  else r = .ok (.raised .overflowError) ∧ a' = a

/-- bit `b` of the vector: bit b % 64, counted from the most significant, of the int at index b / 64 in two's complement -/
def bitOf (a : List Int) (b : Nat) : Bool := (BitVec.ofInt 64 (a.getD (b / 64) 0)).getMsbD (b % 64)

/-- A method on bit `b` replaces it by `new` of it, changes no other bit, and returns `res` of the old one. -/
def AtBit (b : Int) (new : Bool → Bool) (res : Bool → IRes) (a : List Int) (r : Out IRes) (a' : List Int) : Prop :=
  if fits b then
    (¬ (0 ≤ b ∧ b < 64 * a.length) ∧ r = .ok (.raised .indexError) ∧ a' = a) ∨
      ∃ j : Nat, j < 64 * a.length ∧ b = j ∧ r = .ok (res (bitOf a j)) ∧ a'.length = a.length ∧
        ∀ k, k < 64 * a.length → bitOf a' k = if k = j then new (bitOf a j) else bitOf a k
  else r = .ok (.raised .overflowError) ∧ a' = a

/-- `ISpec a op r a'`: on a vector of the ints `a` the call `op` may have outcome `r` and leave `a'` -/
def ISpec (a : List Int) (op : IOp) (r : Out IRes) (a' : List Int) : Prop :=
  match op with
  | .len => r = .ok (.int a.length) ∧ a' = a
  | .expand n =>
    if fits n then
      if n < 0 then r = .ok (.raised .valueError) ∧ a' = a
      else (r = .ok .none ∧ a' = a ++ List.replicate (n.toNat - a.length) 0) ∨ ((a.length : Int) < n ∧ r = .err .noMem ∧ a' = a)
    else r = .ok (.raised .overflowError) ∧ a' = a
  | .load i => AtIndex .typeError i [] (fun x => x) .int a r a'
  | .store i v => AtIndex .typeError i [v] (fun _ => v) (fun _ => .none) a r a'
  | .exchange i v => AtIndex .indexError i [v] (fun _ => v) .int a r a'
  | .compareExchange i e v => AtIndex .indexError i [e, v] (fun x => if x = e then v else x) .int a r a'
  | .add i d => AtIndex .indexError i [d] (fun x => wrap (x + d)) .int a r a'
  | .subtract i d => AtIndex .indexError i [d] (fun x => wrap (x - d)) .int a r a'
  | .bitwiseAnd i m => AtIndex .indexError i [m] (fun x => (BitVec.ofInt 64 x &&& BitVec.ofInt 64 m).toInt) .int a r a'
  | .bitwiseOr i m => AtIndex .indexError i [m] (fun x => (BitVec.ofInt 64 x ||| BitVec.ofInt 64 m).toInt) .int a r a'
  | .bitwiseXor i m => AtIndex .indexError i [m] (fun x => (BitVec.ofInt 64 x ^^^ BitVec.ofInt 64 m).toInt) .int a r a'
  | .loadBit b => AtBit b (fun x => x) .bool a r a'
  | .storeBit b v => AtBit b (fun _ => v) (fun _ => .none) a r a'
  | .xorBit b => AtBit b (fun x => !x) (fun x => .bool (!x)) a r a'

/-- vectors of at most 2^57 ints (2^60 bytes) -/
def IOp.ok : IOp → Prop
  | .expand n => n ≤ 2 ^ 57
  | _ => True

/-- memory holds the ints `a` -/
def IShows (s : Sh) (a : List Int) : Prop := Shows 8 s (a.map (BitVec.ofInt (8 * 8))) ∧ (∀ x ∈ a, fits x) ∧ a.length ≤ 2 ^ 57

/-! ### Proof -/

theorem asLongLong_fit {n : Int} (h : fits n) : asLongLong n = some (BitVec.ofInt 64 n) := if_pos h
theorem asLongLong_unfit {n : Int} (h : ¬ fits n) : asLongLong n = Option.none := if_neg h

theorem toInt_fits {n : Int} (h : fits n) : (BitVec.ofInt 64 n).toInt = n := by
  rw [BitVec.toInt_ofInt]
  unfold fits at h
  rw [Int.bmod_eq_of_le] <;> omega

theorem ofInt_inj {n m : Int} (h : fits n) (h' : fits m) (e : BitVec.ofInt 64 n = BitVec.ofInt 64 m) : n = m := by
  rw [← toInt_fits h, e, toInt_fits h']

theorem fits_toInt (x : BitVec 64) : fits x.toInt := by
  unfold fits
  have := BitVec.two_mul_toInt_lt (x := x)
  have := BitVec.le_two_mul_toInt (x := x)
  omega

theorem toNat_fits {n : Int} (h : fits n) : ((BitVec.ofInt 64 n).toNat : Int) = if 0 ≤ n then n else n + 2 ^ 64 := by
  rw [BitVec.toNat_ofInt]
  unfold fits at h
  split <;> omega

theorem vrun_bind {sz : Nat} {α β : Type} (p : VProg (8 * sz) α) (f : α → VProg (8 * sz) β) : ∀ (s : Sh) (q : Proc),
    vrun sz (p.bind f) s q = match vrun sz p s q with
      | (.ok a, s', q') => vrun sz (f a) s' q'
      | (.err e, s', q') => (.err e, s', q')
      | (.ub, s', q') => (.ub, s', q') := by
  induction p with
  | ret a => intro s q; rfl
  | err e => intro s q; rfl
  | ub => intro s q; rfl
  | step o k ih =>
    intro s q
    simp only [Prog.step_bind, vrun]
    cases he : AtomicVec.exec sz o s q with
    | none => rfl
    | some x => exact ih _ _ _

theorem vrun_tryCatch {sz : Nat} {α : Type} (p : VProg (8 * sz) α) (f : Err → VProg (8 * sz) α) : ∀ (s : Sh) (q : Proc),
    vrun sz (p.tryCatch f) s q = match vrun sz p s q with
      | (.err e, s', q') => vrun sz (f e) s' q'
      | r => r := by
  induction p with
  | ret a => intro s q; rfl
  | err e => intro s q; rfl
  | ub => intro s q; rfl
  | step o k ih =>
    intro s q
    simp only [Prog.tryCatch, vrun]
    cases he : AtomicVec.exec sz o s q with
    | none => rfl
    | some x => exact ih _ _ _

/-- the Python outcome of a C++ outcome -/
def pyOut (o : IOp) : Out (AtomicVec.Ret (8 * 8)) → Out IRes
  | .ok r => .ok (o.result r)
  | .err .outOfRange => .ok (.raised o.exc)
  | .err e => .err e

theorem icall_run {fuel : Nat} (hf : 0 < fuel) {s : Sh} {p : Proc} {a : List (BitVec (8 * 8))} (h : Shows 8 s a) (hv : 4096 ≤ p.view) {o : IOp} {op : AtomicVec.Op (8 * 8)}
    (ho : o.parse = .ok op) (hok : op.ok 8) :
    ∃ out s' p' a', vrun 8 (icall fuel o) s p = (Out.toRes (pyOut o out), s', p') ∧ AtomicVec.Spec a op out a' ∧ Shows 8 s' a' ∧ 4096 ≤ p'.view := by
  obtain ⟨out, s', p', a', h1, h2, h3, h4⟩ := AtomicVec.call_refines (by decide) hf h hv op hok
  refine ⟨out, s', p', a', ?_, h2, h3, h4⟩
  unfold icall
  rw [ho]
  simp only []
  rw [vrun_tryCatch, vrun_bind, h1]
  cases out with
  | ok r => rfl
  | err e => cases e <;> rfl

theorem icall_raises {fuel : Nat} {s : Sh} {p : Proc} {o : IOp} {e : Exc} (ho : o.parse = .error e) : vrun 8 (icall fuel o) s p = (.ok (.raised e), s, p) := by
  unfold icall
  rw [ho]
  rfl

/-- a word method -/
theorem word_step {o : IOp} {e : Exc} {i : Int} {args : List Int} {f : Int → Int} {F : BitVec (8 * 8) → BitVec (8 * 8)} {res : Int → IRes} {Res : BitVec (8 * 8) → AtomicVec.Ret (8 * 8)}
    {a : List Int} {out : Out (AtomicVec.Ret (8 * 8))} {a' : List (BitVec (8 * 8))} (hfit : ∀ n ∈ i :: args, fits n) (ha : ∀ x ∈ a, fits x) (hl : a.length ≤ 2 ^ 57)
    (he : o.exc = e) (hF : ∀ x, fits x → fits (f x) ∧ F (BitVec.ofInt 64 x) = BitVec.ofInt 64 (f x)) (hR : ∀ x, fits x → o.result (Res (BitVec.ofInt 64 x)) = res x)
    (h : AtomicVec.OnElem (a.map (BitVec.ofInt (8 * 8))) (BitVec.ofInt 64 i).toNat F Res out a') :
    ∃ b, AtIndex e i args f res a (pyOut o out) b ∧ a' = b.map (BitVec.ofInt (8 * 8)) ∧ (∀ x ∈ b, fits x) ∧ b.length ≤ 2 ^ 57 := by
  have hi := toNat_fits (hfit i (by simp))
  have hi2 := hfit i (by simp)
  unfold fits at hi2
  unfold AtIndex
  simp only [if_pos hfit]
  generalize (BitVec.ofInt 64 i).toNat = j at hi h
  rcases h with ⟨h1, rfl, rfl⟩ | ⟨h1, rfl, rfl⟩
  · refine ⟨a, Or.inl ⟨?_, by rw [← he]; rfl, rfl⟩, rfl, ha, hl⟩
    rw [List.length_map] at h1
    rintro ⟨h2, h3⟩
    rw [if_pos h2] at hi
    omega
  · rw [List.length_map] at h1
    have h2 : 0 ≤ i := by
      by_cases h2 : 0 ≤ i
      · exact h2
      · rw [if_neg h2] at hi; omega
    rw [if_pos h2] at hi
    have hfj := ha a[j] (List.getElem_mem h1)
    refine ⟨a.set j (f a[j]), Or.inr ⟨j, h1, hi.symm, ?_, rfl⟩, ?_, ?_, ?_⟩
    · show Out.ok (o.result (Res _)) = _
      rw [List.getElem_map]
      exact congrArg Out.ok (hR _ hfj)
    · rw [List.map_set, List.getElem_map]
      exact congrArg _ (hF _ hfj).2
    · intro x hx
      rcases List.mem_or_eq_of_mem_set hx with hx | rfl
      · exact ha x hx
      · exact (hF _ hfj).1
    · rw [List.length_set]; exact hl

theorem bitOf_eq {a : List Int} {k : Nat} (h : k / 64 < a.length) : bitOf a k = (BitVec.ofInt 64 a[k / 64]).getMsbD (k % 64) := by
  unfold bitOf
  rw [List.getD_eq_getElem?_getD, List.getElem?_eq_getElem h]
  rfl

/-- a bit method -/
theorem bit_step {o : IOp} {b : Int} {new res : Bool → Bool} {res' : Bool → IRes} {a : List Int} {out : Out (AtomicVec.Ret (8 * 8))} {a' : List (BitVec (8 * 8))} (hb : fits b)
    (ha : ∀ x ∈ a, fits x) (hl : a.length ≤ 2 ^ 57) (he : o.exc = .indexError) (hR : ∀ x, o.result (.bit (res x)) = res' x)
    (h : AtomicVec.OnBit (a.map (BitVec.ofInt (8 * 8))) (BitVec.ofInt 64 b).toNat new res out a') :
    ∃ c, AtBit b new res' a (pyOut o out) c ∧ a' = c.map (BitVec.ofInt (8 * 8)) ∧ (∀ x ∈ c, fits x) ∧ c.length ≤ 2 ^ 57 := by
  have hi := toNat_fits hb
  have hb2 := hb
  unfold fits at hb2
  unfold AtBit
  simp only [if_pos hb]
  generalize (BitVec.ofInt 64 b).toNat = j at hi h
  rcases h with ⟨h1, rfl, rfl⟩ | ⟨h1, rfl, x, rfl, hx⟩
  · refine ⟨a, Or.inl ⟨?_, by rw [← he]; rfl, rfl⟩, rfl, ha, hl⟩
    rw [List.length_map] at h1
    rintro ⟨h2, h3⟩
    rw [if_pos h2] at hi
    omega
  · rw [List.length_map] at h1
    have h2 : 0 ≤ b := by
      by_cases h2 : 0 ≤ b
      · exact h2
      · rw [if_neg h2] at hi; omega
    rw [if_pos h2] at hi
    have h1' : j / 64 < a.length := h1
    refine ⟨a.set (j / 64) (BitVec.toInt (n := 64) x), Or.inr ⟨j, by omega, hi.symm, ?_, List.length_set, ?_⟩, ?_, ?_, ?_⟩
    · show Out.ok (o.result (.bit (res _))) = _
      rw [hR, bitOf_eq h1', List.getElem_map]
    · intro k hk
      have hk' : k / 64 < a.length := by omega
      rw [bitOf_eq (by rw [List.length_set]; exact hk'), bitOf_eq h1', bitOf_eq hk', List.getElem_set]
      by_cases hkj : j / 64 = k / 64
      · rw [if_pos hkj, BitVec.ofInt_toInt]
        have := hx (k % 64) (Nat.mod_lt _ (by decide))
        rw [List.getElem_map] at this
        rw [this]
        simp only [hkj]
        by_cases hm : k % 64 = j % (8 * 8)
        · have hm' : k % 64 = j % 64 := hm
          have : k = j := by omega
          subst this
          rw [if_pos rfl, if_pos rfl]
        · have hm' : ¬ k % 64 = j % 64 := hm
          rw [if_neg hm, if_neg (show ¬ k = j by rintro rfl; exact hm' rfl)]
      · rw [if_neg hkj, if_neg (show ¬ k = j by rintro rfl; exact hkj rfl)]
    · rw [List.map_set]
      exact congrArg _ (BitVec.ofInt_toInt (w := 64) (x := x)).symm
    · intro y hy
      rcases List.mem_or_eq_of_mem_set hy with hy | rfl
      · exact ha y hy
      · exact fits_toInt x
    · rw [List.length_set]; exact hl

theorem parse1_ok {i : Int} {f : Nat → AtomicVec.Op (8 * 8)} (h : fits i) : parse1 i f = .ok (f (BitVec.ofInt 64 i).toNat) := by
  unfold parse1; rw [asLongLong_fit h]

theorem parse1_bad {i : Int} {f : Nat → AtomicVec.Op (8 * 8)} (h : ¬ fits i) : parse1 i f = .error .overflowError := by
  unfold parse1; rw [asLongLong_unfit h]

theorem parse2_ok {i v : Int} {f : Nat → BitVec (8 * 8) → AtomicVec.Op (8 * 8)} (h : fits i) (h' : fits v) : parse2 i v f = .ok (f (BitVec.ofInt 64 i).toNat (BitVec.ofInt 64 v)) := by
  unfold parse2; rw [asLongLong_fit h, asLongLong_fit h']

theorem parse2_bad {i v : Int} {f : Nat → BitVec (8 * 8) → AtomicVec.Op (8 * 8)} (h : ¬ (fits i ∧ fits v)) : parse2 i v f = .error .overflowError := by
  unfold parse2
  by_cases h1 : fits i
  · rw [asLongLong_unfit (n := v) (fun h2 => h ⟨h1, h2⟩)]
    cases asLongLong i <;> rfl
  · rw [asLongLong_unfit h1]

/-- what has to be shown about a call -/
def Good (fuel : Nat) (s : Sh) (p : Proc) (a : List Int) (o : IOp) : Prop :=
  ∃ out s' p' a', vrun 8 (icall fuel o) s p = (Out.toRes out, s', p') ∧ ISpec a o out a' ∧ IShows s' a' ∧ 4096 ≤ p'.view

theorem good_raises {fuel : Nat} {s : Sh} {p : Proc} {a : List Int} {o : IOp} {e : Exc} (h : IShows s a) (hv : 4096 ≤ p.view) (ho : o.parse = .error e)
    (hs : ISpec a o (.ok (.raised e)) a) : Good fuel s p a o :=
  ⟨.ok (.raised e), s, p, a, icall_raises ho, hs, h, hv⟩

theorem good_call {fuel : Nat} (hf : 0 < fuel) {s : Sh} {p : Proc} {a : List Int} {o : IOp} {op : AtomicVec.Op (8 * 8)} (h : IShows s a) (hv : 4096 ≤ p.view)
    (ho : o.parse = .ok op) (hok : op.ok 8)
    (hs : ∀ out a', AtomicVec.Spec (a.map (BitVec.ofInt (8 * 8))) op out a' → ∃ b, ISpec a o (pyOut o out) b ∧ a' = b.map (BitVec.ofInt (8 * 8)) ∧ (∀ x ∈ b, fits x) ∧ b.length ≤ 2 ^ 57) :
    Good fuel s p a o := by
  obtain ⟨out, s', p', a', h1, h2, h3, h4⟩ := icall_run hf h.1 hv ho hok
  obtain ⟨b, h5, rfl, h6, h7⟩ := hs out a' h2
  exact ⟨_, s', p', b, h1, h5, ⟨h3, h6, h7⟩, h4⟩

theorem fits_wrap (n : Int) : fits (wrap n) := by
  unfold fits wrap
  have := Int.le_bmod (x := n) (m := 2 ^ 64) (by decide)
  have := Int.bmod_lt (x := n) (m := 2 ^ 64) (by decide)
  omega

theorem ofInt_wrap (n : Int) : BitVec.ofInt 64 (wrap n) = BitVec.ofInt 64 n := by
  apply BitVec.eq_of_toInt_eq
  rw [BitVec.toInt_ofInt, BitVec.toInt_ofInt]
  unfold wrap
  exact Int.bmod_bmod

/-- **C66, one call.** -/
theorem icall_refines {fuel : Nat} (hf : 0 < fuel) {s : Sh} {p : Proc} {a : List Int} (h : IShows s a) (hv : 4096 ≤ p.view) (o : IOp) (hok : o.ok) : Good fuel s p a o := by
  obtain ⟨-, ha, hl⟩ := id h
  have two : ∀ {e : Exc} {i v : Int} {f : Nat → BitVec (8 * 8) → AtomicVec.Op (8 * 8)} {F : Int → Int} {res : Int → IRes} {G : BitVec (8 * 8) → BitVec (8 * 8) → BitVec (8 * 8)}
      {Res : BitVec (8 * 8) → AtomicVec.Ret (8 * 8)}, o.parse = parse2 i v f → o.exc = e → (∀ n x, (f n x).ok 8) →
      (∀ r b, AtIndex e i [v] F res a r b → ISpec a o r b) →
      (∀ n x out a', AtomicVec.Spec (a.map (BitVec.ofInt (8 * 8))) (f n x) out a' → AtomicVec.OnElem (a.map (BitVec.ofInt (8 * 8))) n (G x) Res out a') →
      (fits v → ∀ x, fits x → fits (F x) ∧ G (BitVec.ofInt 64 v) (BitVec.ofInt 64 x) = BitVec.ofInt 64 (F x)) → (∀ x, fits x → o.result (Res (BitVec.ofInt 64 x)) = res x) →
      Good fuel s p a o := by
    intro e i v f F res G Res h1 h2 h3 h4 h5 h6 h7
    by_cases hfit : fits i ∧ fits v
    · refine good_call hf h hv (h1.trans (parse2_ok hfit.1 hfit.2)) (h3 _ _) ?_
      intro out a' hs
      obtain ⟨b, g1, g2⟩ := word_step (args := [v]) (e := e) (by simpa using hfit) ha hl h2 (h6 hfit.2) h7 (h5 _ _ _ _ hs)
      exact ⟨b, h4 _ _ g1, g2⟩
    · refine good_raises h hv (h1.trans (parse2_bad hfit)) (h4 _ _ ?_)
      unfold AtIndex
      rw [if_neg (by simpa using hfit)]
      exact ⟨rfl, rfl⟩
  have bit : ∀ {b : Int} {f : Nat → AtomicVec.Op (8 * 8)} {new res : Bool → Bool} {res' : Bool → IRes}, o.parse = parse1 b f → o.exc = .indexError → (∀ n, (f n).ok 8) →
      (∀ r c, AtBit b new res' a r c → ISpec a o r c) →
      (∀ n out a', AtomicVec.Spec (a.map (BitVec.ofInt (8 * 8))) (f n) out a' → AtomicVec.OnBit (a.map (BitVec.ofInt (8 * 8))) n new res out a') →
      (∀ x, o.result (.bit (res x)) = res' x) → Good fuel s p a o := by
    intro b f new res res' h1 h2 h3 h4 h5 h6
    by_cases hfit : fits b
    · refine good_call hf h hv (h1.trans (parse1_ok hfit)) (h3 _) ?_
      intro out a' hs
      obtain ⟨c, g1, g2⟩ := bit_step hfit ha hl h2 h6 (h5 _ _ _ hs)
      exact ⟨c, h4 _ _ g1, g2⟩
    · refine good_raises h hv (h1.trans (parse1_bad hfit)) (h4 _ _ ?_)
      unfold AtBit
      rw [if_neg hfit]
      exact ⟨rfl, rfl⟩
  have int : ∀ x, fits x → IRes.int (BitVec.toInt (BitVec.ofInt 64 x)) = .int x := fun x hx => congrArg _ (toInt_fits hx)
  cases o with
  | len =>
    refine good_call hf h hv (o := .len) (op := .size) rfl trivial ?_
    rintro out a' ⟨rfl, rfl⟩
    refine ⟨a, ⟨?_, rfl⟩, rfl, ha, hl⟩
    rw [List.length_map]; rfl
  | expand n =>
    simp only [IOp.ok] at hok
    by_cases hfit : fits n
    · have hti := toInt_fits hfit
      by_cases hn : n < 0
      · refine good_raises (e := .valueError) h hv ?_ ?_
        · simp only [IOp.parse, asLongLong_fit hfit, hti, if_pos hn]
        · simp only [ISpec, if_pos hfit, if_pos hn]
          exact ⟨trivial, trivial⟩
      · have hti2 := toNat_fits hfit
        rw [if_pos (show 0 ≤ n by omega)] at hti2
        refine good_call (op := .expand (BitVec.ofInt 64 n).toNat) hf h hv ?_ ?_ ?_
        · simp only [IOp.parse, asLongLong_fit hfit, hti, if_neg hn]
        · show 16 + _ * 8 + 4095 < 2 ^ 64
          omega
        · intro out a' hs
          simp only [ISpec, if_pos hfit, if_neg hn]
          have hnn : (BitVec.ofInt 64 n).toNat = n.toNat := by omega
          rcases hs with ⟨rfl, rfl⟩ | ⟨h1, rfl, rfl⟩
          · refine ⟨a ++ List.replicate (n.toNat - a.length) 0, Or.inl ⟨rfl, rfl⟩, ?_, ?_, ?_⟩
            · rw [List.map_append, List.map_replicate, List.length_map, hnn]; rfl
            · intro x hx
              rcases List.mem_append.1 hx with hx | hx
              · exact ha x hx
              · rw [List.eq_of_mem_replicate hx]; decide
            · rw [List.length_append, List.length_replicate]; omega
          · rw [List.length_map] at h1
            exact ⟨a, Or.inr ⟨by omega, rfl, rfl⟩, rfl, ha, hl⟩
    · refine good_raises (e := .overflowError) h hv ?_ ?_
      · simp only [IOp.parse, asLongLong_unfit hfit]
      · simp only [ISpec, if_neg hfit]
        exact ⟨trivial, trivial⟩
  | load i =>
    by_cases hfit : fits i
    · refine good_call hf h hv (parse1_ok hfit) trivial ?_
      intro out a' hs
      exact word_step (args := []) (f := fun x => x) (F := fun x => x) (res := .int) (Res := .word) (by simpa using hfit) ha hl rfl (fun x hx => ⟨hx, rfl⟩) int hs
    · refine good_raises h hv (parse1_bad hfit) ?_
      simp only [ISpec]
      unfold AtIndex
      rw [if_neg (by simpa using hfit)]
      exact ⟨rfl, rfl⟩
  | store i v =>
    exact two (res := fun _ => .none) (Res := fun _ => .unit) (F := fun _ => v) (G := fun v _ => v) rfl rfl (fun _ _ => trivial) (fun _ _ h => h) (fun _ _ _ _ h => h) (fun hv x hx => ⟨hv, rfl⟩) (fun _ _ => rfl)
  | exchange i v =>
    exact two (F := fun _ => v) (G := fun v _ => v) rfl rfl (fun _ _ => trivial) (fun _ _ h => h) (fun _ _ _ _ h => h) (fun hv x hx => ⟨hv, rfl⟩) int
  | compareExchange i e v =>
    by_cases he : fits e
    · have hp : IOp.parse (.compareExchange i e v) = parse2 i v fun i v => .cas i (BitVec.ofInt 64 e) v := by
        simp only [IOp.parse, asLongLong_fit he]
      by_cases hfit : fits i ∧ fits v
      · refine good_call hf h hv (hp.trans (parse2_ok hfit.1 hfit.2)) trivial ?_
        intro out a' hs
        refine word_step (args := [e, v]) (f := fun x => if x = e then v else x) (F := fun x => if x = BitVec.ofInt 64 e then BitVec.ofInt 64 v else x) (res := .int) (Res := .word) (by simpa using ⟨hfit.1, he, hfit.2⟩) ha hl rfl (fun x hx => ⟨?_, ?_⟩) int hs
        · split
          · exact hfit.2
          · exact hx
        · by_cases hxe : x = e
          · rw [if_pos hxe, hxe]; exact if_pos rfl
          · rw [if_neg hxe]; exact if_neg (fun hx' => hxe (ofInt_inj hx he hx'))
      · refine good_raises h hv (hp.trans (parse2_bad hfit)) ?_
        simp only [ISpec]
        unfold AtIndex
        rw [if_neg (by simp only [List.forall_mem_cons]; exact fun hx => hfit ⟨hx.1, hx.2.2.1⟩)]
        exact ⟨rfl, rfl⟩
    · refine good_raises (e := .overflowError) h hv ?_ ?_
      · simp only [IOp.parse, asLongLong_unfit he]
      · simp only [ISpec]
        unfold AtIndex
        rw [if_neg (by simp only [List.forall_mem_cons]; exact fun hx => he hx.2.1)]
        exact ⟨rfl, rfl⟩
  | add i d =>
    refine two (F := fun x => wrap (x + d)) (G := fun v x => x + v) rfl rfl (fun _ _ => trivial) (fun _ _ h => h) (fun _ _ _ _ h => h) (fun hv x hx => ⟨fits_wrap _, ?_⟩) int
    rw [ofInt_wrap]; exact (BitVec.ofInt_add _ _).symm
  | subtract i d =>
    refine two (F := fun x => wrap (x - d)) (G := fun v x => x - v) rfl rfl (fun _ _ => trivial) (fun _ _ h => h) (fun _ _ _ _ h => h) (fun hv x hx => ⟨fits_wrap _, ?_⟩) int
    rw [ofInt_wrap]
    show BitVec.ofInt 64 x - BitVec.ofInt 64 d = _
    apply BitVec.eq_of_toInt_eq
    rw [BitVec.toInt_sub, BitVec.toInt_ofInt, BitVec.toInt_ofInt, BitVec.toInt_ofInt]
    simp
  | bitwiseAnd i m =>
    exact two (F := fun x => (BitVec.ofInt 64 x &&& BitVec.ofInt 64 m).toInt) (G := fun v x => x &&& v) rfl rfl (fun _ _ => trivial) (fun _ _ h => h) (fun _ _ _ _ h => h)
      (fun hv x hx => ⟨fits_toInt _, BitVec.ofInt_toInt.symm⟩) int
  | bitwiseOr i m =>
    exact two (F := fun x => (BitVec.ofInt 64 x ||| BitVec.ofInt 64 m).toInt) (G := fun v x => x ||| v) rfl rfl (fun _ _ => trivial) (fun _ _ h => h) (fun _ _ _ _ h => h)
      (fun hv x hx => ⟨fits_toInt _, BitVec.ofInt_toInt.symm⟩) int
  | bitwiseXor i m =>
    exact two (F := fun x => (BitVec.ofInt 64 x ^^^ BitVec.ofInt 64 m).toInt) (G := fun v x => x ^^^ v) rfl rfl (fun _ _ => trivial) (fun _ _ h => h) (fun _ _ _ _ h => h)
      (fun hv x hx => ⟨fits_toInt _, BitVec.ofInt_toInt.symm⟩) int
  | loadBit b => exact bit (new := fun x => x) (res := fun x => x) (res' := .bool) rfl rfl (fun _ => trivial) (fun _ _ h => h) (fun _ _ _ h => h) (fun _ => rfl)
  | storeBit b v => exact bit (f := fun n => .storeBit n v) (new := fun _ => v) (res := fun x => x) (res' := fun _ => .none) rfl rfl (fun _ => trivial) (fun _ _ h => h) (fun _ _ _ h => h) (fun _ => rfl)
  | xorBit b => exact bit (new := fun x => !x) (res := fun x => !x) (res' := fun x => .bool (!x)) rfl rfl (fun _ => trivial) (fun _ _ h => h) (fun _ _ _ h => h) (fun _ => rfl)

/-- **C66.** Every sequence of calls of a Python IntVector that holds the ints `a` has the outcomes that a list of ints has, and leaves memory holding the ints of that list.  A call
never touches memory outside of the process' mapping.  Vectors have at most 2^57 ints. -/
theorem C66_intvector {fuel : Nat} (hf : 0 < fuel) (ops : List IOp) : ∀ {s : Sh} {p : Proc} {a : List Int}, IShows s a → 4096 ≤ p.view → (∀ o ∈ ops, o.ok) →
    ∃ (rs : List (Out IRes)) (a' : List Int), (ihist fuel ops s p).1 = rs.map Out.toRes ∧ Trace ISpec a ops rs a' ∧ IShows (ihist fuel ops s p).2.1 a' := by
  induction ops with
  | nil => intro s p a h _ _; exact ⟨[], a, rfl, .nil a, h⟩
  | cons o ops ih =>
    intro s p a h hv hok
    obtain ⟨out, s', p', a', h1, h2, h3, h4⟩ := icall_refines hf h hv o (hok o (by simp))
    obtain ⟨rs, a'', h5, h6, h7⟩ := ih h3 h4 (fun o ho => hok o (by simp [ho]))
    refine ⟨out :: rs, a'', ?_, .cons h2 h6, ?_⟩
    · simp only [ihist, h1, List.map_cons, h5]
    · simp only [ihist, h1]; exact h7

/-- **C66, a new vector.** The vector on a pool just created is empty. -/
theorem C66_new_vector {lim : Nat} (hl : lim < 2 ^ 63) : IShows (AtomicVec.fresh lim) [] :=
  ⟨AtomicVec.fresh_shows (by decide) hl, by simp, by simp⟩

/-- **C66, the documentation of store is wrong.** PythonModule.cc 2403-2404: "If the value is outside of the range for that type, it silently overflows (or underflows)."
It raises OverflowError and stores nothing; load and store raise TypeError, not IndexError, for a wrong index. -/
theorem C66_store_false {fuel : Nat} (hf : 0 < fuel) {s : Sh} {p : Proc} {a : List Int} (h : IShows s a) (hv : 4096 ≤ p.view) (i v : Int) (hx : ¬ fits v) :
    ∃ s' p', vrun 8 (icall fuel (.store i v)) s p = (.ok (.raised .overflowError), s', p') ∧ IShows s' a := by
  obtain ⟨out, s', p', a', h1, h2, h3, h4⟩ := icall_refines hf h hv (.store i v) trivial
  simp only [ISpec] at h2
  unfold AtIndex at h2
  rw [if_neg (by simp only [List.forall_mem_cons]; exact fun hh => hx hh.2.1)] at h2
  obtain ⟨rfl, rfl⟩ := h2
  exact ⟨s', p', h1, h3⟩

/-- a concrete run -/
example : (ihist 1 [.len, .expand 3, .store 1 (-5), .add 1 7, .load 1, .subtract 2 1, .load 2, .load 3, .store (-1) 0, .exchange 3 0, .exchange 0 9223372036854775807, .add 0 1, .load 0,
      .store 0 9223372036854775808, .bitwiseAnd 2 255, .compareExchange 2 255 4, .compareExchange 2 255 6, .bitwiseXor 2 (-1), .load 2, .loadBit 128, .storeBit 128 false, .xorBit 191,
      .load 2, .loadBit 192, .loadBit (-1), .expand (-1), .len]
      (AtomicVec.fresh 1000000) ⟨4096, 0⟩).1 =
    [.ok (.int 0), .ok .none, .ok .none, .ok (.int (-5)), .ok (.int 2), .ok (.int 0), .ok (.int (-1)), .ok (.raised .typeError), .ok (.raised .typeError), .ok (.raised .indexError),
      .ok (.int 0), .ok (.int 9223372036854775807), .ok (.int (-9223372036854775808)), .ok (.raised .overflowError), .ok (.int (-1)), .ok (.int 255), .ok (.int 4), .ok (.int 4),
      .ok (.int (-5)), .ok (.bool true), .ok .none, .ok (.bool false), .ok (.int 9223372036854775802), .ok (.raised .indexError), .ok (.raised .indexError), .ok (.raised .valueError), .ok (.int 3)] := by
  decide +kernel

end Verif.Py
