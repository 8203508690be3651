import Verif.Python
/-
C53: the Python classes PrefixTree, HashTable and Queue (/repo/src/PythonModule.cc) hold Python objects: what is stored is read back.
-/
namespace Verif
open PrefixTree (Val CVal Check isZero isNaN)
open Py

namespace Py
variable {O : Type}

/-! ### Codec -/

theorem leNat4 {c : Nat} (h : c < 1114112) (s : Bytes) :
    ∃ a b d e, natLe 4 c ++ s = a :: b :: d :: e :: s ∧ leNat [a, b, d, e] = c := by
  have h1 := leNat_natLe 4 c
  rw [Nat.mod_eq_of_lt (by omega)] at h1
  exact ⟨_, _, _, _, rfl, h1⟩

theorem unwide_wide (cs : List (Fin 1114112)) : unwide (wide cs) = some cs := by
  induction cs with
  | nil => rfl
  | cons c cs ih =>
    obtain ⟨a, b, d, e, h1, h2⟩ := leNat4 c.isLt (wide cs)
    rw [wide, h1, unwide, dif_pos (by rw [h2]; exact c.isLt), ih]
    simp [h2]

theorem asLongLong_some {n : Int} {x : BitVec 64} (h : asLongLong n = some x) : x.toInt = n ∧ -2 ^ 63 ≤ n ∧ n < 2 ^ 63 := by
  unfold asLongLong at h
  split at h
  · rename_i hn
    injection h with h
    subst h
    refine ⟨?_, hn⟩
    rw [BitVec.toInt_ofInt]
    exact Int.bmod_eq_of_le (by omega) (by omega)
  · cases h

theorem asLongLong_none {n : Int} : asLongLong n = Option.none ↔ ¬ (-2 ^ 63 ≤ n ∧ n < 2 ^ 63) := by
  unfold asLongLong
  split
  · rename_i h; exact ⟨fun h' => (by cases h'), fun h' => absurd h h'⟩
  · rename_i h; exact ⟨fun _ => h, fun _ => rfl⟩

theorem decode_wide (M : Marshal O) (cs : List (Fin 1114112)) : decode M (.str ([3, 4, 0, 0] ++ wide cs)) = some (.str cs) := by
  show decode M (.str (3 :: 4 :: 0 :: 0 :: wide cs)) = _
  simp only [decode]
  rw [if_neg (by decide), if_neg (by decide), if_neg (by decide), if_pos trivial, if_neg (by simp [header])]
  show Option.map Obj.str (unwide (wide cs)) = _
  rw [unwide_wide]
  rfl

theorem decode_two (M : Marshal O) {t : Nat} {v : Obj O} {d : Bytes} (h : M.dump t v = some d) : decode M (.str (2 :: d)) = some v := by
  simp only [decode]
  rw [if_neg (by decide), if_neg (by decide), if_pos trivial]
  exact M.load_dump _ _ _ h

end Py

/-- **C53, the encodings.** What t[k] = v stores for an object is read back as this object; also when marshal's output depends on the state of the interpreter. -/
theorem C53_store_decode {O : Type} (M : Marshal O) {t : Nat} {v : Obj O} {w : Val} (h : store M t v = some w) : decode M w = some v := by
  cases v with
  | none => injection h with h; subst h; rfl
  | bool b => injection h with h; subst h; rfl
  | int n =>
    simp only [store] at h
    split at h
    · rename_i x hx
      injection h with h
      subst h
      simp only [decode]
      rw [(asLongLong_some hx).1]
    · obtain ⟨d, h1, rfl⟩ := Option.map_eq_some_iff.1 h
      exact decode_two M h1
  | float x => injection h with h; subst h; rfl
  | str cs => injection h with h; subst h; exact decode_wide M cs
  | bytes d =>
    simp only [store] at h
    split at h
    · rename_i hd
      injection h with h
      subst h
      rw [List.length_eq_zero_iff.1 hd]
      rfl
    · injection h with h
      subst h
      rfl
  | other x =>
    obtain ⟨d, h1, rfl⟩ := Option.map_eq_some_iff.1 h
    exact decode_two M h1

/-- The same for the encoding that check_and_set and check_missing_and_set use. -/
theorem C53_encode_decode {O : Type} (M : Marshal O) {t : Nat} {v : Obj O} {w : Val} (h : encode M t v = some w) : decode M w = some v := by
  cases v with
  | none => injection h with h; subst h; rfl
  | bool b => injection h with h; subst h; rfl
  | int n =>
    obtain ⟨x, hx, rfl⟩ := Option.map_eq_some_iff.1 h
    simp only [decode]
    rw [(asLongLong_some hx).1]
  | float x => injection h with h; subst h; rfl
  | str cs => injection h with h; subst h; exact decode_wide M cs
  | bytes d => injection h with h; subst h; rfl
  | other x =>
    obtain ⟨d, h1, rfl⟩ := Option.map_eq_some_iff.1 h
    exact decode_two M h1

/-- Different objects (of the same or of different types) are never stored as the same value. -/
theorem C53_encodings_disjoint {O : Type} (M : Marshal O) {t t' : Nat} {v v' : Obj O} {w : Val} (h : store M t v = some w ∨ encode M t v = some w)
    (h' : store M t' v' = some w ∨ encode M t' v' = some w) : v = v' := by
  have e1 : decode M w = some v := h.elim (C53_store_decode M) (C53_encode_decode M)
  have e2 : decode M w = some v' := h'.elim (C53_store_decode M) (C53_encode_decode M)
  rw [e1] at e2
  injection e2

/-- Everything but marshalled objects can be stored; objects of other types, and ints outside of int64, exactly if marshal accepts them. -/
theorem C53_store_total {O : Type} (M : Marshal O) (t : Nat) (v : Obj O) :
    store M t v = Option.none ↔ ((∃ x, v = .other x) ∨ ∃ n, v = .int n ∧ ¬ (-2 ^ 63 ≤ n ∧ n < 2 ^ 63)) ∧ M.dump t v = Option.none := by
  cases v with
  | int n =>
    simp only [store]
    cases h : asLongLong n with
    | some x => simp; exact fun h1 h2 => absurd h2 (by have := (asLongLong_some h).2; omega)
    | none => simp; exact fun _ h2 => by have := asLongLong_none.1 h; omega
  | bytes d => simp only [store]; split <;> simp
  | _ => simp [store]

/-! ### Specification of the Python class PrefixTree: a dictionary from bytes to objects -/
namespace Py
variable {O : Type}

/-- State of the specification.  `m` is the dictionary.  `exact`: len is right (until an incr of an absent key has failed for lack of memory).  `clean`: as for `PT.State`. -/
structure State (O : Type) where
  m : Bytes → Option (Obj O)
  exact : Bool
  clean : Bool

/-- the dictionary with the value `v` (or nothing) for `k` -/
def put (m : Bytes → Option (Obj O)) (k : Bytes) (v : Option (Obj O)) : Bytes → Option (Obj O) := fun k' => if k' = k then v else m k'

/-- the object that is read back: -0.0 becomes 0.0 -/
def kept : Obj O → Obj O
  | .float x => if isZero x then .float 0#64 else .float x
  | v => v

/-- equality of objects of the same type; for floats as in IEEE 754 (so that no NaN equals itself).  Unlike Python's ==, True, 1 and 1.0 are not equal. -/
def Eqv : Obj O → Obj O → Prop
  | .float a, .float b => isNaN a = false ∧ isNaN b = false ∧ (a = b ∨ (isZero a = true ∧ isZero b = true))
  | a, b => a = b

/-- the ints that fit in int64 -/
def Small (n : Int) : Prop := -2 ^ 63 ≤ n ∧ n < 2 ^ 63

/-- the objects that are stored by marshal: ints outside of int64 and all types but None, bool, int, float, bytes, str -/
def Marshalled : Obj O → Prop
  | .int n => ¬ Small n
  | .other _ => True
  | _ => False

/-- `k` is empty or a prefix of a key -/
def OnPath (m : Bytes → Option (Obj O)) (k : Bytes) : Prop := k = [] ∨ ∃ r, m (k ++ r) ≠ Option.none

/-- a method that stores the object `v` for `k` ran to its end with the result `good`, or failed for lack of memory with `bad`: then `k` may have lost its old value -/
def Stores (s : State O) (k : Bytes) (v : Obj O) (good bad : Out (Res O)) (r : Out (Res O)) (s' : State O) : Prop :=
  (r = good ∧ s' = { s with m := put s.m k (some (kept v)) }) ∨
  (r = bad ∧ ∃ m', s' = { s with m := m', clean := false } ∧ (m' = s.m ∨ m' = put s.m k Option.none))

/-- a method that deletes `k` and returns `good` if it was there, and else `bad`; but for a prefix of a key, and the empty string, it can return `good` although it was not there (C44_false) -/
def Deletes (s : State O) (k : Bytes) (good bad : Out (Res O)) (r : Out (Res O)) (s' : State O) : Prop :=
  s' = { s with m := put s.m k Option.none } ∧ (r = good ∨ r = bad) ∧ (s.m k ≠ Option.none → r = good) ∧ (s.clean = true → ¬ OnPath s.m k → r = bad)

/-- check_and_set and check_missing_and_set, if `pass` says whether the check holds -/
def Checked (M : Marshal O) (s : State O) (pass : Prop) (k : Bytes) (v : Option (Obj O)) (t : Nat) (r : Out (Res O)) (s' : State O) : Prop :=
  match v with
  | some v =>
    (((Marshalled v ∧ ((∃ n, v = .int n) ∨ M.dump t v = Option.none)) ∧ r = .ok (.raised (convExc v)) ∧ s' = s) ∨
    (¬ (Marshalled v ∧ ((∃ n, v = .int n) ∨ M.dump t v = Option.none)) ∧
      ((¬ pass ∧ r = .ok (.obj (.bool false)) ∧ s' = s) ∨ (pass ∧ Stores s k v (.ok (.obj (.bool true))) (.ok (.raised .systemError)) r s'))))
  | Option.none => (¬ pass ∧ r = .ok (.obj (.bool false)) ∧ s' = s) ∨ (pass ∧ Deletes s k (.ok (.obj (.bool true))) (.ok (.obj (.bool false))) r s')

/-- `TSpec M add s op r s'`: the method call `op` on a PrefixTree that is the dictionary `s` may have the outcome `r` and leave `s'` -/
def TSpec (M : Marshal O) (add : BitVec 64 → BitVec 64 → BitVec 64) (s : State O) (op : TOp O) (r : Out (Res O)) (s' : State O) : Prop :=
  match op with
  | .set k v t =>
    (Marshalled v ∧ M.dump t v = Option.none ∧ r = .ok (.raised .marshalError) ∧ s' = s) ∨
    (¬ (Marshalled v ∧ M.dump t v = Option.none) ∧ Stores s k v (.ok (.obj .none)) (.err .noMem) r s')
  | .del k => Deletes s k (.ok (.obj .none)) (.ok (.raised .keyError)) r s'
  | .get k => s' = s ∧ r = .ok (match s.m k with
    | some v => .obj v
    | Option.none => .raised .keyError)
  | .len => s' = s ∧ ∃ n : Nat, r = .ok (.obj (.int n)) ∧ (s.exact = true → PT.Count (fun k => s.m k ≠ Option.none) n)
  | .clear => r = .ok (.obj .none) ∧ s' = { s with m := fun _ => Option.none, clean := true }
  | .incr k n =>
    (¬ Small n ∧ r = .ok (.raised .overflowError) ∧ s' = s) ∨
    (Small n ∧ match s.m k with
      | Option.none => (r = .ok (.obj (.int n)) ∧ s' = { s with m := put s.m k (some (.int n)) }) ∨ (r = .err .noMem ∧ s' = { s with exact := false, clean := false })
      | some v => (∃ x, v = .int x ∧ Small x ∧
            ((r = .ok (.obj (.int ((x + n).bmod (2 ^ 64)))) ∧ s' = { s with m := put s.m k (some (.int ((x + n).bmod (2 ^ 64)))) }) ∨ (r = .err .noMem ∧ s' = { s with clean := false }))) ∨
          ((¬ ∃ x, v = .int x ∧ Small x) ∧ r = .ok (.raised .valueError) ∧ s' = s))
  | .incrFloat k d => (match s.m k with
    | Option.none => (r = .ok (.obj (.float d)) ∧ s' = { s with m := put s.m k (some (.float d)) }) ∨ (r = .err .noMem ∧ s' = { s with clean := false })
    | some (.float x) => (r = .ok (.obj (.float (add x d))) ∧ s' = { s with m := put s.m k (some (kept (.float (add x d)))) }) ∨ (r = .err .noMem ∧ s' = { s with clean := false })
    | some _ => r = .ok (.raised .valueError) ∧ s' = s)
  | .checkAndSet ck cv k v _ t' =>
    ((∃ n, cv = .int n ∧ ¬ Small n) ∧ r = .ok (.raised .overflowError) ∧ s' = s) ∨
    ((¬ ∃ n, cv = .int n ∧ ¬ Small n) ∧ Checked M s (∃ w, s.m ck = some w ∧ Eqv w cv) k v t' r s')
  | .checkMissingAndSet ck k v t => Checked M s (s.m ck = Option.none) k v t r s'
  | .items => s' = s ∧ ∃ l, r = .ok (.items l) ∧ (l.map Prod.fst).Pairwise (· < ·) ∧ ∀ k v, (k, v) ∈ l ↔ s.m k = some v

/-- The calls that the theorem covers: what is stored has at most 2^62 bytes; an incr of an absent key by 0.0 corrupts the tree (C45_false); the value of a check is not the empty
bytes object and not of a type that is marshalled (`C53_false`, `C53_check_marshalled`). -/
def TOp.ok (M : Marshal O) (s : State O) : TOp O → Prop
  | .set _ v t => ∀ d, store M t v = some (.str d) → d.length ≤ 2 ^ 62
  | .incrFloat k d => s.m k = Option.none → isZero d = false
  | .checkAndSet _ cv _ v _ t' => cv ≠ .bytes [] ∧ (∀ x, cv ≠ .other x) ∧ ∀ u d, v = some u → encode M t' u = some (.str d) → d.length ≤ 2 ^ 62
  | .checkMissingAndSet _ _ v t => ∀ u d, v = some u → encode M t u = some (.str d) → d.length ≤ 2 ^ 62
  | _ => True

/-- a stored value represents an object -/
def Rep (M : Marshal O) (w : Val) (v : Obj O) : Prop := ∃ t, store M t v = some w ∨ encode M t v = some w

/-- the tree with contents `s` is the dictionary `d` -/
structure Is (M : Marshal O) (s : PT.State) (d : State O) : Prop where
  exact : s.exact = d.exact
  clean : s.clean = d.clean
  has : ∀ k w, s.m k = some w → ∃ v, d.m k = some v ∧ Rep M w v
  hasnt : ∀ k, s.m k = Option.none → d.m k = Option.none

theorem Rep.decode {M : Marshal O} {w : Val} {v : Obj O} (h : Rep M w v) : decode M w = some v := by
  obtain ⟨t, h⟩ := h
  exact h.elim (C53_store_decode M) (C53_encode_decode M)

theorem Is.none_iff {M : Marshal O} {s : PT.State} {d : State O} (h : Is M s d) (k : Bytes) : d.m k = Option.none ↔ s.m k = Option.none := by
  cases hk : s.m k with
  | none => simp [h.hasnt k hk]
  | some w => obtain ⟨v, h1, -⟩ := h.has k w hk; simp [h1]

theorem Is.onPath {M : Marshal O} {s : PT.State} {d : State O} (h : Is M s d) (k : Bytes) : OnPath d.m k ↔ PT.OnPath s.m k := by
  unfold OnPath PT.OnPath
  simp only [ne_eq, h.none_iff]

/-- the object of a key -/
theorem Is.val {M : Marshal O} {s : PT.State} {d : State O} (h : Is M s d) {k : Bytes} {v : Obj O} (hv : d.m k = some v) : ∃ w, s.m k = some w ∧ Rep M w v := by
  cases hk : s.m k with
  | none => rw [h.hasnt k hk] at hv; cases hv
  | some w => obtain ⟨u, h1, h2⟩ := h.has k w hk; rw [hv] at h1; injection h1 with h1; subst h1; exact ⟨w, rfl, h2⟩

theorem kept_rep {M : Marshal O} {w : Val} {v : Obj O} (h : Rep M w v) : Rep M (PT.kept w) (kept v) := by
  obtain ⟨t, h⟩ := h
  cases v with
  | float x =>
    have e : w = .dbl x := by rcases h with h | h <;> (injection h with h; exact h.symm)
    subst e
    refine ⟨0, Or.inl ?_⟩
    simp only [kept, PT.kept]
    split <;> rfl
  | _ =>
    refine ⟨t, ?_⟩
    have e : PT.kept w = w := by
      cases w with
      | dbl x =>
        have := (Rep.decode ⟨t, h⟩ : decode M (.dbl x) = _)
        simp [Py.decode] at this
      | _ => rfl
    rw [e]
    exact h

theorem Is.store {M : Marshal O} {s : PT.State} {d : State O} (h : Is M s d) {k : Bytes} {w : Val} {v : Obj O} (hr : Rep M w v) (b : Bool) :
    Is M { s with m := PT.put s.m k (some (PT.kept w)), clean := b } { d with m := put d.m k (some (kept v)), clean := b } where
  exact := h.exact
  clean := rfl
  has := by
    intro k' w' hk
    by_cases e : k' = k
    · subst e
      simp only [PT.put, if_pos] at hk
      injection hk with hk
      subst hk
      exact ⟨kept v, by simp [Py.put], kept_rep hr⟩
    · simp only [PT.put, if_neg e] at hk
      simp only [Py.put, if_neg e]
      exact h.has k' w' hk
  hasnt := by
    intro k' hk
    by_cases e : k' = k
    · subst e; simp [PT.put] at hk
    · simp only [PT.put, if_neg e] at hk
      simp only [Py.put, if_neg e]
      exact h.hasnt k' hk

theorem Is.drop {M : Marshal O} {s : PT.State} {d : State O} (h : Is M s d) (k : Bytes) (b : Bool) :
    Is M { s with m := PT.put s.m k Option.none, clean := b } { d with m := put d.m k Option.none, clean := b } where
  exact := h.exact
  clean := rfl
  has := by
    intro k' w' hk
    by_cases e : k' = k
    · subst e; simp [PT.put] at hk
    · simp only [PT.put, if_neg e] at hk
      simp only [Py.put, if_neg e]
      exact h.has k' w' hk
  hasnt := by
    intro k' hk
    by_cases e : k' = k
    · subst e; simp [Py.put]
    · simp only [PT.put, if_neg e] at hk
      simp only [Py.put, if_neg e]
      exact h.hasnt k' hk

theorem Is.flags {M : Marshal O} {s : PT.State} {d : State O} (h : Is M s d) (a b : Bool) :
    Is M { s with exact := a, clean := b } { d with exact := a, clean := b } := ⟨rfl, rfl, h.has, h.hasnt⟩

/-- the value of a check request is determined by the object, and is what the other encoding stores -/
theorem encode_unique {M : Marshal O} {t t' : Nat} {v : Obj O} {w w' : Val} (h1 : v ≠ .bytes []) (h2 : ∀ x, v ≠ .other x) (hw' : encode M t v = some w')
    (hw : store M t' v = some w ∨ encode M t' v = some w) : w = w' := by
  cases v with
  | none => rcases hw with h | h <;> exact Option.some.inj (h.symm.trans hw')
  | bool b => rcases hw with h | h <;> exact Option.some.inj (h.symm.trans hw')
  | float x => rcases hw with h | h <;> exact Option.some.inj (h.symm.trans hw')
  | str cs => rcases hw with h | h <;> exact Option.some.inj (h.symm.trans hw')
  | int n =>
    obtain ⟨x, hx, rfl⟩ := Option.map_eq_some_iff.1 hw'
    rcases hw with h | h
    · simp only [store, hx] at h
      exact (Option.some.inj h).symm
    · exact Option.some.inj (h.symm.trans hw')
  | bytes d =>
    rcases hw with h | h
    · simp only [store] at h
      rw [if_neg (fun e => h1 (by rw [List.length_eq_zero_iff.1 e]))] at h
      exact Option.some.inj (h.symm.trans hw')
    · exact Option.some.inj (h.symm.trans hw')
  | other x => exact absurd rfl (h2 x)

theorem same_eq {a b : Val} (h : (∀ x, a ≠ .dbl x) ∨ ∀ x, b ≠ .dbl x) : PT.same a b ↔ a = b := by
  cases a <;> cases b <;> first | exact Iff.rfl | (exfalso; rcases h with h | h <;> exact h _ rfl)

theorem eqv_eq {a b : Obj O} (h : (∀ x, a ≠ .float x) ∨ ∀ x, b ≠ .float x) : Eqv a b ↔ a = b := by
  cases a <;> cases b <;> first | exact Iff.rfl | (exfalso; rcases h with h | h <;> exact h _ rfl)

theorem Rep.dbl {M : Marshal O} {w : Val} {v : Obj O} (h : Rep M w v) : (∃ x, w = .dbl x ∧ v = .float x) ∨ ((∀ x, w ≠ .dbl x) ∧ ∀ x, v ≠ .float x) := by
  by_cases h1 : ∃ x, w = .dbl x
  · obtain ⟨x, rfl⟩ := h1
    have := h.decode
    exact Or.inl ⟨x, rfl, (Option.some.inj this).symm⟩
  · refine Or.inr ⟨fun x e => h1 ⟨x, e⟩, fun x e => ?_⟩
    subst e
    obtain ⟨t, h⟩ := h
    rcases h with h | h <;> exact h1 ⟨x, (Option.some.inj h).symm⟩

/-- the comparison of values is that of objects -/
theorem same_rep {M : Marshal O} {t : Nat} {w w' : Val} {v cv : Obj O} (h : Rep M w v) (h1 : cv ≠ .bytes []) (h2 : ∀ x, cv ≠ .other x) (he : encode M t cv = some w') :
    PT.same w w' ↔ Eqv v cv := by
  have h' : Rep M w' cv := ⟨t, Or.inr he⟩
  rcases h.dbl with ⟨x, rfl, rfl⟩ | ⟨hw, hv⟩
  · rcases h'.dbl with ⟨y, rfl, rfl⟩ | ⟨hw', hv'⟩
    · exact Iff.rfl
    · rw [same_eq (Or.inr hw'), eqv_eq (Or.inr hv')]
      exact ⟨fun e => absurd e.symm (hw' _), fun e => absurd e.symm (hv' _)⟩
  · rw [same_eq (Or.inl hw), eqv_eq (Or.inl hv)]
    constructor
    · rintro rfl
      exact Option.some.inj (h.decode.symm.trans h'.decode)
    · rintro rfl
      obtain ⟨t', ht'⟩ := h
      exact encode_unique h1 h2 he ht'

theorem passes_val {M : Marshal O} {s : PT.State} {d : State O} (h : Is M s d) {t : Nat} {w' : Val} {cv : Obj O} {ck : Bytes} (h1 : cv ≠ .bytes []) (h2 : ∀ x, cv ≠ .other x)
    (he : encode M t cv = some w') : PT.passes s.m (some (ck, .val w')) ↔ ∃ v, d.m ck = some v ∧ Eqv v cv := by
  constructor
  · rintro ⟨w, hw, hs⟩
    obtain ⟨v, hv, hr⟩ := h.has _ _ hw
    exact ⟨v, hv, (same_rep hr h1 h2 he).1 hs⟩
  · rintro ⟨v, hv, hs⟩
    obtain ⟨w, hw, hr⟩ := h.val hv
    exact ⟨w, hw, (same_rep hr h1 h2 he).2 hs⟩

theorem wp_onRange {α : Type} {e : Exc} {p : HProg α} {f : α → HProg (Res O)} {R : Out α → Heap → Prop} {Q : Out (Res O) → Heap → Prop} {h : Heap} (hp : wp p R h)
    (hok : ∀ a h', R (.ok a) h' → ∃ b, f a = .ret b ∧ Q (.ok b) h') (hr : ∀ h', R (.err .outOfRange) h' → Q (.ok (.raised e)) h')
    (he : ∀ x h', x ≠ .outOfRange → R (.err x) h' → Q (.err x) h') : wp (onRange e p f) Q h := by
  unfold onRange
  rw [wp_tryCatch]
  refine wp_bind_of hp ?_ ?_
  · intro a h' ha
    obtain ⟨b, hb, hq⟩ := hok a h' ha
    rw [hb]
    exact hq
  · intro x h' hx
    show wp (if x = .outOfRange then _ else _) Q h'
    by_cases hxe : x = .outOfRange
    · subst hxe; rw [if_pos rfl]; exact hr h' hx
    · rw [if_neg hxe]; exact he x h' hxe hx

theorem wp_onRuntime {α : Type} {p : HProg α} {f : α → HProg (Res O)} {R : Out α → Heap → Prop} {Q : Out (Res O) → Heap → Prop} {h : Heap} (hp : wp p R h)
    (hok : ∀ a h', R (.ok a) h' → ∃ b, f a = .ret b ∧ Q (.ok b) h') (hr : ∀ h', R (.err .noMem) h' → Q (.ok (.raised .systemError)) h')
    (he : ∀ x h', x ≠ .noMem → R (.err x) h' → Q (.err x) h') : wp (onRuntime p f) Q h := by
  unfold onRuntime
  rw [wp_tryCatch]
  refine wp_bind_of hp ?_ ?_
  · intro a h' ha
    obtain ⟨b, hb, hq⟩ := hok a h' ha
    rw [hb]
    exact hq
  · intro x h' hx
    show wp (if x = .noMem then _ else _) Q h'
    by_cases hxe : x = .noMem
    · subst hxe; rw [if_pos rfl]; exact hr h' hx
    · rw [if_neg hxe]; exact he x h' hxe hx

theorem wp_then {α : Type} {p : HProg α} {f : α → HProg (Res O)} {R : Out α → Heap → Prop} {Q : Out (Res O) → Heap → Prop} {h : Heap} (hp : wp p R h)
    (hok : ∀ a h', R (.ok a) h' → ∃ b, f a = .ret b ∧ Q (.ok b) h') (he : ∀ x h', R (.err x) h' → Q (.err x) h') : wp (p.bind f) Q h := by
  refine wp_bind_of hp ?_ he
  intro a h' ha
  obtain ⟨b, hb, hq⟩ := hok a h' ha
  rw [hb]
  exact hq

theorem store_none {M : Marshal O} {t : Nat} {v : Obj O} : store M t v = Option.none ↔ Marshalled v ∧ M.dump t v = Option.none := by
  rw [C53_store_total]
  refine and_congr_left fun _ => ?_
  cases v with
  | int n => simp only [Marshalled, Small]; constructor
             · rintro (⟨x, hx⟩ | ⟨n', hn, h⟩)
               · cases hx
               · injection hn with hn; subst hn; exact h
             · exact fun h => Or.inr ⟨n, rfl, h⟩
  | other x => exact ⟨fun _ => trivial, fun _ => Or.inl ⟨x, rfl⟩⟩
  | _ => simp [Marshalled]

theorem encode_none {M : Marshal O} {t : Nat} {v : Obj O} : encode M t v = Option.none ↔ Marshalled v ∧ ((∃ n, v = .int n) ∨ M.dump t v = Option.none) := by
  cases v with
  | int n => simp only [encode, Option.map_eq_none_iff, asLongLong_none, Marshalled, Small]
             exact ⟨fun h => ⟨h, Or.inl ⟨n, rfl⟩⟩, fun h => h.1⟩
  | other x => simp [encode, Marshalled]
  | _ => simp [encode, Marshalled]

variable {M : Marshal O} {s : PT.State} {d : State O}

theorem stores_of (hi : Is M s d) {k : Bytes} {w : Val} {v : Obj O} (hr : Rep M w v) {c : Option Check} {r : Out PT.Ret} {s' : PT.State} (h : PT.SpecInsert s k w c r s')
    (hc : PT.passes s.m c) {good bad : Out (Res O)} :
    (r = .ok (.bool true) ∧ ∃ d', Stores d k v good bad good d' ∧ Is M s' d') ∨ (r = .err .noMem ∧ ∃ d', Stores d k v good bad bad d' ∧ Is M s' d') := by
  rcases h with ⟨h, -⟩ | ⟨-, rfl, rfl⟩ | ⟨-, rfl, m', rfl, hm⟩
  · exact absurd hc h
  · refine Or.inl ⟨rfl, _, Or.inl ⟨rfl, rfl⟩, ?_⟩
    have := hi.store (k := k) hr s.clean
    rw [hi.clean] at this
    exact ⟨this.exact, hi.clean, this.has, this.hasnt⟩
  · rcases hm with rfl | ⟨rfl, -⟩
    · exact Or.inr ⟨rfl, _, Or.inr ⟨rfl, d.m, rfl, Or.inl rfl⟩, hi.exact, rfl, hi.has, hi.hasnt⟩
    · exact Or.inr ⟨rfl, _, Or.inr ⟨rfl, _, rfl, Or.inr rfl⟩, hi.drop k false⟩

theorem deletes_of (hi : Is M s d) {k : Bytes} {c : Option Check} {r : Out PT.Ret} {s' : PT.State} (h : PT.SpecErase s k c r s') (hc : PT.passes s.m c) {good bad : Out (Res O)} :
    ∃ b, r = .ok (.bool b) ∧ ∃ d', Deletes d k good bad (if b then good else bad) d' ∧ Is M s' d' := by
  rcases h with ⟨h, -⟩ | ⟨-, b, rfl, rfl, h1, h2⟩
  · exact absurd hc h
  · refine ⟨b, rfl, _, ⟨rfl, ?_, ?_, ?_⟩, ?_⟩
    · cases b
      · exact Or.inr rfl
      · exact Or.inl rfl
    · intro hk
      rw [h1 (fun e => hk ((hi.none_iff k).2 e))]
      rfl
    · intro hcl hp
      rw [← hi.clean] at hcl
      rw [hi.onPath] at hp
      cases hb : b with
      | false => rfl
      | true => exact absurd ((h2 hcl).1 hb) hp
    · have := hi.drop k s.clean
      exact ⟨this.exact, hi.clean, this.has, this.hasnt⟩

theorem decodeAll_some {l : List (Bytes × Val)} (h : ∀ e ∈ l, ∃ v, decode M e.2 = some v) :
    ∃ l', decodeAll M l = some l' ∧ l'.map Prod.fst = l.map Prod.fst ∧ ∀ k v, (k, v) ∈ l' ↔ ∃ w, (k, w) ∈ l ∧ decode M w = some v := by
  induction l with
  | nil => exact ⟨[], rfl, rfl, fun k v => by simp⟩
  | cons e l ih =>
    obtain ⟨k, w⟩ := e
    obtain ⟨v, hv⟩ := h (k, w) (by simp)
    obtain ⟨l', h1, h2, h3⟩ := ih (fun e he => h e (by simp [he]))
    refine ⟨(k, v) :: l', ?_, ?_, ?_⟩
    · simp only [decodeAll]
      rw [hv, h1]
    · simp [h2]
    · intro k' v'
      simp only [List.mem_cons, Prod.mk.injEq, h3]
      constructor
      · rintro (⟨rfl, rfl⟩ | ⟨w', h4, h5⟩)
        · exact ⟨w, Or.inl ⟨rfl, rfl⟩, hv⟩
        · exact ⟨w', Or.inr h4, h5⟩
      · rintro ⟨w', (⟨rfl, rfl⟩ | h4), h5⟩
        · rw [hv] at h5; injection h5 with h5; exact Or.inl ⟨rfl, h5.symm⟩
        · exact Or.inr ⟨w', h4, h5⟩

section
variable {add : BitVec 64 → BitVec 64 → BitVec 64} {base : Nat} {F : Nat → Option Block} {h : Heap}

/-- the tree at `base` is the dictionary `d` -/
def Holds (M : Marshal O) (base : Nat) (F : Nat → Option Block) (d : State O) (h : Heap) : Prop := ∃ s, Is M s d ∧ PrefixTree.Holds base F s h

theorem checked_step (hi : Is M s d) (hh : PrefixTree.Holds base F s h) {c : Check} {pass : Prop} (hp : PT.passes s.m (some c) ↔ pass) {k : Bytes} {v : Option (Obj O)} {t : Nat}
    (hl : ∀ u x, v = some u → encode M t u = some (.str x) → x.length ≤ 2 ^ 62) :
    wp (setChecked M add base c k v t) (fun out h' => ∃ d', Checked M d pass k v t out d' ∧ Holds M base F d' h') h := by
  cases v with
  | none =>
    refine wp_onRuntime (PrefixTree.step (add := add) (.erase k (some c)) s h trivial hh) ?_ ?_ ?_
    · rintro r h' ⟨s', hs, hh'⟩
      refine ⟨_, rfl, ?_⟩
      by_cases hc : PT.passes s.m (some c)
      · obtain ⟨b, hb, d', hd, hi'⟩ := deletes_of hi hs hc (good := .ok (.obj (.bool true))) (bad := .ok (.obj (.bool false)))
        injection hb with hb
        subst hb
        refine ⟨d', Or.inr ⟨hp.1 hc, ?_⟩, s', hi', hh'⟩
        cases b <;> exact hd
      · rcases hs with ⟨-, h1, rfl⟩ | ⟨h1, -⟩
        · injection h1 with h1; subst h1
          exact ⟨d, Or.inl ⟨fun x => hc (hp.2 x), rfl, rfl⟩, _, hi, hh'⟩
        · exact absurd h1 hc
    · rintro h' ⟨s', (⟨-, h1, -⟩ | ⟨-, b, h1, -⟩), -⟩ <;> cases h1
    · rintro x h' - ⟨s', (⟨-, h1, -⟩ | ⟨-, b, h1, -⟩), -⟩ <;> cases h1
  | some v =>
    simp only [setChecked]
    cases he : encode M t v with
    | none => exact ⟨d, Or.inl ⟨encode_none.1 he, rfl, rfl⟩, s, hi, hh⟩
    | some w =>
      have hm : ¬ (Marshalled v ∧ ((∃ n, v = .int n) ∨ M.dump t v = Option.none)) := fun hx => by rw [encode_none.2 hx] at he; cases he
      refine wp_onRuntime (PrefixTree.step (add := add) (.insertResult k (.val w) (some c)) s h ⟨fun x hx => ?_, fun x hx => by cases hx⟩ hh) ?_ ?_ ?_
      · injection hx with hx
        exact hl v x rfl (hx ▸ he)
      · rintro r h' ⟨s', hs, hh'⟩
        refine ⟨_, rfl, ?_⟩
        by_cases hc : PT.passes s.m (some c)
        · rcases stores_of hi ⟨t, Or.inr he⟩ hs hc (good := .ok (.obj (.bool true))) (bad := .ok (.raised .systemError)) with ⟨h1, d', hd, hi'⟩ | ⟨h1, -⟩
          · injection h1 with h1; subst h1
            exact ⟨d', Or.inr ⟨hm, Or.inr ⟨hp.1 hc, hd⟩⟩, s', hi', hh'⟩
          · cases h1
        · rcases hs with ⟨-, h1, rfl⟩ | ⟨h1, -⟩ | ⟨h1, -⟩
          · injection h1 with h1; subst h1
            exact ⟨d, Or.inr ⟨hm, Or.inl ⟨fun x => hc (hp.2 x), rfl, rfl⟩⟩, _, hi, hh'⟩
          · exact absurd h1 hc
          · exact absurd h1 hc
      · rintro h' ⟨s', hs, hh'⟩
        by_cases hc : PT.passes s.m (some c)
        · rcases stores_of hi ⟨t, Or.inr he⟩ hs hc (good := .ok (.obj (.bool true))) (bad := .ok (.raised .systemError)) with ⟨h1, -⟩ | ⟨h1, d', hd, hi'⟩
          · cases h1
          · exact ⟨d', Or.inr ⟨hm, Or.inr ⟨hp.1 hc, hd⟩⟩, s', hi', hh'⟩
        · rcases hs with ⟨-, h1, rfl⟩ | ⟨h1, -⟩ | ⟨h1, -⟩
          · cases h1
          · exact absurd h1 hc
          · exact absurd h1 hc
      · rintro x h' hx ⟨s', (⟨-, h1, -⟩ | ⟨-, h1, -⟩ | ⟨-, h1, -⟩), -⟩
        · cases h1
        · cases h1
        · injection h1 with h1; exact absurd h1 hx

theorem tstep (op : TOp O) (d : State O) (h : Heap) (hok : op.ok M d) (hi : Holds M base F d h) :
    wp (tcall M add base op) (fun out h' => ∃ d', TSpec M add d op out d' ∧ Holds M base F d' h') h := by
  obtain ⟨s, hi, hh⟩ := hi
  cases op with
  | set k v t =>
    simp only [tcall]
    cases he : store M t v with
    | none => exact ⟨d, Or.inl ⟨(store_none.1 he).1, (store_none.1 he).2, rfl, rfl⟩, s, hi, hh⟩
    | some w =>
      have hm : ¬ (Marshalled v ∧ M.dump t v = Option.none) := fun hx => by rw [store_none.2 hx] at he; cases he
      refine wp_then (PrefixTree.step (add := add) (.insert k w Option.none) s h (fun x hx => hok x (hx ▸ he)) hh) ?_ ?_
      · rintro r h' ⟨s', hs, hh'⟩
        refine ⟨_, rfl, ?_⟩
        rcases stores_of hi ⟨t, Or.inl he⟩ hs trivial (good := .ok (.obj .none)) (bad := .err .noMem) with ⟨-, d', hd, hi'⟩ | ⟨h1, -⟩
        · exact ⟨d', Or.inr ⟨hm, hd⟩, s', hi', hh'⟩
        · cases h1
      · rintro x h' ⟨s', hs, hh'⟩
        rcases stores_of hi ⟨t, Or.inl he⟩ hs trivial (good := .ok (.obj .none)) (bad := .err .noMem) with ⟨h1, -⟩ | ⟨h1, d', hd, hi'⟩
        · cases h1
        · injection h1 with h1; subst h1
          exact ⟨d', Or.inr ⟨hm, hd⟩, s', hi', hh'⟩
  | del k =>
    refine wp_then (PrefixTree.step (add := add) (.erase k Option.none) s h trivial hh) ?_ ?_
    · rintro r h' ⟨s', hs, hh'⟩
      obtain ⟨b, hb, d', hd, hi'⟩ := deletes_of hi hs trivial (good := .ok (.obj .none)) (bad := .ok (.raised .keyError))
      injection hb with hb
      subst hb
      cases b
      · exact ⟨_, rfl, d', hd, s', hi', hh'⟩
      · exact ⟨_, rfl, d', hd, s', hi', hh'⟩
    · rintro x h' ⟨s', (⟨-, h1, -⟩ | ⟨-, b, h1, -⟩), -⟩ <;> cases h1
  | get k =>
    refine wp_onRange (PrefixTree.step (add := add) (.at k) s h trivial hh) ?_ ?_ ?_
    · rintro r h' ⟨s', ⟨rfl, hr⟩, hh'⟩
      cases hk : s'.m k with
      | none => rw [hk] at hr; cases hr
      | some w =>
        rw [hk] at hr
        injection hr with hr
        subst hr
        obtain ⟨v, hv, hrep⟩ := hi.has k w hk
        refine ⟨_, rfl, d, ⟨rfl, ?_⟩, s', hi, hh'⟩
        rw [hrep.decode, hv]
        rfl
    · rintro h' ⟨s', ⟨rfl, hr⟩, hh'⟩
      cases hk : s'.m k with
      | some w => rw [hk] at hr; cases hr
      | none => refine ⟨d, ⟨rfl, ?_⟩, s', hi, hh'⟩; rw [hi.hasnt k hk]
    · rintro x h' hx ⟨s', ⟨rfl, hr⟩, hh'⟩
      cases hk : s'.m k with
      | some w => rw [hk] at hr; cases hr
      | none => rw [hk] at hr; injection hr with hr; exact absurd hr hx
  | len =>
    refine wp_then (PrefixTree.step (add := add) .size s h trivial hh) ?_ ?_
    · rintro r h' ⟨s', ⟨rfl, n, hr, hn⟩, hh'⟩
      injection hr with hr
      subst hr
      refine ⟨_, rfl, d, ⟨rfl, n, rfl, fun he => ?_⟩, s', hi, hh'⟩
      have := hn (hi.exact.trans he)
      simpa only [ne_eq, hi.none_iff] using this
    · rintro x h' ⟨s', ⟨rfl, n, hr, hn⟩, hh'⟩; cases hr
  | clear =>
    refine wp_then (PrefixTree.step (add := add) .clear s h trivial hh) ?_ ?_
    · rintro r h' ⟨s', ⟨hr, rfl⟩, hh'⟩
      exact ⟨_, rfl, _, ⟨rfl, rfl⟩, { s with m := fun _ => Option.none, clean := true }, ⟨hi.exact, rfl, fun k w hk => (by cases hk), fun k _ => rfl⟩, hh'⟩
    · rintro x h' ⟨s', ⟨hr, rfl⟩, hh'⟩; cases hr
  | incr k n =>
    simp only [tcall]
    cases ha : asLongLong n with
    | none => exact ⟨d, Or.inl ⟨asLongLong_none.1 ha, rfl, rfl⟩, s, hi, hh⟩
    | some x =>
      obtain ⟨hx, hn⟩ := asLongLong_some ha
      have hrep : ∀ y : BitVec 64, Rep M (.int y) (.int y.toInt) := by
        intro y
        refine ⟨0, Or.inr ?_⟩
        have : asLongLong y.toInt = some y := by
          unfold asLongLong
          rw [if_pos ⟨BitVec.le_toInt y, BitVec.toInt_lt⟩, BitVec.ofInt_toInt]
        simp [encode, this]
      have hrs := PrefixTree.step (add := add) (.incr k x) s h trivial hh
      cases hk : s.m k with
      | none =>
        refine wp_onRange hrs ?_ ?_ ?_
        · rintro r h' ⟨s', hs, hh'⟩
          simp only [PT.Spec, hk] at hs
          rcases hs with ⟨hr, rfl⟩ | ⟨hr, -⟩
          · injection hr with hr; subst hr
            refine ⟨_, rfl, _, Or.inr ⟨hn, ?_⟩, _, (hi.store (k := k) (hrep x) d.clean : Is M _ _), ?_⟩
            · rw [hi.hasnt k hk]
              exact Or.inl ⟨by rw [hx], by rw [hx]; rfl⟩
            · rw [← hi.clean]; exact hh'
          · cases hr
        · rintro h' ⟨s', hs, hh'⟩
          simp only [PT.Spec, hk] at hs
          rcases hs with ⟨hr, -⟩ | ⟨hr, -⟩ <;> cases hr
        · rintro e h' he ⟨s', hs, hh'⟩
          simp only [PT.Spec, hk] at hs
          rcases hs with ⟨hr, -⟩ | ⟨hr, rfl⟩
          · cases hr
          · injection hr with hr; subst hr
            refine ⟨_, Or.inr ⟨hn, ?_⟩, _, hi.flags false false, hh'⟩
            rw [hi.hasnt k hk]
            exact Or.inr ⟨rfl, rfl⟩
      | some w =>
        obtain ⟨v, hv, hr0⟩ := hi.has k w hk
        by_cases hw : ∃ y, w = .int y
        · obtain ⟨y, rfl⟩ := hw
          have hv2 : v = .int y.toInt := (Option.some.inj hr0.decode).symm
          subst hv2
          have e1 : (y + x).toInt = (y.toInt + n).bmod (2 ^ 64) := by rw [BitVec.toInt_add, hx]
          have hys : Small y.toInt := ⟨BitVec.le_toInt y, BitVec.toInt_lt⟩
          refine wp_onRange hrs ?_ ?_ ?_
          · rintro r h' ⟨s', hs, hh'⟩
            simp only [PT.Spec, hk] at hs
            rcases hs with ⟨hr, rfl⟩ | ⟨hr, -⟩
            · injection hr with hr; subst hr
              refine ⟨_, rfl, _, Or.inr ⟨hn, ?_⟩, _, (hi.store (k := k) (hrep (y + x)) d.clean : Is M _ _), ?_⟩
              · rw [hv]
                exact Or.inl ⟨_, rfl, hys, Or.inl ⟨by rw [e1], by rw [e1]; rfl⟩⟩
              · rw [← hi.clean]; exact hh'
            · cases hr
          · rintro h' ⟨s', hs, hh'⟩
            simp only [PT.Spec, hk] at hs
            rcases hs with ⟨hr, -⟩ | ⟨hr, -⟩ <;> cases hr
          · rintro e h' he ⟨s', hs, hh'⟩
            simp only [PT.Spec, hk] at hs
            rcases hs with ⟨hr, -⟩ | ⟨hr, rfl⟩
            · cases hr
            · injection hr with hr; subst hr
              refine ⟨{ d with clean := false }, Or.inr ⟨hn, ?_⟩, { s with clean := false }, ⟨hi.exact, rfl, hi.has, hi.hasnt⟩, hh'⟩
              rw [hv]
              exact Or.inl ⟨_, rfl, hys, Or.inr ⟨rfl, rfl⟩⟩
        · have hspec : ∀ r s', PT.Spec add s (.incr k x) r s' → r = .err .outOfRange ∧ s' = s := by
            intro r s' hs
            simp only [PT.Spec, hk] at hs
            cases w with
            | int y => exact absurd ⟨y, rfl⟩ hw
            | _ => exact hs
          refine wp_onRange hrs ?_ ?_ ?_
          · rintro r h' ⟨s', hs, hh'⟩
            cases (hspec _ _ hs).1
          · rintro h' ⟨s', hs, hh'⟩
            obtain ⟨-, rfl⟩ := hspec _ _ hs
            refine ⟨d, Or.inr ⟨hn, ?_⟩, _, hi, hh'⟩
            rw [hv]
            refine Or.inr ⟨?_, rfl, rfl⟩
            rintro ⟨z, rfl, hz⟩
            obtain ⟨t, ht⟩ := hr0
            have hz2 : ∃ y, asLongLong z = some y := ⟨_, if_pos hz⟩
            obtain ⟨y, hy⟩ := hz2
            rcases ht with ht | ht
            · simp only [store, hy] at ht; exact hw ⟨y, (Option.some.inj ht).symm⟩
            · simp only [encode, hy] at ht; exact hw ⟨y, (Option.some.inj ht).symm⟩
          · rintro e h' he ⟨s', hs, hh'⟩
            have := (hspec _ _ hs).1
            injection this with this
            exact absurd this he
  | incrFloat k x =>
    have hrs := PrefixTree.step (add := add) (.incrDouble k x) s h (fun hk => hok (hi.hasnt k hk)) hh
    have hrep : ∀ y : BitVec 64, Rep M (.dbl y) (.float y) := fun y => ⟨0, Or.inr rfl⟩
    cases hk : s.m k with
    | none =>
      have hk' := hi.hasnt k hk
      have hz := hok hk'
      refine wp_onRange hrs ?_ ?_ ?_
      · rintro r h' ⟨s', hs, hh'⟩
        simp only [PT.Spec, hk] at hs
        rcases hs with ⟨hr, rfl⟩ | ⟨hr, -⟩
        · injection hr with hr; subst hr
          have hst := hi.store (k := k) (hrep x) d.clean
          have e1 : PT.kept (.dbl x) = .dbl x := by simp [PT.kept, hz]
          have e2 : kept (.float x : Obj O) = .float x := by simp [kept, hz]
          rw [e1, e2] at hst
          refine ⟨_, rfl, _, ?_, _, hst, ?_⟩
          · simp only [TSpec, hk']
            exact Or.inl ⟨trivial, trivial⟩
          · rw [← hi.clean]; exact hh'
        · cases hr
      · rintro h' ⟨s', hs, hh'⟩
        simp only [PT.Spec, hk] at hs
        rcases hs with ⟨hr, -⟩ | ⟨hr, -⟩ <;> cases hr
      · rintro e h' he ⟨s', hs, hh'⟩
        simp only [PT.Spec, hk] at hs
        rcases hs with ⟨hr, -⟩ | ⟨hr, rfl⟩
        · cases hr
        · injection hr with hr; subst hr
          refine ⟨{ d with clean := false }, ?_, { s with clean := false }, ⟨hi.exact, rfl, hi.has, hi.hasnt⟩, hh'⟩
          simp only [TSpec, hk']
          exact Or.inr ⟨trivial, trivial⟩
    | some w =>
      obtain ⟨v, hv, hr0⟩ := hi.has k w hk
      rcases hr0.dbl with ⟨y, rfl, rfl⟩ | ⟨hw, hv0⟩
      · refine wp_onRange hrs ?_ ?_ ?_
        · rintro r h' ⟨s', hs, hh'⟩
          simp only [PT.Spec, hk] at hs
          rcases hs with ⟨hr, rfl⟩ | ⟨hr, -⟩
          · injection hr with hr; subst hr
            refine ⟨_, rfl, _, ?_, _, hi.store (k := k) (hrep (add y x)) d.clean, ?_⟩
            · simp only [TSpec, hv]
              exact Or.inl ⟨trivial, trivial⟩
            · rw [← hi.clean]; exact hh'
          · cases hr
        · rintro h' ⟨s', hs, hh'⟩
          simp only [PT.Spec, hk] at hs
          rcases hs with ⟨hr, -⟩ | ⟨hr, -⟩ <;> cases hr
        · rintro e h' he ⟨s', hs, hh'⟩
          simp only [PT.Spec, hk] at hs
          rcases hs with ⟨hr, -⟩ | ⟨hr, rfl⟩
          · cases hr
          · injection hr with hr; subst hr
            refine ⟨{ d with clean := false }, ?_, { s with clean := false }, ⟨hi.exact, rfl, hi.has, hi.hasnt⟩, hh'⟩
            simp only [TSpec, hv]
            exact Or.inr ⟨trivial, trivial⟩
      · have hspec : ∀ r s', PT.Spec add s (.incrDouble k x) r s' → r = .err .outOfRange ∧ s' = s := by
          intro r s' hs
          simp only [PT.Spec, hk] at hs
          cases w with
          | dbl y => exact absurd rfl (hw y)
          | _ => exact hs
        refine wp_onRange hrs ?_ ?_ ?_
        · rintro r h' ⟨s', hs, hh'⟩
          cases (hspec _ _ hs).1
        · rintro h' ⟨s', hs, hh'⟩
          obtain ⟨-, rfl⟩ := hspec _ _ hs
          refine ⟨d, ?_, _, hi, hh'⟩
          simp only [TSpec, hv]
          cases v with
          | float y => exact absurd rfl (hv0 y)
          | _ => exact ⟨trivial, trivial⟩
        · rintro e h' he ⟨s', hs, hh'⟩
          have := (hspec _ _ hs).1
          injection this with this
          exact absurd this he
  | checkAndSet ck cv k v t t' =>
    simp only [tcall]
    obtain ⟨h1, h2, h3⟩ := hok
    cases he : encode M t cv with
    | none =>
      obtain ⟨hm, hc⟩ := encode_none.1 he
      cases cv with
      | int n => exact ⟨d, Or.inl ⟨⟨n, rfl, hm⟩, rfl, rfl⟩, s, hi, hh⟩
      | other x => exact absurd rfl (h2 x)
      | _ => exact hm.elim
    | some w =>
      refine wp_mono ?_ (checked_step (add := add) hi hh (passes_val (ck := ck) hi h1 h2 he) (k := k) (v := v) (t := t') h3)
      rintro out h' ⟨d', hd, hh'⟩
      refine ⟨d', Or.inr ⟨?_, hd⟩, hh'⟩
      rintro ⟨n, rfl, hn⟩
      have : encode M t (.int n) = Option.none := encode_none.2 ⟨hn, Or.inl ⟨n, rfl⟩⟩
      rw [this] at he
      cases he
  | checkMissingAndSet ck k v t =>
    exact checked_step (add := add) hi hh (c := (ck, .missing)) (hi.none_iff ck).symm hok
  | items =>
    refine wp_then (PrefixTree.step (add := add) .items s h trivial hh) ?_ ?_
    · rintro r h' ⟨s', ⟨rfl, l, hr, hl1, hl2⟩, hh'⟩
      injection hr with hr
      subst hr
      obtain ⟨l', e1, e2, e3⟩ := decodeAll_some (M := M) (l := l) (by
        rintro ⟨k, w⟩ he
        obtain ⟨v, -, hrep⟩ := hi.has k w ((hl2 k w).1 he)
        exact ⟨v, hrep.decode⟩)
      refine ⟨.items l', by simp only [e1], d, ⟨rfl, l', rfl, by rw [e2]; exact hl1, fun k v => ?_⟩, s', hi, hh'⟩
      rw [e3]
      constructor
      · rintro ⟨w, hw, hd⟩
        obtain ⟨v', hv', hrep⟩ := hi.has k w ((hl2 k w).1 hw)
        rw [hrep.decode] at hd
        injection hd with hd
        rw [hv', hd]
      · intro hv
        obtain ⟨w, hw, hrep⟩ := hi.val hv
        exact ⟨w, (hl2 k w).2 hw, hrep.decode⟩
    · rintro x h' ⟨s', ⟨rfl, l, hr, -⟩, hh'⟩; cases hr
end

/-- the new, empty dictionary -/
def new : State O := ⟨fun _ => Option.none, true, true⟩

theorem is_new (M : Marshal O) : Is M PT.new (new : State O) := ⟨rfl, rfl, fun _ _ h => (by cases h), fun _ _ => rfl⟩

end Py

/-! ### C53 -/

/-- **C53 for PrefixTree, the true part.** In a pool with any history of SimpleAllocator calls, a new Python PrefixTree answers every sequence of t[k] = v, del t[k], t[k], len, clear, incr, check_and_set,
check_missing_and_set and items as the dictionary `TSpec` describes: every object is read back as the object that was stored (but -0.0 as 0.0), for all objects of all types, and a check with a value passes exactly
if the stored object has the same type and value.  No call touches the bytes of blocks that other clients hold.  Missing: what `TOp.ok` excludes, in particular checks with the empty bytes object
(see `C53_false`) and with objects that are marshalled (see `C53_check_marshalled`). -/
theorem C53_prefixtree_partial {O : Type} (M : Marshal O) (add : BitVec 64 → BitVec 64 → BitVec 64) {p0 p : Pool} {live lk : List (Nat × Nat)} {ex : Bool} (h : Hist p0 p live lk ex) :
    (∃ p1, run (compile PrefixTree.create) p = (.err .noMem, p1)) ∨
    ∃ b p1, run (compile PrefixTree.create) p = (.ok b, p1) ∧ ∀ ops : List (TOp O), Guarded (TSpec M add) (fun d o => o.ok M d) new ops →
      ∃ rs p2 d, run (compile (hist (tcall M add b) ops)) p1 = (.ok rs, p2) ∧ Trace (TSpec M add) new ops rs d ∧
        ∀ o n, (o, n) ∈ live → ∀ i, i < n → p2.mem (o + i) = p.mem (o + i) := by
  rcases PrefixTree.create_pool h with h1 | ⟨b, p1, h1, hp, hr, hh, hs, hl⟩
  · exact Or.inl h1
  · refine Or.inr ⟨b, p1, hr, fun ops hok => ?_⟩
    obtain ⟨rs, p2, d, h2, e1, e2, ⟨s, -, hh2⟩, hs2⟩ := hist_run_guarded (f := tcall M add b) (Inv := Py.Holds M b hp)
      (fun d o h h1 h2 => tstep o d h h1 h2) ops hok ⟨PT.new, is_new M, hh⟩ hs
    exact ⟨rs, p2, d, e1, e2, fun o n hm => PrefixTree.untouched hh2 hs2 (hl o n hm)⟩

/-- The same for every lawful allocator. -/
theorem C53_prefixtree_any_allocator_partial {O : Type} (M : Marshal O) (add : BitVec 64 → BitVec 64 → BitVec 64) {h : Heap} (hk : HeapOk h) (ops : List (TOp O))
    (hok : Guarded (TSpec M add) (fun d o => o.ok M d) new ops) :
    wp (PrefixTree.create.bind fun b => hist (tcall M add b) ops) (fun out _ => out = .err .noMem ∨ ∃ rs d, out = .ok rs ∧ Trace (TSpec M add) new ops rs d) h := by
  refine wp_bind_of (wp_heapOk hk (PrefixTree.create_spec h).wp) ?_ ?_
  · rintro b h' ⟨(⟨h1, -⟩ | ⟨b', h1, -, t⟩), hk'⟩
    · cases h1
    · injection h1 with h1; subst h1
      refine wp_mono ?_ (hist_guarded (f := tcall M add b) (Inv := Py.Holds M b h.blk) (fun d o h h1 h2 => tstep o d h h1 h2) ops new h' hok
        ⟨PT.new, is_new M, PrefixTree.holds_new t hk'⟩)
      rintro out h'' ⟨rs, d, h1, h2, -⟩
      exact Or.inr ⟨rs, d, h1, h2⟩
  · rintro e h' ⟨(⟨h1, -⟩ | ⟨b', h1, -⟩), -⟩
    · injection h1 with h1; subst h1; exact Or.inl rfl
    · cases h1

/-- For an object that is marshalled, a check against the value stored by t[k] = v passes exactly if marshal wrote the same bytes both times (for ints outside of int64 the check raises OverflowError). -/
theorem C53_check_marshalled {O : Type} (M : Marshal O) (t t' : Nat) (x : O) {w w' : Val} (hs : store M t (.other x) = some w) (hc : encode M t' (.other x) = some w') :
    (PT.same w w' ↔ M.dump t (.other x) = M.dump t' (.other x)) ∧ (∀ n, ¬ Small n → encode M t' (.int n) = Option.none) := by
  constructor
  · obtain ⟨d, h1, rfl⟩ := Option.map_eq_some_iff.1 hs
    obtain ⟨d', h2, rfl⟩ := Option.map_eq_some_iff.1 hc
    rw [same_eq (Or.inl (fun x h => by cases h)), h1, h2]
    simp
  · intro n hn
    exact encode_none.2 ⟨hn, Or.inl ⟨n, rfl⟩⟩

/-- a marshal module for concrete runs: the bytes 0 and 1 for two objects, with a flag that depends on the state of the interpreter; ints are refused -/
def someMarshal : Marshal Bool where
  dump t v := match v with
    | .other b => some [if b then 1 else 0, if t = 0 then 0 else 128]
    | _ => none
  load d := match d with
    | [c, _] => some (.other (c = 1))
    | _ => none
  load_dump := by
    intro t v d h
    cases v with
    | other b => injection h with h; subst h; cases b <;> rfl
    | _ => cases h

/-- run a list of Python calls on a new tree -/
def pyRun (ops : List (TOp Bool)) : Verif.Res (List (Out (Py.Res Bool))) := (run (compile (hist (tcall someMarshal noAdd 344) ops)) (ptPool 0)).1

deriving instance DecidableEq for Py.Res

/-- **C53 is false** for the empty bytes object: after t[k] = b"" the value is read back as b"", but check_and_set(k, b"", ...) does not match it; it does match when b"" was stored by check_missing_and_set. -/
theorem C53_false : pyRun [.set [107] (.bytes []) 0, .get [107], .checkAndSet [107] (.bytes []) [107] (some (.int 5)) 0 0, .get [107],
      .checkMissingAndSet [108] [108] (some (.bytes [])) 0, .get [108], .checkAndSet [108] (.bytes []) [108] (some (.int 5)) 0 0, .get [108]] =
    .ok [.ok (.obj .none), .ok (.obj (.bytes [])), .ok (.obj (.bool false)), .ok (.obj (.bytes [])),
      .ok (.obj (.bool true)), .ok (.obj (.bytes [])), .ok (.obj (.bool true)), .ok (.obj (.int 5))] := by
  decide +kernel

/-- a concrete run: all types, checks that pass and fail, an int that is too large for a check, marshalled objects whose check depends on the interpreter -/
example : pyRun [.set [97] (.str [⟨0x1F600, by decide⟩, ⟨0, by decide⟩]) 0, .get [97], .checkAndSet [97] (.bytes [1]) [97] none 0 0,
      .checkAndSet [97] (.str [⟨0x1F600, by decide⟩, ⟨0, by decide⟩]) [98] (some (.float 4607182418800017408#64)) 0 0, .get [98], .del [97], .get [97], .len,
      .set [99] (.other true) 0, .get [99], .checkAndSet [99] (.other true) [99] (some .none) 1 0, .checkAndSet [99] (.other true) [99] (some .none) 0 0, .get [99],
      .checkAndSet [99] (.int 9223372036854775808) [99] (some .none) 0 0, .incr [100] (-3), .incr [100] 5, .incr [99] 1] =
    .ok [.ok (.obj .none), .ok (.obj (.str [⟨0x1F600, by decide⟩, ⟨0, by decide⟩])), .ok (.obj (.bool false)), .ok (.obj (.bool true)), .ok (.obj (.float 4607182418800017408#64)),
      .ok (.obj .none), .ok (.raised .keyError), .ok (.obj (.int 1)), .ok (.obj .none), .ok (.obj (.other true)), .ok (.obj (.bool false)), .ok (.obj (.bool true)), .ok (.obj .none),
      .ok (.raised .overflowError), .ok (.obj (.int (-3))), .ok (.obj (.int 2)), .ok (.raised .valueError)] := by
  decide +kernel

/-- the calls of a non-trivial history meet the condition -/
example : Guarded (TSpec someMarshal noAdd) (fun d o => o.ok someMarshal d) new
    [.set [97] (.str [⟨0x1F600, by decide⟩]) 0, .checkAndSet [97] (.int 5) [98] (some (.other true)) 0 0, .incr [100] 5, .items] :=
  Guarded.of_all (by
    intro o ho s
    simp only [List.mem_cons, List.not_mem_nil, or_false] at ho
    rcases ho with rfl | rfl | rfl | rfl
    · intro d hd
      have : d = [3, 4, 0, 0] ++ wide [⟨0x1F600, by decide⟩] := by injection hd with hd; injection hd with hd; exact hd.symm
      rw [this]
      decide +kernel
    · refine ⟨by simp, by simp, ?_⟩
      intro u d hu hd
      injection hu with hu
      subst hu
      have : d = [2, 1, 0] := by injection hd with hd; injection hd with hd; exact hd.symm
      rw [this]
      decide +kernel
    · trivial
    · trivial) _

end Verif
