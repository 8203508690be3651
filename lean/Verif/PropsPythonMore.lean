import Verif.PropsPython
/-
C53 for the Python classes HashTable and Queue (/repo/src/PythonModule.cc), which marshal every object.
-/
namespace Verif
open HashTable (Pairs keys)
open Py

namespace Py
variable {O : Type}

/-! ### Specification of HashTable: a dictionary from bytes to objects -/

/-- no other key of the table has the same slot as `k` -/
def Alone (hash : Bytes → Nat) (bits : Nat) (d : Bytes → Option (Obj O)) (k : Bytes) : Prop :=
  ∀ k', d k' ≠ none → hash k' % 2 ^ bits = hash k % 2 ^ bits → k' = k

/-- check_and_set and check_missing_and_set, if `pass` says whether the check holds -/
def HChecked (M : Marshal O) (d : Bytes → Option (Obj O)) (pass : Prop) (k : Bytes) (v : Option (Obj O)) (t : Nat) (r : Out (Res O)) (d' : Bytes → Option (Obj O)) : Prop :=
  match v with
  | some v =>
    (M.dump t v = none ∧ r = .ok (.raised .marshalError) ∧ d' = d) ∨
    (M.dump t v ≠ none ∧ ((¬ pass ∧ r = .ok (.obj (.bool false)) ∧ d' = d) ∨ (pass ∧ r = .ok (.obj (.bool true)) ∧ d' = put d k (some v)) ∨ (pass ∧ r = .err .noMem ∧ d' = d)))
  | none => (pass ∧ d k ≠ none ∧ r = .ok (.obj (.bool true)) ∧ d' = put d k none) ∨ (¬ (pass ∧ d k ≠ none) ∧ r = .ok (.obj (.bool false)) ∧ d' = d)

/-- `HSpec M d op r d'`: the method call `op` on a HashTable that is the dictionary `d` may have the outcome `r` and leave `d'` -/
def HSpec (M : Marshal O) (d : Bytes → Option (Obj O)) (op : HOp O) (r : Out (Res O)) (d' : Bytes → Option (Obj O)) : Prop :=
  match op with
  | .set k v t =>
    (M.dump t v = none ∧ r = .ok (.raised .marshalError) ∧ d' = d) ∨
    (M.dump t v ≠ none ∧ ((r = .ok (.obj .none) ∧ d' = put d k (some v)) ∨ (r = .err .noMem ∧ d' = d)))
  | .del k => (d k ≠ none ∧ r = .ok (.obj .none) ∧ d' = put d k none) ∨ (d k = none ∧ r = .ok (.raised .keyError) ∧ d' = d)
  | .get k => d' = d ∧ r = .ok (match d k with
    | some v => .obj v
    | none => .raised .keyError)
  | .contains k => d' = d ∧ ∃ b, r = .ok (.obj (.bool b)) ∧ (b = true ↔ d k ≠ none)
  | .len => d' = d ∧ ∃ n : Nat, r = .ok (.obj (.int n)) ∧ PT.Count (fun k => d k ≠ none) n
  | .clear => r = .ok (.obj .none) ∧ d' = fun _ => none
  | .checkAndSet ck cv k v t t' =>
    (M.dump t cv = none ∧ r = .ok (.raised .marshalError) ∧ d' = d) ∨ (M.dump t cv ≠ none ∧ HChecked M d (d ck = some cv) k v t' r d')
  | .checkMissingAndSet ck k v t => HChecked M d (d ck = none) k v t r d'
  | .items => d' = d ∧ ∃ l, r = .ok (.items l) ∧ (l.map Prod.fst).Nodup ∧ ∀ k v, (k, v) ∈ l ↔ d k = some v

/-- The calls that the theorem covers: keys and marshalled values have together at most 2^62 bytes; a key that is deleted has a slot of its own (C35_false); the object of a check is one
that marshal always writes as the same bytes. -/
def HOp.ok (M : Marshal O) (hash : Bytes → Nat) (bits : Nat) (d : Bytes → Option (Obj O)) : HOp O → Prop
  | .set k v t => ∀ w, M.dump t v = some w → k.length + w.length ≤ 2 ^ 62
  | .del k => Alone hash bits d k
  | .checkAndSet _ cv k v _ t' => (∀ t t', M.dump t cv = M.dump t' cv) ∧ (match v with
    | some v => ∀ w, M.dump t' v = some w → k.length + w.length ≤ 2 ^ 62
    | none => Alone hash bits d k)
  | .checkMissingAndSet _ k v t => (match v with
    | some v => ∀ w, M.dump t v = some w → k.length + w.length ≤ 2 ^ 62
    | none => Alone hash bits d k)
  | _ => True

/-- the pairs of a table are the dictionary `d` -/
def HIs (M : Marshal O) (m : Pairs) (d : Bytes → Option (Obj O)) : Prop :=
  ∀ k, (HashTable.get m k = none ∧ d k = none) ∨ ∃ w v t, HashTable.get m k = some w ∧ d k = some v ∧ M.dump t v = some w

variable {M : Marshal O} {m : Pairs} {d : Bytes → Option (Obj O)}

theorem HIs.none_iff (hi : HIs M m d) (k : Bytes) : d k = none ↔ HashTable.get m k = none := by
  rcases hi k with ⟨h1, h2⟩ | ⟨w, v, t, h1, h2, -⟩ <;> simp [h1, h2]

theorem HIs.mem_iff (hi : HIs M m d) (k : Bytes) : k ∈ keys m ↔ d k ≠ none := by
  rw [ne_eq, hi.none_iff, HashTable.get_none, not_not]

theorem HIs.put (hi : HIs M m d) {k : Bytes} {v : Obj O} {t : Nat} {w : Bytes} (hw : M.dump t v = some w) : HIs M (HashTable.put m k w) (put d k (some v)) := by
  intro k'
  rw [HashTable.get_put]
  by_cases e : k' = k
  · rw [if_pos e]
    exact Or.inr ⟨w, v, t, rfl, by simp [Py.put, e], hw⟩
  · rw [if_neg e]
    simp only [Py.put, if_neg e]
    exact hi k'

theorem HIs.del (hi : HIs M m d) (k : Bytes) : HIs M (HashTable.del m k) (Py.put d k none) := by
  intro k'
  rw [HashTable.get_del]
  by_cases e : k' = k
  · rw [if_pos e]
    exact Or.inl ⟨rfl, by simp [Py.put, e]⟩
  · rw [if_neg e]
    simp only [Py.put, if_neg e]
    exact hi k'

theorem HIs.check (hi : HIs M m d) {k : Bytes} {v : Obj O} {t : Nat} {w : Bytes} (hw : M.dump t v = some w) (hc : ∀ t t', M.dump t v = M.dump t' v) :
    HashTable.get m k = some w ↔ d k = some v := by
  rcases hi k with ⟨h1, h2⟩ | ⟨w', v', t', h1, h2, h3⟩
  · simp [h1, h2]
  · rw [h1, h2]
    constructor
    · intro e
      injection e with e
      subst e
      rw [← M.load_dump _ _ _ h3, M.load_dump _ _ _ hw]
    · intro e
      injection e with e
      subst e
      rw [← h3, hc t' t, hw]

theorem Alone.safe {hash : Bytes → Nat} {bits : Nat} (hi : HIs M m d) (hn : (keys m).Nodup) {k : Bytes} (ha : Alone hash bits d k) : HashTable.eraseSafe (HT.slot hash bits m k) k := by
  by_cases hk : k ∈ keys (HT.slot hash bits m k)
  · refine Or.inr (Or.inl ?_)
    have h1 : ∀ k' ∈ keys (HT.slot hash bits m k), k' = k := by
      intro k' hk'
      obtain ⟨e, he, rfl⟩ := List.mem_map.1 hk'
      obtain ⟨he1, he2⟩ := List.mem_filter.1 he
      exact ha _ ((hi.mem_iff _).1 (List.mem_map.2 ⟨e, he1, rfl⟩)) (by simpa using he2)
    have h2 : (keys (HT.slot hash bits m k)).Nodup := List.Nodup.sublist (List.filter_sublist.map _) hn
    have h3 : (HT.slot hash bits m k).length = (keys (HT.slot hash bits m k)).length := by simp [keys]
    rw [h3]
    generalize keys (HT.slot hash bits m k) = l at *
    match l, hk, h1, h2 with
    | [_], _, _, _ => rfl
    | a :: b :: l, _, h1, h2 =>
      rw [h1 a (by simp), h1 b (by simp)] at h2
      simp at h2
  · exact Or.inl hk

theorem loadAll_some {l : Pairs} (h : ∀ e ∈ l, ∃ v, M.load e.2 = some v) :
    ∃ l', loadAll M l = some l' ∧ l'.map Prod.fst = l.map Prod.fst ∧ ∀ k v, (k, v) ∈ l' ↔ ∃ w, (k, w) ∈ l ∧ M.load w = some v := by
  induction l with
  | nil => exact ⟨[], rfl, rfl, fun k v => by simp⟩
  | cons e l ih =>
    obtain ⟨k, w⟩ := e
    obtain ⟨v, hv⟩ := h (k, w) (by simp)
    obtain ⟨l', h1, h2, h3⟩ := ih (fun e he => h e (by simp [he]))
    refine ⟨(k, v) :: l', ?_, ?_, ?_⟩
    · simp only [loadAll]
      simp only [hv, h1]
    · simp [h2]
    · intro k' v'
      simp only [List.mem_cons, Prod.mk.injEq, h3]
      constructor
      · rintro (⟨rfl, rfl⟩ | ⟨w', h4, h5⟩)
        · exact ⟨w, Or.inl ⟨rfl, rfl⟩, hv⟩
        · exact ⟨w', Or.inr h4, h5⟩
      · rintro ⟨w', (⟨rfl, rfl⟩ | h4), h5⟩
        · simp only [hv, Option.some.injEq] at h5; exact Or.inl ⟨rfl, h5.symm⟩
        · exact Or.inr ⟨w', h4, h5⟩

theorem get_mem {m : Pairs} (hn : (keys m).Nodup) {k w : Bytes} : (k, w) ∈ m ↔ HashTable.get m k = some w := by
  induction m with
  | nil => simp [HashTable.get]
  | cons e m ih =>
    obtain ⟨a, b⟩ := e
    simp only [keys, List.map_cons, List.nodup_cons] at hn
    rw [HashTable.get, List.mem_cons]
    by_cases h : a = k
    · subst h
      rw [if_pos rfl]
      constructor
      · rintro (e | e)
        · simp only [Prod.mk.injEq] at e; rw [e.2]
        · exact absurd (List.mem_map.2 ⟨_, e, rfl⟩) hn.1
      · intro e; injection e with e; rw [e]; exact Or.inl rfl
    · rw [if_neg h, ← ih hn.2]
      constructor
      · rintro (e | e)
        · simp only [Prod.mk.injEq] at e; exact absurd e.1.symm h
        · exact e
      · exact Or.inr

section
variable {hash : Bytes → Nat} {F : HT.Fp} {base slots bits : Nat} {G : Nat → Option Block} {h : Heap}

/-- the table at `base` is the dictionary `d` -/
def HHolds (M : Marshal O) (hash : Bytes → Nat) (base slots bits : Nat) (G : Nat → Option Block) (d : Bytes → Option (Obj O)) (h : Heap) : Prop :=
  ∃ m lk, HIs M m d ∧ HashTable.Table hash base slots bits G m lk h

theorem hchecked_step {lk : List Nat} (hi : HIs M m d) (hh : HashTable.Table hash base slots bits G m lk h) {c : HashTable.Check} {pass : Prop} (hp : HT.passes m (some c) ↔ pass)
    {k : Bytes} {v : Option (Obj O)} {t : Nat} (hl : match v with
      | some v => ∀ w, M.dump t v = some w → k.length + w.length ≤ 2 ^ 62
      | none => Alone hash bits d k) :
    wp (hSetChecked M hash F base c k v t) (fun out h' => ∃ d', HChecked M d pass k v t out d' ∧ HHolds M hash base slots bits G d' h') h := by
  have hn : (keys m).Nodup := by obtain ⟨bk, -, -, hn⟩ := hh; exact hn
  cases v with
  | none =>
    refine wp_then (HashTable.step (F := F) (.erase k (some c)) (m, lk) h (fun _ => hl.safe hi hn) hh) ?_ ?_
    · rintro r h' ⟨s', ⟨hs, -⟩, hh'⟩
      refine ⟨_, rfl, ?_⟩
      rcases hs with ⟨h1, h2, h3, h4⟩ | ⟨h1, h3, h4⟩
      · injection h3 with h3; subst h3
        exact ⟨_, Or.inl ⟨hp.1 h1, (hi.mem_iff k).1 h2, rfl, rfl⟩, s'.1, s'.2, h4 ▸ hi.del k, hh'⟩
      · injection h3 with h3; subst h3
        refine ⟨d, Or.inr ⟨?_, rfl, rfl⟩, s'.1, s'.2, h4 ▸ hi, hh'⟩
        rw [← hp, ← hi.mem_iff]
        exact h1
    · rintro x h' ⟨s', ⟨(⟨-, -, h3, -⟩ | ⟨-, h3, -⟩), -⟩, -⟩ <;> cases h3
  | some v =>
    simp only [hSetChecked]
    cases he : M.dump t v with
    | none => exact ⟨d, Or.inl ⟨he, rfl, rfl⟩, m, lk, hi, hh⟩
    | some w =>
      have hne : M.dump t v ≠ none := by rw [he]; exact fun hx => by cases hx
      refine wp_then (HashTable.step (F := F) (.insert k w (some c)) (m, lk) h (hl w he) hh) ?_ ?_
      · rintro r h' ⟨s', ⟨hs, -⟩, hh'⟩
        refine ⟨_, rfl, ?_⟩
        rcases hs with ⟨h1, h2, h3⟩ | ⟨-, h2, -⟩ | ⟨h1, h2, h3⟩
        · injection h2 with h2; subst h2
          exact ⟨_, Or.inr ⟨hne, Or.inr (Or.inl ⟨hp.1 h1, rfl, rfl⟩)⟩, s'.1, s'.2, h3 ▸ hi.put he, hh'⟩
        · cases h2
        · injection h2 with h2; subst h2
          exact ⟨d, Or.inr ⟨hne, Or.inl ⟨fun x => h1 (hp.2 x), rfl, rfl⟩⟩, s'.1, s'.2, h3 ▸ hi, hh'⟩
      · rintro x h' ⟨s', ⟨hs, -⟩, hh'⟩
        rcases hs with ⟨-, h2, -⟩ | ⟨h1, h2, h3⟩ | ⟨-, h2, -⟩
        · cases h2
        · injection h2 with h2; subst h2
          exact ⟨d, Or.inr ⟨hne, Or.inr (Or.inr ⟨hp.1 h1, rfl, rfl⟩)⟩, s'.1, s'.2, h3 ▸ hi, hh'⟩
        · cases h2

theorem hstep (op : HOp O) (d : Bytes → Option (Obj O)) (h : Heap) (hok : op.ok M hash bits d) (hi : HHolds M hash base slots bits G d h) :
    wp (hcall M hash F base op) (fun out h' => ∃ d', HSpec M d op out d' ∧ HHolds M hash base slots bits G d' h') h := by
  obtain ⟨m, lk, hi, hh⟩ := hi
  have hn : (keys m).Nodup := by obtain ⟨bk, -, -, hn⟩ := hh; exact hn
  cases op with
  | set k v t =>
    simp only [hcall]
    cases he : M.dump t v with
    | none => exact ⟨d, Or.inl ⟨he, rfl, rfl⟩, m, lk, hi, hh⟩
    | some w =>
      have hne : M.dump t v ≠ none := by rw [he]; exact fun hx => by cases hx
      refine wp_then (HashTable.step (F := F) (.insert k w none) (m, lk) h (hok w he) hh) ?_ ?_
      · rintro r h' ⟨s', ⟨hs, -⟩, hh'⟩
        refine ⟨_, rfl, ?_⟩
        rcases hs with ⟨h1, h2, h3⟩ | ⟨-, h2, -⟩ | ⟨h1, h2, h3⟩
        · exact ⟨_, Or.inr ⟨hne, Or.inl ⟨rfl, rfl⟩⟩, s'.1, s'.2, h3 ▸ hi.put he, hh'⟩
        · cases h2
        · exact absurd trivial h1
      · rintro x h' ⟨s', ⟨hs, -⟩, hh'⟩
        rcases hs with ⟨-, h2, -⟩ | ⟨h1, h2, h3⟩ | ⟨h1, -⟩
        · cases h2
        · injection h2 with h2; subst h2
          exact ⟨d, Or.inr ⟨hne, Or.inr ⟨rfl, rfl⟩⟩, s'.1, s'.2, h3 ▸ hi, hh'⟩
        · exact absurd trivial h1
  | del k =>
    refine wp_then (HashTable.step (F := F) (.erase k none) (m, lk) h (fun _ => Alone.safe hi hn hok) hh) ?_ ?_
    · rintro r h' ⟨s', ⟨hs, -⟩, hh'⟩
      rcases hs with ⟨h1, h2, h3, h4⟩ | ⟨h1, h3, h4⟩
      · injection h3 with h3; subst h3
        exact ⟨_, rfl, _, Or.inl ⟨(hi.mem_iff k).1 h2, rfl, rfl⟩, s'.1, s'.2, h4 ▸ hi.del k, hh'⟩
      · injection h3 with h3; subst h3
        refine ⟨_, rfl, d, Or.inr ⟨?_, rfl, rfl⟩, s'.1, s'.2, h4 ▸ hi, hh'⟩
        exact Classical.byContradiction fun hd => h1 ⟨trivial, (hi.mem_iff k).2 hd⟩
    · rintro x h' ⟨s', ⟨(⟨-, -, h3, -⟩ | ⟨-, h3, -⟩), -⟩, -⟩ <;> cases h3
  | get k =>
    refine wp_onRange (HashTable.step (F := F) (.at k) (m, lk) h trivial hh) ?_ ?_ ?_
    · rintro r h' ⟨s', ⟨⟨hm, hr⟩, -⟩, hh'⟩
      rcases hi k with ⟨h1, h2⟩ | ⟨w, v, t, h1, h2, h3⟩
      · rw [h1] at hr; cases hr
      · rw [h1] at hr
        injection hr with hr
        subst hr
        refine ⟨_, rfl, d, ⟨rfl, ?_⟩, s'.1, s'.2, hm ▸ hi, hh'⟩
        rw [M.load_dump _ _ _ h3, h2]
        rfl
    · rintro h' ⟨s', ⟨⟨hm, hr⟩, -⟩, hh'⟩
      rcases hi k with ⟨h1, h2⟩ | ⟨w, v, t, h1, h2, h3⟩
      · refine ⟨d, ⟨rfl, ?_⟩, s'.1, s'.2, hm ▸ hi, hh'⟩; rw [h2]
      · rw [h1] at hr; cases hr
    · rintro x h' hx ⟨s', ⟨⟨hm, hr⟩, -⟩, hh'⟩
      rcases hi k with ⟨h1, h2⟩ | ⟨w, v, t, h1, h2, h3⟩
      · rw [h1] at hr; injection hr with hr; exact absurd hr hx
      · rw [h1] at hr; cases hr
  | contains k =>
    refine wp_then (HashTable.step (F := F) (.exists k) (m, lk) h trivial hh) ?_ ?_
    · rintro r h' ⟨s', ⟨⟨hm, hr⟩, -⟩, hh'⟩
      injection hr with hr
      subst hr
      refine ⟨_, rfl, d, ⟨rfl, _, rfl, ?_⟩, s'.1, s'.2, hm ▸ hi, hh'⟩
      rw [← hi.mem_iff, decide_eq_true_eq]
    · rintro x h' ⟨s', ⟨⟨hm, hr⟩, -⟩, hh'⟩; cases hr
  | len =>
    refine wp_then (HashTable.step (F := F) .size (m, lk) h trivial hh) ?_ ?_
    · rintro r h' ⟨s', ⟨⟨hm, hr⟩, -⟩, hh'⟩
      injection hr with hr
      subst hr
      refine ⟨_, rfl, d, ⟨rfl, _, rfl, ?_⟩, s'.1, s'.2, hm ▸ hi, hh'⟩
      exact ⟨keys m, hn, fun k => hi.mem_iff k, by simp [keys]⟩
    · rintro x h' ⟨s', ⟨⟨hm, hr⟩, -⟩, hh'⟩; cases hr
  | clear =>
    refine wp_then (HashTable.step (F := F) .clear (m, lk) h trivial hh) ?_ ?_
    · rintro r h' ⟨s', ⟨⟨hm, hr⟩, -⟩, hh'⟩
      exact ⟨_, rfl, _, ⟨rfl, rfl⟩, s'.1, s'.2, hm ▸ (fun k => Or.inl ⟨rfl, rfl⟩), hh'⟩
    · rintro x h' ⟨s', ⟨⟨hm, hr⟩, -⟩, hh'⟩; cases hr
  | checkAndSet ck cv k v t t' =>
    simp only [hcall]
    obtain ⟨h1, h2⟩ := hok
    cases he : M.dump t cv with
    | none => exact ⟨d, Or.inl ⟨he, rfl, rfl⟩, m, lk, hi, hh⟩
    | some w =>
      have hne : M.dump t cv ≠ none := by rw [he]; exact fun hx => by cases hx
      refine wp_mono ?_ (hchecked_step (F := F) hi hh (c := (ck, some w)) (hi.check he h1) (k := k) (v := v) (t := t') h2)
      rintro out h' ⟨d', hd, hh'⟩
      exact ⟨d', Or.inr ⟨hne, hd⟩, hh'⟩
  | checkMissingAndSet ck k v t =>
    exact hchecked_step (F := F) hi hh (c := (ck, none)) (hi.none_iff ck).symm hok
  | items =>
    refine wp_then (HashTable.step (F := F) .items (m, lk) h trivial hh) ?_ ?_
    · rintro r h' ⟨s', ⟨⟨hm, l, hr, hl⟩, -⟩, hh'⟩
      injection hr with hr
      subst hr
      have hmem : ∀ k w, (k, w) ∈ l ↔ HashTable.get m k = some w := fun k w => by rw [← get_mem hn]; exact hl.mem_iff
      obtain ⟨l', e1, e2, e3⟩ := loadAll_some (M := M) (l := l) (by
        rintro ⟨k, w⟩ he
        have := (hmem k w).1 he
        rcases hi k with ⟨h1, -⟩ | ⟨w', v, t, h1, h2, h3⟩
        · rw [h1] at this; cases this
        · rw [h1] at this; injection this with this; subst this
          exact ⟨v, M.load_dump _ _ _ h3⟩)
      refine ⟨.items l', by simp only [e1], d, ⟨rfl, l', rfl, ?_, fun k v => ?_⟩, s'.1, s'.2, hm ▸ hi, hh'⟩
      · rw [e2]
        exact (hl.map Prod.fst).nodup_iff.2 hn
      · rw [e3]
        rcases hi k with ⟨h1, h2⟩ | ⟨w', v', t, h1, h2, h3⟩
        · simp only [hmem, h1, h2]; simp
        · simp only [hmem, h1, h2, Option.some.injEq]
          constructor
          · rintro ⟨w, rfl, hw⟩
            rw [M.load_dump _ _ _ h3] at hw
            exact Option.some.inj hw
          · rintro rfl
            exact ⟨w', rfl, M.load_dump _ _ _ h3⟩
    · rintro x h' ⟨s', ⟨⟨hm, l, hr, hl⟩, -⟩, hh'⟩; cases hr
end

/-! ### Specification of Queue -/

/-- an item of a queue: pushed as an object, or as raw bytes -/
inductive Item (O : Type)
  | obj (v : Obj O)
  | raw (d : Bytes)

/-- the bytes of an item -/
def Item.is (M : Marshal O) : Item O → Bytes → Prop
  | .obj v, w => ∃ t, M.dump t v = some w
  | .raw d, w => w = d

/-- the item that a push of `v` adds -/
def Item.of (M : Marshal O) (v : Obj O) (raw : Bool) (t : Nat) : Option (Item O) :=
  match raw, v with
  | true, .bytes d => some (.raw d)
  | true, _ => none
  | false, v => if M.dump t v = none then none else some (.obj v)

/-- the result of a pop: the object that was pushed, or the raw bytes that were pushed.  A pop that does not ask for what was pushed returns something or raises an exception. -/
def Item.Result (i : Item O) (raw : Bool) (r : Res O) : Prop :=
  match i, raw with
  | .obj v, false => r = .obj v
  | .raw d, true => r = .obj (.bytes d)
  | _, _ => True

/-- `QSpec M q op r q'`: the method call `op` on a queue of the items `q` (front first) may have the outcome `r` and leave `q'` -/
def QSpec (M : Marshal O) (q : List (Item O)) (op : QOp O) (r : Out (Res O)) (q' : List (Item O)) : Prop :=
  match op with
  | .push front v raw t => match Item.of M v raw t with
    | some i => (r = .ok (.obj .none) ∧ q' = if front then i :: q else q ++ [i]) ∨ (r = .err .noMem ∧ q' = q)
    | none => (∃ e, r = .ok (.raised e)) ∧ q' = q
  | .pop front raw => (q = [] ∧ r = .ok (.raised .indexError) ∧ q' = q) ∨
    ∃ i x, q = (if front then i :: q' else q' ++ [i]) ∧ r = .ok x ∧ i.Result raw x
  | .len => r = .ok (.obj (.int q.length)) ∧ q' = q

/-- items are shorter than 2^62 bytes -/
def QOp.ok (M : Marshal O) : QOp O → Prop
  | .push _ v raw t => ∀ w, item M t v raw = some w → w.length + 16 ≤ 2 ^ 62
  | _ => True

/-- the queue at `base` has the items `q` -/
def QHolds (M : Marshal O) (base : Nat) (G : Nat → Option Block) (q : List (Item O)) (h : Heap) : Prop :=
  ∃ l, List.Forall₂ (Item.is M) q l ∧ Queue.Inv base G l h

theorem item_of {t : Nat} {v : Obj O} {raw : Bool} : (item M t v raw = none ∧ Item.of M v raw t = none) ∨ ∃ w i, item M t v raw = some w ∧ Item.of M v raw t = some i ∧ i.is M w := by
  cases raw with
  | true => cases v <;> first | exact Or.inl ⟨rfl, rfl⟩ | exact Or.inr ⟨_, _, rfl, rfl, rfl⟩
  | false =>
    show (M.dump t v = none ∧ (if M.dump t v = none then none else some (Item.obj v)) = none) ∨ ∃ w i, M.dump t v = some w ∧ (if M.dump t v = none then none else some (Item.obj v)) = some i ∧ _
    cases h : M.dump t v with
    | none => exact Or.inl ⟨rfl, rfl⟩
    | some w => exact Or.inr ⟨w, .obj v, rfl, by simp, t, h⟩

theorem forall₂_snoc {R : Item O → Bytes → Prop} {q : List (Item O)} {l : List Bytes} {d : Bytes} (h : List.Forall₂ R q (l ++ [d])) :
    ∃ q' i, q = q' ++ [i] ∧ List.Forall₂ R q' l ∧ R i d := by
  induction l generalizing q with
  | nil =>
    cases h with
    | cons h1 h2 => cases h2; exact ⟨[], _, rfl, .nil, h1⟩
  | cons a l ih =>
    cases h with
    | cons h1 h2 =>
      obtain ⟨q', i, rfl, h3, h4⟩ := ih h2
      exact ⟨_ :: q', i, rfl, .cons h1 h3, h4⟩

theorem forall₂_concat {R : Item O → Bytes → Prop} {q : List (Item O)} {l : List Bytes} {i : Item O} {d : Bytes} (h : List.Forall₂ R q l) (hd : R i d) :
    List.Forall₂ R (q ++ [i]) (l ++ [d]) := by
  induction h with
  | nil => exact .cons hd .nil
  | cons h1 _ ih => exact .cons h1 ih

/-- popping the item `i` whose bytes are `w` -/
theorem popped {i : Item O} {w : Bytes} (hi : i.is M w) (raw : Bool) : i.Result raw (if raw then .obj (.bytes w) else result (M.load w)) := by
  cases i with
  | obj v =>
    obtain ⟨t, ht⟩ := hi
    cases raw with
    | false => show (if false = true then _ else _) = _; rw [if_neg (by decide), M.load_dump _ _ _ ht]; rfl
    | true => trivial
  | raw d =>
    cases hi
    cases raw with
    | false => trivial
    | true => rfl

theorem qstep {base : Nat} {G : Nat → Option Block} (op : QOp O) (q : List (Item O)) (h : Heap) (hok : op.ok M) (hi : QHolds M base G q h) :
    wp (qcall M base op) (fun out h' => ∃ q', QSpec M q op out q' ∧ QHolds M base G q' h') h := by
  obtain ⟨l, hl, hh⟩ := hi
  cases op with
  | push front v raw t =>
    simp only [qcall, QSpec]
    rcases item_of (M := M) (t := t) (v := v) (raw := raw) with ⟨e1, e2⟩ | ⟨w, i, e1, e2, e3⟩
    · rw [e1, e2]
      exact ⟨q, ⟨⟨_, rfl⟩, rfl⟩, l, hl, hh⟩
    · rw [e1, e2]
      have hw := hok w e1
      cases front with
      | true =>
        refine wp_then (Queue.step base G l (.pushFront w) h hw hh) ?_ ?_
        · rintro r h' ⟨s', (⟨-, rfl⟩ | ⟨hr, -⟩), hh'⟩
          · exact ⟨_, rfl, _, Or.inl ⟨rfl, rfl⟩, _, .cons e3 hl, hh'⟩
          · cases hr
        · rintro x h' ⟨s', (⟨hr, -⟩ | ⟨hr, rfl⟩), hh'⟩
          · cases hr
          · injection hr with hr; subst hr
            exact ⟨q, Or.inr ⟨rfl, rfl⟩, _, hl, hh'⟩
      | false =>
        refine wp_then (Queue.step base G l (.pushBack w) h hw hh) ?_ ?_
        · rintro r h' ⟨s', (⟨-, rfl⟩ | ⟨hr, -⟩), hh'⟩
          · exact ⟨_, rfl, _, Or.inl ⟨rfl, rfl⟩, _, forall₂_concat hl e3, hh'⟩
          · cases hr
        · rintro x h' ⟨s', (⟨hr, -⟩ | ⟨hr, rfl⟩), hh'⟩
          · cases hr
          · injection hr with hr; subst hr
            exact ⟨q, Or.inr ⟨rfl, rfl⟩, _, hl, hh'⟩
  | pop front raw =>
    cases front with
    | true =>
      refine wp_onRange (Queue.step base G l .popFront h trivial hh) ?_ ?_ ?_
      · rintro r h' ⟨s', (⟨-, hr, -⟩ | ⟨w, rfl, hr⟩), hh'⟩
        · cases hr
        · injection hr with hr; subst hr
          cases hl with
          | cons h1 h2 =>
            refine ⟨if raw then .obj (.bytes w) else result (M.load w), ?_, _, Or.inr ⟨_, _, rfl, rfl, popped h1 raw⟩, _, h2, hh'⟩
            cases raw <;> rfl
      · rintro h' ⟨s', (⟨rfl, hr, rfl⟩ | ⟨w, -, hr⟩), hh'⟩
        · cases hl
          exact ⟨[], Or.inl ⟨rfl, rfl, rfl⟩, _, .nil, hh'⟩
        · cases hr
      · rintro x h' hx ⟨s', (⟨-, hr, -⟩ | ⟨w, -, hr⟩), hh'⟩
        · injection hr with hr; exact absurd hr hx
        · cases hr
    | false =>
      refine wp_onRange (Queue.step base G l .popBack h trivial hh) ?_ ?_ ?_
      · rintro r h' ⟨s', (⟨-, hr, -⟩ | ⟨w, rfl, hr⟩), hh'⟩
        · cases hr
        · injection hr with hr; subst hr
          obtain ⟨q', i, rfl, h2, h1⟩ := forall₂_snoc hl
          refine ⟨if raw then .obj (.bytes w) else result (M.load w), ?_, q', Or.inr ⟨i, _, rfl, rfl, popped h1 raw⟩, _, h2, hh'⟩
          cases raw <;> rfl
      · rintro h' ⟨s', (⟨rfl, hr, rfl⟩ | ⟨w, -, hr⟩), hh'⟩
        · cases hl
          exact ⟨[], Or.inl ⟨rfl, rfl, rfl⟩, _, .nil, hh'⟩
        · cases hr
      · rintro x h' hx ⟨s', (⟨-, hr, -⟩ | ⟨w, -, hr⟩), hh'⟩
        · injection hr with hr; exact absurd hr hx
        · cases hr
  | len =>
    refine wp_then (Queue.step base G l .size h trivial hh) ?_ ?_
    · rintro r h' ⟨s', ⟨hr, rfl⟩, hh'⟩
      injection hr with hr
      subst hr
      exact ⟨_, rfl, q, ⟨by rw [hl.length_eq], rfl⟩, _, hl, hh'⟩
    · rintro x h' ⟨s', ⟨hr, -⟩, -⟩; cases hr

end Py

/-! ### C53 -/

/-- **C53 for HashTable, the true part.** In a pool with any history of SimpleAllocator calls, a new Python HashTable answers every sequence of t[k] = v, del t[k], t[k], in, len, clear, check_and_set,
check_missing_and_set and items as the dictionary `HSpec` describes, for every hash function and every marshal module: every object is read back as the object that was stored, and checks compare objects.
Missing: deletions of keys that share a slot (C35_false), and checks with objects that marshal does not always write as the same bytes. -/
theorem C53_hashtable_partial {O : Type} (M : Marshal O) (hash : Bytes → Nat) (F : HT.Fp) (bits : Nat) (hb : 2 ≤ bits) (hb2 : bits < 31)
    {p0 p : Pool} {live lk : List (Nat × Nat)} {ex : Bool} (h : Hist p0 p live lk ex) :
    (∃ p1, run (compile (HashTable.create bits)) p = (.err .noMem, p1)) ∨
    ∃ b p1, run (compile (HashTable.create bits)) p = (.ok b, p1) ∧ ∀ ops : List (Py.HOp O), Guarded (HSpec M) (fun d o => o.ok M hash bits d) (fun _ => none) ops →
      ∃ rs p2 d, run (compile (hist (hcall M hash F b) ops)) p1 = (.ok rs, p2) ∧ Trace (HSpec M) (fun _ => none) ops rs d := by
  obtain ⟨hp, hs, hl⟩ := h.sim
  obtain ⟨out, p1, h1, hr, hq, hs1⟩ := sim_run (HashTable.create_spec (hash := hash) hp hb hb2) hs
  rcases hq with ⟨rfl, -⟩ | ⟨b, sl, rfl, -, ht⟩
  · exact Or.inl ⟨p1, hr⟩
  · refine Or.inr ⟨b, p1, hr, fun ops hok => ?_⟩
    obtain ⟨rs, p2, d, h2, e1, e2, -⟩ := hist_run_guarded (f := hcall M hash F b) (Inv := HHolds M hash b sl bits hp.blk)
      (fun d o h h1 h2 => hstep o d h h1 h2) ops hok ⟨[], _, fun k => Or.inl ⟨rfl, rfl⟩, ht⟩ hs1
    exact ⟨rs, p2, d, e1, e2⟩

/-- **C53 for Queue.** In a pool with any history of SimpleAllocator calls, a new Python Queue answers every sequence of push_back, push_front, pop_back, pop_front (raw or not) and len as the
queue of items `QSpec` describes: what was pushed as an object is popped as this object, what was pushed as raw bytes is popped as these bytes when raw is given. -/
theorem C53_queue {O : Type} (M : Marshal O) {p0 p : Pool} {live lk : List (Nat × Nat)} {ex : Bool} (h : Hist p0 p live lk ex) :
    (∃ p1, run (compile Queue.create) p = (.err .noMem, p1)) ∨
    ∃ b p1, run (compile Queue.create) p = (.ok b, p1) ∧ ∀ ops : List (QOp O), (∀ o ∈ ops, o.ok M) →
      ∃ rs p2 q, run (compile (hist (qcall M b) ops)) p1 = (.ok rs, p2) ∧ Trace (QSpec M) [] ops rs q := by
  obtain ⟨hp, hs, hl⟩ := h.sim
  obtain ⟨out, p1, h1, hr, ⟨-, hq⟩, hs1⟩ := sim_run (Queue.create_spec hp) hs
  cases out with
  | err e => obtain ⟨rfl, -⟩ := hq; exact Or.inl ⟨p1, hr⟩
  | ok b =>
    refine Or.inr ⟨b, p1, hr, fun ops hok => ?_⟩
    obtain ⟨rs, p2, q, h2, e1, e2, -⟩ := hist_run_guarded (f := qcall M b) (Inv := QHolds M b hp.blk) (ok := fun _ o => o.ok M)
      (fun d o h h1 h2 => qstep o d h h1 h2) ops (Guarded.of_all (fun o ho _ => hok o ho) _) ⟨[], .nil, hs1.heapOk, [], rfl, hq⟩ hs1
    exact ⟨rs, p2, q, e1, e2⟩

/-- a concrete run of a hash table: an object is read back; the check compares what marshal wrote, so that it depends on the state of the interpreter -/
example : (run (compile (hist (hcall someMarshal HashTable.fnv1a64 noFp 344)
      [.set [97] (.other true) 0, .get [97], .contains [97], .contains [98], .checkAndSet [97] (.other true) [98] (some (.other false)) 1 0,
        .checkAndSet [97] (.other true) [98] (some (.other false)) 0 0, .get [98], .del [97], .get [97], .len, .set [1] (.int 3) 0])) (htPool 0)).1 =
    .ok [.ok (.obj .none), .ok (.obj (.other true)), .ok (.obj (.bool true)), .ok (.obj (.bool false)), .ok (.obj (.bool false)),
      .ok (.obj (.bool true)), .ok (.obj (.other false)), .ok (.obj .none), .ok (.raised .keyError), .ok (.obj (.int 1)), .ok (.raised .marshalError)] := by
  decide +kernel

/-- a marshal module that always writes the same bytes -/
def plainMarshal : Marshal Bool where
  dump _ v := match v with
    | .other b => some [if b then 1 else 0]
    | _ => none
  load d := match d with
    | [c] => some (.other (c = 1))
    | _ => none
  load_dump := by
    intro t v d h
    cases v with
    | other b => injection h with h; subst h; cases b <;> rfl
    | _ => cases h

/-- the calls of a history with a check and a deletion meet the condition -/
example : Guarded (HSpec plainMarshal) (fun d o => o.ok plainMarshal HashTable.fnv1a64 2 d) (fun _ => none)
    [.set [97] (.other true) 0, .checkAndSet [97] (.other true) [97] (some (.other false)) 1 0, .get [97], .del [97]] := by
  have len : ∀ (k : Bytes) (b : Bool) (t : Nat) (w : Bytes), k.length = 1 → plainMarshal.dump t (.other b) = some w → k.length + w.length ≤ 2 ^ 62 := by
    intro k b t w hk hw
    injection hw with hw
    subst hw
    rw [hk]
    simp
  have one : ∀ (d : Bytes → Option (Obj Bool)), (∀ k, k ≠ [97] → d k = none) → Alone HashTable.fnv1a64 2 d [97] :=
    fun d hd k' hk' _ => Classical.byContradiction fun e => hk' (hd k' e)
  have hput : ∀ (d : Bytes → Option (Obj Bool)) v, (∀ k, k ≠ [97] → d k = none) → ∀ k, k ≠ [97] → Py.put d [97] v k = none :=
    fun d v hd k hk => by simp only [Py.put, if_neg hk]; exact hd k hk
  refine ⟨fun w hw => len _ _ _ w rfl hw, fun r1 d1 h1 => ⟨⟨fun _ _ => rfl, fun w hw => len _ _ _ w rfl hw⟩, fun r2 d2 h2 => ⟨trivial, fun r3 d3 h3 => ⟨?_, fun _ _ _ => trivial⟩⟩⟩⟩
  refine one _ ?_
  have e1 : ∀ k, k ≠ [97] → d1 k = none := by
    rcases h1 with ⟨-, -, rfl⟩ | ⟨-, (⟨-, rfl⟩ | ⟨-, rfl⟩)⟩
    · exact fun _ _ => rfl
    · exact hput _ _ fun _ _ => rfl
    · exact fun _ _ => rfl
  have e2 : ∀ k, k ≠ [97] → d2 k = none := by
    rcases h2 with ⟨-, -, rfl⟩ | ⟨-, (⟨-, -, rfl⟩ | ⟨-, (⟨-, -, rfl⟩ | ⟨-, -, rfl⟩ | ⟨-, -, rfl⟩)⟩)⟩
    · exact e1
    · exact e1
    · exact e1
    · exact hput _ _ e1
    · exact e1
  rw [h3.1]
  exact e2

/-- a concrete run of a queue -/
example : (run (compile ((Queue.create).bind fun b => hist (qcall someMarshal b)
      [.push true (.other true) false 0, .push false (.bytes [1, 2]) true 0, .push false (.int 3) false 0, .push false (.int 3) true 0, .len, .pop false true, .pop true false, .pop true false]))
        (run Simple.init (newPool 0)).2).1 =
    .ok [.ok (.obj .none), .ok (.obj .none), .ok (.raised .marshalError), .ok (.raised .typeError), .ok (.obj (.int 2)), .ok (.obj (.bytes [1, 2])), .ok (.obj (.other true)),
      .ok (.raised .indexError)] := by
  decide +kernel

end Verif
