import Verif.PyIter
import Verif.Client
import Mathlib.Data.List.Nodup
/-
C83: the iterators of the Python class PrefixTree.
-/
namespace Verif
open PrefixTree (Val Tr G Safe IterRes IsNext)
open Py
namespace Py
variable {O : Type} {M : Marshal O}

/-! ### Specification -/

/-- the keys that an iterator visits: all, or those that are not below the given key or prefix -/
def From : Option Bytes → Bytes → Prop
  | Option.none, _ => True
  | some p, k => p ≤ k

/-- what an iterator yields for an entry of the dictionary -/
def Yield.of : What → Bytes × Obj O → Yield O
  | .keys, e => .key e.1
  | .values, e => .value e.2
  | .items, e => .item e.1 e.2

/-- `VSpec M add s op r s'`: the call `op` on a PrefixTree that is the dictionary `s` may have the outcome `r` and leave `s'` -/
def VSpec (M : Marshal O) (add : BitVec 64 → BitVec 64 → BitVec 64) (s : State O) (op : VOp O) (r : Out (VRes O)) (s' : State O) : Prop :=
  match op with
  | .method o => ∃ r', TSpec M add s o r' s' ∧ r = (match r' with
    | .ok x => .ok (.res x)
    | .err e => .err e)
  | .list w p => s' = s ∧ ∃ l : List (Bytes × Obj O), r = .ok (.list (l.map (Yield.of w))) ∧ (l.map Prod.fst).Pairwise (· < ·) ∧
      ∀ k v, (k, v) ∈ l ↔ s.m k = some v ∧ From p k
  | .contains k => s' = s ∧ ∃ b, r = .ok (.res (.obj (.bool b))) ∧ (s.m k ≠ Option.none → b = true) ∧ (s.clean = true → (b = true ↔ OnPath s.m k))

/-- where an iteration may start: at a key or a prefix of a key, or at an extension of a key that is no prefix of another key (`PT.Start`) -/
def Start (s : State O) (k : Bytes) : Prop :=
  OnPath s.m k ∨ (s.clean = true ∧ ∃ k0 r, k = k0 ++ r ∧ k0 ≠ [] ∧ s.m k0 ≠ Option.none ∧ ∀ r', r' ≠ [] → s.m (k0 ++ r') = Option.none)

/-- the calls that the theorem covers -/
def VOp.ok (M : Marshal O) (s : State O) : VOp O → Prop
  | .method o => o.ok M s
  | .list _ (some p) => Start s p
  | _ => True

/-! ### Proof -/

/-- `c` is the first entry of `m` among the keys in `P` -/
def Cur (m : Bytes → Option Val) (P : Bytes → Prop) : Option (Bytes × Val) → Prop
  | Option.none => ∀ k, P k → m k = Option.none
  | some (k, v) => m k = some v ∧ P k ∧ ∀ k', P k' → m k' ≠ Option.none → k ≤ k'

/-- the yields of a list of entries -/
def yields (M : Marshal O) (w : What) : List (Bytes × Val) → Option (List (Yield O))
  | [] => some []
  | e :: l => match yieldOf M w e with
    | Option.none => Option.none
    | some y => (yields M w l).map (y :: ·)

theorem cur_next {m : Bytes → Option Val} {k : Bytes} {c : Option (Bytes × Val)} (h : IterRes m (some k) c) : Cur m (fun x => k < x) c := by
  cases c with
  | none =>
    intro x hx
    exact Classical.byContradiction fun hne => h x hne hx
  | some e =>
    obtain ⟨k', v⟩ := e
    obtain ⟨h1, h2, h3, h4⟩ := h
    exact ⟨h1, h3, fun x hx hm => List.not_lt.1 (h4 x hm hx)⟩

section
variable {base : Nat} {F : Nat → Option Block} {g : G} {ni nn : Nat} {h : Heap} {I : Heap → Prop}

theorem drain_spec (t : Tr base F g ni nn h) (w : What) (hd : ∀ k v, g.kv k = some v → yieldOf M w (k, v) ≠ Option.none) : ∀ (fuel : Nat) (P : Bytes → Prop) (c : Option (Bytes × Val)) (l : List Bytes),
    (∀ a b, P a → a < b → P b) → Cur g.kv P c → l.Nodup → (∀ k, k ∈ l ↔ g.kv k ≠ Option.none ∧ P k) → l.length < fuel →
    wpI I (drain M base w fuel c) (fun out h' => h' = h ∧ ∃ r : List (Bytes × Val), (r.map Prod.fst).Pairwise (· < ·) ∧ (∀ k v, (k, v) ∈ r ↔ g.kv k = some v ∧ P k) ∧
      out = .ok (yields M w r)) h := by
  intro fuel
  induction fuel with
  | zero => intro P c l _ _ _ _ hl; omega
  | succ fuel ih =>
    intro P c l hup hc hn hm hl
    cases c with
    | none =>
      refine ⟨rfl, [], by simp, fun k v => ?_, rfl⟩
      simp only [List.not_mem_nil, false_iff]
      rintro ⟨h1, h2⟩
      rw [hc k h2] at h1; cases h1
    | some e =>
      obtain ⟨k, v⟩ := e
      obtain ⟨h1, h2, h3⟩ := hc
      simp only [drain]
      refine wpI_bind_of (PrefixTree.iterNext_spec t (fun k' e => by injection e with e; subst e; exact Safe.of_kv t (by rw [h1]; simp))) ?_
        (by rintro e h' ⟨-, r, h4, -⟩; cases h4)
      rintro c h' ⟨rfl, c', h4, h5⟩
      injection h4 with h4; subst h4
      have hcur := cur_next h5
      have hP : ∀ x, g.kv x ≠ Option.none → (P x ↔ (x = k ∨ k < x)) := by
        intro x hx
        constructor
        · intro hp
          by_cases e : x = k
          · exact Or.inl e
          · exact Or.inr (Classical.byContradiction fun h7 => e (List.le_antisymm (List.not_lt.1 h7) (h3 x hp hx)))
        · rintro (rfl | h6)
          · exact h2
          · exact hup _ _ h2 h6
      have hkl : k ∈ l := (hm k).2 ⟨by rw [h1]; simp, h2⟩
      have hrec := ih (fun x => k < x) c (l.erase k) (fun a b h6 h7 => List.lt_trans h6 h7) hcur (hn.erase k) (fun x => by
          rw [hn.mem_erase_iff, hm]
          constructor
          · rintro ⟨h6, h7, h8⟩
            exact ⟨h7, ((hP x h7).1 h8).resolve_left h6⟩
          · rintro ⟨h6, h7⟩
            refine ⟨fun e => ?_, h6, hup _ _ h2 h7⟩
            subst e; exact List.lt_irrefl _ h7) (by rw [List.length_erase_of_mem hkl]; have := List.length_pos_of_mem hkl; omega)
      have hfin : ∀ r : List (Bytes × Val), (r.map Prod.fst).Pairwise (· < ·) → (∀ k' v', (k', v') ∈ r ↔ g.kv k' = some v' ∧ k < k') →
          (((k, v) :: r).map Prod.fst).Pairwise (· < ·) ∧ ∀ k' v', (k', v') ∈ (k, v) :: r ↔ g.kv k' = some v' ∧ P k' := by
        intro r r1 r2
        refine ⟨?_, fun k' v' => ?_⟩
        · simp only [List.map_cons, List.pairwise_cons]
          refine ⟨fun x hx => ?_, r1⟩
          obtain ⟨⟨a, b⟩, h6, rfl⟩ := List.mem_map.1 hx
          exact ((r2 a b).1 h6).2
        · rw [List.mem_cons, r2]
          constructor
          · rintro (e | ⟨h6, h7⟩)
            · injection e with e1 e2; subst e1; subst e2
              exact ⟨h1, h2⟩
            · exact ⟨h6, hup _ _ h2 h7⟩
          · rintro ⟨h6, h7⟩
            rcases (hP k' (by rw [h6]; simp)).1 h7 with rfl | h8
            · rw [h1] at h6; injection h6 with h6; subst h6; exact Or.inl rfl
            · exact Or.inr ⟨h6, h8⟩
      cases hy : yieldOf M w (k, v) with
      | none => exact absurd hy (hd k v h1)
      | some y =>
        refine wpI_bind_of hrec ?_ ?_
        · rintro l' h'' ⟨rfl, r, r1, r2, r3⟩
          obtain ⟨q1, q2⟩ := hfin r r1 r2
          refine ⟨rfl, _, q1, q2, ?_⟩
          injection r3 with r3
          simp only [yields, hy, r3]
        · rintro e h'' ⟨-, r, -, -, r3⟩
          cases r3

theorem yields_decode {w : What} {l : List (Bytes × Val)} {l' : List (Bytes × Obj O)} (h : decodeAll M l = some l') : yields M w l = some (l'.map (Yield.of w)) := by
  induction l generalizing l' with
  | nil => simp only [decodeAll] at h; injection h with h; subst h; rfl
  | cons e l ih =>
    obtain ⟨k, x⟩ := e
    simp only [decodeAll] at h
    cases hx : decode M x with
    | none => rw [hx] at h; cases h
    | some v =>
      cases hl : decodeAll M l with
      | none => rw [hx, hl] at h; cases h
      | some r =>
        rw [hx, hl] at h
        injection h with h; subst h
        have := ih hl
        cases w <;> simp [yields, yieldOf, hx, this, Yield.of]

theorem iterNew_spec (t : Tr base F g ni nn h) (p : Option Bytes) (hs : ∀ k, p = some k → Safe g k) :
    wpI I (iterNew base p) (fun out h' => h' = h ∧ ∃ c, out = .ok c ∧ Cur g.kv (From p) c) h := by
  cases p with
  | none =>
    refine wpI_mono (fun _ h => h) ?_ (PrefixTree.iterNext_spec t (k := Option.none) (by rintro k' h; cases h))
    rintro out h' ⟨rfl, c, rfl, h1⟩
    refine ⟨rfl, c, rfl, ?_⟩
    cases c with
    | none => exact fun k _ => h1 k
    | some e => exact ⟨h1.1, trivial, fun k' _ hm => List.not_lt.1 (h1.2.2 k' hm)⟩
  | some p =>
    refine wpI_mono (fun _ h => h) ?_ (PrefixTree.lowerBound_spec t (hs p rfl))
    rintro out h' ⟨rfl, c, rfl, h1⟩
    refine ⟨rfl, c, rfl, ?_⟩
    rcases h1 with ⟨v, h2, rfl⟩ | ⟨h2, h3⟩
    · exact ⟨h2, List.le_refl p, fun k' hk' _ => hk'⟩
    · have h4 := cur_next h3
      have lift : ∀ k, g.kv k ≠ Option.none → p ≤ k → p < k := by
        intro k hk hp
        refine Classical.byContradiction fun h7 => ?_
        have : k = p := List.le_antisymm (List.not_lt.1 h7) hp
        subst this; exact hk h2
      cases c with
      | none =>
        intro k hk
        exact Classical.byContradiction fun hne => hne (h4 k (lift k hne hk))
      | some e =>
        obtain ⟨k, v⟩ := e
        obtain ⟨h5, h6, h7⟩ := h4
        exact ⟨h5, List.not_lt.1 (fun h8 => List.lt_irrefl _ (List.lt_trans h6 h8)), fun k' hk' hm => h7 k' (lift k' hm hk') hm⟩

theorem from_up {p : Option Bytes} {a b : Bytes} (h : From p a) (hl : a < b) : From p b := by
  cases p with
  | none => trivial
  | some p => exact List.not_lt.1 (fun h8 => List.not_lt.2 h (List.lt_trans hl h8))

theorem vstep {add : BitVec 64 → BitVec 64 → BitVec 64} (op : VOp O) (d : State O) (h : Heap) (hok : op.ok M d) (hi : Holds M base F d h) :
    wp (vcall M add base op) (fun out h' => ∃ d', VSpec M add d op out d' ∧ Holds M base F d' h') h := by
  cases op with
  | method o =>
    refine wp_bind_of (tstep (add := add) o d h hok hi) ?_ ?_
    · rintro r h' ⟨d', h1, h2⟩
      exact ⟨d', ⟨_, h1, rfl⟩, h2⟩
    · rintro e h' ⟨d', h1, h2⟩
      exact ⟨d', ⟨_, h1, rfl⟩, h2⟩
  | contains k =>
    obtain ⟨s, hi, hh⟩ := hi
    refine wp_bind_of (PrefixTree.step (add := add) (.exists k) s h trivial hh) ?_ ?_
    · rintro r h' ⟨s', ⟨rfl, b, h1, h2, h3⟩, hh'⟩
      injection h1 with h1; subst h1
      refine ⟨d, ⟨rfl, b, rfl, fun hk => h2 (fun e => hk ((hi.none_iff k).2 e)), fun hc => ?_⟩, s', hi, hh'⟩
      rw [hi.onPath]
      exact h3 (hi.clean.trans hc)
    · rintro e h' ⟨s', ⟨rfl, b, h1, -⟩, hh'⟩; cases h1
  | list w p =>
    obtain ⟨s, hi, hh⟩ := hi
    have hh0 := hh
    obtain ⟨⟨g, ni, nn, t, hm, hcn, hcv, htt⟩, hn, hhk⟩ := hh
    have hsafe : ∀ k, p = some k → Safe g k := by
      rintro k rfl
      refine t.start hm htt ?_
      rcases hok with h1 | ⟨h1, k0, r, h2, h3, h4, h5⟩
      · exact Or.inl ((hi.onPath k).1 h1)
      · exact Or.inr ⟨hi.clean.trans h1, k0, r, h2, h3, fun e => h4 ((hi.none_iff k0).2 e), fun r' hr => (hi.none_iff _).1 (h5 r' hr)⟩
    obtain ⟨n, hn⟩ := hn
    have hn' := hn
    obtain ⟨l, l1, l2, l3⟩ := hn
    have hlt : n < W64 := t.keys_lt hhk (PrefixTree.card_kv.2 (by rw [hm]; exact hn'))
    refine wp_bind_of (iterNew_spec (I := fun _ => True) t p hsafe).wp ?_ (by rintro e h' ⟨-, c, h1, -⟩; cases h1)
    rintro c h' ⟨rfl, c', h1, hc⟩
    injection h1 with h1; subst h1
    classical
    have hdec : ∀ k v, g.kv k = some v → ∃ u, d.m k = some u ∧ decode M v = some u := by
      intro k v hk
      rw [hm] at hk
      obtain ⟨u, h2, h3⟩ := hi.has k v hk
      exact ⟨u, h2, h3.decode⟩
    refine wp_bind_of (drain_spec (M := M) (I := fun _ => True) t w (fun k v hk => ?_) PrefixTree.maxSteps (From p) c (l.filter fun k => decide (From p k)) (fun a b => from_up) hc (l1.filter _) ?_ ?_).wp
      ?_ (by rintro e h'' ⟨-, r, -, -, h2⟩; cases h2)
    · obtain ⟨u, -, h3⟩ := hdec k v hk
      cases w <;> simp [yieldOf, h3]
    · intro k
      rw [List.mem_filter, l2, hm]; simp
    · rw [PrefixTree.maxSteps_eq]
      have := List.length_filter_le (fun k => decide (From p k)) l
      omega
    · rintro r h'' ⟨rfl, q, q1, q2, q3⟩
      injection q3 with q3; subst q3
      obtain ⟨l', e1, e2, e3⟩ := decodeAll_some (M := M) (l := q) (by
        rintro ⟨k, v⟩ he
        obtain ⟨u, -, h3⟩ := hdec k v ((q2 k v).1 he).1
        exact ⟨u, h3⟩)
      rw [yields_decode e1]
      refine ⟨d, ⟨rfl, l', rfl, by rw [e2]; exact q1, fun k v => ?_⟩, s, hi, hh0⟩
      rw [e3]
      constructor
      · rintro ⟨v', h2, h3⟩
        obtain ⟨h4, h5⟩ := (q2 k v').1 h2
        obtain ⟨u, h6, h7⟩ := hdec k v' h4
        rw [h3] at h7; injection h7 with h7; subst h7
        exact ⟨h6, h5⟩
      · rintro ⟨h2, h3⟩
        obtain ⟨v', h4, h5⟩ := hi.val h2
        exact ⟨v', (q2 k v').2 ⟨by rw [hm]; exact h4, h3⟩, h5.decode⟩
end

/-- between `p` and a key that starts with `p` all keys start with `p` -/
theorem prefix_between {p a b : Bytes} (h1 : p ≤ a) (h2 : a < b) (h3 : p <+: b) : p <+: a := by
  obtain ⟨r, rfl⟩ := h3
  induction p generalizing a with
  | nil => exact List.nil_prefix
  | cons x p ih =>
    cases a with
    | nil => exact absurd (List.not_lt.2 h1) (by simp)
    | cons y a =>
      have h1' : ¬ (y :: a < x :: p) := List.not_lt.2 h1
      rw [List.cons_lt_cons_iff] at h1'
      rw [List.cons_append, List.cons_lt_cons_iff] at h2
      have e : y = x := by
        rcases h2 with h2 | ⟨h2, -⟩
        · exact absurd (Or.inl h2) h1'
        · exact h2
      subst e
      have h4 : ¬ a < p := fun h => h1' (Or.inr ⟨rfl, h⟩)
      have h5 : a < p ++ r := by
        rcases h2 with h2 | ⟨-, h2⟩
        · exact absurd (Or.inl h2) h1'
        · exact h2
      obtain ⟨q, rfl⟩ := ih (List.not_lt.1 h4) h5
      exact ⟨q, rfl⟩

/-- the keys that start with `p` are the beginning of every increasing list of keys that are not below `p` -/
theorem prefix_block {p : Bytes} : ∀ {l : List Bytes}, l.Pairwise (· < ·) → (∀ k ∈ l, p ≤ k) → ∃ l1 l2, l = l1 ++ l2 ∧ (∀ k ∈ l1, p <+: k) ∧ ∀ k ∈ l2, ¬ p <+: k
  | [], _, _ => ⟨[], [], rfl, by simp, by simp⟩
  | k :: l, hs, hp => by
    obtain ⟨hs1, hs2⟩ := List.pairwise_cons.1 hs
    by_cases hk : p <+: k
    · obtain ⟨l1, l2, e, h1, h2⟩ := prefix_block hs2 (fun x hx => hp x (by simp [hx]))
      exact ⟨k :: l1, l2, by rw [e]; rfl, by simpa using ⟨hk, h1⟩, h2⟩
    · refine ⟨[], k :: l, rfl, by simp, fun x hx => ?_⟩
      rcases List.mem_cons.1 hx with rfl | hx
      · exact hk
      · exact fun h => hk (prefix_between (hp k (by simp)) (hs1 x hx) h)

end Py

/-! ### C83 -/

/-- **C83, the true part.** In a pool with any history of SimpleAllocator calls, a new Python PrefixTree answers every client - a program that chooses each call by the outcomes of the calls before - that uses the methods
of C53, list(t.keys()), list(t.values()), list(t.items()), the same from a start with keys_from, values_from, items_from, and `k in t` as the dictionary: a list has exactly the keys (or values, or pairs) of the entries
whose keys are not below the start, each once, in increasing order of the keys, with the objects that were stored; `in` holds for every key (and for prefixes of keys, see C44).  Missing: starts that are not as in
`Start`, for which it is false (`C83_false`), and what C53 excludes. -/
theorem C83_views_partial {O : Type} (M : Marshal O) (add : BitVec 64 → BitVec 64 → BitVec 64) {p0 p : Pool} {live lk : List (Nat × Nat)} {ex : Bool} (h : Hist p0 p live lk ex) :
    (∃ p1, run (compile PrefixTree.create) p = (.err .noMem, p1)) ∨
    ∃ b p1, run (compile PrefixTree.create) p = (.ok b, p1) ∧ ∀ c : Client (VOp O) (VRes O), c.Careful (VSpec M add) (fun d o => o.ok M d) new →
      ∃ l p2 d, run (compile (c.play (vcall M add b))) p1 = (.ok l, p2) ∧ c.Made l ∧ Trace (VSpec M add) new (l.map Prod.fst) (l.map Prod.snd) d ∧
        ∀ o n, (o, n) ∈ live → ∀ i, i < n → p2.mem (o + i) = p.mem (o + i) := by
  rcases PrefixTree.create_pool h with h1 | ⟨b, p1, h1, hp, hr, hh, hs, hl⟩
  · exact Or.inl h1
  · refine Or.inr ⟨b, p1, hr, fun c hok => ?_⟩
    obtain ⟨rs, p2, d, h2, e1, e2, e3, ⟨s, -, hh2⟩, hs2⟩ := Client.play_run (f := vcall M add b) (Inv := Py.Holds M b hp)
      (fun d o h h1 h2 => vstep o d h h1 h2) c hok ⟨PT.new, is_new M, hh⟩ hs
    exact ⟨rs, p2, d, e1, e2, e3, fun o n hm => PrefixTree.untouched hh2 hs2 (hl o n hm)⟩

/-- The same for every lawful allocator. -/
theorem C83_views_any_allocator_partial {O : Type} (M : Marshal O) (add : BitVec 64 → BitVec 64 → BitVec 64) {h : Heap} (hk : HeapOk h) (c : Client (VOp O) (VRes O))
    (hok : c.Careful (VSpec M add) (fun d o => o.ok M d) new) :
    wp (PrefixTree.create.bind fun b => c.play (vcall M add b)) (fun out _ => out = .err .noMem ∨ ∃ l d, out = .ok l ∧ c.Made l ∧ Trace (VSpec M add) new (l.map Prod.fst) (l.map Prod.snd) d) h := by
  refine wp_bind_of (wp_heapOk hk (PrefixTree.create_spec h).wp) ?_ ?_
  · rintro b h' ⟨(⟨h1, -⟩ | ⟨b', h1, -, t⟩), hk'⟩
    · cases h1
    · injection h1 with h1; subst h1
      refine wp_mono ?_ (Client.play_spec (f := vcall M add b) (Inv := Py.Holds M b h.blk) (fun d o h h1 h2 => vstep o d h h1 h2) c new h' hok
        ⟨PT.new, is_new M, PrefixTree.holds_new t hk'⟩)
      rintro out h'' ⟨rs, d, h1, h2, h3, -⟩
      exact Or.inr ⟨rs, d, h1, h2, h3⟩
  · rintro e h' ⟨(⟨h1, -⟩ | ⟨b', h1, -⟩), -⟩
    · injection h1 with h1; subst h1; exact Or.inl rfl
    · cases h1

/-- **C83, scanning a prefix.** A scan with items_from(p) that stops at the first key that does not start with `p` has seen exactly the entries whose keys start with `p`: they are the beginning of the list. -/
theorem C83_prefix_scan {O : Type} (M : Marshal O) (add : BitVec 64 → BitVec 64 → BitVec 64) {s s' : State O} {p : Bytes} {w : What} {r : Out (VRes O)} (h : VSpec M add s (.list w (some p)) r s') :
    ∃ l1 l2 : List (Bytes × Obj O), r = .ok (.list ((l1 ++ l2).map (Yield.of w))) ∧ (∀ k v, (k, v) ∈ l1 ↔ s.m k = some v ∧ p <+: k) ∧ (∀ e ∈ l2, ¬ p <+: e.1) ∧
      ((l1 ++ l2).map Prod.fst).Pairwise (· < ·) := by
  obtain ⟨-, l, h1, h2, h3⟩ := h
  obtain ⟨k1, k2, e, h4, h5⟩ := prefix_block (p := p) h2 (by
    intro k hk
    obtain ⟨⟨a, v⟩, h6, rfl⟩ := List.mem_map.1 hk
    exact ((h3 a v).1 h6).2)
  obtain ⟨l1, l2, rfl, e1, e2⟩ := List.map_eq_append_iff.1 e
  refine ⟨l1, l2, h1, fun k v => ⟨fun hm => ⟨((h3 k v).1 (by simp [hm])).1, ?_⟩, fun ⟨hm, hp⟩ => ?_⟩, fun e he => ?_, h2⟩
  · exact h4 k (by rw [← e1]; exact List.mem_map_of_mem (f := Prod.fst) hm)
  · have hle : p ≤ k := by
      obtain ⟨q, rfl⟩ := hp
      exact List.not_lt.1 (fun hlt => by
        have : ∀ a : Bytes, ¬ (a ++ q < a) := by
          intro a
          induction a with
          | nil => simp
          | cons x a ih => rw [List.cons_append, List.cons_lt_cons_iff]; rintro (h | ⟨-, h⟩); exact absurd h (by simp); exact ih h
        exact this p hlt)
    rcases List.mem_append.1 ((h3 k v).2 ⟨hm, hle⟩) with h6 | h6
    · exact h6
    · exact absurd hp (h5 k (by rw [← e2]; exact List.mem_map_of_mem (f := Prod.fst) h6))
  · exact h5 e.1 (by rw [← e2]; exact List.mem_map_of_mem (f := Prod.fst) he)

deriving instance DecidableEq for Py.VRes

/-- **C83 is false.** On an empty tree, keys_from(b"a") is undefined behaviour: it takes the pool's header for a node.  (The token of the reader that makes the call, here 1, is in the pool's lock; see C47.) -/
theorem C83_false : (run (compile (vcall someMarshal noAdd 344 (.list .keys (some [97])))) (Simple.put (ptPool 0) 16 (1 <<< 32))).1 = .ub := by
  decide +kernel

/-- a concrete run: a prefix scan, values from a key, `in` for a key and for an absent key -/
example : (run (compile (hist (vcall someMarshal noAdd 344) [.method (.set [255, 1] (.int 5) 0), .method (.set [255] (.bytes [7]) 0), .method (.set [254, 255] .none 0),
      .list .items (some [254]), .list .keys (some [255]), .list .values (some [255, 1]), .contains [255, 1], .contains [1]])) (ptPool 0)).1 =
    .ok [.ok (.res (.obj .none)), .ok (.res (.obj .none)), .ok (.res (.obj .none)), .ok (.list [.item [254, 255] .none, .item [255] (.bytes [7]), .item [255, 1] (.int 5)]),
      .ok (.list [.key [255], .key [255, 1]]), .ok (.list [.value (.int 5)]), .ok (.res (.obj (.bool true))), .ok (.res (.obj (.bool false)))] := by
  decide +kernel

/-- a client that stores t[b"ba"] = 5 and, if this succeeded, scans the prefix b"b" and then goes on from b"bab" -/
def scanner : Client (VOp Bool) (VRes Bool) := .call (.method (.set [98, 97] (.int 5) 0)) fun r => match r with
  | .ok _ => .call (.list .items (some [98])) fun _ => .call (.list .keys (some [98, 97, 98])) fun _ => .done
  | .err _ => .call (.list .keys none) fun _ => .done

/-- it meets the condition of the theorem -/
example : scanner.Careful (VSpec someMarshal noAdd) (fun d o => o.ok someMarshal d) new := by
  refine ⟨?_, ?_⟩
  · intro d hd
    have : store someMarshal 0 (.int 5) = some (.int 5#64) := by decide
    rw [this] at hd; cases hd
  · rintro r s' ⟨r', h1, rfl⟩
    rcases h1 with ⟨h1, -⟩ | ⟨-, h1⟩
    · exact absurd (show Small 5 by unfold Small; decide) h1
    · rcases h1 with ⟨rfl, rfl⟩ | ⟨rfl, -⟩
      · refine ⟨Or.inl (Or.inr ⟨[97], by simp [Py.put]⟩), ?_⟩
        rintro r s2 ⟨rfl, -⟩
        refine ⟨Or.inr ⟨rfl, [98, 97], [98], rfl, by simp, by simp [Py.put], ?_⟩, fun _ _ _ => trivial⟩
        intro r' hr'
        show (if _ then _ else _) = _
        rw [if_neg (by simpa using hr')]; rfl
      · exact ⟨trivial, fun _ _ _ => trivial⟩

end Verif
