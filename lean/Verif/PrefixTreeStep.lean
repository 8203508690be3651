import Verif.PrefixTreeNodes
import Verif.Guarded
import Verif.PropsQueue
import Verif.Conc
/-
Specification of PrefixTree as a map from byte strings to values, and one call.
-/
namespace Verif
open PrefixTree (Val CVal Check RType isZero isNaN)

namespace PT

/-- the contents of a tree: the value of each key -/
abbrev Map := Bytes → Option Val

/-- `m` with the value `w` (or nothing) for `k` -/
def put (m : Map) (k : Bytes) (w : Option Val) : Map := fun k' => if k' = k then w else m k'

/-- the value that is read back for a stored value: the double -0.0 is read as 0.0 -/
def kept : Val → Val
  | .dbl d => if isZero d then .dbl 0#64 else .dbl d
  | v => v

/-- C++ == between values of the variant: as for doubles if both are doubles -/
def same : Val → Val → Prop
  | .dbl a, .dbl b => isNaN a = false ∧ isNaN b = false ∧ (a = b ∨ (isZero a = true ∧ isZero b = true))
  | a, b => a = b

/-- does the check pass? (a value given as pointer and size never matches) -/
def passes (m : Map) : Option Check → Prop
  | none => True
  | some (k, .missing) => m k = none
  | some (k, .val v) => ∃ w, m k = some w ∧ same w v
  | some (_, .ref _) => False

/-- `n` is the number of byte strings with property S -/
def Count (S : Bytes → Prop) (n : Nat) : Prop := ∃ l : List Bytes, l.Nodup ∧ (∀ p, p ∈ l ↔ S p) ∧ l.length = n

/-- `p` is the empty string or a proper prefix of a key: the paths that need a node -/
def Inner (m : Map) (p : Bytes) : Prop := p = [] ∨ ∃ r, r ≠ [] ∧ m (p ++ r) ≠ none

/-- `p` is the empty string or a prefix of a key -/
def OnPath (m : Map) (p : Bytes) : Prop := p = [] ∨ ∃ r, m (p ++ r) ≠ none

/-- the least key -/
def First (m : Map) (k' : Bytes) : Prop := m k' ≠ none ∧ ∀ k2, m k2 ≠ none → k' ≤ k2
/-- the least key above k -/
def Next (m : Map) (k k' : Bytes) : Prop := m k' ≠ none ∧ k < k' ∧ ∀ k2, m k2 ≠ none → k < k2 → k' ≤ k2

/-- the pair that comes after `k` (first of all, if there is no k), or none -/
def Succ (m : Map) : Option Bytes → Option (Bytes × Val) → Prop
  | none, some (k', v) => m k' = some v ∧ First m k'
  | some k, some (k', v) => m k' = some v ∧ Next m k k'
  | none, none => ∀ k2, m k2 = none
  | some k, none => ∀ k2, m k2 ≠ none → ¬ k < k2

/-- the methods of PrefixTree (PrefixTree.hh 92-217) -/
inductive Op
  | insert (k : Bytes) (v : Val) (check : Option Check)
  | insertResult (k : Bytes) (v : CVal) (check : Option Check)
  | erase (k : Bytes) (check : Option Check)
  | incr (k : Bytes) (d : BitVec 64)
  | incrDouble (k : Bytes) (d : BitVec 64)
  | «at» (k : Bytes)
  | type (k : Bytes)
  | «exists» (k : Bytes)
  | size
  | nodeSize
  | nodesForPrefix (k : Bytes)
  | clear
  | nextKey (k : Option Bytes)
  | nextKeyValue (k : Option Bytes)
  | find (k : Bytes)
  | lowerBound (k : Bytes)
  | upperBound (k : Bytes)
  | items

inductive Ret
  | unit
  | bool (b : Bool)
  | val (v : Val)
  | word (x : BitVec 64)
  | num (n : Nat)
  | type (t : RType)
  | key (k : Bytes)
  | pair (p : Bytes × Val)
  | iter (i : Option (Bytes × Val))
  | list (l : List (Bytes × Val))
  deriving DecidableEq

/-- State of the specification.  `m` is the map.  `exact`: size is the number of keys (until an incr of an absent key has failed for lack of memory, or a process has died in a call).
`clean`: there are no superfluous nodes (until a call has failed for lack of memory, or a process has died in a call; clear removes them).
`counted`: node_size is the number of nodes (until a process has died in a call). -/
structure State where
  m : Map
  exact : Bool
  clean : Bool
  counted : Bool

/-- the type of a value -/
def typeOf : Option Val → RType
  | none => .missing
  | some (.str _) => .string
  | some (.int _) => .int
  | some (.dbl _) => .double
  | some (.bool _) => .bool
  | some .null => .null

/-- insert: with `v` stored, or failed for lack of memory: then nothing has changed, except that the old value of `k` may be lost if `v` needs a buffer and is no double -/
def SpecInsert (s : State) (k : Bytes) (v : Val) (c : Option Check) (r : Out Ret) (s' : State) : Prop :=
  (¬ passes s.m c ∧ r = .ok (.bool false) ∧ s' = s) ∨
  (passes s.m c ∧ r = .ok (.bool true) ∧ s' = { s with m := put s.m k (some (kept v)) }) ∨
  (passes s.m c ∧ r = .err .noMem ∧ ∃ m', s' = { s with m := m', clean := false } ∧
    (m' = s.m ∨ (m' = put s.m k none ∧ ((∃ d, v = .str d ∧ 8 ≤ d.length) ∨ ∃ x, v = .int x ∧ (x.toInt < -2 ^ 60 ∨ 2 ^ 60 ≤ x.toInt)))))

/-- erase: returns true if the key was present; if it was absent, it may also return true, namely for inner paths -/
def SpecErase (s : State) (k : Bytes) (c : Option Check) (r : Out Ret) (s' : State) : Prop :=
  (¬ passes s.m c ∧ r = .ok (.bool false) ∧ s' = s) ∨
  (passes s.m c ∧ ∃ b, r = .ok (.bool b) ∧ s' = { s with m := put s.m k none } ∧ (s.m k ≠ none → b = true) ∧ (s.clean = true → (b = true ↔ OnPath s.m k)))

/-- `Spec add s op r s'`: on a tree in state `s`, the call `op` may have outcome `r` and leave the state `s'`; `add` is the addition of doubles -/
def Spec (add : BitVec 64 → BitVec 64 → BitVec 64) (s : State) (op : Op) (r : Out Ret) (s' : State) : Prop :=
  match op with
  | .insert k v c => SpecInsert s k v c r s'
  | .insertResult k .missing c => SpecErase s k c r s'
  | .insertResult k (.val v) c => SpecInsert s k v c r s'
  | .insertResult k (.ref d) c => SpecInsert s k (.str d) c r s'
  | .erase k c => SpecErase s k c r s'
  | .incr k d =>
    (match s.m k with
    | none => (r = .ok (.word d) ∧ s' = { s with m := put s.m k (some (.int d)) }) ∨ (r = .err .noMem ∧ s' = { s with exact := false, clean := false })
    | some (.int x) => (r = .ok (.word (x + d)) ∧ s' = { s with m := put s.m k (some (.int (x + d))) }) ∨ (r = .err .noMem ∧ s' = { s with clean := false })
    | some _ => r = .err .outOfRange ∧ s' = s)
  | .incrDouble k d =>
    (match s.m k with
    | none => (r = .ok (.word d) ∧ s' = { s with m := put s.m k (some (.dbl d)) }) ∨ (r = .err .noMem ∧ s' = { s with clean := false })
    | some (.dbl x) => (r = .ok (.word (add x d)) ∧ s' = { s with m := put s.m k (some (kept (.dbl (add x d)))) }) ∨ (r = .err .noMem ∧ s' = { s with clean := false })
    | some _ => r = .err .outOfRange ∧ s' = s)
  | .at k => s' = s ∧ r = (match s.m k with
    | some v => .ok (.val v)
    | none => .err .outOfRange)
  | .type k => s' = s ∧ r = .ok (.type (typeOf (s.m k)))
  | .exists k => s' = s ∧ ∃ b, r = .ok (.bool b) ∧ (s.m k ≠ none → b = true) ∧ (s.clean = true → (b = true ↔ OnPath s.m k))
  | .size => s' = s ∧ ∃ n, r = .ok (.num n) ∧ (s.exact = true → Count (fun k => s.m k ≠ none) n)
  | .nodeSize => s' = s ∧ ∃ n, r = .ok (.num n) ∧ (s.clean = true → s.counted = true → Count (Inner s.m) n)
  | .nodesForPrefix k => s' = s ∧ ∃ n, r = .ok (.num n) ∧ (s.clean = true → Count (fun p => k <+: p ∧ Inner s.m p) n)
  | .clear => r = .ok .unit ∧ s' = { s with m := fun _ => none, clean := true }
  | .nextKey k => s' = s ∧ ((∃ k' v, r = .ok (.key k') ∧ Succ s.m k (some (k', v))) ∨ (r = .err .outOfRange ∧ Succ s.m k none))
  | .nextKeyValue k => s' = s ∧ ((∃ p, r = .ok (.pair p) ∧ Succ s.m k (some p)) ∨ (r = .err .outOfRange ∧ Succ s.m k none))
  | .find k => s' = s ∧ r = .ok (.iter ((s.m k).map fun v => (k, v)))
  | .lowerBound k => s' = s ∧ ∃ i, r = .ok (.iter i) ∧ (match s.m k with
    | some v => i = some (k, v)
    | none => Succ s.m (some k) i)
  | .upperBound k => s' = s ∧ ∃ i, r = .ok (.iter i) ∧ Succ s.m (some k) i
  | .items => s' = s ∧ ∃ l, r = .ok (.list l) ∧ (l.map Prod.fst).Pairwise (· < ·) ∧ ∀ k v, (k, v) ∈ l ↔ s.m k = some v

/-- the keys from which a search for the next key is safe: keys, prefixes of keys, and extensions of keys that are no prefix of another key.
(Others may be undefined behaviour: `C47_false`.) -/
def Start (s : State) (k : Bytes) : Prop :=
  OnPath s.m k ∨ (s.clean = true ∧ ∃ k0 r, k = k0 ++ r ∧ k0 ≠ [] ∧ s.m k0 ≠ none ∧ ∀ r', r' ≠ [] → s.m (k0 ++ r') = none)

/-- The condition under which the theorems cover a call: strings are at most 2^62 bytes; an incr of an absent key by the double 0.0 corrupts the tree (`C45_false`);
searches start from keys as in `Start`. -/
def Op.ok (s : State) : Op → Prop
  | .insert _ v _ => ∀ d, v = .str d → d.length ≤ 2 ^ 62
  | .insertResult _ v _ => (∀ d, v = .val (.str d) → d.length ≤ 2 ^ 62) ∧ ∀ d, v = .ref d → d.length ≤ 2 ^ 62
  | .incrDouble k d => s.m k = none → isZero d = false
  | .nextKey (some k) => Start s k
  | .nextKeyValue (some k) => Start s k
  | .lowerBound k => s.m k = none → Start s k
  | .upperBound k => Start s k
  | _ => True

/-- the calls that are covered in every state -/
def Op.free : Op → Prop
  | .insert _ v _ => ∀ d, v = .str d → d.length ≤ 2 ^ 62
  | .insertResult _ v _ => (∀ d, v = .val (.str d) → d.length ≤ 2 ^ 62) ∧ ∀ d, v = .ref d → d.length ≤ 2 ^ 62
  | .incrDouble _ d => isZero d = false
  | .nextKey (some _) => False
  | .nextKeyValue (some _) => False
  | .lowerBound _ => False
  | .upperBound _ => False
  | _ => True

theorem Op.free.ok {s : State} {o : Op} (h : o.free) : o.ok s := by
  unfold Op.free at h
  unfold Op.ok
  split <;> simp_all
end PT

open PT
namespace PrefixTree

/-- the call of a method on the tree whose base object is at `b` -/
def call (add : BitVec 64 → BitVec 64 → BitVec 64) (b : Nat) : Op → HProg Ret
  | .insert k v c => (insert b k v c).bind fun r => .ret (.bool r)
  | .insertResult k v c => (insertResult b k v c).bind fun r => .ret (.bool r)
  | .erase k c => (erase b k c).bind fun r => .ret (.bool r)
  | .incr k d => (incrInt b k d).bind fun r => .ret (.word r)
  | .incrDouble k d => (incrDbl add b k d).bind fun r => .ret (.word r)
  | .at k => («at» b k).bind fun r => .ret (.val r)
  | .type k => (type b k).bind fun r => .ret (.type r)
  | .exists k => (existsKey b k).bind fun r => .ret (.bool r)
  | .size => (size b).bind fun r => .ret (.num r)
  | .nodeSize => (nodeSize b).bind fun r => .ret (.num r)
  | .nodesForPrefix k => (nodesForPrefix b k).bind fun r => .ret (.num r)
  | .clear => (clear b).bind fun _ => .ret .unit
  | .nextKey k => (nextKey b k).bind fun r => .ret (.key r)
  | .nextKeyValue k => (nextKV b k).bind fun r => .ret (.pair r)
  | .find k => (find b k).bind fun r => .ret (.iter r)
  | .lowerBound k => (lowerBound b k).bind fun r => .ret (.iter r)
  | .upperBound k => (upperBound b k).bind fun r => .ret (.iter r)
  | .items => (iterate b maxSteps none).bind fun r => .ret (.list r)

theorem put_eq (m : Map) (k : Bytes) (w : Option Val) : put m k w = upd m k w := rfl
theorem kept_eq (v : Val) : kept v = norm v := by cases v <;> rfl

theorem same_iff (a b : Val) : same a b ↔ valEq a b = true := by
  cases a <;> cases b <;> simp [same, valEq, dblEq, and_assoc]

theorem passes_iff (m : Map) (c : Option Check) : passes m c ↔ checkVal m c = true := by
  cases c with
  | none => simp [passes, checkVal]
  | some c =>
    obtain ⟨k, v⟩ := c
    cases v with
    | missing => simp only [passes, checkVal]; cases m k <;> simp [cmp]
    | val v => simp only [passes, checkVal]; cases m k <;> simp [cmp, same_iff]
    | ref d => simp only [passes, checkVal]; cases m k <;> simp [cmp]

theorem fits_iff (x : BitVec 64) : fits x = false ↔ (x.toInt < -2 ^ 60 ∨ 2 ^ 60 ≤ x.toInt) := by
  have e1 : (x.sshiftRight 60).toInt = x.toInt / 1152921504606846976 := by
    rw [BitVec.toInt_sshiftRight, Int.shiftRight_eq_div_pow]; rfl
  have e2 : (x.sshiftRight 60).toInt = if 2 * (x.sshiftRight 60).toNat < 2 ^ 64 then ((x.sshiftRight 60).toNat : Int) else (x.sshiftRight 60).toNat - (2 ^ 64 : Nat) :=
    BitVec.toInt_eq_toNat_cond _
  have e3 : x.toInt = if 2 * x.toNat < 2 ^ 64 then (x.toNat : Int) else x.toNat - (2 ^ 64 : Nat) := BitVec.toInt_eq_toNat_cond _
  have hx := x.isLt
  have hy := (x.sshiftRight 60).isLt
  have e4 : ((x.sshiftRight 60) &&& 0x0F#64).toNat = (x.sshiftRight 60).toNat % 16 := by
    rw [BitVec.toNat_and]; exact Nat.and_two_pow_sub_one_eq_mod _ 4
  have e5 : fits x = true ↔ ((x.sshiftRight 60).toNat % 16 = 0 ∨ (x.sshiftRight 60).toNat % 16 = 15) := by
    rw [← e4]
    unfold fits
    simp only [Bool.or_eq_true, decide_eq_true_eq, ← BitVec.toNat_inj]
    rfl
  rw [← Bool.not_eq_true, e5]
  generalize (x.sshiftRight 60).toNat = y at *
  generalize (x.sshiftRight 60).toInt = yi at *
  generalize x.toNat = n at *
  generalize x.toInt = xi at *
  have p60 : (2 : Int) ^ 60 = 1152921504606846976 := by decide
  rw [show ((-2 ^ 60 : Int)) = -1152921504606846976 by decide, p60]
  split at e2 <;> split at e3 <;> omega


section
variable {base : Nat} {F : Nat → Option Block} {g : G} {ni nn : Nat} {h : Heap}

/-- a key below a path makes it a node -/
theorem Tr.inner (t : Tr base F g ni nn h) {p : Bytes} (hi : Inner g.kv p) : g.nd p ≠ none := by
  rcases hi with rfl | ⟨r, hr, hk⟩
  · rw [t.root]; simp
  · exact fun hn => hk (kv_none.2 (t.below hn hr).2)

theorem Tr.tight_inner (t : Tr base F g ni nn h) (ht : Tight g) (p : Bytes) : g.nd p ≠ none ↔ Inner g.kv p := by
  refine ⟨?_, t.inner⟩
  have key : ∀ n (p : Bytes), W64 - p.length ≤ n → g.nd p ≠ none → Inner g.kv p := by
    intro n
    induction n with
    | zero => intro p hl hp; have := t.depth hp; omega
    | succ n ih =>
      intro p hl hp
      by_cases e : p = []
      · exact Or.inl e
      · have hd := t.depth hp
        obtain ⟨b, hb | hb⟩ := ht p e hp
        · rcases ih (p ++ [b]) (by rw [List.length_append]; simp; omega) hb with h1 | ⟨r, h1, h2⟩
          · exact absurd h1 snoc_ne_nil
          · exact Or.inr ⟨[b] ++ r, by simp, by rw [← List.append_assoc]; exact h2⟩
        · exact Or.inr ⟨[b], by simp, hb⟩
  exact key _ p (Nat.le_refl _)

theorem Tr.onPath (t : Tr base F g ni nn h) {k : Bytes} (hk : OnPath g.kv k) : g.nd k ≠ none ∨ g.kv k ≠ none := by
  rcases hk with rfl | ⟨r, hr⟩
  · left; rw [t.root]; simp
  · by_cases e : r = []
    · subst e; rw [List.append_nil] at hr; exact Or.inr hr
    · exact Or.inl (t.inner (Or.inr ⟨r, e, hr⟩))

theorem Tr.tight_path (t : Tr base F g ni nn h) (ht : Tight g) (k : Bytes) : (g.nd k ≠ none ∨ g.kv k ≠ none) ↔ OnPath g.kv k := by
  refine ⟨?_, t.onPath⟩
  rintro (h1 | h1)
  · rcases (t.tight_inner ht k).1 h1 with h2 | ⟨r, -, h2⟩
    · exact Or.inl h2
    · exact Or.inr ⟨r, h2⟩
  · exact Or.inr ⟨[], by simpa using h1⟩

theorem Tr.start (t : Tr base F g ni nn h) {s : State} (hs : g.kv = s.m) (hc : s.clean = true → Tight g) {k : Bytes} (hk : Start s k) : Safe g k := by
  rcases hk with h1 | ⟨h1, k0, r, rfl, h2, h3, h4⟩
  · rw [← hs] at h1
    rcases t.onPath h1 with h2 | h2
    · exact Safe.of_nd t h2
    · exact Safe.of_kv t h2
  · rw [← hs] at h3 h4
    refine Safe.of_leaf t h3 ?_
    refine Classical.byContradiction fun h5 => ?_
    rcases (t.tight_inner (hc h1) k0).1 h5 with h6 | ⟨r', h6, h7⟩
    · exact h2 h6
    · exact h7 (h4 r' h6)

theorem count_put {m : Map} {n : Nat} (hc : Count (fun k => m k ≠ none) n) (k : Bytes) (w : Option Val) : ∃ n', Count (fun k' => put m k w k' ≠ none) n' := by
  obtain ⟨l, h1, h2, -⟩ := hc
  by_cases hw : w = none
  · refine ⟨_, l.erase k, h1.erase _, ?_, rfl⟩
    intro p
    rw [h1.mem_erase_iff, h2]
    unfold put
    by_cases e : p = k
    · simp [e, hw]
    · simp [e]
  · refine ⟨_, k :: l.erase k, List.nodup_cons.2 ⟨fun h => (h1.mem_erase_iff.1 h).1 rfl, h1.erase _⟩, ?_, rfl⟩
    intro p
    rw [List.mem_cons, h1.mem_erase_iff, h2]
    unfold put
    by_cases e : p = k
    · simp [e, hw]
    · simp [e]

/-- the heap holds a tree in state `s` at `base`, and besides it the blocks `F` -/
structure Holds (base : Nat) (F : Nat → Option Block) (s : State) (h : Heap) : Prop where
  tree : ∃ g ni nn, Tr base F g ni nn h ∧ g.kv = s.m ∧ (s.counted = true → Card g.nd nn) ∧ (s.exact = true → Card g.vl ni) ∧ (s.clean = true → Tight g)
  fin : ∃ n, Count (fun k => s.m k ≠ none) n
  ok : HeapOk h

theorem card_kv {n : Nat} : Card g.vl n ↔ Card g.kv n :=
  ⟨fun c => c.congr fun p => not_congr kv_none, fun c => c.congr fun p => not_congr kv_none.symm⟩

theorem not_lt_le {a b : Bytes} (h : ¬ a < b) : b ≤ a := List.not_lt.1 h

theorem succ_some {m : Map} {k : Option Bytes} {k' : Bytes} {v : Val} (h1 : m k' = some v) (h2 : NextRes m k k') : Succ m k (some (k', v)) := by
  cases k with
  | none => exact ⟨h1, h2.1, fun k2 h3 => not_lt_le (h2.2 k2 h3)⟩
  | some k => exact ⟨h1, h2.1, h2.2.1, fun k2 h3 h4 => not_lt_le (h2.2.2 k2 h3 h4)⟩

theorem succ_none {m : Map} {k : Option Bytes} (h2 : NoNext m k) : Succ m k none := by cases k <;> exact h2

theorem succ_iter {m : Map} {k : Option Bytes} {r : Option (Bytes × Val)} (h : IterRes m k r) : Succ m k r := by
  cases r with
  | none => exact succ_none h
  | some p => exact succ_some h.1 h.2

end

section
variable {base : Nat} {F : Nat → Option Block}

theorem step_ro {add : BitVec 64 → BitVec 64 → BitVec 64} {op : Op} {s : State} {h : Heap} (hi : Holds base F s h) {Q : Out Ret → Prop} (hw : wp (call add base op) (fun out h' => h' = h ∧ Q out) h)
    (hq : ∀ out, Q out → Spec add s op out s) : wp (call add base op) (fun out h' => ∃ s', Spec add s op out s' ∧ Holds base F s' h') h := by
  refine wp_mono ?_ hw
  rintro out h' ⟨rfl, h1⟩
  exact ⟨s, hq out h1, hi⟩

/-- specification of a call from that of the method -/
theorem wp_ret_of {α β : Type} {p : HProg α} {f : α → β} {h : Heap} {R : Out α → Heap → Prop} {Q : Out β → Heap → Prop} (hw : wp p R h)
    (h1 : ∀ a h', R (.ok a) h' → Q (.ok (f a)) h') (h2 : ∀ e h', R (.err e) h' → Q (.err e) h') : wp (p.bind fun a => .ret (f a)) Q h :=
  wp_bind_of hw (fun a h' hr => h1 a h' hr) h2

theorem step_insert {add : BitVec 64 → BitVec 64 → BitVec 64} {k : Bytes} {v : Val} {c : Option Check} {s : State} {h : Heap} (hl : ∀ d, v = .str d → d.length ≤ 2 ^ 62) (hi : Holds base F s h) :
    wp (call add base (.insert k v c)) (fun out h' => ∃ s', SpecInsert s k v c out s' ∧ Holds base F s' h') h := by
  obtain ⟨⟨g, ni, nn, t, hm, hcn, hcv, htt⟩, hfin, hok⟩ := hi
  have hsp := wp_heapOk hok (insert_spec (P := fun _ => True) (c := c) (k := k) t (v := v) (fun d hd => by have := hl d hd; omega) trivial (fun _ => trivial) (fun _ => trivial) (fun _ _ _ _ _ _ => trivial)).wp
  rw [hm] at hsp
  obtain ⟨n, hn⟩ := hfin
  refine wp_ret_of hsp ?_ ?_
  · rintro r h' ⟨(⟨h1, h2, rfl⟩ | ⟨h1, g', ni', nn', t', h3, h4, (⟨h5, h6, h7⟩ | ⟨h5, -⟩)⟩), hok'⟩
    · injection h2 with h2; subst h2
      refine ⟨s, Or.inl ⟨by rw [passes_iff, h1]; simp, rfl, rfl⟩, ⟨g, ni, nn, t, hm, hcn, hcv, htt⟩, ⟨n, hn⟩, hok⟩
    · injection h5 with h5; subst h5
      refine ⟨_, Or.inr (Or.inl ⟨by rw [passes_iff, h1], rfl, rfl⟩), ⟨g', ni', nn', t', by rw [h6, kept_eq]; rfl, fun he => h4 (hcn he), fun he => h3 (hcv he), fun hc => h7 (htt hc)⟩, count_put hn _ _, hok'⟩
    · cases h5
  · rintro e h' ⟨(⟨h1, h2, -⟩ | ⟨h1, g', ni', nn', t', h3, h4, (⟨h5, -⟩ | ⟨h5, h6⟩)⟩), hok'⟩
    · cases h2
    · cases h5
    · injection h5 with h5; subst h5
      refine ⟨{ s with m := g'.kv, clean := false }, Or.inr (Or.inr ⟨by rw [passes_iff, h1], rfl, g'.kv, rfl, ?_⟩), ⟨g', ni', nn', t', rfl, fun he => h4 (hcn he), fun he => h3 (hcv he), fun h => by cases h⟩, ?_, hok'⟩
      · rcases h6 with h6 | ⟨h6, h7, h8⟩
        · exact Or.inl h6
        · refine Or.inr ⟨h6, ?_⟩
          cases v with
          | str d => left; exact ⟨d, rfl, by simpa [inline] using h7⟩
          | int x => right; exact ⟨x, rfl, (fits_iff x).1 h7⟩
          | dbl d => exact absurd rfl (h8 d)
          | bool b => cases h7
          | null => cases h7
      · rcases h6 with h6 | ⟨h6, -⟩
        · exact ⟨n, by rw [h6]; exact hn⟩
        · rw [h6]; exact count_put hn k none

theorem step_erase {add : BitVec 64 → BitVec 64 → BitVec 64} {k : Bytes} {c : Option Check} {s : State} {h : Heap} (hi : Holds base F s h) :
    wp (call add base (.erase k c)) (fun out h' => ∃ s', SpecErase s k c out s' ∧ Holds base F s' h') h := by
  obtain ⟨⟨g, ni, nn, t, hm, hcn, hcv, htt⟩, ⟨n, hn⟩, hok⟩ := hi
  have hsp := wp_heapOk hok (erase_spec (P := fun _ => True) (c := c) (k := k) t trivial (fun _ => trivial)).wp
  rw [hm] at hsp
  refine wp_ret_of hsp ?_ ?_
  · rintro r h' ⟨(⟨h1, h2, rfl⟩ | ⟨h1, h2, h3, h4, rfl⟩ | ⟨h1, h2, h3, g', ni', nn', t', h4, h5, h6, h7⟩), hok'⟩
    · injection h2 with h2; subst h2
      exact ⟨s, Or.inl ⟨by rw [passes_iff, h1]; simp, rfl, rfl⟩, ⟨g, ni, nn, t, hm, hcn, hcv, htt⟩, ⟨n, hn⟩, hok⟩
    · injection h4 with h4; subst h4
      have hput : put s.m k none = s.m := upd_self h3
      refine ⟨s, Or.inr ⟨by rw [passes_iff, h1], false, rfl, by rw [hput], fun h => absurd h3 h, ?_⟩, ⟨g, ni, nn, t, hm, hcn, hcv, htt⟩, ⟨n, hn⟩, hok⟩
      intro hc
      rw [← hm, ← t.tight_path (htt hc) k, h2, hm, h3]; simp
    · injection h3 with h3; subst h3
      refine ⟨_, Or.inr ⟨by rw [passes_iff, h1], true, rfl, rfl, fun _ => rfl, ?_⟩, ⟨g', ni', nn', t', h4, fun he => h6 (hcn he), fun he => h5 (hcv he), fun hc => h7 (htt hc)⟩, count_put hn _ _, hok'⟩
      intro hc
      rw [← hm] at h2 ⊢
      simp [(t.tight_path (htt hc) k).1 h2]
  · rintro e h' ⟨(⟨h1, h2, -⟩ | ⟨h1, h2, h3, h4, -⟩ | ⟨h1, h2, h3, -⟩), hok'⟩
    · cases h2
    · cases h4
    · cases h3

theorem step {add : BitVec 64 → BitVec 64 → BitVec 64} (op : Op) (s : State) (h : Heap) (hgo : op.ok s) (hi : Holds base F s h) :
    wp (call add base op) (fun out h' => ∃ s', Spec add s op out s' ∧ Holds base F s' h') h := by
  have hi0 := hi
  obtain ⟨⟨g, ni, nn, t, hm, hcn, hcv, htt⟩, ⟨n, hn⟩, hok⟩ := hi
  have hbool : ∀ (b : Bool) (k : Bytes), (b = true ↔ (g.nd k ≠ none ∨ g.kv k ≠ none)) → (s.m k ≠ none → b = true) ∧ (s.clean = true → (b = true ↔ OnPath s.m k)) := by
    intro b k hb
    rw [← hm]
    refine ⟨fun h => hb.2 (Or.inr h), fun hc => ?_⟩
    rw [hb]; exact t.tight_path (htt hc) k
  have hsafe : ∀ k', (∀ k, k' = some k → Start s k) → ∀ k, k' = some k → Safe g k := fun k' hk k e => t.start hm htt (hk k e)
  cases op with
  | insert k v c => exact step_insert hgo hi0
  | erase k c => exact step_erase hi0
  | insertResult k v c =>
    cases v with
    | missing => exact step_erase (add := add) hi0
    | val v => exact step_insert (add := add) (fun d hd => hgo.1 d (by rw [hd])) hi0
    | ref d => exact step_insert (add := add) (v := .str d) (fun d' hd => hgo.2 d' (by injection hd with hd; rw [hd])) hi0
  | incr k d =>
    have hsp := wp_heapOk hok (incrInt_spec (P := fun _ => True) (k := k) (d := d) t trivial (fun _ => trivial) (fun _ _ => trivial)).wp
    rw [hm] at hsp
    simp only [Spec]
    refine wp_ret_of hsp ?_ ?_
    · rintro r h' ⟨⟨g', ni', nn', t', h1, (⟨x, h2, h3, h4, h5, h6⟩ | ⟨h2, -⟩ | ⟨h2, -⟩)⟩, hok'⟩
      · injection h3 with h3; subst h3
        have hH : Holds base F { s with m := put s.m k (some (.int (x + d))) } h' := ⟨⟨g', ni', nn', t', h4, fun he => h1 (hcn he), fun he => h5 (hcv he), fun hc => h6 (htt hc)⟩, count_put hn _ _, hok'⟩
        rcases h2 with h2 | ⟨h2, rfl⟩
        · rw [h2]
          exact ⟨_, Or.inl ⟨rfl, rfl⟩, hH⟩
        · rw [h2, BitVec.zero_add] at *
          exact ⟨_, Or.inl ⟨rfl, rfl⟩, hH⟩
      · cases h2
      · cases h2
    · rintro e h' ⟨⟨g', ni', nn', t', h1, (⟨x, h2, h3, -⟩ | ⟨h2, ⟨v, h3, h4⟩, rfl, rfl, rfl, rfl⟩ | ⟨h2, h3, h4, -, h5⟩)⟩, hok'⟩
      · cases h3
      · injection h2 with h2; subst h2
        rw [h3]
        refine ⟨s, ?_, hi0⟩
        cases v with
        | int x => exact absurd rfl (h4 x)
        | _ => exact ⟨rfl, rfl⟩
      · injection h2 with h2; subst h2
        have hkv : g'.kv = s.m := by rw [← hm]; unfold G.kv; rw [h3]
        cases hk : s.m k with
        | none =>
          exact ⟨_, Or.inr ⟨rfl, rfl⟩, ⟨g', ni', nn', t', hkv, fun he => h1 (hcn he), (fun h => by cases h), (fun h => by cases h)⟩, ⟨n, hn⟩, hok'⟩
        | some v =>
          have hni : ni' = ni := h4 (by rw [hk]; simp)
          subst hni
          have hH : Holds base F { s with clean := false } h' := ⟨⟨g', ni', nn', t', hkv, fun he => h1 (hcn he), fun he => by rw [h3]; exact hcv he, fun h => by cases h⟩, ⟨n, hn⟩, hok'⟩
          obtain ⟨x, rfl⟩ := h5 v hk
          exact ⟨_, Or.inr ⟨rfl, rfl⟩, hH⟩
  | incrDouble k d =>
    have hsp := wp_heapOk hok (incrDbl_spec (P := fun _ => True) (add := add) (k := k) (d := d) t (by rw [hm]; exact hgo) trivial (fun _ => trivial) (fun _ _ => trivial)).wp
    rw [hm] at hsp
    simp only [Spec]
    refine wp_ret_of hsp ?_ ?_
    · rintro r h' ⟨⟨g', ni', nn', t', h1, h0, (⟨x, h2, h3, h4, h6⟩ | ⟨h2, h3, h4, h6⟩ | ⟨h2, -⟩ | ⟨h2, -⟩)⟩, hok'⟩
      · injection h3 with h3; subst h3
        rw [h2]
        exact ⟨_, Or.inl ⟨rfl, rfl⟩, ⟨g', ni', nn', t', by rw [h4, kept_eq]; rfl, fun he => h1 (hcn he), fun he => h0 (hcv he), fun hc => h6 (htt hc)⟩, count_put hn _ _, hok'⟩
      · injection h3 with h3; subst h3
        rw [h2]
        exact ⟨_, Or.inl ⟨rfl, rfl⟩, ⟨g', ni', nn', t', h4, fun he => h1 (hcn he), fun he => h0 (hcv he), fun hc => h6 (htt hc)⟩, count_put hn _ _, hok'⟩
      · cases h2
      · cases h2
    · rintro e h' ⟨⟨g', ni', nn', t', h1, h0, (⟨x, h2, h3, -⟩ | ⟨h2, h3, -⟩ | ⟨h2, ⟨v, h3, h4⟩, rfl, rfl, rfl, rfl⟩ | ⟨h2, h3, h5⟩)⟩, hok'⟩
      · cases h3
      · cases h3
      · injection h2 with h2; subst h2
        rw [h3]
        refine ⟨s, ?_, hi0⟩
        cases v with
        | dbl x => exact absurd rfl (h4 x)
        | _ => exact ⟨rfl, rfl⟩
      · injection h2 with h2; subst h2
        have hkv : g'.kv = s.m := by rw [← hm]; unfold G.kv; rw [h3]
        have hH : Holds base F { s with clean := false } h' := ⟨⟨g', ni', nn', t', hkv, fun he => h1 (hcn he), fun he => h0 (hcv he), fun h => by cases h⟩, ⟨n, hn⟩, hok'⟩
        cases hk : s.m k with
        | none => exact ⟨_, Or.inr ⟨rfl, rfl⟩, hH⟩
        | some v =>
          obtain ⟨x, rfl⟩ := h5 v hk
          exact ⟨_, Or.inr ⟨rfl, rfl⟩, hH⟩
  | «at» k =>
    refine step_ro hi0 (Q := fun out => out = (match s.m k with
      | some v => .ok (.val v)
      | none => .err .outOfRange)) (wp_ret_of (at_spec (I := fun _ => True) t k).wp ?_ ?_) (fun out h => ⟨rfl, h⟩)
    · rintro a h' ⟨rfl, h1⟩
      rw [hm] at h1
      refine ⟨rfl, ?_⟩
      cases hk : s.m k with
      | none => rw [hk] at h1; cases h1
      | some v => rw [hk] at h1; injection h1 with h1; rw [h1]
    · rintro a h' ⟨rfl, h1⟩
      rw [hm] at h1
      refine ⟨rfl, ?_⟩
      cases hk : s.m k with
      | none => rw [hk] at h1; injection h1 with h1; rw [h1]
      | some v => rw [hk] at h1; cases h1
  | type k =>
    refine step_ro hi0 (Q := fun out => out = .ok (.type (PT.typeOf (s.m k)))) (wp_ret_of (type_spec (I := fun _ => True) t k).wp ?_ ?_) (fun out h => ⟨rfl, h⟩)
    · rintro a h' ⟨rfl, h1⟩
      injection h1 with h1; subst h1
      refine ⟨rfl, ?_⟩
      rw [hm]
      cases s.m k with
      | none => rfl
      | some v => cases v <;> rfl
    · rintro a h' ⟨-, h1⟩; cases h1
  | «exists» k =>
    refine step_ro hi0 (Q := fun out => ∃ b, out = .ok (.bool b) ∧ (s.m k ≠ none → b = true) ∧ (s.clean = true → (b = true ↔ OnPath s.m k))) (wp_ret_of (exists_spec (I := fun _ => True) t k).wp ?_ ?_) (fun out h => ⟨rfl, h⟩)
    · rintro a h' ⟨rfl, b, h1, h2⟩
      injection h1 with h1; subst h1
      exact ⟨rfl, _, rfl, hbool _ _ h2⟩
    · rintro a h' ⟨-, b, h1, -⟩; cases h1
  | size =>
    refine step_ro hi0 (Q := fun out => ∃ n, out = .ok (.num n) ∧ (s.exact = true → Count (fun k => s.m k ≠ none) n)) (wp_ret_of (size_spec (I := fun _ => True) t).wp ?_ ?_) (fun out h => ⟨rfl, h⟩)
    · rintro a h' ⟨rfl, h1⟩
      injection h1 with h1; subst h1
      refine ⟨rfl, _, rfl, fun he => ?_⟩
      rw [Nat.mod_eq_of_lt (t.keys_lt hok (hcv he)), ← hm]
      exact card_kv.1 (hcv he)
    · rintro a h' ⟨-, h1⟩; cases h1
  | nodeSize =>
    refine step_ro hi0 (Q := fun out => ∃ n, out = .ok (.num n) ∧ (s.clean = true → s.counted = true → Count (Inner s.m) n)) (wp_ret_of (nodeSize_spec (I := fun _ => True) t).wp ?_ ?_) (fun out h => ⟨rfl, h⟩)
    · rintro a h' ⟨rfl, h1⟩
      injection h1 with h1; subst h1
      refine ⟨rfl, _, rfl, fun he hct => ?_⟩
      rw [Nat.mod_eq_of_lt (t.nodes_lt (hcn hct)), ← hm]
      obtain ⟨l, l1, l2, l3⟩ := hcn hct
      exact ⟨l, l1, fun p => by rw [l2, t.tight_inner (htt he)], l3⟩
    · rintro a h' ⟨-, h1⟩; cases h1
  | nodesForPrefix k =>
    refine step_ro hi0 (Q := fun out => ∃ n, out = .ok (.num n) ∧ (s.clean = true → Count (fun p => k <+: p ∧ Inner s.m p) n)) (wp_ret_of (nodesForPrefix_spec (I := fun _ => True) t k).wp ?_ ?_) (fun out h => ⟨rfl, h⟩)
    · rintro a h' ⟨rfl, n, h1, l, l1, l2, l3⟩
      injection h1 with h1; subst h1
      refine ⟨rfl, _, rfl, fun he => ⟨l, l1, fun p => ?_, l3⟩⟩
      have hq : (k <+: p ∧ Inner s.m p) ↔ Below g k p := by
        rw [← hm, ← t.tight_inner (htt he)]; rfl
      rw [l2]; exact hq.symm
    · rintro a h' ⟨-, n, h1, -⟩; cases h1
  | clear =>
    have hsp := wp_heapOk hok (clear_spec (P := fun _ => True) t (fun _ _ => trivial)).wp
    refine wp_ret_of hsp ?_ ?_
    · rintro r h' ⟨⟨-, g', ni', nn', t', h1, h2, h3, h4⟩, hok'⟩
      have hkv : g'.kv = fun _ => none := funext h1
      refine ⟨_, ⟨rfl, rfl⟩, ⟨g', ni', nn', t', hkv, fun he => h4 (hcn he), fun he => h3 (hcv he), fun _ p hp hq => absurd ((h2 p).1 hq) hp⟩, ⟨0, [], List.nodup_nil, by simp, rfl⟩, hok'⟩
    · rintro e h' ⟨⟨h1, -⟩, -⟩; cases h1
  | nextKey k =>
    refine step_ro hi0 (Q := fun out => (∃ k' v, out = .ok (.key k') ∧ Succ s.m k (some (k', v))) ∨ (out = .err .outOfRange ∧ Succ s.m k none))
      (wp_ret_of (nextKey_spec (I := fun _ => True) (k := k) t (hsafe k (by rintro k' rfl; exact hgo))).wp ?_ ?_) (fun out h => ⟨rfl, h⟩)
    · rintro a h' ⟨rfl, (⟨k', h1, h2⟩ | ⟨h1, -⟩)⟩
      · injection h1 with h1; subst h1
        rw [hm] at h2
        have : s.m a ≠ none := by cases k with
          | none => exact h2.1
          | some k => exact h2.1
        obtain ⟨v, hv⟩ := Option.ne_none_iff_exists'.1 this
        exact ⟨rfl, Or.inl ⟨_, v, rfl, succ_some hv h2⟩⟩
      · cases h1
    · rintro a h' ⟨rfl, (⟨k', h1, -⟩ | ⟨h1, h2⟩)⟩
      · cases h1
      · injection h1 with h1; subst h1
        rw [hm] at h2
        exact ⟨rfl, Or.inr ⟨rfl, succ_none h2⟩⟩
  | nextKeyValue k =>
    refine step_ro hi0 (Q := fun out => (∃ p, out = .ok (.pair p) ∧ Succ s.m k (some p)) ∨ (out = .err .outOfRange ∧ Succ s.m k none))
      (wp_ret_of (nextKV_spec (I := fun _ => True) (k := k) t (hsafe k (by rintro k' rfl; exact hgo))).wp ?_ ?_) (fun out h => ⟨rfl, h⟩)
    · rintro a h' ⟨rfl, (⟨k', v, h1, h2, h3⟩ | ⟨h1, -⟩)⟩
      · injection h1 with h1; subst h1
        rw [hm] at h2 h3
        exact ⟨rfl, Or.inl ⟨_, rfl, succ_some h2 h3⟩⟩
      · cases h1
    · rintro a h' ⟨rfl, (⟨k', v, h1, -⟩ | ⟨h1, h2⟩)⟩
      · cases h1
      · injection h1 with h1; subst h1
        rw [hm] at h2
        exact ⟨rfl, Or.inr ⟨rfl, succ_none h2⟩⟩
  | find k =>
    refine step_ro hi0 (Q := fun out => out = .ok (.iter ((s.m k).map fun v => (k, v)))) (wp_ret_of (find_spec (I := fun _ => True) t k).wp ?_ ?_) (fun out h => ⟨rfl, h⟩)
    · rintro a h' ⟨rfl, h1⟩
      injection h1 with h1; subst h1
      rw [hm]; exact ⟨rfl, rfl⟩
    · rintro a h' ⟨-, h1⟩; cases h1
  | lowerBound k =>
    have hsp : wp (lowerBound base k) (fun out h' => h' = h ∧ ∃ r, out = .ok r ∧
      ((∃ v, g.kv k = some v ∧ r = some (k, v)) ∨ (g.kv k = none ∧ IterRes g.kv (some k) r))) h := by
      refine (lowerBound_spec (I := fun _ => True) t ?_).wp
      cases hk : s.m k with
      | none => exact t.start hm htt (hgo hk)
      | some v => exact Safe.of_kv t (by rw [hm, hk]; simp)
    refine step_ro hi0 (Q := fun out => ∃ i, out = .ok (.iter i) ∧ (match s.m k with
      | some v => i = some (k, v)
      | none => Succ s.m (some k) i)) (wp_ret_of hsp ?_ ?_) (fun out h => ⟨rfl, h⟩)
    · rintro a h' ⟨rfl, r, h1, h2⟩
      injection h1 with h1; subst h1
      refine ⟨rfl, _, rfl, ?_⟩
      rw [hm] at h2
      rcases h2 with ⟨v, h2, h3⟩ | ⟨h2, h3⟩
      · rw [h2]; exact h3
      · rw [h2]; exact succ_iter h3
    · rintro a h' ⟨-, r, h1, -⟩; cases h1
  | upperBound k =>
    refine step_ro hi0 (Q := fun out => ∃ i, out = .ok (.iter i) ∧ Succ s.m (some k) i) (wp_ret_of (upperBound_spec (I := fun _ => True) t (t.start hm htt hgo)).wp ?_ ?_) (fun out h => ⟨rfl, h⟩)
    · rintro a h' ⟨rfl, r, h1, h2⟩
      injection h1 with h1; subst h1
      rw [hm] at h2
      exact ⟨rfl, _, rfl, succ_iter h2⟩
    · rintro a h' ⟨-, r, h1, -⟩; cases h1
  | items =>
    have hn' := hn
    obtain ⟨l, l1, l2, l3⟩ := hn
    have hlt : n < W64 := t.keys_lt hok (card_kv.2 (by rw [hm]; exact hn'))
    refine step_ro hi0 (Q := fun out => ∃ l, out = .ok (.list l) ∧ (l.map Prod.fst).Pairwise (· < ·) ∧ ∀ k v, (k, v) ∈ l ↔ s.m k = some v)
      (wp_ret_of (iterate_spec (I := fun _ => True) t maxSteps none l (fun _ h => by cases h) l1 (fun k' => by rw [l2, hm]; simp [After]) (by rw [maxSteps_eq]; omega)).wp ?_ ?_) (fun out h => ⟨rfl, h⟩)
    · rintro a h' ⟨rfl, r, h1, h2, h3⟩
      injection h1 with h1; subst h1
      refine ⟨rfl, _, rfl, h2, fun k v => ?_⟩
      rw [h3, hm]; simp [After]
    · rintro a h' ⟨-, r, h1, -⟩; cases h1

end

end PrefixTree
end Verif
