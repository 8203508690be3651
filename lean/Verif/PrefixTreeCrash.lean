import Verif.PrefixTreeStep
import Verif.ReadOnly
/-
PrefixTree: what a process that dies in a call leaves behind, and which methods only read.
-/
namespace Verif
open PrefixTree (Val CVal Check RType isZero isNaN)

namespace PT
/-- insert of `v` for `k` with the check `c`, interrupted: the old map, or, if the check passes: `k` is gone, or `v` is there; and if `v` is a double that replaces an integer, also: `k` has the integer whose
bits are those of `v` -/
def CutInsert (m : Map) (k : Bytes) (v : Val) (c : Option Check) (m' : Map) : Prop :=
  m' = m ∨ passes m c ∧ (m' = put m k none ∨ m' = put m k (some (kept v)) ∨ ∃ d x, v = .dbl d ∧ m k = some (.int x) ∧ m' = put m k (some (.int d)))

/-- erase of `k` with the check `c`, interrupted -/
def CutErase (m : Map) (k : Bytes) (c : Option Check) (m' : Map) : Prop := m' = m ∨ passes m c ∧ m' = put m k none

/-- `m'` is a map that may be left behind by a process that dies in the call `op` on a tree with the map `m` -/
def Cut (add : BitVec 64 → BitVec 64 → BitVec 64) (m : Map) (op : Op) (m' : Map) : Prop :=
  match op with
  | .insert k v c => CutInsert m k v c m'
  | .insertResult k .missing c => CutErase m k c m'
  | .insertResult k (.val v) c => CutInsert m k v c m'
  | .insertResult k (.ref d) c => CutInsert m k (.str d) c m'
  | .erase k c => CutErase m k c m'
  | .incr k d => m' = m ∨ (m k = none ∧ m' = put m k (some (.int d))) ∨ ∃ x, m k = some (.int x) ∧ m' = put m k (some (.int (x + d)))
  | .incrDouble k d => m' = m ∨ (m k = none ∧ m' = put m k (some (.dbl d))) ∨ ∃ x, m k = some (.dbl x) ∧ m' = put m k (some (kept (.dbl (add x d))))
  | .clear => ∀ k, m' k = m k ∨ m' k = none
  | _ => m' = m

/-- the methods that take the lock for writing -/
def Op.writes : Op → Bool
  | .insert .. => true
  | .insertResult .. => true
  | .erase .. => true
  | .incr .. => true
  | .incrDouble .. => true
  | .clear => true
  | _ => false
end PT

open PT
namespace PrefixTree
section
variable {base : Nat} {F : Nat → Option Block} {add : BitVec 64 → BitVec 64 → BitVec 64}

theorem wpI_any {α β : Type} {I : Heap → Prop} {p : HProg α} {f : α → β} {h : Heap} {R : Out α → Heap → Prop} (hw : wpI I p R h) :
    wpI I (p.bind fun a => .ret (f a)) (fun _ _ => True) h :=
  wpI_bind_of hw (fun _ _ _ => trivial) (fun _ _ _ => trivial)

theorem cut_insert {k : Bytes} {v : Val} {c : Option Check} {s : State} {h : Heap} {f : Bool → Ret} (hl : ∀ d, v = .str d → d.length ≤ 2 ^ 62) (hi : Holds base F s h) :
    wpI (Cr base (CutInsert s.m k v c)) ((insert base k v c).bind fun r => .ret (f r)) (fun _ _ => True) h := by
  obtain ⟨⟨g, ni, nn, t, hm, -⟩, -⟩ := hi
  refine wpI_any (insert_spec (c := c) (k := k) t (v := v) (fun d hd => by have := hl d hd; omega) ?_ ?_ ?_ ?_)
  · exact Or.inl hm
  · rw [hm]; exact fun hc => Or.inr ⟨(passes_iff _ _).2 hc, Or.inl rfl⟩
  · rw [hm, ← kept_eq]; exact fun hc => Or.inr ⟨(passes_iff _ _).2 hc, Or.inr (Or.inl rfl)⟩
  · intro hc d x h1 h2 h3
    rw [hm] at h3 hc ⊢
    exact Or.inr ⟨(passes_iff _ _).2 hc, Or.inr (Or.inr ⟨d, x, h1, h3, rfl⟩)⟩

theorem cut_erase {k : Bytes} {c : Option Check} {s : State} {h : Heap} {f : Bool → Ret} (hi : Holds base F s h) :
    wpI (Cr base (CutErase s.m k c)) ((erase base k c).bind fun r => .ret (f r)) (fun _ _ => True) h := by
  obtain ⟨⟨g, ni, nn, t, hm, -⟩, -⟩ := hi
  refine wpI_any (erase_spec (c := c) (k := k) t ?_ ?_)
  · exact Or.inl hm
  · rw [hm]; exact fun hc => Or.inr ⟨(passes_iff _ _).2 hc, rfl⟩

/-- at every point of a call there is a well-formed tree, with a map as in `Cut` -/
theorem cut (op : Op) (s : State) (h : Heap) (hgo : op.ok s) (hi : Holds base F s h) : wpI (Cr base (Cut add s.m op)) (call add base op) (fun _ _ => True) h := by
  have hi0 := hi
  obtain ⟨⟨g, ni, nn, t, hm, hcn, hcv, htt⟩, ⟨n, hn⟩, hok⟩ := hi
  have hsafe : ∀ k', (∀ k, k' = some k → Start s k) → ∀ k, k' = some k → Safe g k := fun k' hk k e => t.start hm htt (hk k e)
  cases op with
  | insert k v c => exact cut_insert hgo hi0
  | erase k c => exact cut_erase hi0
  | insertResult k v c =>
    cases v with
    | missing => exact cut_erase hi0
    | val v => exact cut_insert (fun d hd => hgo.1 d (by rw [hd])) hi0
    | ref d => exact cut_insert (fun d' hd => hgo.2 d' (by injection hd with hd; rw [hd])) hi0
  | incr k d =>
    refine wpI_any (incrInt_spec t (Or.inl hm) ?_ ?_)
    · intro h1; rw [hm] at h1 ⊢; exact Or.inr (Or.inl ⟨h1, rfl⟩)
    · intro x h1; rw [hm] at h1 ⊢; exact Or.inr (Or.inr ⟨x, h1, rfl⟩)
  | incrDouble k d =>
    refine wpI_any (incrDbl_spec t (by rw [hm]; exact hgo) (Or.inl hm) ?_ ?_)
    · intro h1; rw [hm] at h1 ⊢; exact Or.inr (Or.inl ⟨h1, rfl⟩)
    · intro x h1; rw [hm] at h1 ⊢; exact Or.inr (Or.inr ⟨x, h1, by rw [kept_eq]; rfl⟩)
  | clear => exact wpI_any (clear_spec t (fun m hsub k => by rw [← hm]; exact hsub k))
  | «at» k => exact wpI_any (at_spec t k)
  | type k => exact wpI_any (type_spec t k)
  | «exists» k => exact wpI_any (exists_spec t k)
  | size => exact wpI_any (size_spec t)
  | nodeSize => exact wpI_any (nodeSize_spec t)
  | nodesForPrefix k => exact wpI_any (nodesForPrefix_spec t k)
  | nextKey k => exact wpI_any (nextKey_spec t (hsafe k (by rintro k' rfl; exact hgo)))
  | nextKeyValue k => exact wpI_any (nextKV_spec t (hsafe k (by rintro k' rfl; exact hgo)))
  | find k => exact wpI_any (find_spec t k)
  | lowerBound k =>
    refine wpI_any (lowerBound_spec t ?_)
    cases hk : s.m k with
    | none => exact t.start hm htt (hgo hk)
    | some v => exact Safe.of_kv t (by rw [hm, hk]; simp)
  | upperBound k => exact wpI_any (upperBound_spec t (t.start hm htt hgo))
  | items =>
    have hn' := hn
    obtain ⟨l, l1, l2, l3⟩ := hn
    have hlt : n < W64 := t.keys_lt hok (card_kv.2 (by rw [hm]; exact hn'))
    exact wpI_any (iterate_spec t maxSteps none l (fun _ h => by cases h) l1 (fun k' => by rw [l2, hm]; simp [After]) (by rw [maxSteps_eq]; omega))

theorem cut_fin {m m' : Map} {op : Op} (h : Cut add m op m') {n : Nat} (hn : Count (fun k => m k ≠ none) n) : ∃ n', Count (fun k => m' k ≠ none) n' := by
  have hins : ∀ {k v c}, CutInsert m k v c m' → ∃ n', Count (fun k => m' k ≠ none) n' := by
    rintro k v c (rfl | ⟨-, rfl | rfl | ⟨d, x, -, -, rfl⟩⟩)
    · exact ⟨n, hn⟩
    all_goals exact count_put hn _ _
  have hers : ∀ {k c}, CutErase m k c m' → ∃ n', Count (fun k => m' k ≠ none) n' := by
    rintro k c (rfl | ⟨-, rfl⟩)
    · exact ⟨n, hn⟩
    · exact count_put hn _ _
  cases op with
  | insert k v c => exact hins h
  | erase k c => exact hers h
  | insertResult k v c =>
    cases v with
    | missing => exact hers h
    | val v => exact hins h
    | ref d => exact hins h
  | incr k d =>
    rcases h with rfl | ⟨-, rfl⟩ | ⟨x, -, rfl⟩
    · exact ⟨n, hn⟩
    all_goals exact count_put hn _ _
  | incrDouble k d =>
    rcases h with rfl | ⟨-, rfl⟩ | ⟨x, -, rfl⟩
    · exact ⟨n, hn⟩
    all_goals exact count_put hn _ _
  | clear =>
    obtain ⟨l, l1, l2, -⟩ := hn
    refine ⟨_, l.filter (fun k => decide (m' k ≠ none)), l1.filter _, ?_, rfl⟩
    intro p
    rw [List.mem_filter, l2]
    simp only [decide_eq_true_eq]
    refine ⟨fun h => h.2, fun hp => ⟨?_, hp⟩⟩
    rcases h p with h1 | h1
    · rw [← h1]; exact hp
    · exact absurd h1 hp
  | _ =>
    simp only [Cut] at h
    subst h
    exact ⟨n, hn⟩

/-! ### read-only methods -/

theorem ro_follow : ∀ (k : Bytes) (par nd : Addr) (ns : List Addr), HRo (follow k par nd ns) := by
  intro k
  induction k with
  | nil => intro _ _ _; trivial
  | cons b k ih =>
    intro par nd ns
    exact HRo.bind .rd fun _ => HRo.bind .rd fun _ => .ite .ret (HRo.bind .rd fun _ => .ite .ret (.ite (.ite .ret .ret) (ih _ _ _)))

theorem ro_traverse (k : Bytes) : HRo (traverse base k) :=
  HRo.bind (ro_follow _ _ _ _) fun f => by cases f <;> trivial

theorem ro_traverseSlot (k : Bytes) : HRo (traverseSlot base k) := by
  unfold traverseSlot
  split
  · trivial
  · refine HRo.bind (ro_follow _ _ _ _) fun f => ?_
    cases f with
    | val => trivial
    | node => exact HRo.bind .rd fun _ => .ret
    | stuck => trivial

theorem ro_lookup (c : Nat) : HRo (lookup c) :=
  .ite .err (.ite (.ite (HRo.bind .bsize fun _ => HRo.bind .rdB fun _ => .ret) .ret) (.ite .ret (.ite .ret (.ite (HRo.bind .rd fun _ => .ret)
    (.ite (.ite .ret (HRo.bind .rd fun _ => .ret)) (.ite (.ite .ret .ret) .err))))))

theorem ro_seek : ∀ (k : Bytes) (nd : Addr) (st : List Addr), HRo (seek k nd st) := by
  intro k
  induction k with
  | nil => intro _ _; trivial
  | cons b k ih =>
    intro nd st
    exact HRo.bind .rd fun _ => .ite .ret (HRo.bind .rd fun _ => .ite .ret (HRo.bind .rd fun _ => .ite .ret (ih _ _)))

theorem ro_scan : ∀ (fuel : Nat) (st : List Addr) (i : Option Nat), HRo (scan fuel st i) := by
  intro fuel
  induction fuel with
  | zero => intro _ _; trivial
  | succ n ih =>
    intro st i
    match st, i with
    | [], _ => unfold scan; exact .ret
    | nd :: st, none => exact HRo.bind .rd fun _ => .ite .ret (HRo.bind .rd fun _ => ih _ _)
    | nd :: st, some i =>
      refine HRo.bind .rd fun _ => HRo.bind .rd fun _ => .ite ?_ (HRo.bind .rd fun _ => .ite (ih _ _) (.ite .ret (ih _ _)))
      cases st with
      | nil => trivial
      | cons => exact HRo.bind .rd fun _ => ih _ _

theorem ro_pathOf : ∀ st : List Addr, HRo (pathOf st)
  | [] => trivial
  | [_] => trivial
  | _ :: x :: st => HRo.bind (ro_pathOf (x :: st)) fun _ => HRo.bind .rd fun _ => .ret

theorem ro_nextFrom (st : List Addr) (i : Nat) : HRo (nextFrom st i) := by
  refine HRo.bind (ro_scan _ _ _) fun r => ?_
  match r with
  | none => trivial
  | some (v, st', i') =>
    refine HRo.bind (HRo.bind (ro_pathOf _) fun k => ?_) fun _ => .ret
    cases i' <;> trivial

theorem ro_nextRaw (k : Option Bytes) : HRo (nextRaw base k) := by
  cases k with
  | none => exact HRo.bind .rd fun _ => .ite .ret (ro_nextFrom _ _)
  | some k => exact HRo.bind (ro_seek _ _ _) fun _ => ro_nextFrom _ _

theorem ro_nextKV (k : Option Bytes) : HRo (nextKV base k) := HRo.bind (ro_nextRaw _) fun _ => HRo.bind (ro_lookup _) fun _ => .ret

theorem ro_tryCatch {α : Type} {p : HProg α} {f : Err → HProg α} (hp : HRo p) (hf : ∀ e, HRo (f e)) : HRo (p.tryCatch f) := by
  induction p with
  | ret a => trivial
  | err e => exact hf e
  | ub => trivial
  | step op k ih =>
    cases op with
    | rd | rdB | bsize | getBase => exact fun v => ih v (hp v)
    | _ => exact hp.elim

theorem ro_orEnd {α : Type} {p : HProg α} (hp : HRo p) : HRo (orEnd p) := ro_tryCatch (HRo.bind hp fun _ => .ret) fun _ => .ite .ret .err

theorem ro_at (k : Bytes) : HRo («at» base k) := by
  refine HRo.bind (ro_traverse _) fun r => ?_
  obtain ⟨a, ns⟩ := r
  cases a with
  | none => trivial
  | some a => exact HRo.bind .rd fun _ => .ite .err (ro_lookup _)

theorem ro_find (k : Bytes) : HRo (find base k) := ro_orEnd (HRo.bind (ro_at _) fun _ => .ret)

theorem ro_sumSlots {f : Nat → HProg Nat} (hf : ∀ c, HRo (f c)) (nd : Addr) : ∀ n x, HRo (sumSlots f nd n x) := by
  intro n
  induction n with
  | zero => intro _; trivial
  | succ n ih => intro x; exact HRo.bind .rd fun _ => HRo.bind (hf _) fun _ => HRo.bind (ih _) fun _ => .ret

theorem ro_sumNode {f : Nat → HProg Nat} (hf : ∀ c, HRo (f c)) (nd : Addr) : HRo (sumNode f nd) :=
  HRo.bind .rd fun _ => HRo.bind .rd fun _ => ro_sumSlots hf _ _ _

theorem ro_nodesFor : ∀ fuel c, HRo (nodesFor fuel c) := by
  intro fuel
  induction fuel with
  | zero => intro _; trivial
  | succ n ih => intro c; exact .ite .ret (HRo.bind (ro_sumNode ih _) fun _ => .ret)

theorem ro_nodesForPrefix (k : Bytes) : HRo (nodesForPrefix base k) := by
  refine .ite (HRo.bind (ro_traverseSlot _) fun a => ?_) (HRo.bind (ro_sumNode (ro_nodesFor _) _) fun _ => .ret)
  cases a with
  | none => trivial
  | some a => exact HRo.bind .rd fun _ => ro_nodesFor _ _

theorem ro_type (k : Bytes) : HRo (type base k) := by
  refine HRo.bind (ro_traverse _) fun r => ?_
  obtain ⟨a, ns⟩ := r
  cases a with
  | none => trivial
  | some a => exact HRo.bind .rd fun _ => .ite .ret (.ite .ret (.ite .ret (.ite .ret (.ite (.ite .ret .ret) .err))))

theorem ro_iterate : ∀ fuel k, HRo (iterate base fuel k) := by
  intro fuel
  induction fuel with
  | zero => intro _; trivial
  | succ n ih =>
    intro k
    refine HRo.bind (ro_orEnd (ro_nextKV _)) fun r => ?_
    cases r with
    | none => trivial
    | some x => exact HRo.bind (ih _) fun _ => .ret

/-- the methods that take the lock for reading only read -/
theorem ro_call (o : Op) (h : o.writes = false) : HRo (call add base o) := by
  cases o with
  | «at» k => exact HRo.bind (ro_at _) fun _ => .ret
  | type k => exact HRo.bind (ro_type _) fun _ => .ret
  | «exists» k => exact HRo.bind (HRo.bind (ro_traverse _) fun _ => .ret) fun _ => .ret
  | size => exact HRo.bind .rd fun _ => .ret
  | nodeSize => exact HRo.bind .rd fun _ => .ret
  | nodesForPrefix k => exact HRo.bind (ro_nodesForPrefix _) fun _ => .ret
  | nextKey k => exact HRo.bind (HRo.bind (ro_nextRaw _) fun _ => .ret) fun _ => .ret
  | nextKeyValue k => exact HRo.bind (ro_nextKV _) fun _ => .ret
  | find k => exact HRo.bind (ro_find _) fun _ => .ret
  | lowerBound k =>
    refine HRo.bind (HRo.bind (ro_find _) fun r => ?_) fun _ => .ret
    cases r with
    | none => exact ro_orEnd (ro_nextKV _)
    | some _ => trivial
  | upperBound k => exact HRo.bind (ro_orEnd (ro_nextKV _)) fun _ => .ret
  | items => exact HRo.bind (ro_iterate _ _) fun _ => .ret
  | _ => cases h

end
end PrefixTree
end Verif
