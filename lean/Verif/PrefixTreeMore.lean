import Verif.PrefixTreeIter
import Verif.PrefixTreeClear
import Verif.HeapOk
/-
find, lower_bound, upper_bound, iteration over the whole tree, clear, and how many nodes and keys there can be.
-/
namespace Verif
theorem wpI_tryCatch_of {α : Type} {I : Heap → Prop} {Q R : Out α → Heap → Prop} (p : HProg α) (f : Err → HProg α) :
    ∀ {h}, wpI I p R h → (∀ a h', R (.ok a) h' → Q (.ok a) h') → (∀ e h', R (.err e) h' → wpI I (f e) Q h') → wpI I (p.tryCatch f) Q h := by
  induction p with
  | ret a => exact fun hw h1 _ => h1 _ _ hw
  | err e => exact fun hw _ h2 => h2 _ _ hw
  | ub => exact fun hw _ _ => hw
  | step op k ih =>
    intro h hw h1 h2
    cases op <;> simp only [Prog.tryCatch, wpI] at hw ⊢
    case alloc n => exact ⟨hw.1, fun o d hf => ⟨(hw.2.1 o d hf).1, ih _ (hw.2.1 o d hf).2 h1 h2⟩, ih _ hw.2.2 h1 h2⟩
    case getBase => exact ih _ hw h1 h2
    case setBase => exact ⟨hw.1, hw.2.1, ih _ hw.2.2 h1 h2⟩
    case free => obtain ⟨b, h3, h4, h5⟩ := hw; exact ⟨b, h3, h4, ih _ h5 h1 h2⟩
    case bsize => obtain ⟨b, h3, h4⟩ := hw; exact ⟨b, h3, ih _ h4 h1 h2⟩
    case rd | rdB => obtain ⟨b, h3, h4, h5⟩ := hw; exact ⟨b, h3, h4, ih _ h5 h1 h2⟩
    all_goals (obtain ⟨b, h3, h4, h5, h6⟩ := hw; exact ⟨b, h3, h4, h5, ih _ h6 h1 h2⟩)

namespace PrefixTree
attribute [local irreducible] Block.rd Block.rdB

section
variable {base : Nat} {F : Nat → Option Block} {g : G} {ni nn : Nat} {h : Heap} {I : Heap → Prop}

theorem orEnd_spec {α : Type} {p : HProg α} {R : Out α → Heap → Prop} (hp : wpI I p R h) (hr : ∀ e h', R (.err e) h' → e = .outOfRange) :
    wpI I (orEnd p) (fun out h' => (∃ a, out = .ok (some a) ∧ R (.ok a) h') ∨ (out = .ok none ∧ R (.err .outOfRange) h')) h := by
  unfold orEnd
  refine wpI_tryCatch_of (R := fun out h' => (∃ a, out = .ok (some a) ∧ R (.ok a) h') ∨ (∃ e, out = .err e ∧ R (.err e) h')) _ _ ?_ ?_ ?_
  · refine wpI_bind_of hp ?_ ?_
    · intro a h' h1; exact Or.inl ⟨a, rfl, h1⟩
    · intro e h' h1; exact Or.inr ⟨e, rfl, h1⟩
  · rintro a h' (⟨b, h1, h2⟩ | ⟨e, h1, -⟩)
    · injection h1 with h1; subst h1
      exact Or.inl ⟨b, rfl, h2⟩
    · cases h1
  · rintro e h' (⟨b, h1, -⟩ | ⟨e', h1, h2⟩)
    · cases h1
    · injection h1 with h1; subst h1
      have := hr _ _ h2
      subst this
      rw [if_pos rfl]
      exact Or.inr ⟨rfl, h2⟩

/-- the answer of an iterator: the least key above `k` (or the least key) and its value, or the end -/
def IterRes (m : Bytes → Option Val) (k : Option Bytes) : Option (Bytes × Val) → Prop
  | some (k', v) => m k' = some v ∧ NextRes m k k'
  | none => NoNext m k

theorem iterNext_spec (t : Tr base F g ni nn h) {k : Option Bytes} (hs : ∀ k', k = some k' → Safe g k') :
    wpI I (iterNext base k) (fun out h' => h' = h ∧ ∃ r, out = .ok r ∧ IterRes g.kv k r) h := by
  unfold iterNext
  refine wpI_mono (fun _ h => h) ?_ (orEnd_spec (nextKV_spec t hs) ?_)
  · rintro out h' (⟨a, rfl, rfl, (⟨k', v, h1, h2, h3⟩ | ⟨h1, -⟩)⟩ | ⟨rfl, rfl, (⟨k', v, h1, -⟩ | ⟨-, h1⟩)⟩)
    · injection h1 with h1; subst h1
      exact ⟨rfl, _, rfl, h2, h3⟩
    · cases h1
    · cases h1
    · exact ⟨rfl, _, rfl, h1⟩
  · rintro e h' ⟨-, (⟨k', v, h1, -⟩ | ⟨h1, -⟩)⟩
    · cases h1
    · injection h1

theorem find_spec (t : Tr base F g ni nn h) (k : Bytes) : wpI I (find base k) (fun out h' => h' = h ∧ out = .ok ((g.kv k).map fun v => (k, v))) h := by
  unfold find
  have := at_spec (I := I) t k
  refine wpI_mono (fun _ h => h) ?_ (orEnd_spec (R := fun out h' => h' = h ∧ out = (match g.kv k with
    | some v => .ok (k, v)
    | none => .err .outOfRange)) ?_ ?_)
  · rintro out h' (⟨a, rfl, rfl, h1⟩ | ⟨rfl, rfl, h1⟩)
    · refine ⟨rfl, ?_⟩
      cases hk : g.kv k with
      | none => rw [hk] at h1; cases h1
      | some v => rw [hk] at h1; injection h1 with h1; rw [h1]; rfl
    · refine ⟨rfl, ?_⟩
      cases hk : g.kv k with
      | none => rfl
      | some v => rw [hk] at h1; cases h1
  · refine wpI_bind_of this ?_ ?_
    · rintro a h' ⟨rfl, h1⟩
      refine ⟨rfl, ?_⟩
      cases hk : g.kv k with
      | none => rw [hk] at h1; cases h1
      | some v => rw [hk] at h1; injection h1 with h1; rw [h1]
    · rintro a h' ⟨rfl, h1⟩
      refine ⟨rfl, ?_⟩
      cases hk : g.kv k with
      | none => rw [hk] at h1; injection h1 with h1; rw [h1]
      | some v => rw [hk] at h1; cases h1
  · rintro e h' ⟨-, h1⟩
    cases hk : g.kv k with
    | none => rw [hk] at h1; injection h1
    | some v => rw [hk] at h1; cases h1

theorem upperBound_spec (t : Tr base F g ni nn h) {k : Bytes} (hs : Safe g k) :
    wpI I (upperBound base k) (fun out h' => h' = h ∧ ∃ r, out = .ok r ∧ IterRes g.kv (some k) r) h :=
  iterNext_spec t (k := some k) (by rintro k' h; injection h with h; subst h; exact hs)

theorem lowerBound_spec (t : Tr base F g ni nn h) {k : Bytes} (hs : Safe g k) :
    wpI I (lowerBound base k) (fun out h' => h' = h ∧ ∃ r, out = .ok r ∧
      ((∃ v, g.kv k = some v ∧ r = some (k, v)) ∨ (g.kv k = none ∧ IterRes g.kv (some k) r))) h := by
  unfold lowerBound
  simp only [Prog.bind_def]
  refine wpI_bind_of (find_spec t k) ?_ (by rintro e h' ⟨-, h1⟩; cases h1)
  rintro r h' ⟨rfl, h1⟩
  injection h1 with h1; subst h1
  cases hk : g.kv k with
  | some v => exact ⟨rfl, _, rfl, Or.inl ⟨v, rfl, rfl⟩⟩
  | none =>
    refine wpI_mono (fun _ h => h) ?_ (upperBound_spec t hs)
    rintro out h2 ⟨h3, r, h4, h5⟩
    exact ⟨h3, r, h4, Or.inr ⟨rfl, h5⟩⟩

/-- keys of `m` from which an iteration still has to visit -/
def After (k : Option Bytes) (k' : Bytes) : Prop :=
  match k with
  | none => True
  | some k => k < k'

theorem iterate_spec (t : Tr base F g ni nn h) : ∀ (fuel : Nat) (k : Option Bytes) (l : List Bytes), (∀ k', k = some k' → g.kv k' ≠ none) →
    l.Nodup → (∀ k', k' ∈ l ↔ (g.kv k' ≠ none ∧ After k k')) → l.length < fuel →
    wpI I (iterate base fuel k) (fun out h' => h' = h ∧ ∃ r, out = .ok r ∧ (r.map Prod.fst).Pairwise (· < ·) ∧ ∀ k' v, (k', v) ∈ r ↔ (g.kv k' = some v ∧ After k k')) h := by
  intro fuel
  induction fuel with
  | zero => intro k l _ _ _ hl; omega
  | succ fuel ih =>
    intro k l hk hn hm hl
    unfold iterate
    simp only [Prog.bind_def]
    refine wpI_bind_of (iterNext_spec t (fun k' h => Safe.of_kv t (hk k' h))) ?_ (by rintro e h' ⟨-, r, h1, -⟩; cases h1)
    rintro r h' ⟨rfl, r', h1, h2⟩
    injection h1 with h1; subst h1
    cases r with
    | none =>
      refine ⟨rfl, [], rfl, by simp, ?_⟩
      intro k' v
      simp only [List.not_mem_nil, false_iff]
      rintro ⟨h3, h4⟩
      cases k with
      | none => rw [h2 k'] at h3; cases h3
      | some k => exact h2 k' (by rw [h3]; simp) h4
    | some x =>
      obtain ⟨k1, v1⟩ := x
      obtain ⟨h3, h4⟩ := h2
      -- what is left after k1
      have haft : ∀ k', g.kv k' ≠ none → (After k k' ↔ (k' = k1 ∨ k1 < k')) := by
        intro k' hk'
        cases k with
        | none =>
          obtain ⟨-, h6⟩ := h4
          simp only [After, true_iff]
          have := h6 k' hk'
          by_cases e : k' = k1
          · exact Or.inl e
          · right
            refine Classical.byContradiction fun h7 => e (List.le_antisymm (List.not_lt.1 h7) (List.not_lt.1 this))
        | some k =>
          obtain ⟨-, h5, h6⟩ := h4
          simp only [After]
          constructor
          · intro h7
            have := h6 k' hk' h7
            by_cases e : k' = k1
            · exact Or.inl e
            · right
              refine Classical.byContradiction fun h8 => e (List.le_antisymm (List.not_lt.1 h8) (List.not_lt.1 this))
          · rintro (rfl | h7)
            · exact h5
            · exact List.lt_trans h5 h7
      have hk1 : k1 ∈ l := by
        rw [hm]
        exact ⟨by rw [h3]; simp, (haft k1 (by rw [h3]; simp)).2 (Or.inl rfl)⟩
      refine wpI_bind_of (ih (some k1) (l.erase k1) ?_ (hn.erase _) ?_ ?_) ?_ (by rintro e h' ⟨-, r, h1, -⟩; cases h1)
      · rintro k' h5; injection h5 with h5; subst h5; rw [h3]; simp
      · intro k'
        rw [hn.mem_erase_iff, hm]
        simp only [After]
        constructor
        · rintro ⟨h5, h6, h7⟩
          rcases (haft k' h6).1 h7 with h8 | h8
          · exact absurd h8 h5
          · exact ⟨h6, h8⟩
        · rintro ⟨h5, h6⟩
          exact ⟨fun e => List.lt_irrefl _ (e ▸ h6), h5, (haft k' h5).2 (Or.inr h6)⟩
      · rw [List.length_erase_of_mem hk1]
        have := List.length_pos_of_mem hk1
        omega
      · rintro r h' ⟨rfl, r', h5, h6, h7⟩
        injection h5 with h5; subst h5
        refine ⟨rfl, _, rfl, ?_, ?_⟩
        · rw [List.map_cons, List.pairwise_cons]
          refine ⟨?_, h6⟩
          intro k' hk'
          obtain ⟨⟨a, b⟩, h8, rfl⟩ := List.mem_map.1 hk'
          exact ((h7 a b).1 h8).2
        · intro k' v
          rw [List.mem_cons, h7]
          constructor
          · rintro (h8 | ⟨h8, h9⟩)
            · injection h8 with h8 h9; subst h8; subst h9
              exact ⟨h3, (haft k' (by rw [h3]; simp)).2 (Or.inl rfl)⟩
            · exact ⟨h8, (haft k' (by rw [h8]; simp)).2 (Or.inr h9)⟩
          · rintro ⟨h8, h9⟩
            rcases (haft k' (by rw [h8]; simp)).1 h9 with h10 | h10
            · subst h10; rw [h3] at h8; injection h8 with h8; subst h8; exact Or.inl rfl
            · exact Or.inr ⟨h8, h10⟩

/-! ### Bounds -/

/-- paths of nodes are shorter than the address space -/
theorem Tr.depth (t : Tr base F g ni nn h) {p : Bytes} (hp : g.nd p ≠ none) : p.length < W64 := by
  have hall : ∀ i, i ≤ p.length → g.nd (p.take i) ≠ none := by
    intro i _
    refine t.parent (r := p.drop i) ?_
    rw [List.take_append_drop]; exact hp
  have hinj : ((List.range (p.length + 1)).map fun i => addr g (p.take i)).Nodup := by
    rw [List.Nodup, List.pairwise_map]
    refine List.Pairwise.imp_of_mem ?_ List.nodup_range
    intro i j hi hj hne e
    rw [List.mem_range] at hi hj
    have := congrArg List.length (t.addr_inj (hall i (by omega)) (hall j (by omega)) e)
    rw [List.length_take, List.length_take] at this
    omega
  have := nodup_lt hinj (n := W64) (by
    intro x hx
    obtain ⟨i, -, rfl⟩ := List.mem_map.1 hx
    exact t.addr_lt _)
  rw [List.length_map, List.length_range] at this
  omega

theorem Tr.deep (t : Tr base F g ni nn h) (q : Bytes) {f : Nat} (hf : W64 < f) : Deep g q f := by
  refine ⟨by omega, fun r hr => ?_⟩
  have := t.depth hr
  rw [List.length_append] at this
  omega

/-- there are fewer than 2^64 nodes -/
theorem Tr.nodes_lt (t : Tr base F g ni nn h) {n : Nat} (hc : Card g.nd n) : n < W64 := by
  obtain ⟨l, h1, h2, rfl⟩ := hc
  have h8 : ∀ p, g.nd p ≠ none → addr g p % 8 = 0 := by
    intro p hp
    unfold addr
    split
    · rfl
    · rename_i hne
      obtain ⟨p', b, rfl⟩ := exists_snoc hne
      obtain ⟨hd, hq⟩ := Option.ne_none_iff_exists'.1 hp
      rw [hq]
      exact (t.child _ _ _ hq).2.2.1
  have hinj : (l.map fun p => addr g p / 8).Nodup := by
    rw [List.Nodup, List.pairwise_map]
    refine List.Pairwise.imp_of_mem ?_ h1
    intro p q hp hq hne e
    have h3 := h8 p ((h2 p).1 hp)
    have h4 := h8 q ((h2 q).1 hq)
    exact hne (t.addr_inj ((h2 p).1 hp) ((h2 q).1 hq) (by omega))
  have := nodup_lt hinj (n := 2305843009213693952) (by
    intro x hx
    obtain ⟨p, -, rfl⟩ := List.mem_map.1 hx
    have := t.addr_lt p
    omega)
  rw [List.length_map] at this
  omega

theorem Tr.slot_inj (t : Tr base F g ni nn h) {q q' : Bytes} {a : Addr} (h1 : SlotAt g q a) (h2 : SlotAt g q' a) : q = q' := by
  have hnode : ∀ {p p' : Bytes} {hd hd' : Hd}, g.nd p = some hd → g.nd p' = some hd' → hd.o = hd'.o → p = p' :=
    fun hp hp' e => Classical.byContradiction fun hne => t.nd_ne hp hp' hne e
  rcases h1 with ⟨hd, h3, rfl⟩ | ⟨-, p, b, hp, rfl, h3, h4, h5, rfl⟩ <;> rcases h2 with ⟨hd', h6, h7⟩ | ⟨-, p', b', hp', rfl, h6, h8, h9, h7⟩
  · exact hnode h3 h6 (congrArg Prod.fst h7)
  · have e := hnode h3 h6 (congrArg Prod.fst h7)
    subst e
    rw [h3] at h6; cases h6
    have := congrArg Prod.snd h7
    simp only [slotOf] at this; omega
  · have e := hnode h3 h6 (congrArg Prod.fst h7)
    subst e
    rw [h3] at h6; cases h6
    have := congrArg Prod.snd h7
    simp only [slotOf] at this; omega
  · have e := hnode h3 h6 (congrArg Prod.fst h7)
    subst e
    rw [h3] at h6; cases h6
    have := congrArg Prod.snd h7
    simp only [slotOf] at this
    rw [toNat_inj (show b.toNat = b'.toNat by omega)]

theorem Tr.slot_exists (t : Tr base F g ni nn h) {q : Bytes} (hq : g.vl q ≠ none) : ∃ a, SlotAt g q a := by
  obtain ⟨⟨c, v⟩, hv⟩ := Option.ne_none_iff_exists'.1 hq
  cases hn : g.nd q with
  | some hd => exact ⟨_, Or.inl ⟨hd, hn, rfl⟩⟩
  | none =>
    obtain ⟨p, b, hp, h1, h2, h3, h4⟩ := (t.val q c v hv).2 hn
    exact ⟨_, Or.inr ⟨hn, p, b, hp, h1, h2, h3, h4, rfl⟩⟩

/-- there are fewer than 2^64 keys -/
theorem Tr.keys_lt (t : Tr base F g ni nn h) (hk : HeapOk h) {n : Nat} (hc : Card g.vl n) : n < W64 := by
  classical
  obtain ⟨l, h1, h2, rfl⟩ := hc
  let f : Bytes → Addr := fun q => if hq : g.vl q ≠ none then (t.slot_exists hq).choose else (0, 0)
  have hf : ∀ q, g.vl q ≠ none → SlotAt g q (f q) := by
    intro q hq
    simp only [f, dif_pos hq]; exact (t.slot_exists hq).choose_spec
  have hinj : (l.map fun q => (f q).1 + (f q).2).Nodup := by
    rw [List.Nodup, List.pairwise_map]
    refine List.Pairwise.imp_of_mem ?_ h1
    intro p q hp hq hne e
    have s1 := hf p ((h2 p).1 hp)
    have s2 := hf q ((h2 q).1 hq)
    obtain ⟨B, hB, h3, -⟩ := t.slot_rd s1
    obtain ⟨C, hC, h4, -⟩ := t.slot_rd s2
    by_cases e1 : (f p).1 = (f q).1
    · have : f p = f q := Prod.ext e1 (by omega)
      rw [this] at s1
      exact hne (t.slot_inj s1 s2)
    · have := hk.disj _ _ _ _ hB hC e1
      omega
  have := nodup_lt hinj (n := 9223372036854775808) (by
    intro x hx
    obtain ⟨p, hp, rfl⟩ := List.mem_map.1 hx
    obtain ⟨B, hB, h3, -⟩ := t.slot_rd (hf p ((h2 p).1 hp))
    have := hk.lt _ _ hB
    omega)
  rw [List.length_map] at this
  omega

/-! ### clear -/

theorem clear_spec {P : (Bytes → Option Val) → Prop} (t : Tr base F g ni nn h) (hP : ∀ m, Sub m g.kv → P m) :
    wpI (Cr base P) (clear base) (fun out h' => out = .ok () ∧ ∃ g' ni' nn', Tr base F g' ni' nn' h' ∧ (∀ k, g'.kv k = none) ∧ (∀ p, g'.nd p ≠ none ↔ p = []) ∧
      (Card g.vl ni → Card g'.vl ni') ∧ (Card g.nd nn → Card g'.nd nn')) h := by
  have hm : maxSteps = 340282366920938463463374607431768211455 + 1 := maxSteps_eq
  unfold clear
  rw [hm]
  have : root base = ((rootHd base).o, (rootHd base).off) := rfl
  rw [this]
  refine wpI_mono (fun _ h => h) ?_ (clearNode_spec (slotSpec _) t t.root (fun b => t.deep _ (by omega)) hP)
  rintro out h' ⟨h1, g', ni', nn', t', -, h3, h4, h5, -, h6, h7⟩
  refine ⟨h1, g', ni', nn', t', ?_, ?_, h6, h7⟩
  · intro k
    by_cases e : k = []
    · subst e; exact kv_none.2 h4
    · exact kv_none.2 (h5 k (List.nil_prefix) e).2
  · intro p
    constructor
    · intro hp
      exact Classical.byContradiction fun e => hp (h5 p (List.nil_prefix) e).1
    · rintro rfl; rw [h3]; simp

end
end PrefixTree
end Verif
