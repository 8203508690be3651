import Verif.PrefixTreeIncr
/-
Methods that read or store one value.
-/
namespace Verif.PrefixTree
open Verif
attribute [local irreducible] Block.rd Block.rdB

/-- the type of a value as `type` reports it -/
def rtype : Option Val → RType
  | none => .missing
  | some (.str _) => .string
  | some (.int _) => .int
  | some (.dbl _) => .double
  | some (.bool _) => .bool
  | some .null => .null

section
variable {base : Nat} {F : Nat → Option Block} {g : G} {ni nn : Nat} {h : Heap} {I : Heap → Prop} {P : (Bytes → Option Val) → Prop}

theorem kv_of {k : Bytes} {c : Nat} {v : Val} (hq : g.vl k = some (c, v)) : g.kv k = some v := by unfold G.kv; rw [hq]; rfl
theorem kv_none {k : Bytes} : g.kv k = none ↔ g.vl k = none := by unfold G.kv; cases g.vl k <;> simp
theorem kv_some {k : Bytes} {v : Val} (hk : g.kv k = some v) : ∃ c, g.vl k = some (c, v) := by
  unfold G.kv at hk
  cases hq : g.vl k with
  | none => rw [hq] at hk; cases hk
  | some cv => rw [hq] at hk; obtain ⟨c, v'⟩ := cv; injection hk with hk; exact ⟨c, by rw [← hk]⟩

theorem executeCheck_spec (t : Tr base F g ni nn h) (c : Check) : wpI I (executeCheck base c) (fun out h' => h' = h ∧ out = .ok (cmp (g.kv c.1) c.2)) h := by
  unfold executeCheck
  simp only [Prog.bind_def]
  refine wpI_bind_of (traverse_spec t c.1) ?_ ?_
  · rintro r h' ⟨rfl, (⟨a, ns, h1, h2, -⟩ | ⟨ns, h1, -, h2⟩)⟩
    · injection h1 with h1; subst h1
      obtain ⟨B, hB, hsz, hrd⟩ := t.slot_rd h2
      refine wpI_rd hB hsz ?_
      rw [hrd]
      cases hq : g.vl c.1 with
      | none => rw [cw_none, if_neg (by simp), kv_none.2 hq]; exact ⟨rfl, rfl⟩
      | some cv =>
        obtain ⟨w, v⟩ := cv
        have he := (t.val _ _ _ hq).1
        rw [cw_some, if_pos he.type_ok.2.2, kv_of hq]
        refine wpI_bind_of (lookup_spec he) ?_ (by rintro e h' ⟨-, h1⟩; cases h1)
        rintro v' h' ⟨rfl, h1⟩
        injection h1 with h1; subst h1
        exact ⟨rfl, rfl⟩
    · injection h1 with h1; subst h1
      rw [kv_none.2 h2]; exact ⟨rfl, rfl⟩
  · rintro e h' ⟨rfl, (⟨a, ns, h1, -⟩ | ⟨ns, h1, -⟩)⟩ <;> cases h1

/-- does the check pass? -/
def checkVal (m : Bytes → Option Val) : Option Check → Bool
  | none => true
  | some c => cmp (m c.1) c.2

theorem checkOk_spec (t : Tr base F g ni nn h) (c : Option Check) : wpI I (checkOk base c) (fun out h' => h' = h ∧ out = .ok (checkVal g.kv c)) h := by
  cases c with
  | none => exact ⟨rfl, rfl⟩
  | some c => exact executeCheck_spec t c

theorem at_spec (t : Tr base F g ni nn h) (k : Bytes) : wpI I («at» base k) (fun out h' => h' = h ∧ out = (match g.kv k with
    | some v => .ok v
    | none => .err .outOfRange)) h := by
  unfold «at»
  simp only [Prog.bind_def]
  refine wpI_bind_of (traverse_spec t k) ?_ ?_
  · rintro r h' ⟨rfl, (⟨a, ns, h1, h2, -⟩ | ⟨ns, h1, -, h2⟩)⟩
    · injection h1 with h1; subst h1
      obtain ⟨B, hB, hsz, hrd⟩ := t.slot_rd h2
      refine wpI_rd hB hsz ?_
      rw [hrd]
      cases hq : g.vl k with
      | none => rw [cw_none, if_pos rfl, kv_none.2 hq]; exact ⟨rfl, rfl⟩
      | some cv =>
        obtain ⟨w, v⟩ := cv
        have he := (t.val _ _ _ hq).1
        rw [cw_some, if_neg he.type_ok.2.2, kv_of hq]
        exact lookup_spec he
    · injection h1 with h1; subst h1
      rw [kv_none.2 h2]; exact ⟨rfl, rfl⟩
  · rintro e h' ⟨rfl, (⟨a, ns, h1, -⟩ | ⟨ns, h1, -⟩)⟩ <;> cases h1

theorem type_spec (t : Tr base F g ni nn h) (k : Bytes) : wpI I (type base k) (fun out h' => h' = h ∧ out = .ok (rtype (g.kv k))) h := by
  unfold type
  simp only [Prog.bind_def]
  refine wpI_bind_of (traverse_spec t k) ?_ ?_
  · rintro r h' ⟨rfl, (⟨a, ns, h1, h2, -⟩ | ⟨ns, h1, -, h2⟩)⟩
    · injection h1 with h1; subst h1
      obtain ⟨B, hB, hsz, hrd⟩ := t.slot_rd h2
      refine wpI_rd hB hsz ?_
      rw [hrd]
      cases hq : g.vl k with
      | none => rw [cw_none, if_pos (show typeOf 0 = 0 from rfl), kv_none.2 hq]; exact ⟨rfl, rfl⟩
      | some cv =>
        obtain ⟨w, v⟩ := cv
        have he := (t.val _ _ _ hq).1
        have hty := he.type
        rw [cw_some, if_neg he.type_ok.1, kv_of hq]
        cases v with
        | str v =>
          simp only at hty
          rw [if_pos (by split at hty <;> omega)]; exact ⟨rfl, rfl⟩
        | int v =>
          simp only at hty
          rw [if_neg (by split at hty <;> omega), if_pos (by split at hty <;> omega)]; exact ⟨rfl, rfl⟩
        | dbl v =>
          simp only at hty
          rw [if_neg (by omega), if_neg (by omega), if_pos hty]; exact ⟨rfl, rfl⟩
        | bool b =>
          cases b <;> (cases he.2.2.1; exact ⟨rfl, rfl⟩)
        | null => cases he.2.2.1; exact ⟨rfl, rfl⟩
    · injection h1 with h1; subst h1
      rw [kv_none.2 h2]; exact ⟨rfl, rfl⟩
  · rintro e h' ⟨rfl, (⟨a, ns, h1, -⟩ | ⟨ns, h1, -⟩)⟩ <;> cases h1

theorem exists_spec (t : Tr base F g ni nn h) (k : Bytes) : wpI I (existsKey base k) (fun out h' => h' = h ∧ ∃ b, out = .ok b ∧ (b = true ↔ (g.nd k ≠ none ∨ g.kv k ≠ none))) h := by
  unfold existsKey
  simp only [Prog.bind_def]
  refine wpI_bind_of (traverse_spec t k) ?_ ?_
  · rintro r h' ⟨rfl, (⟨a, ns, h1, h2, -, h3⟩ | ⟨ns, h1, h2, h3⟩)⟩
    · injection h1 with h1; subst h1
      refine ⟨rfl, true, rfl, fun _ => ?_, fun _ => rfl⟩
      rcases h3 with h3 | h3
      · exact Or.inl h3
      · exact Or.inr (fun h => h3 (kv_none.1 h))
    · injection h1 with h1; subst h1
      refine ⟨rfl, false, rfl, fun h => (by cases h), ?_⟩
      rintro (h4 | h4)
      · exact absurd h2 h4
      · exact absurd (kv_none.2 h3) h4
  · rintro e h' ⟨rfl, (⟨a, ns, h1, -⟩ | ⟨ns, h1, -⟩)⟩ <;> cases h1

theorem size_spec (t : Tr base F g ni nn h) : wpI I (size base) (fun out h' => h' = h ∧ out = .ok (ni % W64)) h := by
  obtain ⟨B, h1, h2, h3⟩ := t.cnt
  have := t.base_size h1
  unfold size
  rw [← bind_ret (H.rd64 _ _)]
  refine wpI_rd h1 (by omega) ?_
  rw [h2]; exact ⟨rfl, rfl⟩

theorem nodeSize_spec (t : Tr base F g ni nn h) : wpI I (nodeSize base) (fun out h' => h' = h ∧ out = .ok (nn % W64)) h := by
  obtain ⟨B, h1, h2, h3⟩ := t.cnt
  have := t.base_size h1
  unfold nodeSize
  rw [← bind_ret (H.rd64 _ _)]
  refine wpI_rd h1 (by omega) ?_
  rw [h3]; exact ⟨rfl, rfl⟩

/-- storing a value of any type -/
theorem store_spec (t : Tr base F g ni nn h) {q : Bytes} {a : Addr} (hs : SlotAt g q a) {v : Val} (hl : ∀ d, v = .str d → d.length ≤ maxAlloc)
    (h0 : P g.kv) (h1 : P (upd g.kv q none)) (h2 : P (upd g.kv q (some (norm v))))
    (h3 : ∀ d x, v = .dbl d → isZero d = false → g.kv q = some (.int x) → P (upd g.kv q (some (.int d)))) :
    wpI (Cr base P) (store base a v) (fun out h' => ∃ g' ni', Tr base F g' ni' nn h' ∧
      ((out = .ok () ∧ Stored g g' q (some (norm v)) ni ni') ∨
       (out = .err .noMem ∧ inline v = false ∧ ∃ w, Stored g g' q w ni ni' ∧ (w = g.kv q ∨ (w = none ∧ ∀ d, v ≠ .dbl d))))) h := by
  have hgen : (∀ d, v ≠ .dbl d) → norm v = v → wpI (Cr base P) (storeVal base a v) (fun out h' => ∃ g' ni', Tr base F g' ni' nn h' ∧
      ((out = .ok () ∧ Stored g g' q (some (norm v)) ni ni') ∨
       (out = .err .noMem ∧ inline v = false ∧ ∃ w, Stored g g' q w ni ni' ∧ (w = g.kv q ∨ (w = none ∧ ∀ d, v ≠ .dbl d))))) h := by
    intro hd hn
    rw [hn] at h2 ⊢
    refine wpI_mono (fun _ h => h) ?_ (storeVal_spec t hs hd hl h0 h1 h2)
    rintro out h' ⟨g', ni', t', (⟨h4, h5⟩ | ⟨h4, h5, h6⟩)⟩
    · exact ⟨g', ni', t', Or.inl ⟨h4, h5⟩⟩
    · exact ⟨g', ni', t', Or.inr ⟨h4, h5, none, h6, Or.inr ⟨rfl, hd⟩⟩⟩
  cases v with
  | dbl d =>
    refine wpI_mono (fun _ h => h) ?_ (storeDbl_spec t hs h0 h1 h2 (fun x hz hx => h3 d x rfl hz hx))
    rintro out h' (⟨h4, g', ni', t', h5⟩ | ⟨h4, rfl, h5⟩)
    · exact ⟨g', ni', t', Or.inl ⟨h4, h5⟩⟩
    · exact ⟨g, ni, t, Or.inr ⟨h4, h5, g.kv q, ⟨rfl, (upd_self rfl).symm, fun h => h⟩, Or.inl rfl⟩⟩
  | str v => exact hgen (by simp) rfl
  | int v => exact hgen (by simp) rfl
  | bool v => exact hgen (by simp) rfl
  | null => exact hgen (by simp) rfl

/-- every node but the root has something below it -/
def Tight (g : G) : Prop := ∀ p, p ≠ [] → g.nd p ≠ none → ∃ b, g.nd (p ++ [b]) ≠ none ∨ g.kv (p ++ [b]) ≠ none

/-- a slot's proper prefixes are nodes -/
theorem SlotAt.prefix (t : Tr base F g ni nn h) {q : Bytes} {a : Addr} (hs : SlotAt g q a) {r s : Bytes} (hq : q = r ++ s) (hsne : s ≠ []) : g.nd r ≠ none := by
  rcases hs with ⟨hd, h1, -⟩ | ⟨h0, p, b, hp, h2, h3, -⟩
  · exact t.parent (r := s) (by rw [← hq, h1]; simp)
  · obtain ⟨s', b', rfl⟩ := exists_snoc hsne
    rw [h2, ← List.append_assoc] at hq
    obtain ⟨rfl, rfl⟩ := snoc_inj hq
    exact t.parent (r := s') (by rw [h3]; simp)

theorem tight_insert {g g1 g' : G} {F1 : Nat → Option Block} {ni1 nn1 : Nat} {h1 : Heap} (t1 : Tr base F1 g1 ni1 nn1 h1) {k : Bytes} {a : Addr} {v : Val} (hg : Grown g g1 k)
    (hs : SlotAt g1 k a) (hnd : g'.nd = g1.nd) (hkv : g'.kv = upd g1.kv k (some v)) (ht : Tight g) : Tight g' := by
  intro p hp hn
  rw [hnd] at hn
  have hkey : ∀ q, g.kv q ≠ none → g'.kv q ≠ none := by
    intro q hq
    rw [hkv]; unfold upd
    split
    · simp
    · rw [hg.kv]; exact hq
  rcases hg.new p hn with h2 | ⟨s, hs1, hs2⟩
  · obtain ⟨b, hb⟩ := ht p hp h2
    refine ⟨b, ?_⟩
    rcases hb with hb | hb
    · left; rw [hnd]; exact hg.old _ hb
    · right; exact hkey _ hb
  · cases s with
    | nil => exact absurd rfl hs1
    | cons b s' =>
      refine ⟨b, ?_⟩
      by_cases e : s' = []
      · subst e; right; rw [hkv, hs2]; unfold upd; simp
      · left; rw [hnd]
        exact hs.prefix t1 (s := s') (by rw [hs2]; simp) e

/-- **insert** -/
theorem insert_spec (t : Tr base F g ni nn h) {k : Bytes} {v : Val} {c : Option Check} (hl : ∀ d, v = .str d → d.length ≤ maxAlloc)
    (h0 : P g.kv) (h1 : checkVal g.kv c = true → P (upd g.kv k none)) (h2 : checkVal g.kv c = true → P (upd g.kv k (some (norm v))))
    (h3 : checkVal g.kv c = true → ∀ d x, v = .dbl d → isZero d = false → g.kv k = some (.int x) → P (upd g.kv k (some (.int d)))) :
    wpI (Cr base P) (insert base k v c) (fun out h' => (checkVal g.kv c = false ∧ out = .ok false ∧ h' = h) ∨
      (checkVal g.kv c = true ∧ ∃ g' ni' nn', Tr base F g' ni' nn' h' ∧ (Card g.vl ni → Card g'.vl ni') ∧ (Card g.nd nn → Card g'.nd nn') ∧
        ((out = .ok true ∧ g'.kv = upd g.kv k (some (norm v)) ∧ (Tight g → Tight g')) ∨
         (out = .err .noMem ∧ (g'.kv = g.kv ∨ (g'.kv = upd g.kv k none ∧ inline v = false ∧ ∀ d, v ≠ .dbl d)))))) h := by
  unfold insert
  simp only [Prog.bind_def]
  refine wpI_bind_of (checkOk_spec t c) ?_ (by rintro e h' ⟨-, h1⟩; cases h1)
  rintro go h' ⟨rfl, hgo⟩
  injection hgo with hgo
  subst hgo
  split
  · rename_i hc
    refine wpI_bind_of (traverseCreate_spec t h0 k) ?_ ?_
    · rintro a h' ⟨g1, nn1, t1, hg, hcn, (⟨a', h4, hs⟩ | ⟨h4, hvn⟩), -⟩
      · injection h4 with h4; subst h4
        refine wpI_bind_of (store_spec t1 hs (v := v) hl (by rw [hg.kv]; exact h0) (by rw [hg.kv]; exact h1 hc) (by rw [hg.kv]; exact h2 hc) (by rw [hg.kv]; exact h3 hc)) ?_ ?_
        · rintro _ h' ⟨g', ni', t', (⟨h5, h6⟩ | ⟨h5, -⟩)⟩
          · refine Or.inr ⟨hc, g', ni', nn1, t', ?_, ?_, Or.inl ⟨rfl, by rw [h6.kv, hg.kv], tight_insert t1 hg hs h6.nd h6.kv⟩⟩
            · rw [← hg.vl]; exact h6.card
            · rw [h6.nd]; exact hcn
          · cases h5
        · rintro e h' ⟨g', ni', t', (⟨h5, h6⟩ | ⟨h5, h6, w, h7, h8⟩)⟩
          · cases h5
          · injection h5 with h5; subst h5
            refine Or.inr ⟨hc, g', ni', nn1, t', ?_, ?_, Or.inr ⟨rfl, ?_⟩⟩
            · rw [← hg.vl]; exact h7.card
            · rw [h7.nd]; exact hcn
            · rcases h8 with h8 | ⟨h8, h9⟩
              · left; rw [h7.kv, upd_self h8.symm, hg.kv]
              · right; exact ⟨by rw [h7.kv, h8, hg.kv], h6, h9⟩
      · cases h4
    · rintro e h' ⟨g1, nn1, t1, hg, hcn, (⟨a', h4, hs⟩ | ⟨h4, hvn⟩), -⟩
      · cases h4
      · injection h4 with h4; subst h4
        refine Or.inr ⟨hc, g1, ni, nn1, t1, ?_, hcn, Or.inr ⟨rfl, Or.inl hg.kv⟩⟩
        rw [hg.vl]; exact fun h => h
  · rename_i hc
    exact Or.inl ⟨by simpa using hc, rfl, rfl⟩

/-- **incr of an integer** -/
theorem incrInt_spec (t : Tr base F g ni nn h) {k : Bytes} {d : BitVec 64} (h0 : P g.kv) (h1 : g.kv k = none → P (upd g.kv k (some (.int d))))
    (h2 : ∀ x, g.kv k = some (.int x) → P (upd g.kv k (some (.int (x + d))))) :
    wpI (Cr base P) (incrInt base k d) (fun out h' => ∃ g' ni' nn', Tr base F g' ni' nn' h' ∧ (Card g.nd nn → Card g'.nd nn') ∧
      ((∃ x, (g.kv k = some (.int x) ∨ (g.kv k = none ∧ x = 0#64)) ∧ out = .ok (x + d) ∧ g'.kv = upd g.kv k (some (.int (x + d))) ∧ (Card g.vl ni → Card g'.vl ni') ∧ (Tight g → Tight g')) ∨
       (out = .err .outOfRange ∧ (∃ v, g.kv k = some v ∧ ∀ x, v ≠ .int x) ∧ h' = h ∧ g' = g ∧ ni' = ni ∧ nn' = nn) ∨
       (out = .err .noMem ∧ g'.vl = g.vl ∧ (g.kv k ≠ none → ni' = ni) ∧ (ni' = ni ∨ (ni' = ni + 1 ∧ fits d = false)) ∧ (∀ v, g.kv k = some v → ∃ x, v = .int x)))) h := by
  unfold incrInt
  simp only [Prog.bind_def]
  refine wpI_bind_of (traverseCreate_spec t h0 k) ?_ ?_
  · rintro a h' ⟨g1, nn1, t1, hg, hcn, (⟨a', h4, hs⟩ | ⟨h4, hvn⟩), hun⟩
    · injection h4 with h4; subst h4
      obtain ⟨B, hB, hsz, hrd⟩ := t1.slot_rd hs
      refine wpI_rd hB hsz ?_
      rw [hrd]
      -- the store
      have key : ∀ (x : BitVec 64) (ni1 : Nat) (h1 : Heap), Tr base F g1 ni1 nn1 h1 → (∀ c v, g1.vl k = some (c, v) → ∃ y, v = .int y) →
          ((g1.kv k = some (.int x) ∧ ni1 = ni) ∨ (g1.kv k = none ∧ x = 0#64 ∧ ni1 = ni + 1)) →
          wpI (Cr base P) ((storeIncr a (cw (g1.vl k)) (x + d)).bind fun _ => .ret (x + d)) (fun out h' => ∃ g' ni' nn', Tr base F g' ni' nn' h' ∧ (Card g.nd nn → Card g'.nd nn') ∧
            ((∃ x, (g.kv k = some (.int x) ∨ (g.kv k = none ∧ x = 0#64)) ∧ out = .ok (x + d) ∧ g'.kv = upd g.kv k (some (.int (x + d))) ∧ (Card g.vl ni → Card g'.vl ni') ∧ (Tight g → Tight g')) ∨
             (out = .err .outOfRange ∧ (∃ v, g.kv k = some v ∧ ∀ x, v ≠ .int x) ∧ h' = h ∧ g' = g ∧ ni' = ni ∧ nn' = nn) ∨
             (out = .err .noMem ∧ g'.vl = g.vl ∧ (g.kv k ≠ none → ni' = ni) ∧ (ni' = ni ∨ (ni' = ni + 1 ∧ fits d = false)) ∧ (∀ v, g.kv k = some v → ∃ x, v = .int x)))) h1 := by
        intro x ni1 hp1 t2 hint hx
        have hPx : P (upd g1.kv k (some (.int (x + d)))) := by
          rw [hg.kv] at hx ⊢
          rcases hx with ⟨hx, -⟩ | ⟨hx, rfl, -⟩
          · exact h2 x hx
          · rw [BitVec.zero_add]; exact h1 hx
        refine wpI_bind_of (storeIncr_spec t2 hs rfl hint (x := x + d) (by rw [hg.kv]; exact h0) hPx) ?_ ?_
        · rintro _ h' (⟨h5, c', t3⟩ | ⟨h5, -⟩)
          · refine ⟨_, ni1, nn1, t3, hcn, Or.inl ⟨x, ?_, rfl, by rw [kv_setV, hg.kv]; rfl, ?_, ?_⟩⟩
            · rw [hg.kv] at hx
              rcases hx with ⟨hx, -⟩ | ⟨hx, rfl, -⟩
              · exact Or.inl hx
              · exact Or.inr ⟨hx, rfl⟩
            · intro hc
              rw [← hg.vl] at hc
              rcases hx with ⟨hx, rfl⟩ | ⟨hx, rfl, rfl⟩
              · obtain ⟨c, hx'⟩ := kv_some hx
                exact hc.set_old (by simp) (by rw [hx']; simp)
              · exact hc.set_new (by simp) (kv_none.1 hx)
            · exact tight_insert t2 hg hs rfl (by rw [kv_setV]; rfl)
          · cases h5
        · rintro e h' (⟨h5, -⟩ | ⟨h5, rfl, hfit⟩)
          · cases h5
          · injection h5 with h5; subst h5
            refine ⟨g1, ni1, nn1, t2, hcn, Or.inr (Or.inr ⟨rfl, hg.vl, ?_, ?_, ?_⟩)⟩
            · intro hne
              rw [← hg.kv] at hne
              rcases hx with ⟨-, hx⟩ | ⟨hx, -⟩
              · exact hx
              · exact absurd hx hne
            · rcases hx with ⟨-, hx⟩ | ⟨hx, rfl, hx2⟩
              · exact Or.inl hx
              · right
                rw [BitVec.zero_add] at hfit
                exact ⟨hx2, hfit⟩
            · intro v hv
              rw [← hg.kv] at hv
              obtain ⟨c, hv'⟩ := kv_some hv
              exact hint c v hv'
      cases hq : g1.vl k with
      | none =>
        rw [hq] at key
        rw [cw_none] at key ⊢
        rw [if_neg (show ¬ typeOf 0 = 2 by decide), if_neg (show ¬ typeOf 0 = 3 by decide), if_pos rfl]
        refine wpI_bind_of (addItems_spec t1 (by rw [hg.kv]; exact h0) 1 (ni + 1) rfl) ?_ (by rintro e h' ⟨h1, -⟩; cases h1)
        rintro _ h2 ⟨-, t2⟩
        exact key 0#64 (ni + 1) h2 t2 (by intro c v e; cases e) (Or.inr ⟨kv_none.2 hq, rfl, rfl⟩)
      | some cv =>
        obtain ⟨c, v⟩ := cv
        have he := (t1.val k c v hq).1
        obtain ⟨ht0, ht7, hc0⟩ := he.type_ok
        have hty := he.type
        rw [hq] at key
        rw [cw_some] at key ⊢
        have hkv := kv_of hq
        have hout : (∀ x, v ≠ .int x) → (∃ v, g.kv k = some v ∧ ∀ x, v ≠ .int x) ∧ h' = h ∧ g1 = g ∧ nn1 = nn := by
          intro hv
          rw [hg.kv] at hkv
          exact ⟨⟨v, hkv, hv⟩, hun (by rw [← hg.vl, hq]; simp)⟩
        have hbad : (∀ x, v ≠ .int x) → typeOf c ≠ 2 → typeOf c ≠ 3 → wpI (Cr base P) (if typeOf c = 2 then (storeIncr a c (intOf c + d)).bind fun _ => pure (intOf c + d)
            else if typeOf c = 3 then (H.rd64 (valOf c) 0).bind fun x => (storeIncr a c (BitVec.ofNat 64 x + d)).bind fun _ => pure (BitVec.ofNat 64 x + d)
            else if c = 0 then (addItems base 1).bind fun _ => (storeIncr a c (0#64 + d)).bind fun _ => pure (0#64 + d)
            else .err .outOfRange) (fun out h' => ∃ g' ni' nn', Tr base F g' ni' nn' h' ∧ (Card g.nd nn → Card g'.nd nn') ∧
            ((∃ x, (g.kv k = some (.int x) ∨ (g.kv k = none ∧ x = 0#64)) ∧ out = .ok (x + d) ∧ g'.kv = upd g.kv k (some (.int (x + d))) ∧ (Card g.vl ni → Card g'.vl ni') ∧ (Tight g → Tight g')) ∨
             (out = .err .outOfRange ∧ (∃ v, g.kv k = some v ∧ ∀ x, v ≠ .int x) ∧ h' = h ∧ g' = g ∧ ni' = ni ∧ nn' = nn) ∨
             (out = .err .noMem ∧ g'.vl = g.vl ∧ (g.kv k ≠ none → ni' = ni) ∧ (ni' = ni ∨ (ni' = ni + 1 ∧ fits d = false)) ∧ (∀ v, g.kv k = some v → ∃ x, v = .int x)))) h' := by
          intro hv h5 h6
          rw [if_neg h5, if_neg h6, if_neg hc0]
          obtain ⟨h7, h8, h9, h10⟩ := hout hv
          exact ⟨g1, ni, nn1, t1, hcn, Or.inr (Or.inl ⟨rfl, h7, h8, h9, rfl, h10⟩)⟩
        cases v with
        | int y =>
          rcases he.2.2.1 with ⟨h5, h6⟩ | ⟨h5, h6⟩
          · have ht : typeOf c = 2 := by rw [h6]; unfold typeOf; rw [intWord_eq]; omega
            rw [if_pos ht]
            have hi : intOf c = y := by rw [h6]; exact intOf_intWord h5
            rw [hi]
            exact key y ni h' t1 (by intro c v e; injection e with e; injection e with e1 e2; exact ⟨y, e2.symm⟩) (Or.inl ⟨hkv, rfl⟩)
          · have ht : typeOf c = 3 := h5
            have hb : buf c = valOf c := by unfold buf; rw [if_pos (by omega)]
            obtain ⟨B2, hB2, h7, h8⟩ := he.2.2.2 (by rw [hb]; unfold valOf; omega)
            rw [hb] at hB2
            rw [if_neg (by omega), if_pos ht]
            refine wpI_rd hB2 (by omega) ?_
            rw [h8, BitVec.ofNat_toNat, BitVec.setWidth_eq]
            exact key y ni h' t1 (by intro c v e; injection e with e; injection e with e1 e2; exact ⟨y, e2.symm⟩) (Or.inl ⟨hkv, rfl⟩)
        | str v => simp only at hty; exact hbad (by simp) (by split at hty <;> omega) (by split at hty <;> omega)
        | dbl v => simp only at hty; exact hbad (by simp) (by omega) (by omega)
        | bool v => simp only at hty; exact hbad (by simp) (by omega) (by omega)
        | null => simp only at hty; exact hbad (by simp) (by omega) (by omega)
    · cases h4
  · rintro e h' ⟨g1, nn1, t1, hg, hcn, (⟨a', h4, hs⟩ | ⟨h4, hvn⟩), -⟩
    · cases h4
    · injection h4 with h4; subst h4
      exact ⟨g1, ni, nn1, t1, hcn, Or.inr (Or.inr ⟨rfl, hg.vl, fun _ => rfl, Or.inl rfl, fun v hv => by rw [kv_none.2 hvn] at hv; cases hv⟩)⟩

/-- **incr of a double**; a delta of zero on an absent key is a bug of the code, and excluded here -/
theorem incrDbl_spec {add : BitVec 64 → BitVec 64 → BitVec 64} (t : Tr base F g ni nn h) {k : Bytes} {d : BitVec 64} (hz : g.kv k = none → isZero d = false) (h0 : P g.kv)
    (h1 : g.kv k = none → P (upd g.kv k (some (.dbl d)))) (h2 : ∀ x, g.kv k = some (.dbl x) → P (upd g.kv k (some (norm (.dbl (add x d)))))) :
    wpI (Cr base P) (incrDbl add base k d) (fun out h' => ∃ g' ni' nn', Tr base F g' ni' nn' h' ∧ (Card g.nd nn → Card g'.nd nn') ∧ (Card g.vl ni → Card g'.vl ni') ∧
      ((∃ x, g.kv k = some (.dbl x) ∧ out = .ok (add x d) ∧ g'.kv = upd g.kv k (some (norm (.dbl (add x d)))) ∧ (Tight g → Tight g')) ∨
       (g.kv k = none ∧ out = .ok d ∧ g'.kv = upd g.kv k (some (.dbl d)) ∧ (Tight g → Tight g')) ∨
       (out = .err .outOfRange ∧ (∃ v, g.kv k = some v ∧ ∀ x, v ≠ .dbl x) ∧ h' = h ∧ g' = g ∧ ni' = ni ∧ nn' = nn) ∨
       (out = .err .noMem ∧ g'.vl = g.vl ∧ (∀ v, g.kv k = some v → ∃ x, v = .dbl x)))) h := by
  unfold incrDbl
  simp only [Prog.bind_def]
  refine wpI_bind_of (traverseCreate_spec t h0 k) ?_ ?_
  · rintro a h' ⟨g1, nn1, t1, hg, hcn, (⟨a', h4, hs⟩ | ⟨h4, hvn⟩), hun⟩
    · injection h4 with h4; subst h4
      obtain ⟨B, hB, hsz, hrd⟩ := t1.slot_rd hs
      refine wpI_rd hB hsz ?_
      rw [hrd]
      cases hq : g1.vl k with
      | none =>
        have hkn : g.kv k = none := by rw [← hg.kv]; exact kv_none.2 hq
        rw [cw_none, if_neg (show ¬ typeOf 0 = 4 by decide), if_pos rfl, if_neg (by rw [hz hkn]; simp)]
        refine wpI_alloc (by omega) ?_ ⟨g1, ni, nn1, t1, hcn, by rw [hg.vl]; exact fun h => h, Or.inr (Or.inr (Or.inr ⟨rfl, hg.vl, fun v hv => by rw [hkn] at hv; cases hv⟩))⟩
        intro o dat hf
        have hno := t1.fresh_not_own hf
        have hI : ∀ B', Cr base P (h'.set o B') := fun B' => ⟨_, _, _, _, t1.foreign hno, by rw [hg.kv]; exact h0⟩
        refine ⟨hI _, ?_⟩
        refine wpI_wr (Heap.set_same _ _ _) (by simp) (by rw [Heap.set_set]; exact hI _) ?_
        rw [Heap.set_set]
        obtain ⟨e1, e2, e3⟩ := Enc.new8 (B := ⟨8, dat⟩) (tag := 4) (v := .dbl d) hf d.isLt rfl (Or.inr ⟨rfl, d, rfl, rfl⟩)
        have t2 := t1.foreign (B := (⟨8, dat⟩ : Block).wr 0 8 d.toNat) hno
        have hFo : fset F o (some ((⟨8, dat⟩ : Block).wr 0 8 d.toNat)) o ≠ none := by rw [fset_same]; simp
        have hput := putNew_spec t2 (P := P) hs hq e3 ⟨_, rfl, fun _ => by rw [e2]; exact hFo⟩ (by rw [hg.kv]; exact h1 hkn)
        rw [swapF_new (t1.fresh_F hf) hf.pos rfl e2] at hput
        have := wpI_bind_of (f := fun _ => (.ret d : HProg (BitVec 64))) (Q := fun out h' => ∃ g' ni' nn', Tr base F g' ni' nn' h' ∧ (Card g.nd nn → Card g'.nd nn') ∧ (Card g.vl ni → Card g'.vl ni') ∧
          ((∃ x, g.kv k = some (.dbl x) ∧ out = .ok (add x d) ∧ g'.kv = upd g.kv k (some (norm (.dbl (add x d)))) ∧ (Tight g → Tight g')) ∨
           (g.kv k = none ∧ out = .ok d ∧ g'.kv = upd g.kv k (some (.dbl d)) ∧ (Tight g → Tight g')) ∨
           (out = .err .outOfRange ∧ (∃ v, g.kv k = some v ∧ ∀ x, v ≠ .dbl x) ∧ h' = h ∧ g' = g ∧ ni' = ni ∧ nn' = nn) ∨
           (out = .err .noMem ∧ g'.vl = g.vl ∧ (∀ v, g.kv k = some v → ∃ x, v = .dbl x)))) hput ?_ (by rintro e h' ⟨h1, -⟩; cases h1)
        · simp only [Prog.bind_def, Prog.bind_assoc] at this
          exact this
        · rintro _ h3 ⟨-, g', t3, h5⟩
          refine ⟨g', ni + 1, nn1, t3, ?_, ?_, Or.inr (Or.inl ⟨hkn, rfl, by rw [h5.kv, hg.kv], tight_insert t1 hg hs h5.nd h5.kv⟩)⟩
          · rw [h5.nd]; exact hcn
          · rw [← hg.vl]; exact h5.card
      | some cv =>
        obtain ⟨c, v⟩ := cv
        have he := (t1.val k c v hq).1
        obtain ⟨ht0, ht7, hc0⟩ := he.type_ok
        have hty := he.type
        have hkv := kv_of hq
        rw [hg.kv] at hkv
        rw [cw_some]
        by_cases hd : ∃ x, v = .dbl x
        · obtain ⟨x, rfl⟩ := hd
          have ht4 : typeOf c = 4 := hty
          rw [if_pos ht4]
          have key : wpI (Cr base P) ((storeIncrDbl a (valOf c) (add x d)).bind fun _ => .ret (add x d)) (fun out h' => ∃ g' ni' nn', Tr base F g' ni' nn' h' ∧ (Card g.nd nn → Card g'.nd nn') ∧ (Card g.vl ni → Card g'.vl ni') ∧
              ((∃ x, g.kv k = some (.dbl x) ∧ out = .ok (add x d) ∧ g'.kv = upd g.kv k (some (norm (.dbl (add x d)))) ∧ (Tight g → Tight g')) ∨
               (g.kv k = none ∧ out = .ok d ∧ g'.kv = upd g.kv k (some (.dbl d)) ∧ (Tight g → Tight g')) ∨
               (out = .err .outOfRange ∧ (∃ v, g.kv k = some v ∧ ∀ x, v ≠ .dbl x) ∧ h' = h ∧ g' = g ∧ ni' = ni ∧ nn' = nn) ∨
               (out = .err .noMem ∧ g'.vl = g.vl ∧ (∀ v, g.kv k = some v → ∃ x, v = .dbl x)))) h' := by
            refine wpI_bind_of (storeIncrDbl_spec t1 hs hq (x := add x d) (by rw [hg.kv]; exact h0) (by rw [hg.kv]; exact h2 x hkv)) ?_ ?_
            · rintro _ h3 (⟨-, c', t3⟩ | ⟨h5, -⟩)
              · refine ⟨_, ni, nn1, t3, hcn, ?_, Or.inl ⟨x, hkv, rfl, by rw [kv_setV, hg.kv]; rfl, tight_insert t1 hg hs rfl (by rw [kv_setV]; rfl)⟩⟩
                rw [← hg.vl]; exact fun hc => hc.set_old (by simp) (by rw [hq]; simp)
              · cases h5
            · rintro e h3 (⟨h5, -⟩ | ⟨h5, rfl⟩)
              · cases h5
              · injection h5 with h5; subst h5
                exact ⟨g1, ni, nn1, t1, hcn, by rw [hg.vl]; exact fun h => h, Or.inr (Or.inr (Or.inr ⟨rfl, hg.vl, fun v hv => by rw [hkv] at hv; injection hv with hv; exact ⟨x, hv.symm⟩⟩))⟩
          by_cases hvz : valOf c = 0
          · rw [if_pos hvz]
            have hx : x = 0#64 := by
              rcases he.2.2.1 with ⟨-, h5⟩ | ⟨h5, h6⟩
              · exact h5
              · unfold valOf at hvz; omega
            rw [hvz] at key
            subst hx
            exact key
          · rw [if_neg hvz]
            have hb : buf c = valOf c := by unfold buf; rw [if_pos (by omega)]
            obtain ⟨B2, hB2, h7, h8⟩ := he.2.2.2 (by rw [hb]; exact hvz)
            rw [hb] at hB2
            refine wpI_rd hB2 (by omega) ?_
            rw [h8, BitVec.ofNat_toNat, BitVec.setWidth_eq]
            exact key
        · have hv : ∀ x, v ≠ .dbl x := fun x e => hd ⟨x, e⟩
          have ht4 : typeOf c ≠ 4 := by
            cases v with
            | dbl x => exact absurd rfl (hv x)
            | str v => simp only at hty; split at hty <;> omega
            | int v => simp only at hty; split at hty <;> omega
            | bool v => simp only at hty; omega
            | null => simp only at hty; omega
          rw [if_neg ht4, if_neg hc0]
          obtain ⟨h8, h9, h10⟩ := hun (by rw [← hg.vl, hq]; simp)
          refine ⟨g1, ni, nn1, t1, hcn, by rw [hg.vl]; exact fun h => h, Or.inr (Or.inr (Or.inl ⟨rfl, ⟨v, hkv, hv⟩, h8, h9, rfl, h10⟩))⟩
    · cases h4
  · rintro e h' ⟨g1, nn1, t1, hg, hcn, (⟨a', h4, hs⟩ | ⟨h4, hvn⟩), -⟩
    · cases h4
    · injection h4 with h4; subst h4
      exact ⟨g1, ni, nn1, t1, hcn, by rw [hg.vl]; exact fun h => h, Or.inr (Or.inr (Or.inr ⟨rfl, hg.vl, fun v hv => by rw [kv_none.2 hvn] at hv; cases hv⟩))⟩

end
end Verif.PrefixTree
