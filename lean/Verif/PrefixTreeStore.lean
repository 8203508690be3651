import Verif.PrefixTreeMake
/-
Storing values in slots: clear_value_slot on a value, insert, incr.
-/
namespace Verif.PrefixTree
open Verif
attribute [local irreducible] Block.rd Block.rdB

/-- `m` with the value of `q` replaced by `w` -/
def upd (m : Bytes → Option Val) (q : Bytes) (w : Option Val) : Bytes → Option Val := fun k => if k = q then w else m k

theorem kv_setV (g : G) (q : Bytes) (w : Cell) : (g.setV q w).kv = upd g.kv q (w.map Prod.snd) := by
  funext k
  unfold G.kv upd
  by_cases e : k = q
  · subst e; rw [setV_vl_same, if_pos rfl]
  · rw [setV_vl_ne _ _ e, if_neg e]

theorem setV_setV (g : G) (q : Bytes) (w w' : Cell) : (g.setV q w).setV q w' = g.setV q w' := by
  unfold G.setV
  congr
  funext r
  by_cases e : r = q
  · rw [if_pos e, if_pos e]
  · rw [if_neg e, if_neg e]; exact if_neg e

theorem setV_self {g : G} {q : Bytes} {w : Cell} (h : g.vl q = w) : g.setV q w = g := by
  unfold G.setV
  cases g with
  | mk nd vl =>
    congr
    funext r
    split
    · rename_i e; subst e; exact h.symm
    · rfl

theorem upd_upd (m : Bytes → Option Val) (q : Bytes) (w w' : Option Val) : upd (upd m q w) q w' = upd m q w' := by
  funext k; unfold upd; split <;> rfl

theorem upd_self {m : Bytes → Option Val} {q : Bytes} {w : Option Val} (h : m q = w) : upd m q w = m := by
  funext k; unfold upd
  split
  · rename_i e; subst e; exact h.symm
  · rfl

/-- the tag of a contents word -/
theorem Enc.type {h : Heap} {c : Nat} {v : Val} (e : Enc h c v) : typeOf c = (match v with
    | .str _ => if c = 1 ∨ 8 ≤ c ∧ c % 8 = 1 then 1 else 6
    | .int v => if fits v = true ∧ c = intWord v then 2 else 3
    | .dbl _ => 4
    | .bool _ => 5
    | .null => 5) := by
  obtain ⟨-, -, hw, -⟩ := e
  unfold typeOf
  cases v with
  | str v =>
    rcases hw with ⟨rfl, rfl⟩ | ⟨h1, h2, rfl⟩ | ⟨h1, h2⟩
    · rfl
    · have := shortWord_low h2
      simp only
      rw [if_neg (by omega)]; omega
    · simp only
      rw [if_pos (by omega)]; exact h1
  | int v =>
    rcases hw with ⟨h1, rfl⟩ | ⟨h1, h2⟩
    · simp only [h1, and_self, if_true]; rw [intWord_eq]; omega
    · simp only
      rw [if_neg]; exact h1
      rintro ⟨-, rfl⟩; rw [intWord_eq] at h1; omega
  | dbl d => rcases hw with ⟨rfl, rfl⟩ | ⟨h1, h2⟩ <;> simp_all
  | bool b => cases b <;> (cases hw; rfl)
  | null => cases hw; rfl

theorem Enc.type_ok {h : Heap} {c : Nat} {v : Val} (e : Enc h c v) : typeOf c ≠ 0 ∧ typeOf c ≠ 7 ∧ c ≠ 0 := by
  have := e.type
  refine ⟨e.2.1, ?_, ?_⟩
  · rw [this]; cases v <;> simp only <;> (try split) <;> omega
  · intro h; have := e.2.1; rw [h] at this; simp at this

theorem valOf_lt {c : Nat} (h : c < W64) : valOf c < W64 := by unfold valOf; omega

section
variable {base : Nat} {F : Nat → Option Block} {g : G} {ni nn : Nat} {h : Heap} {I : Heap → Prop} {P : (Bytes → Option Val) → Prop}

theorem SlotAt.setV {q q' : Bytes} {a : Addr} {w : Cell} (hs : SlotAt g q a) : SlotAt (g.setV q' w) q a := hs

theorem Card.unset (c : Card g.vl ni) {q : Bytes} (hq : g.vl q ≠ none) : Card (g.setV q none).vl (if ni = 0 then minusOne else ni - 1) := by
  obtain ⟨h1, h2⟩ := c.sub hq (f' := (g.setV q none).vl) (by
    intro p
    by_cases e : p = q
    · subst e; rw [setV_vl_same]; simp
    · rw [setV_vl_ne _ _ e]; simp [e])
  rw [if_neg (by omega)]; exact h1

theorem Card.set_new (c : Card g.vl ni) {q : Bytes} {w : Cell} (hw : w ≠ none) (hq : g.vl q = none) : Card (g.setV q w).vl (ni + 1) := by
  refine c.add hq ?_
  intro p
  by_cases e : p = q
  · subst e; rw [setV_vl_same]; simp [hw]
  · rw [setV_vl_ne _ _ e]; simp [e]

theorem Card.set_old (c : Card g.vl ni) {q : Bytes} {w : Cell} (hw : w ≠ none) (hq : g.vl q ≠ none) : Card (g.setV q w).vl ni := by
  refine c.congr ?_
  intro p
  by_cases e : p = q
  · subst e; rw [setV_vl_same]; simp [hw, hq]
  · rw [setV_vl_ne _ _ e]

theorem Tr.buf_excl (t : Tr base F g ni nn h) {q : Bytes} (hb : buf (cw (g.vl q)) ≠ 0) : F (buf (cw (g.vl q))) = none := by
  cases hq : g.vl q with
  | none => rw [hq] at hb; exact absurd rfl hb
  | some cv =>
    rw [hq] at hb
    exact t.excl _ (false, q) ⟨cv.1, cv.2, hq, rfl, hb⟩

/-- clearing a value slot -/
theorem clearVal_spec (t : Tr base F g ni nn h) {q : Bytes} {a : Addr} (hs : SlotAt g q a) (h0 : P g.kv) (h1 : P (upd g.kv q none)) (f : Nat) :
    wpI (Cr base P) (clearSlot base (f + 1) a) (fun out h' => out = .ok () ∧ ∃ ni', Tr base F (g.setV q none) ni' nn h' ∧ (Card g.vl ni → Card (g.setV q none).vl ni')) h := by
  obtain ⟨B, hB, hsz, hrd⟩ := t.slot_rd hs
  unfold clearSlot
  simp only [Prog.bind_def]
  refine wpI_rd hB hsz ?_
  rw [hrd]
  cases hq : g.vl q with
  | none =>
    rw [cw_none, if_pos rfl]
    refine ⟨rfl, ni, ?_, ?_⟩ <;> rw [setV_self hq]
    · exact t
    · exact fun h => h
  | some cv =>
    obtain ⟨c, v⟩ := cv
    obtain ⟨he, -⟩ := t.val q c v hq
    obtain ⟨ht0, ht7, hc0⟩ := he.type_ok
    have hP' : P (g.setV q none).kv := by rw [kv_setV]; exact h1
    rw [cw_some, if_neg hc0, if_neg ht0]
    obtain ⟨B', hB', hsz', t'⟩ := t.set hs none (by intro c v e; cases e)
    rw [hB] at hB'; cases hB'
    rw [cw_none] at t'
    have hfin : ∀ F' h', F' = F → Tr base F' (g.setV q none) ni nn h' → wpI (Cr base P) (addItems base minusOne) (fun out h' => out = .ok () ∧ ∃ ni',
        Tr base F (g.setV q none) ni' nn h' ∧ (Card g.vl ni → Card (g.setV q none).vl ni')) h' := by
      rintro F' h' rfl t''
      refine wpI_mono (fun _ h => h) ?_ (addItems_spec t'' hP' minusOne (if ni = 0 then minusOne else ni - 1) (by split <;> omega))
      rintro out h'' ⟨h3, h4⟩
      exact ⟨h3, _, h4, fun hc => hc.unset (by rw [hq]; simp)⟩
    split
    · rename_i htb
      have hbuf : buf c = valOf c := by unfold buf; rw [if_pos htb]
      refine wpI_wr hB hsz ⟨_, _, _, _, t', hP'⟩ ?_
      by_cases hz : valOf c = 0
      · unfold freeBuf
        rw [if_neg (by simp [hz])]
        refine hfin _ _ ?_ t'
        funext x
        unfold swapF
        rw [hq, cw_some, hbuf, hz, if_neg (fun h => h.1 h.2), if_neg (fun h => h.1 h.2)]
      · unfold freeBuf
        rw [if_pos hz]
        have hF1 : swapF F h (g.vl q) none (valOf c) ≠ none := by
          unfold swapF
          rw [if_neg (fun h => h.1 h.2), hq, cw_some, hbuf, if_pos ⟨hz, rfl⟩]
          obtain ⟨B2, hB2, -⟩ := he.2.2.2 (by rw [hbuf]; exact hz)
          rw [hbuf] at hB2; rw [hB2]; simp
        have hno := t'.foreign_not_own hF1
        obtain ⟨B2, hB2⟩ := Option.ne_none_iff_exists'.1 hF1
        rw [← t'.frame _ hno] at hB2
        refine wpI_free hB2 ⟨_, _, _, _, t'.unforeign hno, hP'⟩ ?_
        refine hfin _ _ ?_ (t'.unforeign hno)
        funext x
        by_cases e : x = valOf c
        · subst e
          rw [fset_same]
          have := t.buf_excl (q := q) (by rw [hq, cw_some, hbuf]; exact hz)
          rw [hq, cw_some, hbuf] at this; exact this.symm
        · rw [fset_ne e]
          unfold swapF
          rw [hq, cw_some, hbuf, if_neg (fun h => h.1 h.2), if_neg (fun h => e h.2)]
    · rename_i htb
      refine wpI_wr hB hsz ⟨_, _, _, _, t', hP'⟩ ?_
      refine hfin _ _ ?_ t'
      funext x
      unfold swapF
      have : buf c = 0 := by unfold buf; rw [if_neg htb]
      rw [hq, cw_some, this, if_neg (fun h => h.1 h.2), if_neg (fun h => h.1 h.2)]

/-- values that need no buffer -/
def inline : Val → Bool
  | .str v => v.length < 8
  | .int v => fits v
  | .dbl d => isZero d
  | .bool _ => true
  | .null => true

/-- making the contents word of a value -/
theorem makeWord_spec {v : Val} (hd : ∀ d, v ≠ .dbl d) (hl : ∀ d, v = .str d → d.length ≤ maxAlloc) (hI : ∀ o n B, Fresh h o n → I (h.set o B)) :
    wpI I (makeWord v) (fun out h' => (∃ c, out = .ok c ∧ Enc h' c v ∧ ((h' = h ∧ buf c = 0) ∨ ∃ o n B, Fresh h o n ∧ h' = h.set o B ∧ buf c = o)) ∨
      (out = .err .noMem ∧ h' = h ∧ inline v = false)) h := by
  cases v with
  | dbl d => exact absurd rfl (hd d)
  | null => exact Or.inl ⟨21, rfl, ⟨by omega, by omega, rfl, fun h => absurd rfl h⟩, Or.inl ⟨rfl, rfl⟩⟩
  | bool b =>
    cases b with
    | false => exact Or.inl ⟨5, rfl, ⟨by omega, by omega, rfl, fun h => absurd rfl h⟩, Or.inl ⟨rfl, rfl⟩⟩
    | true => exact Or.inl ⟨13, rfl, ⟨by omega, by omega, rfl, fun h => absurd rfl h⟩, Or.inl ⟨rfl, rfl⟩⟩
  | int v =>
    unfold makeWord
    simp only [Prog.bind_def]
    split
    · rename_i hf
      have ht : typeOf (intWord v) = 2 := by unfold typeOf; rw [intWord_eq]; omega
      have hb : buf (intWord v) = 0 := by unfold buf; rw [ht, if_neg (by omega)]
      exact Or.inl ⟨_, rfl, ⟨intWord_lt v, by have : intWord v % 8 = 2 := ht; omega, Or.inl ⟨hf, rfl⟩, fun h => absurd hb h⟩, Or.inl ⟨rfl, hb⟩⟩
    · rename_i hfit
      refine wpI_alloc (by omega) ?_ (Or.inr ⟨rfl, rfl, by simpa [inline] using hfit⟩)
      intro o d hf
      refine ⟨hI _ _ _ hf, ?_⟩
      refine wpI_wr (Heap.set_same _ _ _) (by simp) (by rw [Heap.set_set]; exact hI _ _ _ hf) ?_
      rw [Heap.set_set, or_tag hf.align (by omega)]
      have hal := hf.align
      have hlow := hf.low
      have hlt := hf.lt
      have hb : buf (o + 3) = o := by unfold buf typeOf valOf; rw [if_pos (by omega)]; omega
      refine Or.inl ⟨_, rfl, ⟨by omega, by omega, Or.inr ⟨by omega, by omega⟩, fun _ => ⟨_, by rw [hb]; exact Heap.set_same _ _ _, rfl, ?_⟩⟩, Or.inr ⟨o, _, _, hf, rfl, hb⟩⟩
      exact Block.rd_wr_same8 _ _ _ v.isLt
  | str v =>
    unfold makeWord
    simp only [Prog.bind_def]
    split
    · rename_i h1
      exact Or.inl ⟨1, rfl, ⟨by omega, by omega, Or.inl ⟨rfl, List.eq_nil_of_length_eq_zero h1⟩, fun h => absurd rfl h⟩, Or.inl ⟨rfl, rfl⟩⟩
    · rename_i h1
      split
      · rename_i h2
        have ht : typeOf (shortWord v) = 6 := by unfold typeOf; have := shortWord_low h2; omega
        have hb : buf (shortWord v) = 0 := by unfold buf; rw [ht, if_neg (by omega)]
        exact Or.inl ⟨_, rfl, ⟨shortWord_lt h2, by have : shortWord v % 8 = 6 := ht; omega, Or.inr (Or.inl ⟨by omega, h2, rfl⟩), fun h => absurd hb h⟩, Or.inl ⟨rfl, hb⟩⟩
      · rename_i h2
        refine wpI_alloc (hl v rfl) ?_ (Or.inr ⟨rfl, rfl, by simpa [inline] using h2⟩)
        intro o d hf
        refine ⟨hI _ _ _ hf, ?_⟩
        refine wpI_wrB (Heap.set_same _ _ _) (by simp) (by rw [Heap.set_set]; exact hI _ _ _ hf) ?_
        rw [Heap.set_set, or_tag hf.align (by omega)]
        have hal := hf.align
        have hlow := hf.low
        have hlt := hf.lt
        have hb : buf (o + 1) = o := by unfold buf typeOf valOf; rw [if_pos (by omega)]; omega
        refine Or.inl ⟨_, rfl, ⟨by omega, by omega, Or.inr (Or.inr ⟨by omega, by omega⟩), fun _ => ⟨_, by rw [hb]; exact Heap.set_same _ _ _, rfl, ?_⟩⟩, Or.inr ⟨o, _, _, hf, rfl, hb⟩⟩
        exact Block.rdB_wrB_same _ _ _

/-- a store of a new word in an empty slot or over a word without buffer, the new word's buffer (if any) being `o` -/
theorem swapF_new {o c : Nat} {v : Val} {w : Cell} {B : Block} (hF : F o = none) (ho : o ≠ 0) (hw : buf (cw w) = 0) (hc : buf c = o) : swapF (fset F o (some B)) h w (some (c, v)) = F := by
  funext x
  unfold swapF
  rw [cw_some, hc, hw]
  by_cases e : x = o
  · subst e
    rw [if_pos ⟨ho, rfl⟩, hF]
  · rw [if_neg (fun h => e h.2), if_neg (fun h => h.1 h.2), fset_ne e]

/-- a store of a word with the same buffer (or none) as the one before -/
theorem swapF_same (t : Tr base F g ni nn h) {q : Bytes} {w : Cell} (hc : buf (cw w) = buf (cw (g.vl q))) : swapF F h (g.vl q) w = F := by
  funext x
  unfold swapF
  rw [hc]
  by_cases e : x ≠ 0 ∧ x = buf (cw (g.vl q))
  · rw [if_pos e]
    have := t.buf_excl (q := q) (by rw [← e.2]; exact e.1)
    rw [← e.2] at this; exact this.symm
  · rw [if_neg e, if_neg e]

/-- the value of a slot changes to `w`; `n` is the new item count -/
structure Stored (g g' : G) (q : Bytes) (w : Option Val) (ni ni' : Nat) : Prop where
  nd : g'.nd = g.nd
  kv : g'.kv = upd g.kv q w
  card : Card g.vl ni → Card g'.vl ni'

/-- storing a word in an empty slot and counting it -/
theorem putNew_spec (t : Tr base F g ni nn h) {q : Bytes} {a : Addr} (hs : SlotAt g q a) (hq : g.vl q = none) {c : Nat} {v : Val} (he : Enc h c v)
    (hF : ∃ F0, swapF F h none (some (c, v)) = F0 ∧ (buf c ≠ 0 → F (buf c) ≠ none)) (h1 : P (upd g.kv q (some v))) :
    wpI (Cr base P) (do H.wr64 a.1 a.2 c; addItems base 1) (fun out h' => out = .ok () ∧ ∃ g', Tr base (swapF F h none (some (c, v))) g' (ni + 1) nn h' ∧
      Stored g g' q (some v) ni (ni + 1)) h := by
  obtain ⟨B, hB, hsz, t'⟩ := t.set hs (some (c, v)) (by
    intro c' v' e; injection e with e; injection e with e1 e2; subst e1; subst e2
    exact ⟨he, fun hb => Or.inr (hF.choose_spec.2 hb)⟩)
  have hP' : P (g.setV q (some (c, v))).kv := by rw [kv_setV]; exact h1
  rw [hq] at t'
  simp only [Prog.bind_def]
  refine wpI_wr hB hsz ⟨_, _, _, _, t', hP'⟩ ?_
  refine wpI_mono (fun _ h => h) ?_ (addItems_spec t' hP' 1 (ni + 1) rfl)
  rintro out h' ⟨h2, h3⟩
  exact ⟨h2, _, h3, rfl, by rw [kv_setV]; rfl, fun hc => hc.set_new (by simp) hq⟩

theorem maxSteps_succ : ∃ n, maxSteps = n + 1 := ⟨340282366920938463463374607431768211455, maxSteps_eq⟩

/-- insert of a value that is not a double, in its slot -/
theorem storeVal_spec (t : Tr base F g ni nn h) {q : Bytes} {a : Addr} (hs : SlotAt g q a) {v : Val} (hd : ∀ d, v ≠ .dbl d) (hl : ∀ d, v = .str d → d.length ≤ maxAlloc)
    (h0 : P g.kv) (h1 : P (upd g.kv q none)) (h2 : P (upd g.kv q (some v))) :
    wpI (Cr base P) (storeVal base a v) (fun out h' => ∃ g' ni', Tr base F g' ni' nn h' ∧
      ((out = .ok () ∧ Stored g g' q (some v) ni ni') ∨ (out = .err .noMem ∧ inline v = false ∧ Stored g g' q none ni ni'))) h := by
  unfold storeVal
  simp only [Prog.bind_def]
  obtain ⟨n, hn⟩ := maxSteps_succ
  rw [hn]
  refine wpI_bind_of (clearVal_spec t hs h0 h1 n) ?_ (by rintro e h' ⟨h1, -⟩; cases h1)
  rintro _ h' ⟨-, ni', t', hc'⟩
  have hq' : (g.setV q none).vl q = none := setV_vl_same _ _ _
  have hk' : (g.setV q none).kv = upd g.kv q none := kv_setV _ _ _
  have hst : Stored g (g.setV q none) q none ni ni' := ⟨rfl, hk', hc'⟩
  have hs' : SlotAt (g.setV q none) q a := hs
  generalize g.setV q none = g1 at *
  refine wpI_bind_of (makeWord_spec (h := h') hd hl (fun o n B hf => ⟨_, _, _, _, t'.foreign (t'.fresh_not_own hf), by rw [hk']; exact h1⟩)) ?_ ?_
  · rintro c h'' (⟨c', h3, he, h4⟩ | ⟨h3, -⟩)
    · injection h3 with h3; subst h3
      have key : ∀ F' h'', Tr base F' g1 ni' nn h'' → Enc h'' c v → (buf c ≠ 0 → F' (buf c) ≠ none) → swapF F' h'' none (some (c, v)) = F →
          wpI (Cr base P) (do H.wr64 a.1 a.2 c; addItems base 1) (fun out h' => ∃ g' ni', Tr base F g' ni' nn h' ∧
            ((out = .ok () ∧ Stored g g' q (some v) ni ni') ∨ (out = .err .noMem ∧ inline v = false ∧ Stored g g' q none ni ni'))) h'' := by
        intro F' h'' t'' he' hF' hsw
        refine wpI_mono (fun _ h => h) ?_ (putNew_spec t'' hs' hq' he' ⟨_, rfl, hF'⟩ (by rw [hk', upd_upd]; exact h2))
        rintro out h3 ⟨rfl, g', t3, h5⟩
        rw [hsw] at t3
        exact ⟨g', _, t3, Or.inl ⟨rfl, h5.nd.trans hst.nd, by rw [h5.kv, hk', upd_upd], fun hc => h5.card (hst.card hc)⟩⟩
      rcases h4 with ⟨rfl, hb⟩ | ⟨o, n, B, hf, rfl, hb⟩
      · refine key F h'' t' he (fun h => absurd hb h) ?_
        funext x
        unfold swapF
        rw [cw_some, hb, cw_none, buf_zero, if_neg (fun h => h.1 h.2), if_neg (fun h => h.1 h.2)]
      · refine key (fset F o (some B)) _ (t'.foreign (t'.fresh_not_own hf)) he (fun _ => by rw [hb, fset_same]; simp) ?_
        exact swapF_new (t'.fresh_F hf) hf.pos rfl hb
    · cases h3
  · rintro e h'' (⟨c', h3, -⟩ | ⟨h3, rfl, hin⟩)
    · cases h3
    · injection h3 with h3; subst h3
      exact ⟨g1, ni', t', Or.inr ⟨rfl, hin, hst⟩⟩

end
end Verif.PrefixTree
