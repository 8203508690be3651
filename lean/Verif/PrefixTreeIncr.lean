import Verif.PrefixTreeStore
/-
Doubles and increments.
-/
namespace Verif.PrefixTree
open Verif
attribute [local irreducible] Block.rd Block.rdB

section
variable {base : Nat} {F : Nat → Option Block} {g : G} {ni nn : Nat} {h : Heap} {I : Heap → Prop} {P : (Bytes → Option Val) → Prop}

theorem swapF_zero {w w' : Cell} (h1 : buf (cw w) = 0) (h2 : buf (cw w') = 0) : swapF F h w w' = F := by
  funext x
  unfold swapF
  rw [h1, h2, if_neg (fun h => h.1 h.2), if_neg (fun h => h.1 h.2)]

/-- store a word without buffer over any value, then free the buffer of the old value -/
theorem setFree_spec (t : Tr base F g ni nn h) {q : Bytes} {a : Addr} (hs : SlotAt g q a) {c : Nat} {v : Val} (he : Enc h c v) (hb : buf c = 0)
    (h1 : P (upd g.kv q (some v))) :
    wpI (Cr base P) (do H.wr64 a.1 a.2 c; freeBuf (buf (cw (g.vl q)))) (fun out h' => out = .ok () ∧ Tr base F (g.setV q (some (c, v))) ni nn h') h := by
  obtain ⟨B, hB, hsz, t'⟩ := t.set hs (some (c, v)) (by
    intro c' v' e; injection e with e; injection e with e1 e2; subst e1; subst e2
    exact ⟨he, fun h => absurd hb h⟩)
  have hP' : P (g.setV q (some (c, v))).kv := by rw [kv_setV]; exact h1
  simp only [Prog.bind_def]
  refine wpI_wr hB hsz ⟨_, _, _, _, t', hP'⟩ ?_
  unfold freeBuf
  by_cases hz : buf (cw (g.vl q)) = 0
  · rw [if_neg (by simp [hz])]
    rw [swapF_zero (w' := some (c, v)) hz hb] at t'
    exact ⟨rfl, t'⟩
  · rw [if_pos hz]
    have hF1 : swapF F h (g.vl q) (some (c, v)) (buf (cw (g.vl q))) ≠ none := by
      unfold swapF
      rw [cw_some, hb, if_neg (fun h => h.1 h.2), if_pos ⟨hz, rfl⟩]
      cases hq : g.vl q with
      | none => rw [hq] at hz; exact absurd rfl hz
      | some cv =>
        rw [hq] at hz
        obtain ⟨B2, hB2⟩ := t.own_live (w := (false, q)) ⟨cv.1, cv.2, hq, rfl, hz⟩
        rw [show cw (some cv) = cv.1 from rfl, hB2]; simp
    have hno := t'.foreign_not_own hF1
    obtain ⟨B2, hB2⟩ := Option.ne_none_iff_exists'.1 hF1
    rw [← t'.frame _ hno] at hB2
    rw [← bind_ret (H.free _)]
    refine wpI_free hB2 ⟨_, _, _, _, t'.unforeign hno, hP'⟩ ?_
    refine ⟨rfl, ?_⟩
    have hFF : fset (swapF F h (g.vl q) (some (c, v))) (buf (cw (g.vl q))) none = F := by
      funext x
      by_cases e : x = buf (cw (g.vl q))
      · subst e
        rw [fset_same]; exact (t.buf_excl hz).symm
      · rw [fset_ne e]
        unfold swapF
        rw [cw_some, hb, if_neg (fun h => h.1 h.2), if_neg (fun h => e h.2)]
    have t'' := t'.unforeign hno
    rw [hFF] at t''
    exact t''

/-- an 8-byte value in a new buffer -/
theorem Enc.new8 {o n tag x : Nat} {B : Block} {v : Val} (hf : Fresh h o n) (hx : x < W64) (hs : B.size = 8)
    (hv : (tag = 3 ∧ ∃ y : BitVec 64, v = .int y ∧ y.toNat = x) ∨ (tag = 4 ∧ ∃ y : BitVec 64, v = .dbl y ∧ y.toNat = x)) :
    (o ||| tag) < W64 ∧ buf (o ||| tag) = o ∧ Enc (h.set o (B.wr 0 8 x)) (o ||| tag) v := by
  have hal := hf.align
  have hlow := hf.low
  have hlt := hf.lt
  have ht : tag = 3 ∨ tag = 4 := by rcases hv with h | h <;> simp [h.1]
  rw [or_tag hal (by omega)]
  have hb : buf (o + tag) = o := by unfold buf typeOf valOf; rw [if_pos (by omega)]; omega
  refine ⟨by omega, hb, by omega, by omega, ?_, fun _ => ⟨_, by rw [hb]; exact Heap.set_same _ _ _, ?_⟩⟩
  · rcases hv with ⟨rfl, y, rfl, -⟩ | ⟨rfl, y, rfl, -⟩
    · exact Or.inr ⟨by omega, by omega⟩
    · exact Or.inr ⟨by omega, by omega⟩
  · rcases hv with ⟨rfl, y, rfl, rfl⟩ | ⟨rfl, y, rfl, rfl⟩
    · exact ⟨hs, Block.rd_wr_same8 _ _ _ hx⟩
    · exact ⟨hs, Block.rd_wr_same8 _ _ _ hx⟩

/-- store an 8-byte value in a new buffer over a value without buffer -/
theorem setAlloc_spec (t : Tr base F g ni nn h) {q : Bytes} {a : Addr} (hs : SlotAt g q a) (hz : buf (cw (g.vl q)) = 0) {x tag : Nat} (hx : x < W64) {v : Val}
    (hv : (tag = 3 ∧ ∃ y : BitVec 64, v = .int y ∧ y.toNat = x) ∨ (tag = 4 ∧ ∃ y : BitVec 64, v = .dbl y ∧ y.toNat = x)) (h0 : P g.kv) (h1 : P (upd g.kv q (some v))) :
    wpI (Cr base P) (do let o ← H.alloc 8; H.wr64 o 0 x; H.wr64 a.1 a.2 (o ||| tag)) (fun out h' =>
      (out = .ok () ∧ ∃ c, Tr base F (g.setV q (some (c, v))) ni nn h') ∨ (out = .err .noMem ∧ h' = h)) h := by
  simp only [Prog.bind_def]
  refine wpI_alloc (by omega) ?_ (Or.inr ⟨rfl, rfl⟩)
  intro o d hf
  have hno := t.fresh_not_own hf
  have hI : ∀ B', Cr base P (h.set o B') := fun B' => ⟨_, _, _, _, t.foreign hno, h0⟩
  refine ⟨hI _, ?_⟩
  refine wpI_wr (Heap.set_same _ _ _) (by simp) (by rw [Heap.set_set]; exact hI _) ?_
  rw [Heap.set_set]
  obtain ⟨e1, e2, e3⟩ := Enc.new8 (B := ⟨8, d⟩) hf hx rfl hv
  have t1 := t.foreign (B := (⟨8, d⟩ : Block).wr 0 8 x) hno
  obtain ⟨B, hB, hsz, t'⟩ := t1.set hs (some ((o ||| tag), v)) (by
    intro c' v' e; injection e with e; injection e with e4 e5; subst e4; subst e5
    exact ⟨e3, fun _ => Or.inr (by rw [e2, fset_same]; simp)⟩)
  rw [swapF_new (t.fresh_F hf) hf.pos hz e2] at t'
  rw [← bind_ret (H.wr64 _ _ _)]
  exact wpI_wr hB hsz ⟨_, _, _, _, t', by rw [kv_setV]; exact h1⟩ (Or.inl ⟨rfl, _, t'⟩)

/-- write the buffer of a value -/
theorem wrBuf_spec (t : Tr base F g ni nn h) {q : Bytes} {c : Nat} {v v' : Val} (hq : g.vl q = some (c, v)) (hb : buf c ≠ 0) (hw : WordOk c v') {x : Nat}
    (hs : ∀ B, h.blk (buf c) = some B → B.size = 8) (hv : ∀ B : Block, B.size = 8 → BufOk (B.wr 0 8 x) v') (h1 : P (upd g.kv q (some v'))) :
    wpI (Cr base P) (H.wr64 (buf c) 0 x) (fun out h' => out = .ok () ∧ Tr base F (g.setV q (some (c, v'))) ni nn h') h := by
  obtain ⟨B, hB⟩ := t.own_live (w := (false, q)) ⟨c, v, hq, rfl, hb⟩
  have hB8 := hs B hB
  have t' := t.setBuf (B := B.wr 0 8 x) hq hb hw (hv B hB8)
  rw [← bind_ret (H.wr64 _ _ _)]
  exact wpI_wr hB (by omega) ⟨_, _, _, _, t', by rw [kv_setV]; exact h1⟩ ⟨rfl, t'⟩

/-- size of the buffer of a number -/
theorem Enc.buf8 {c : Nat} {v : Val} (he : Enc h c v) (hv : (∃ y, v = .int y) ∨ ∃ y, v = .dbl y) (hb : buf c ≠ 0) : ∀ B, h.blk (buf c) = some B → B.size = 8 := by
  intro B hB
  obtain ⟨B', hB', h1⟩ := he.2.2.2 hb
  rw [hB] at hB'; cases hB'
  rcases hv with ⟨y, rfl⟩ | ⟨y, rfl⟩ <;> exact h1.1

theorem int_word (x : BitVec 64) (hf : fits x = true) : Enc h (intWord x) (.int x) ∧ buf (intWord x) = 0 := by
  have ht : typeOf (intWord x) = 2 := by unfold typeOf; rw [intWord_eq]; omega
  have hb : buf (intWord x) = 0 := by unfold buf; rw [ht, if_neg (by omega)]
  exact ⟨⟨intWord_lt x, by have : intWord x % 8 = 2 := ht; omega, Or.inl ⟨hf, rfl⟩, fun h => absurd hb h⟩, hb⟩

theorem dbl_word : Enc h 4 (.dbl 0#64) ∧ buf 4 = 0 := ⟨⟨by omega, by omega, Or.inl ⟨rfl, rfl⟩, fun h => absurd rfl h⟩, rfl⟩

/-- the slot of an integer after incr -/
theorem storeIncr_spec (t : Tr base F g ni nn h) {q : Bytes} {a : Addr} (hs : SlotAt g q a) {c : Nat} (hc : c = cw (g.vl q)) (hq : ∀ c v, g.vl q = some (c, v) → ∃ y, v = .int y) {x : BitVec 64}
    (h0 : P g.kv) (h1 : P (upd g.kv q (some (.int x)))) :
    wpI (Cr base P) (storeIncr a c x) (fun out h' => (out = .ok () ∧ ∃ c', Tr base F (g.setV q (some (c', .int x))) ni nn h') ∨ (out = .err .noMem ∧ h' = h ∧ fits x = false)) h := by
  unfold storeIncr
  simp only [Prog.bind_def]
  split
  · rename_i hf
    obtain ⟨he, hb⟩ := int_word (h := h) x hf
    have := setFree_spec t hs he hb h1
    have hfree : (if typeOf c = 3 then H.free (valOf c) else .ret ()) = freeBuf (buf (cw (g.vl q))) := by
      rw [← hc]
      unfold freeBuf
      by_cases ht : typeOf c = 3
      · have hb : buf c = valOf c := by unfold buf; rw [if_pos (by omega)]
        have hz : valOf c ≠ 0 := by
          cases hv : g.vl q with
          | none => rw [hc, hv] at ht; simp [typeOf] at ht
          | some cv =>
            obtain ⟨c', v⟩ := cv
            obtain ⟨y, rfl⟩ := hq c' v hv
            rw [hv, cw_some] at hc; subst hc
            rcases (t.val q c _ hv).1.2.2.1 with ⟨h2, rfl⟩ | ⟨h2, h3⟩
            · unfold typeOf at ht; rw [intWord_eq] at ht; omega
            · unfold valOf; omega
        rw [if_pos ht, hb, if_pos hz]
      · rw [if_neg ht]
        have hb : buf c = 0 := by
          cases hv : g.vl q with
          | none => rw [hc, hv]; rfl
          | some cv =>
            obtain ⟨c', v⟩ := cv
            obtain ⟨y, rfl⟩ := hq c' v hv
            rw [hv, cw_some] at hc; subst hc
            rcases (t.val q c _ hv).1.2.2.1 with ⟨h2, rfl⟩ | ⟨h2, h3⟩
            · exact (int_word (h := h) y h2).2
            · exact absurd h2 ht
        rw [hb, if_neg (by simp)]; rfl
    simp only [Prog.bind_def] at this
    rw [← hfree] at this
    refine wpI_mono (fun _ h => h) ?_ this
    rintro out h' ⟨h2, h3⟩
    exact Or.inl ⟨h2, _, h3⟩
  · rename_i hf
    split
    · rename_i ht
      cases hv : g.vl q with
      | none => rw [hc, hv] at ht; simp [typeOf] at ht
      | some cv =>
        obtain ⟨c', v⟩ := cv
        obtain ⟨y, rfl⟩ := hq c' v hv
        rw [hv, cw_some] at hc; subst hc
        have hb : buf c = valOf c := by unfold buf; rw [if_pos (by omega)]
        have he := (t.val q c _ hv).1
        have h3 : c % 8 = 3 ∧ 8 ≤ c := by
          rcases he.2.2.1 with ⟨h2, rfl⟩ | h2
          · unfold typeOf at ht; rw [intWord_eq] at ht; omega
          · exact h2
        have hz : buf c ≠ 0 := by rw [hb]; unfold valOf; omega
        have := wrBuf_spec t hv hz (v' := .int x) (Or.inr h3) (he.buf8 (Or.inl ⟨y, rfl⟩) hz) (fun B hB => ⟨hB, Block.rd_wr_same8 _ _ _ x.isLt⟩) h1
        rw [hb] at this
        refine wpI_mono (fun _ h => h) ?_ this
        rintro out h' ⟨h2, h3⟩
        exact Or.inl ⟨h2, _, h3⟩
    · rename_i ht
      have hb : buf (cw (g.vl q)) = 0 := by
        cases hv : g.vl q with
        | none => rfl
        | some cv =>
          obtain ⟨c', v⟩ := cv
          obtain ⟨y, rfl⟩ := hq c' v hv
          rw [hv, cw_some] at hc; subst hc
          rcases (t.val q c _ hv).1.2.2.1 with ⟨h2, rfl⟩ | ⟨h2, h3⟩
          · exact (int_word (h := h) y h2).2
          · exact absurd h2 ht
      have := setAlloc_spec t hs hb (x := x.toNat) (tag := 3) x.isLt (v := .int x) (Or.inl ⟨rfl, x, rfl, rfl⟩) h0 h1
      simp only [Prog.bind_def] at this
      refine wpI_mono (fun _ h => h) ?_ this
      rintro out h' (h2 | ⟨h2, h3⟩)
      · exact Or.inl h2
      · exact Or.inr ⟨h2, h3, by simpa using hf⟩

/-- the slot of a double after incr -/
theorem storeIncrDbl_spec (t : Tr base F g ni nn h) {q : Bytes} {a : Addr} (hs : SlotAt g q a) {c : Nat} {y : BitVec 64} (hq : g.vl q = some (c, .dbl y)) {x : BitVec 64}
    (h0 : P g.kv) (h1 : P (upd g.kv q (some (norm (.dbl x))))) :
    wpI (Cr base P) (storeIncrDbl a (valOf c) x) (fun out h' => (out = .ok () ∧ ∃ c', Tr base F (g.setV q (some (c', norm (.dbl x)))) ni nn h') ∨ (out = .err .noMem ∧ h' = h)) h := by
  have he := (t.val q c _ hq).1
  have hty : typeOf c = 4 := he.type
  have hb : buf c = valOf c := by unfold buf; rw [if_pos (by omega)]
  unfold storeIncrDbl
  simp only [Prog.bind_def]
  split
  · rename_i hz
    have hn : norm (.dbl x) = .dbl 0#64 := by simp [norm, hz]
    rw [hn] at h1 ⊢
    have := setFree_spec t hs (dbl_word (h := h)).1 rfl h1
    rw [hq, cw_some, hb] at this
    simp only [Prog.bind_def] at this
    refine wpI_mono (fun _ h => h) ?_ this
    rintro out h' ⟨h2, h3⟩
    exact Or.inl ⟨h2, _, h3⟩
  · rename_i hz
    have hn : norm (.dbl x) = .dbl x := by simp [norm, hz]
    rw [hn] at h1 ⊢
    split
    · rename_i hne
      have hc : c % 8 = 4 ∧ 8 ≤ c := ⟨hty, by unfold valOf at hne; omega⟩
      have := wrBuf_spec t hq (by rw [hb]; exact hne) (v' := .dbl x) (Or.inr hc) (he.buf8 (Or.inr ⟨y, rfl⟩) (by rw [hb]; exact hne))
        (fun B hB => ⟨hB, Block.rd_wr_same8 _ _ _ x.isLt⟩) h1
      rw [hb] at this
      refine wpI_mono (fun _ h => h) ?_ this
      rintro out h' ⟨h2, h3⟩
      exact Or.inl ⟨h2, _, h3⟩
    · rename_i hne
      have := setAlloc_spec t hs (by rw [hq, cw_some, hb]; simpa using hne) (x := x.toNat) (tag := 4) x.isLt (v := .dbl x) (Or.inr ⟨rfl, x, rfl, rfl⟩) h0 h1
      simp only [Prog.bind_def] at this
      exact this

/-- insert of a double, in its slot -/
theorem storeDbl_spec (t : Tr base F g ni nn h) {q : Bytes} {a : Addr} (hs : SlotAt g q a) {d : BitVec 64}
    (h0 : P g.kv) (h1 : P (upd g.kv q none)) (h2 : P (upd g.kv q (some (norm (.dbl d))))) (h3 : ∀ x, isZero d = false → g.kv q = some (.int x) → P (upd g.kv q (some (.int d)))) :
    wpI (Cr base P) (storeDbl base a d) (fun out h' => (out = .ok () ∧ ∃ g' ni', Tr base F g' ni' nn h' ∧ Stored g g' q (some (norm (.dbl d))) ni ni') ∨
      (out = .err .noMem ∧ h' = h ∧ inline (.dbl d) = false)) h := by
  obtain ⟨n, hn⟩ := maxSteps_succ
  obtain ⟨B, hB, hsz, hrd⟩ := t.slot_rd hs
  have hq' : (g.setV q none).vl q = none := setV_vl_same _ _ _
  have hk' : (g.setV q none).kv = upd g.kv q none := kv_setV _ _ _
  unfold storeDbl
  simp only [Prog.bind_def]
  refine wpI_rd hB hsz ?_
  rw [hrd, hn]
  split
  · rename_i hz
    have hno : norm (.dbl d) = .dbl 0#64 := by simp [norm, hz]
    rw [hno] at h2 ⊢
    refine wpI_bind_of (clearVal_spec t hs h0 h1 n) ?_ (by rintro e h' ⟨h1, -⟩; cases h1)
    rintro _ h' ⟨-, ni', t', hc'⟩
    have := putNew_spec t' (P := P) hs hq' (dbl_word (h := h')).1 ⟨_, rfl, fun h => absurd rfl h⟩ (by rw [hk', upd_upd]; exact h2)
    rw [swapF_zero (w := none) (w' := some (4, _)) rfl rfl] at this
    refine wpI_mono (fun _ h => h) ?_ this
    rintro out h'' ⟨h4, g', t'', h5⟩
    exact Or.inl ⟨h4, g', _, t'', h5.nd, by rw [h5.kv, hk', upd_upd], fun hc => h5.card (hc' hc)⟩
  · rename_i hz
    have hno : norm (.dbl d) = .dbl d := by simp [norm, hz]
    rw [hno] at h2 ⊢
    split
    · rename_i hc
      cases hq : g.vl q with
      | none => rw [hq, cw_none] at hc; simp [typeOf] at hc
      | some cv =>
        obtain ⟨c, v⟩ := cv
        have he := (t.val q c v hq).1
        rw [hq, cw_some] at hc
        rw [cw_some]
        have hb : buf c = valOf c := by unfold buf; rw [if_pos (by omega)]
        have hty := he.type
        by_cases h4 : typeOf c = 3
        · -- a large integer: the bits of the double go to its buffer before the tag changes
          have hv : ∃ x, v = .int x := by
            cases v with
            | int x => exact ⟨x, rfl⟩
            | str v => rw [h4] at hty; simp only at hty; split at hty <;> omega
            | dbl v => rw [h4] at hty; simp only at hty; omega
            | bool v => rw [h4] at hty; simp only at hty; omega
            | null => rw [h4] at hty; simp only at hty; omega
          obtain ⟨x, rfl⟩ := hv
          have h5 : c % 8 = 3 ∧ 8 ≤ c := by
            rcases he.2.2.1 with ⟨h2, rfl⟩ | h2
            · unfold typeOf at h4; rw [intWord_eq] at h4; omega
            · exact h2
          have hne : buf c ≠ 0 := by rw [hb]; unfold valOf; omega
          have hkv : g.kv q = some (.int x) := by unfold G.kv; rw [hq]; rfl
          have hw := wrBuf_spec t hq hne (v' := .int d) (x := d.toNat) (Or.inr h5) (he.buf8 (Or.inl ⟨x, rfl⟩) hne) (fun B hB => ⟨hB, Block.rd_wr_same8 _ _ _ d.isLt⟩)
            (h3 x (by simpa using hz) hkv)
          rw [hb] at hw
          refine wpI_bind_of hw ?_ (by rintro e h' ⟨h1, -⟩; cases h1)
          rintro _ h' ⟨-, t'⟩
          rw [if_pos h4]
          have hvo : valOf c ||| 4 = valOf c + 4 := or_tag (by unfold valOf; omega) (by omega)
          have hb' : buf (valOf c + 4) = valOf c := by unfold buf typeOf valOf; rw [if_pos (by omega)]; omega
          have hsame : (g.setV q (some (c, .int d))).vl q = some (c, .int d) := setV_vl_same _ _ _
          have he' := (t'.val q c _ hsame).1
          have hclt := he.1
          obtain ⟨B1, hB1, hsz1, t''⟩ := t'.set hs (some (valOf c + 4, .dbl d)) (by
            intro c' v' e; injection e with e; injection e with e1 e2; subst e1; subst e2
            refine ⟨⟨by unfold valOf; omega, by unfold valOf; omega, Or.inr ⟨by unfold valOf; omega, by unfold valOf; omega⟩, fun _ => ?_⟩, fun _ => Or.inl (by rw [hb', hsame, cw_some, hb])⟩
            rw [hb']
            obtain ⟨B2, hB2, h6⟩ := he'.2.2.2 hne
            rw [hb] at hB2
            exact ⟨B2, hB2, h6⟩)
          rw [swapF_same t' (by rw [cw_some, hb', hsame, cw_some, hb]), cw_some, setV_setV] at t''
          rw [hvo, ← bind_ret (H.wr64 _ _ _)]
          refine wpI_wr hB1 hsz1 ⟨_, _, _, _, t'', by rw [kv_setV]; exact h2⟩ ?_
          exact Or.inl ⟨rfl, _, ni, t'', rfl, by rw [kv_setV]; rfl, fun hc => hc.set_old (by simp) (by rw [hq]; simp)⟩
        · have h4' : typeOf c = 4 := by omega
          have hv : ∃ x, v = .dbl x := by
            cases v with
            | dbl x => exact ⟨x, rfl⟩
            | str v => rw [h4'] at hty; simp only at hty; split at hty <;> omega
            | int v => rw [h4'] at hty; simp only at hty; split at hty <;> omega
            | bool v => rw [h4'] at hty; simp only at hty; omega
            | null => rw [h4'] at hty; simp only at hty; omega
          obtain ⟨x, rfl⟩ := hv
          have h5 : c % 8 = 4 ∧ 8 ≤ c := by
            rcases he.2.2.1 with ⟨rfl, rfl⟩ | h2
            · exact absurd rfl hc.2
            · exact h2
          have hne : buf c ≠ 0 := by rw [hb]; unfold valOf; omega
          have hw := wrBuf_spec t hq hne (v' := .dbl d) (x := d.toNat) (Or.inr h5) (he.buf8 (Or.inr ⟨x, rfl⟩) hne) (fun B hB => ⟨hB, Block.rd_wr_same8 _ _ _ d.isLt⟩) h2
          rw [hb] at hw
          refine wpI_bind_of hw ?_ (by rintro e h' ⟨h1, -⟩; cases h1)
          rintro _ h' ⟨-, t'⟩
          rw [if_neg h4]
          exact Or.inl ⟨rfl, _, ni, t', rfl, by rw [kv_setV]; rfl, fun hc => hc.set_old (by simp) (by rw [hq]; simp)⟩
    · refine wpI_alloc (by omega) ?_ (Or.inr ⟨rfl, rfl, by simpa [inline] using hz⟩)
      intro o dat hf
      have hno := t.fresh_not_own hf
      have hI : ∀ B', Cr base P (h.set o B') := fun B' => ⟨_, _, _, _, t.foreign hno, h0⟩
      refine ⟨hI _, ?_⟩
      refine wpI_wr (Heap.set_same _ _ _) (by simp) (by rw [Heap.set_set]; exact hI _) ?_
      rw [Heap.set_set]
      obtain ⟨e1, e2, e3⟩ := Enc.new8 (B := ⟨8, dat⟩) (tag := 4) (v := .dbl d) hf d.isLt rfl (Or.inr ⟨rfl, d, rfl, rfl⟩)
      have t1 := t.foreign (B := (⟨8, dat⟩ : Block).wr 0 8 d.toNat) hno
      refine wpI_bind_of (clearVal_spec t1 hs h0 h1 n) ?_ (by rintro e h' ⟨h1, -⟩; cases h1)
      rintro _ h' ⟨-, ni', t', hc'⟩
      have hFo : fset F o (some ((⟨8, dat⟩ : Block).wr 0 8 d.toNat)) o ≠ none := by rw [fset_same]; simp
      have e3' : Enc h' (o ||| 4) (.dbl d) := by
        refine e3.congr fun _ => ?_
        rw [e2, t'.frame o (t'.foreign_not_own hFo), fset_same, Heap.set_same]
      have := putNew_spec t' (P := P) hs hq' e3' ⟨_, rfl, fun _ => by rw [e2]; exact hFo⟩ (by rw [hk', upd_upd]; exact h2)
      rw [swapF_new (t.fresh_F hf) hf.pos rfl e2] at this
      refine wpI_mono (fun _ h => h) ?_ this
      rintro out h'' ⟨h4, g', t'', h5⟩
      exact Or.inl ⟨h4, g', _, t'', h5.nd, by rw [h5.kv, hk', upd_upd], fun hc => h5.card (hc' hc)⟩

end
end Verif.PrefixTree
