import Verif.PrefixTreeCrash
import Verif.PropsPrefixTree
/-
PrefixTree::insert with the value in pieces (struct iovec), /repo/src/PrefixTree.cc 134-192.  (The Python module uses it for marshalled objects, PythonModule.cc 1355-1363.)
-/
namespace Verif.PrefixTree
open PT
attribute [local irreducible] Block.rd Block.rdB

/-- for (x...) v_size += iov[x].iov_len, in a size_t: PrefixTree.cc 139-142 -/
def iovTotal : Nat → List Bytes → Nat
  | n, [] => n
  | n, p :: ps => iovTotal ((n + p.length) % W64) ps

/-- the two loops that pack a short string from its pieces: PrefixTree.cc 165-170; `shift` goes down by 8 for each byte (it is never below 0 here) -/
def packIov : Nat → Nat → List Bytes → Nat
  | w, _, [] => w
  | w, shift, p :: ps => packIov (packBytes w shift p) (shift - 8 * p.length) ps

/-- memcpy of the pieces one after another: PrefixTree.cc 176-180; `n` is bytes_written -/
def writePieces (o : Nat) : Nat → List Bytes → HProg Unit
  | _, [] => pure ()
  | n, p :: ps => do
    H.wrB o n p
    writePieces o (n + p.length) ps

/-- the word to store: PrefixTree.cc 156-182 -/
def iovWord (ps : List Bytes) : HProg Nat :=
  if iovTotal 0 ps = 0 then pure 1
  else if iovTotal 0 ps < 8 then pure (packIov ((iovTotal 0 ps <<< 3) ||| 6) 56 ps)
  else do
    let o ← H.alloc (iovTotal 0 ps)
    writePieces o 0 ps
    pure (o ||| 1)

/-- the slot is cleared, the value is made and stored, and counted: PrefixTree.cc 153-186 -/
def storeIov (base : Nat) (a : Addr) (ps : List Bytes) : HProg Unit := do
  clearSlot base maxSteps a
  let w ← iovWord ps
  H.wr64 a.1 a.2 w
  addItems base 1

/-- PrefixTree::insert(k, iov, iov_count, check), PrefixTree.cc 134-187 -/
def insertIov (base : Nat) (k : Bytes) (ps : List Bytes) (c : Option Check) : HProg Bool := do
  let go ← checkOk base c
  if go then do
    let a ← traverseCreate base k
    storeIov base a ps
    pure true
  else pure false

theorem iovTotal_eq (ps : List Bytes) : ∀ n, n + ps.flatten.length < W64 → iovTotal n ps = n + ps.flatten.length := by
  induction ps with
  | nil => intro n _; rfl
  | cons p ps ih =>
    intro n h
    simp only [List.flatten_cons, List.length_append] at h ⊢
    simp only [iovTotal]
    rw [Nat.mod_eq_of_lt (by omega), ih _ (by omega)]
    omega

theorem packBytes_append (p q : Bytes) : ∀ w s, packBytes w s (p ++ q) = packBytes (packBytes w s p) (s - 8 * p.length) q := by
  induction p with
  | nil => intro w s; rfl
  | cons b p ih =>
    intro w s
    simp only [List.cons_append, packBytes, ih, List.length_cons]
    congr 1
    omega

theorem packIov_eq (ps : List Bytes) : ∀ w s, packIov w s ps = packBytes w s ps.flatten := by
  induction ps with
  | nil => intro w s; rfl
  | cons p ps ih => intro w s; simp only [packIov, ih, List.flatten_cons, packBytes_append]

theorem wrB_nil (B : Block) (o : Nat) : B.wrB o [] = B := by
  unfold Block.wrB bsWr
  cases B
  congr 1
  funext i
  simp only [List.length_nil, Nat.add_zero]
  rw [if_neg (by omega)]

theorem wrB_wrB (B : Block) (o : Nat) (p q : Bytes) : (B.wrB o p).wrB (o + p.length) q = B.wrB o (p ++ q) := by
  unfold Block.wrB bsWr
  cases B
  simp only [Block.mk.injEq, true_and]
  funext i
  rw [List.length_append]
  by_cases h1 : o + p.length ≤ i ∧ i < o + p.length + q.length
  · rw [if_pos h1, if_pos (by omega)]
    rw [List.getD_eq_getElem?_getD, List.getD_eq_getElem?_getD, List.getElem?_append_right (by omega)]
    congr 2
    omega
  · rw [if_neg h1]
    by_cases h2 : o ≤ i ∧ i < o + p.length
    · rw [if_pos h2, if_pos (by omega)]
      rw [List.getD_eq_getElem?_getD, List.getD_eq_getElem?_getD, List.getElem?_append_left (by omega)]
    · rw [if_neg h2, if_neg (by omega)]

section
variable {base : Nat} {F : Nat → Option Block} {g : G} {ni nn : Nat} {h : Heap} {I : Heap → Prop} {P : (Bytes → Option Val) → Prop}

theorem writePieces_spec {o : Nat} (hI : ∀ B, I (h.set o B)) : ∀ (ps : List Bytes) (n : Nat) (B : Block), n + ps.flatten.length ≤ B.size →
    wpI I (writePieces o n ps) (fun out h' => out = .ok () ∧ h' = h.set o (B.wrB n ps.flatten)) (h.set o B) := by
  intro ps
  induction ps with
  | nil => intro n B _; exact ⟨rfl, by simp [wrB_nil]⟩
  | cons p ps ih =>
    intro n B hl
    simp only [List.flatten_cons, List.length_append] at hl
    unfold writePieces
    simp only [Prog.bind_def]
    refine wpI_wrB (Heap.set_same _ _ _) (by omega) (by rw [Heap.set_set]; exact hI _) ?_
    rw [Heap.set_set]
    have := ih (n + p.length) (B.wrB n p) (by simp only [Block.size_wrB]; omega)
    rw [wrB_wrB] at this
    exact this

/-- making the word of the pieces is making the word of their concatenation -/
theorem iovWord_spec {ps : List Bytes} (hl : ps.flatten.length ≤ maxAlloc) (hI : ∀ o n B, Fresh h o n → I (h.set o B)) :
    wpI I (iovWord ps) (fun out h' => (∃ c, out = .ok c ∧ Enc h' c (.str ps.flatten) ∧ ((h' = h ∧ buf c = 0) ∨ ∃ o n B, Fresh h o n ∧ h' = h.set o B ∧ buf c = o)) ∨
      (out = .err .noMem ∧ h' = h ∧ inline (.str ps.flatten) = false)) h := by
  have e : iovTotal 0 ps = ps.flatten.length := by
    rw [iovTotal_eq _ _ (by omega), Nat.zero_add]
  unfold iovWord
  rw [e, packIov_eq]
  generalize hv : ps.flatten = v at *
  simp only [Prog.bind_def]
  split
  · rename_i h1
    exact Or.inl ⟨1, rfl, ⟨by omega, by omega, Or.inl ⟨rfl, List.eq_nil_of_length_eq_zero h1⟩, fun h => absurd rfl h⟩, Or.inl ⟨rfl, rfl⟩⟩
  · rename_i h1
    split
    · rename_i h2
      have ht : typeOf (shortWord v) = 6 := by unfold typeOf; have := shortWord_low h2; omega
      have hb : buf (shortWord v) = 0 := by unfold buf; rw [ht, if_neg (by omega)]
      exact Or.inl ⟨shortWord v, rfl, ⟨shortWord_lt h2, by have : shortWord v % 8 = 6 := ht; omega, Or.inr (Or.inl ⟨by omega, h2, rfl⟩), fun h => absurd hb h⟩, Or.inl ⟨rfl, hb⟩⟩
    · rename_i h2
      refine wpI_alloc hl ?_ (Or.inr ⟨rfl, rfl, by simpa [inline] using h2⟩)
      intro o d hf
      refine ⟨hI _ _ _ hf, ?_⟩
      refine wpI_bind_of (writePieces_spec (h := h) (o := o) (fun B => hI _ _ _ hf) ps 0 _ (by rw [hv]; simp)) ?_ (by rintro e h' ⟨h1, -⟩; cases h1)
      rintro _ h' ⟨-, rfl⟩
      rw [hv, or_tag hf.align (by omega)]
      have hal := hf.align
      have hlow := hf.low
      have hlt := hf.lt
      have hb : buf (o + 1) = o := by unfold buf typeOf valOf; rw [if_pos (by omega)]; omega
      refine Or.inl ⟨_, rfl, ⟨by omega, by omega, Or.inr (Or.inr ⟨by omega, by omega⟩), fun _ => ⟨_, by rw [hb]; exact Heap.set_same _ _ _, rfl, ?_⟩⟩, Or.inr ⟨o, _, _, hf, rfl, hb⟩⟩
      exact Block.rdB_wrB_same _ _ _
/-- storing the pieces in a slot is storing their concatenation -/
theorem storeIov_spec (t : Tr base F g ni nn h) {q : Bytes} {a : Addr} (hs : SlotAt g q a) {ps : List Bytes} (hl : ps.flatten.length ≤ maxAlloc)
    (h0 : P g.kv) (h1 : P (upd g.kv q none)) (h2 : P (upd g.kv q (some (.str ps.flatten)))) :
    wpI (Cr base P) (storeIov base a ps) (fun out h' => ∃ g' ni', Tr base F g' ni' nn h' ∧
      ((out = .ok () ∧ Stored g g' q (some (.str ps.flatten)) ni ni') ∨ (out = .err .noMem ∧ inline (.str ps.flatten) = false ∧ Stored g g' q none ni ni'))) h := by
  unfold storeIov
  simp only [Prog.bind_def]
  obtain ⟨n, hn⟩ := maxSteps_succ
  rw [hn]
  refine wpI_bind_of (clearVal_spec t hs h0 h1 n) ?_ (by rintro e h' ⟨h1, -⟩; cases h1)
  rintro _ h' ⟨-, ni', t', hc'⟩
  have hq' : (g.setV q none).vl q = none := setV_vl_same _ _ _
  have hk' : (g.setV q none).kv = upd g.kv q none := kv_setV _ _ _
  have hst : Stored g (g.setV q none) q none ni ni' := ⟨rfl, hk', hc'⟩
  have hs' : SlotAt (g.setV q none) q a := hs
  generalize g.setV q none = g1 at *
  refine wpI_bind_of (iovWord_spec (h := h') hl (fun o n B hf => ⟨_, _, _, _, t'.foreign (t'.fresh_not_own hf), by rw [hk']; exact h1⟩)) ?_ ?_
  all_goals generalize Val.str ps.flatten = v at *
  · rintro c h'' (⟨c', h3, he, h4⟩ | ⟨h3, -⟩)
    · injection h3 with h3; subst h3
      have key : ∀ F' h'', Tr base F' g1 ni' nn h'' → Enc h'' c v → (buf c ≠ 0 → F' (buf c) ≠ none) → swapF F' h'' none (some (c, v)) = F →
          wpI (Cr base P) (do H.wr64 a.1 a.2 c; addItems base 1) (fun out h' => ∃ g' ni', Tr base F g' ni' nn h' ∧
            ((out = .ok () ∧ Stored g g' q (some v) ni ni') ∨ (out = .err .noMem ∧ inline v = false ∧ Stored g g' q none ni ni'))) h'' := by
        intro F' h'' t'' he' hF' hsw
        refine wpI_mono (fun _ h => h) ?_ (putNew_spec t'' hs' hq' he' ⟨_, rfl, hF'⟩ (by rw [hk', upd_upd]; exact h2))
        rintro out h3 ⟨rfl, g', t3, h5⟩
        rw [hsw] at t3
        exact ⟨g', _, t3, Or.inl ⟨rfl, h5.nd.trans hst.nd, by rw [h5.kv, hk', upd_upd], fun hc => h5.card (hst.card hc)⟩⟩
      rcases h4 with ⟨rfl, hb⟩ | ⟨o, n, B, hf, rfl, hb⟩
      · refine key F h'' t' he (fun h => absurd hb h) ?_
        funext x
        unfold swapF
        rw [cw_some, hb, cw_none, buf_zero, if_neg (fun h => h.1 h.2), if_neg (fun h => h.1 h.2)]
      · refine key (fset F o (some B)) _ (t'.foreign (t'.fresh_not_own hf)) he (fun _ => by rw [hb, fset_same]; simp) ?_
        exact swapF_new (t'.fresh_F hf) hf.pos rfl hb
    · cases h3
  · rintro e h'' (⟨c', h3, -⟩ | ⟨h3, rfl, hin⟩)
    · cases h3
    · injection h3 with h3; subst h3
      exact ⟨g1, ni', t', Or.inr ⟨rfl, hin, hst⟩⟩

/-- **insert of pieces** -/
theorem insertIov_spec (t : Tr base F g ni nn h) {k : Bytes} {ps : List Bytes} {c : Option Check} (hl : ps.flatten.length ≤ maxAlloc)
    (h0 : P g.kv) (h1 : checkVal g.kv c = true → P (upd g.kv k none)) (h2 : checkVal g.kv c = true → P (upd g.kv k (some (.str ps.flatten)))) :
    wpI (Cr base P) (insertIov base k ps c) (fun out h' => (checkVal g.kv c = false ∧ out = .ok false ∧ h' = h) ∨
      (checkVal g.kv c = true ∧ ∃ g' ni' nn', Tr base F g' ni' nn' h' ∧ (Card g.vl ni → Card g'.vl ni') ∧ (Card g.nd nn → Card g'.nd nn') ∧
        ((out = .ok true ∧ g'.kv = upd g.kv k (some (.str ps.flatten)) ∧ (Tight g → Tight g')) ∨
         (out = .err .noMem ∧ (g'.kv = g.kv ∨ (g'.kv = upd g.kv k none ∧ inline (.str ps.flatten) = false)))))) h := by
  unfold insertIov
  simp only [Prog.bind_def]
  refine wpI_bind_of (checkOk_spec t c) ?_ (by rintro e h' ⟨-, h1⟩; cases h1)
  rintro go h' ⟨rfl, hgo⟩
  injection hgo with hgo
  subst hgo
  split
  · rename_i hc
    refine wpI_bind_of (traverseCreate_spec t h0 k) ?_ ?_
    · rintro a h' ⟨g1, nn1, t1, hg, hcn, (⟨a', h4, hs⟩ | ⟨h4, hvn⟩), -⟩
      · injection h4 with h4; subst h4
        refine wpI_bind_of (storeIov_spec t1 hs hl (by rw [hg.kv]; exact h0) (by rw [hg.kv]; exact h1 hc) (by rw [hg.kv]; exact h2 hc)) ?_ ?_
        · rintro _ h' ⟨g', ni', t', (⟨h5, h6⟩ | ⟨h5, -⟩)⟩
          · refine Or.inr ⟨hc, g', ni', nn1, t', ?_, ?_, Or.inl ⟨rfl, by rw [h6.kv, hg.kv], tight_insert t1 hg hs h6.nd h6.kv⟩⟩
            · rw [← hg.vl]; exact h6.card
            · rw [h6.nd]; exact hcn
          · cases h5
        · rintro e h' ⟨g', ni', t', (⟨h5, h6⟩ | ⟨h5, h6, h7⟩)⟩
          · cases h5
          · injection h5 with h5; subst h5
            refine Or.inr ⟨hc, g', ni', nn1, t', ?_, ?_, Or.inr ⟨rfl, ?_⟩⟩
            · rw [← hg.vl]; exact h7.card
            · rw [h7.nd]; exact hcn
            · right; exact ⟨by rw [h7.kv, hg.kv], h6⟩
      · cases h4
    · rintro e h' ⟨g1, nn1, t1, hg, hcn, (⟨a', h4, hs⟩ | ⟨h4, hvn⟩), -⟩
      · cases h4
      · injection h4 with h4; subst h4
        refine Or.inr ⟨hc, g1, ni, nn1, t1, ?_, hcn, Or.inr ⟨rfl, Or.inl hg.kv⟩⟩
        rw [hg.vl]; exact fun h => h
  · rename_i hc
    exact Or.inl ⟨by simpa using hc, rfl, rfl⟩

theorem step_insertIov {k : Bytes} {ps : List Bytes} {c : Option Check} {s : State} {h : Heap} (hl : ps.flatten.length ≤ 2 ^ 62) (hi : Holds base F s h) :
    wp ((insertIov base k ps c).bind fun b => .ret (Ret.bool b)) (fun out h' => ∃ s', SpecInsert s k (.str ps.flatten) c out s' ∧ Holds base F s' h') h := by
  obtain ⟨⟨g, ni, nn, t, hm, hcn, hcv, htt⟩, hfin, hok⟩ := hi
  have hsp := wp_heapOk hok (insertIov_spec (P := fun _ => True) (c := c) (k := k) t (ps := ps) (by omega) trivial (fun _ => trivial) (fun _ => trivial)).wp
  rw [hm] at hsp
  obtain ⟨n, hn⟩ := hfin
  refine wp_ret_of hsp ?_ ?_
  · rintro r h' ⟨(⟨h1, h2, rfl⟩ | ⟨h1, g', ni', nn', t', h3, h4, (⟨h5, h6, h7⟩ | ⟨h5, -⟩)⟩), hok'⟩
    · injection h2 with h2; subst h2
      refine ⟨s, Or.inl ⟨by rw [passes_iff, h1]; simp, rfl, rfl⟩, ⟨g, ni, nn, t, hm, hcn, hcv, htt⟩, ⟨n, hn⟩, hok⟩
    · injection h5 with h5; subst h5
      refine ⟨_, Or.inr (Or.inl ⟨by rw [passes_iff, h1], rfl, rfl⟩), ⟨g', ni', nn', t', by rw [h6, kept_eq]; rfl, fun he => h4 (hcn he), fun he => h3 (hcv he), fun hc => h7 (htt hc)⟩, count_put hn _ _, hok'⟩
    · cases h5
  · rintro e h' ⟨(⟨h1, h2, -⟩ | ⟨h1, g', ni', nn', t', h3, h4, (⟨h5, -⟩ | ⟨h5, h6⟩)⟩), hok'⟩
    · cases h2
    · cases h5
    · injection h5 with h5; subst h5
      refine ⟨{ s with m := g'.kv, clean := false }, Or.inr (Or.inr ⟨by rw [passes_iff, h1], rfl, g'.kv, rfl, ?_⟩), ⟨g', ni', nn', t', rfl, fun he => h4 (hcn he), fun he => h3 (hcv he), fun h => by cases h⟩, ?_, hok'⟩
      · rcases h6 with h6 | ⟨h6, h7⟩
        · exact Or.inl h6
        · exact Or.inr ⟨h6, Or.inl ⟨_, rfl, by simpa [inline] using h7⟩⟩
      · rcases h6 with h6 | ⟨h6, -⟩
        · exact ⟨n, by rw [h6]; exact hn⟩
        · rw [h6]; exact count_put hn k none

theorem cut_insertIov {k : Bytes} {ps : List Bytes} {c : Option Check} {s : State} {h : Heap} {f : Bool → Ret} (hl : ps.flatten.length ≤ 2 ^ 62) (hi : Holds base F s h) :
    wpI (Cr base (CutInsert s.m k (.str ps.flatten) c)) ((insertIov base k ps c).bind fun r => .ret (f r)) (fun _ _ => True) h := by
  obtain ⟨⟨g, ni, nn, t, hm, -⟩, -⟩ := hi
  refine wpI_any (insertIov_spec (c := c) (k := k) t (ps := ps) (by omega) ?_ ?_ ?_)
  · exact Or.inl hm
  · rw [hm]; exact fun hc => Or.inr ⟨(passes_iff _ _).2 hc, Or.inl rfl⟩
  · rw [hm]; exact fun hc => Or.inr ⟨(passes_iff _ _).2 hc, Or.inr (Or.inl rfl)⟩
end
end Verif.PrefixTree
