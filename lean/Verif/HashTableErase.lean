import Verif.HashTableOps
/-
wp-specifications of HashTable::clear and HashTable::erase.
-/
namespace Verif.HashTable
open Verif

/-- an 8-byte load one byte further is nonzero if the word is at least 256 -/
theorem leRd_mono (f : Nat → UInt8) (n : Nat) : ∀ a, leRd f a n ≤ leRd f a (n + 1) := by
  induction n with
  | zero => intro a; exact Nat.zero_le _
  | succ n ih =>
    intro a
    have := ih (a + 1)
    show (f a).toNat + 256 * leRd f (a + 1) n ≤ (f a).toNat + 256 * leRd f (a + 1) (n + 1)
    omega

theorem Block.rd_odd (B : Block) (h : 256 ≤ B.rd 0 8) : B.rd 1 8 ≠ 0 := by
  have h1 : B.rd 0 8 = (B.data 0).toNat + 256 * leRd B.data 1 7 := rfl
  have h2 : leRd B.data 1 7 ≤ B.rd 1 8 := leRd_mono B.data 7 1
  have h3 : (B.data 0).toNat < 256 := UInt8.toNat_lt _
  omega

attribute [local irreducible] Block.rd Block.rdB

section
variable {h : Heap} {base slots bits cnt : Nat} {bk : Nat → Bk} {lk : List Nat} {G : Nat → Option Block} {hash : Bytes → Nat} {k v : Bytes} {dm : Nat → Prop}

/-! ### clear -/

theorem freeChain_spec (c : List Ent) : ∀ (fuel : Nat) (h : Heap), c.length < fuel → Seg h c 0 → (∀ e ∈ c, KvOk h e ∧ e.iv ≠ 0) → (c.map Ent.kv ++ c.map Ent.iv).Nodup →
    wp (freeChain fuel (headIv c 0)) (fun out h' => out = .ok () ∧ ∀ x, h'.blk x = if x ∈ c.map Ent.kv ++ c.map Ent.iv then none else h.blk x) h := by
  induction c with
  | nil =>
    intro fuel h hf _ _ _
    obtain ⟨f, rfl⟩ : ∃ f, fuel = f + 1 := ⟨fuel - 1, by simp at hf; omega⟩
    exact ⟨rfl, by simp⟩
  | cons e t ih =>
    intro fuel h hf hs hk hn
    obtain ⟨f, rfl⟩ : ∃ f, fuel = f + 1 := ⟨fuel - 1, by simp at hf; omega⟩
    obtain ⟨hk1, hk2⟩ := hk e List.mem_cons_self
    obtain ⟨⟨B, b1, b2, b3, b4, b5⟩, hs2⟩ := hs
    obtain ⟨K, k1, -⟩ := hk1
    simp only [List.map_cons, List.cons_append, List.nodup_cons, List.mem_append, List.mem_cons, not_or, List.nodup_middle] at hn
    obtain ⟨⟨n1, n2, n3⟩, ⟨n4, n5⟩, n6⟩ := hn
    show wp (freeChain (f + 1) e.iv) _ h
    unfold freeChain
    rw [if_neg hk2]
    refine wp_rd b1 (by omega) ?_
    refine wp_rd b1 (by omega) ?_
    rw [b3, b4]
    refine wp_free k1 ?_
    refine wp_free (B := B) (by rw [Heap.del_ne _ _ _ (Ne.symm n2)]; exact b1) ?_
    have hd : ∀ x, x ≠ e.kv → x ≠ e.iv → ((h.del e.kv).del e.iv).blk x = h.blk x := fun x h1 h2 => by
      rw [Heap.del_ne _ _ _ h2, Heap.del_ne _ _ _ h1]
    refine wp_mono ?_ (ih f _ (by simp at hf; omega) (Seg_congr (fun x hx => hd _ ?_ ?_) hs2) (fun x hx => ⟨KvOk.congr (hd _ ?_ ?_) (hk x (List.mem_cons_of_mem _ hx)).1,
      (hk x (List.mem_cons_of_mem _ hx)).2⟩) n6)
    · rintro out h' ⟨rfl, h1⟩
      refine ⟨rfl, fun x => ?_⟩
      rw [h1 x]
      simp only [List.map_cons, List.cons_append, List.mem_cons, List.mem_append]
      by_cases e1 : x = e.kv
      · subst e1
        rw [if_pos (c := _ ∨ _) (Or.inl rfl)]
        split
        · rfl
        · rw [Heap.del_ne _ _ _ n2, Heap.del_same]
      by_cases e2 : x = e.iv
      · subst e2
        rw [if_pos (c := _ ∨ _ ∨ _ ∨ _) (Or.inr (Or.inr (Or.inl rfl)))]
        split
        · rfl
        · rw [Heap.del_same]
      · rw [hd x e1 e2]
        simp only [e1, e2, false_or]
    · rintro e1; exact n3 (e1 ▸ List.mem_map.2 ⟨x, hx, rfl⟩)
    · rintro e1; exact n5 (e1 ▸ List.mem_map.2 ⟨x, hx, rfl⟩)
    · rintro e1; exact n1 (e1 ▸ List.mem_map.2 ⟨x, hx, rfl⟩)
    · rintro e1; exact n4 (e1 ▸ List.mem_map.2 ⟨x, hx, rfl⟩)

/-- emptying slot i: everything it refers to is freed and its first word is 0 -/
theorem RepD.empty (r : RepD dm h base slots bits cnt bk lk G) {i : Nat} (hi : i < 2 ^ bits ∧ ¬ dm i) {h' : Heap} {BS BS' : Block} (hBS : h.blk slots = some BS) (hBS' : h'.blk slots = some BS')
    (hsz : BS'.size = BS.size) (hw : BS'.rd (16 * i) 8 = 0)
    (hoth : ∀ j, j ≠ i → BS'.rd (16 * j) 8 = BS.rd (16 * j) 8 ∧ BS'.rd (16 * j + 8) 8 = BS.rd (16 * j + 8) 8) {cnt' : Nat}
    (hb0 : ∃ B0, h'.blk base = some B0 ∧ B0.size = 24 ∧ B0.rd 0 8 = bits ∧ B0.rd 8 8 = slots ∧ B0.rd 16 8 = cnt' % W64)
    (hg : ∀ x ∈ (bk i).foot, h'.blk x = none) (hs : ∀ x, x ≠ base → x ≠ slots → x ∉ (bk i).foot → h'.blk x = h.blk x) :
    RepD dm h' base slots bits cnt' (fun j => if j = i then ⟨true, []⟩ else bk j) lk G := by
  refine r.update hi hb0 hBS hBS' hsz (Or.inl ⟨rfl, hw⟩) hoth ⟨by simp, by simp, by simp [Bk.foot], by simp [Bk.foot]⟩ (by simp [Bk.foot]) (fun x hx => Or.inl hx) (fun x hx => hx) ?_ ?_
  · intro x h1 h2 h3 _ _; exact hs x h1 h2 h3
  · intro x h1 _ _; exact hg x h1

theorem clearSlot_spec (r : RepD dm h base slots bits cnt bk lk G) {i : Nat} (hi : i < 2 ^ bits ∧ ¬ dm i) :
    wp (clearSlot slots i) (fun out h' => out = .ok () ∧ RepD dm h' base slots bits cnt (fun j => if j = i then ⟨true, []⟩ else bk j) lk G) h := by
  obtain ⟨B0, h0, hr0⟩ := r.b0
  obtain ⟨BS, hS, hsS, hsl⟩ := r.slot hi
  have hbs := r.sl.2.2
  have hbk := r.ok i
  unfold clearSlot
  simp only [Prog.bind_def]
  refine wp_rd hS (by omega) ?_
  obtain ⟨w1, w2, w3⟩ := slots_wr (BS := BS) (i := i) (a := 0) (b := 0) (by decide) (by decide)
  have fin : ∀ h1 : Heap, (∀ x, h1.blk x = if x ∈ (bk i).foot then none else h.blk x) →
      wp ((H.wr64 slots (16 * i) 0).bind fun _ => H.wr64 slots (16 * i + 8) 0) (fun out h' => out = .ok () ∧ RepD dm h' base slots bits cnt (fun j => if j = i then ⟨true, []⟩ else bk j) lk G) h1 := by
    intro h1 hh
    have hnf : ∀ x, x ∉ (bk i).foot → h1.blk x = h.blk x := fun x hx => by rw [hh, if_neg hx]
    refine wp_wr (B := BS) (by rw [hnf slots (fun hx => (hbk.off _ hx).2.2 rfl)]; exact hS) (by omega) ?_
    refine ⟨_, Heap.set_same _ _ _, by rw [Block.size_wr]; omega, ?_⟩
    rw [Heap.set_set]
    refine ⟨rfl, r.empty hi hS (BS' := (BS.wr (16 * i) 8 0).wr (16 * i + 8) 8 0) (Heap.set_same _ _ _) rfl w1 w3 ⟨B0, ?_, hr0⟩ ?_ ?_⟩
    · rw [Heap.set_ne _ _ _ _ hbs, hnf base (fun hx => (hbk.off _ hx).2.1 rfl)]; exact h0
    · intro x hx
      rw [Heap.set_ne _ _ _ _ (hbk.off _ hx).2.2, hh, if_pos hx]
    · intro x h1 h2 h3
      rw [Heap.set_ne _ _ _ _ h2, hnf x h3]
  rcases hsl with ⟨hc, hw⟩ | ⟨hd, e, hc, hw1, hw2⟩ | ⟨hd, e, t, hc, htn, hw⟩
  · rw [hw, if_pos rfl]
    exact ⟨rfl, r.empty hi hS hS rfl hw (fun _ _ => ⟨rfl, rfl⟩) ⟨B0, h0, hr0⟩ (by intro x hx; simp [Bk.foot, hc] at hx) (fun _ _ _ _ => rfl)⟩
  · have he : e ∈ (bk i).c := by rw [hc]; exact List.mem_singleton.2 rfl
    obtain ⟨ho, ho2, ho3⟩ := (hbk.mem_off he).1
    have he2 := ho.even
    rw [hw1, if_neg ho.ne]
    unfold freeSlot
    rw [if_neg (by omega)]
    obtain ⟨K, hK, -⟩ := hbk.kvs e he
    refine wp_free hK ?_
    refine fin _ ?_
    intro x
    have : (bk i).foot = [e.kv] := by simp [Bk.foot, hc, hd]
    rw [this, Heap.del_blk]
    simp
  · have he : e ∈ (bk i).c := by rw [hc]; exact List.mem_cons_self
    have ho := ((hbk.mem_off he).2 hd).1
    have he2 := ho.even
    rw [hw, if_neg (by omega)]
    unfold freeSlot
    rw [if_pos (by omega), Nat.add_sub_cancel]
    have hft : (bk i).foot = (bk i).c.map Ent.kv ++ (bk i).c.map Ent.iv := by simp [Bk.foot, hd]
    have := freeChain_spec (bk i).c maxNodes h hbk.len (hbk.seg hd) (hbk.walkable hd) (hft ▸ hbk.nodup)
    rw [show headIv (bk i).c 0 = e.iv by rw [hc]; rfl] at this
    refine wp_bind_of this ?_ ?_
    · rintro _ h1 ⟨-, hh⟩
      exact fin h1 (by intro x; rw [hh x, hft])
    · rintro _ _ ⟨hx, -⟩; cases hx

theorem clearLoop_spec (n : Nat) : ∀ (fuel x : Nat) (bk : Nat → Bk) (h : Heap), n < fuel → x + n = 2 ^ bits → (∀ j, j < x → (bk j).c = []) → Rep h base slots bits cnt bk lk G →
    wp (clearLoop base fuel x) (fun out h' => out = .ok () ∧ ∃ bk', Rep h' base slots bits cnt bk' lk G ∧ ∀ j, (bk' j).c = []) h := by
  induction n with
  | zero =>
    intro fuel x bk h hf hx hz r
    obtain ⟨f, rfl⟩ : ∃ f, fuel = f + 1 := ⟨fuel - 1, by omega⟩
    obtain ⟨B0, h0, hs0, hb1, hb2, hb3⟩ := r.b0
    unfold clearLoop
    refine wp_rd h0 (by omega) ?_
    rw [hb1, if_neg (by omega)]
    refine ⟨rfl, bk, r, fun j => ?_⟩
    by_cases hj : j < x
    · exact hz j hj
    · exact r.out j (by omega)
  | succ n ih =>
    intro fuel x bk h hf hx hz r
    obtain ⟨f, rfl⟩ : ∃ f, fuel = f + 1 := ⟨fuel - 1, by omega⟩
    obtain ⟨B0, h0, hs0, hb1, hb2, hb3⟩ := r.b0
    unfold clearLoop
    refine wp_rd h0 (by omega) ?_
    rw [hb1, if_pos (by omega)]
    refine wp_rd h0 (by omega) ?_
    rw [hb2]
    refine wp_bind_of (clearSlot_spec r ⟨by omega, fun h => h⟩) ?_ ?_
    · rintro _ h' ⟨-, r'⟩
      refine ih f (x + 1) _ h' (by omega) (by omega) ?_ r'
      intro j hj
      split
      · rfl
      · rename_i hne; exact hz j (by omega)
    · rintro _ _ ⟨hx, -⟩; cases hx

theorem clear_spec {m : Pairs} (t : Table hash base slots bits G m lk h) : wp (clear base) (fun out h' => out = .ok () ∧ Table hash base slots bits G [] lk h') h := by
  obtain ⟨bk, r, hp, hn⟩ := t
  unfold clear
  refine wp_bind_of (clearLoop_spec (2 ^ bits) maxNodes 0 bk h (by
    have := two_pow_small r.b31
    rw [maxNodes_eq]; omega) (by omega) (by omega) r) ?_ ?_
  · rintro _ h' ⟨-, bk', r', hz⟩
    obtain ⟨B0, h0, hs0, hb1, hb2, hb3⟩ := r'.b0
    refine ⟨B0, h0, by omega, rfl, fun _ => ⟨true, []⟩, ?_, by simp [Bk.pairs], by simp [keys]⟩
    obtain ⟨BS, hS, hrS, hsl⟩ := r'.bs
    refine ⟨r'.blt, r'.b31, ⟨_, Heap.set_same _ _ _, hs0, ?_, ?_, ?_⟩, ⟨BS, by rw [Heap.set_ne _ _ _ _ r'.sl.2.2.symm]; exact hS, hrS, ?_⟩, r'.sl, fun _ _ => rfl, fun _ h => h.elim, ?_, ?_, ?_⟩
    · rw [Block.rd_wr_ne _ (by omega), hb1]
    · rw [Block.rd_wr_ne _ (by omega), hb2]
    · rw [Block.rd_wr_same8 _ _ _ (by decide)]; rfl
    · intro i hi _
      rcases hsl i hi (fun h => h) with ⟨-, h1⟩ | ⟨-, e, h1, -⟩ | ⟨-, e, t, h1, -, -⟩
      · exact Or.inl ⟨rfl, h1⟩
      · rw [hz i] at h1; cases h1
      · rw [hz i] at h1; cases h1
    · exact fun _ => ⟨by simp, by simp, by simp [Bk.foot], by simp [Bk.foot]⟩
    · simp [Bk.foot]
    · intro x
      rw [r'.frame x]
      have hf : ¬ ∃ i, x ∈ (bk' i).foot := by
        rintro ⟨i, hi⟩; simp [Bk.foot, hz] at hi
      by_cases hb : x = base
      · rw [if_pos (Or.inl hb), if_pos (Or.inl hb)]
      · rw [Heap.set_ne _ _ _ _ hb]
        by_cases h1 : x = slots
        · rw [if_pos (Or.inr (Or.inl h1)), if_pos (Or.inr (Or.inl h1))]
        by_cases h2 : x ∈ lk
        · rw [if_pos (Or.inr (Or.inr (Or.inr h2))), if_pos (Or.inr (Or.inr (Or.inr h2)))]
        · rw [if_neg (by simp only [hb, h1, h2, hf, or_self, not_false_eq_true]), if_neg (by simp [hb, h1, h2, Bk.foot])]
  · rintro _ _ ⟨hx, -⟩; cases hx

/-! ### erase -/

/-- the map without `k` -/
def del (m : Pairs) (k : Bytes) : Pairs := m.filter fun e => decide (e.1 ≠ k)

theorem del_absent {m : Pairs} (hk : k ∉ keys m) : del m k = m := by
  unfold del
  rw [List.filter_eq_self]
  intro e he
  simp only [decide_eq_true_eq]
  rintro rfl
  exact hk (List.mem_map.2 ⟨e, he, rfl⟩)

theorem del_mid {a t : Pairs} (hn : (keys (a ++ (k, v) :: t)).Nodup) : del (a ++ (k, v) :: t) k = a ++ t := by
  unfold keys at hn
  rw [List.map_append, List.map_cons, List.nodup_middle, List.nodup_cons, ← List.map_append] at hn
  have := del_absent hn.1
  unfold del at this ⊢
  rw [List.filter_append, List.filter_cons, if_neg (by simp), ← List.filter_append]
  exact this

theorem length_del {m : Pairs} (hn : (keys m).Nodup) (hk : k ∈ keys m) : (del m k).length + 1 = m.length := by
  obtain ⟨e, he, rfl⟩ := List.mem_map.1 hk
  obtain ⟨a, t, rfl⟩ := List.append_of_mem he
  rw [del_mid (v := e.2) hn]
  simp
  omega

theorem nodup_del {m : Pairs} (hn : (keys m).Nodup) : (keys (del m k)).Nodup :=
  List.Nodup.sublist (List.Sublist.map _ List.filter_sublist) hn

theorem dropCount_spec {B0 : Block} (h0 : h.blk base = some B0) (hs : B0.size = 24) {n : Nat} (hn : B0.rd 16 8 = n) :
    wp (dropCount base) (fun out h' => out = .ok () ∧ h' = h.set base (B0.wr 16 8 (n + 18446744073709551615))) h := by
  unfold dropCount
  refine wp_rd h0 (by omega) ?_
  rw [hn]
  exact ⟨B0, h0, by omega, rfl, rfl⟩

theorem base_drop {B0 : Block} (hs : B0.size = 24) {b s c : Nat} (h1 : B0.rd 0 8 = b) (h2 : B0.rd 8 8 = s) (h3 : B0.rd 16 8 = (c + 1) % W64) :
    (B0.wr 16 8 ((c + 1) % W64 + 18446744073709551615)).size = 24 ∧ (B0.wr 16 8 ((c + 1) % W64 + 18446744073709551615)).rd 0 8 = b ∧
      (B0.wr 16 8 ((c + 1) % W64 + 18446744073709551615)).rd 8 8 = s ∧
      (B0.wr 16 8 ((c + 1) % W64 + 18446744073709551615)).rd 16 8 = c % W64 := by
  obtain ⟨e1, e2, e3, e4⟩ := base_bump hs (d := 18446744073709551615) h1 h2 h3
  refine ⟨e1, e2, e3, ?_⟩
  rw [e4]
  omega

/-- what erasing a key of slot i does -/
def Erased (dm : Nat → Prop) (base slots bits cnt : Nat) (bk : Nat → Bk) (lk : List Nat) (G : Nat → Option Block) (i : Nat) (k : Bytes) (h' : Heap) : Prop :=
  ∃ b', b'.pairs = del (bk i).pairs k ∧ RepD dm h' base slots bits cnt (fun j => if j = i then b' else bk j) lk G

/-- case (C): the item is not the first of its list -/
theorem erase_mid (r : RepD dm h base slots bits (cnt + 1) bk lk G) {i : Nat} (hi : i < 2 ^ bits ∧ ¬ dm i) (hnk : (keys (bk i).pairs).Nodup)
    {a t : List Ent} {p e : Ent} (hd : (bk i).dir = false) (hc : (bk i).c = (a ++ [p]) ++ e :: t) (hek : e.key = k) {B0 P : Block}
    (h0 : h.blk base = some B0) (hP : h.blk p.iv = some P) {h' : Heap}
    (g1 : h'.blk base = some (B0.wr 16 8 ((cnt + 1) % W64 + 18446744073709551615))) (g3 : h'.blk e.kv = none) (g4 : h'.blk e.iv = none)
    (g5 : h'.blk p.iv = some (P.wr 0 8 (headIv t 0)))
    (g6 : ∀ x, x ≠ base → x ≠ e.kv → x ≠ e.iv → x ≠ p.iv → h'.blk x = h.blk x) (hlen : 1 ≤ a.length + t.length) :
    Erased dm base slots bits cnt bk lk G i k h' := by
  obtain ⟨B0', h0', hs0, hb1, hb2, hb3⟩ := r.b0
  rw [h0] at h0'; injection h0' with h0'; subst h0'
  obtain ⟨BS, hS, hsS, hsl⟩ := r.slot hi
  have hbk := r.ok i
  have hme : e ∈ (bk i).c := by rw [hc]; simp
  have hmp : p ∈ (bk i).c := by rw [hc]; simp
  have hm : ∀ x, x ∈ a ++ [p] ∨ x ∈ t → x ∈ (bk i).c := by
    intro x hx; rw [hc, List.mem_append, List.mem_cons]
    rcases hx with h | h
    exacts [Or.inl h, Or.inr (Or.inr h)]
  have n1 : ∀ x, x ∈ a ++ [p] ∨ x ∈ t → x.iv ≠ e.iv := fun x hx => nodup_mid (hc ▸ ivs_nodup hbk.nodup hd) hx
  have n2 : ∀ x, x ∈ a ++ [p] ∨ x ∈ t → x.kv ≠ e.kv := fun x hx => nodup_mid (hc ▸ kvs_nodup hbk.nodup) hx
  have n3 : ∀ x ∈ (bk i).c, ∀ y ∈ (bk i).c, x.kv ≠ y.iv := fun x hx y hy => kv_iv_ne hbk.nodup hd hx hy
  have n4 : ∀ x, x ∈ a ∨ x ∈ e :: t → x.iv ≠ p.iv := fun x hx =>
    nodup_mid (e := p) (a := a) (t := e :: t) (by
      have := ivs_nodup hbk.nodup hd
      rw [hc, List.append_assoc] at this
      exact this) hx
  have n5 : ∀ x ∈ (bk i).c, x.kv ≠ base ∧ x.iv ≠ base := fun x hx => ⟨(hbk.mem_off hx).1.2.1, ((hbk.mem_off hx).2 hd).2.1⟩
  have n6 : ∀ x ∈ (bk i).c, x.kv ≠ slots ∧ x.iv ≠ slots := fun x hx => ⟨(hbk.mem_off hx).1.2.2, ((hbk.mem_off hx).2 hd).2.2⟩
  have hseg := hbk.seg hd
  rw [hc, Seg_append] at hseg
  obtain ⟨hsa, hse, hst⟩ := hseg
  let b' : Bk := ⟨false, (a ++ [p]) ++ t⟩
  have hmem : ∀ x, x ∈ b'.foot ↔ x ∈ (bk i).foot ∧ x ≠ e.kv ∧ x ≠ e.iv := by
    intro x
    rw [mem_foot, mem_foot, hc]
    constructor
    · rintro (⟨y, hy, rfl⟩ | ⟨-, y, hy, rfl⟩)
      · have hy : y ∈ a ++ [p] ∨ y ∈ t := List.mem_append.1 hy
        refine ⟨Or.inl ⟨y, hc ▸ hm y hy, rfl⟩, n2 y hy, n3 y (hm y hy) e hme⟩
      · have hy : y ∈ a ++ [p] ∨ y ∈ t := List.mem_append.1 hy
        refine ⟨Or.inr ⟨hd, y, hc ▸ hm y hy, rfl⟩, fun hx => n3 e hme y (hm y hy) hx.symm, n1 y hy⟩
    · rintro ⟨(⟨y, hy, rfl⟩ | ⟨-, y, hy, rfl⟩), h1, h2⟩
      · rw [List.mem_append, List.mem_cons] at hy
        rcases hy with hy | rfl | hy
        · exact Or.inl ⟨y, List.mem_append_left _ hy, rfl⟩
        · exact absurd rfl h1
        · exact Or.inl ⟨y, List.mem_append_right _ hy, rfl⟩
      · rw [List.mem_append, List.mem_cons] at hy
        rcases hy with hy | rfl | hy
        · exact Or.inr ⟨rfl, y, List.mem_append_left _ hy, rfl⟩
        · exact absurd rfl h2
        · exact Or.inr ⟨rfl, y, List.mem_append_right _ hy, rfl⟩
  refine ⟨b', ?_, ?_⟩
  · unfold Bk.pairs at hnk ⊢
    have e9 : (bk i).c.map (fun e => (e.key, e.val)) = (a ++ [p]).map (fun e => (e.key, e.val)) ++ (k, e.val) :: t.map (fun e => (e.key, e.val)) := by
      rw [hc, List.map_append (l₁ := a ++ [p]), List.map_cons, hek]
    rw [e9] at hnk ⊢
    rw [del_mid hnk]
    exact List.map_append
  refine r.update hi ⟨_, g1, base_drop hs0 hb1 hb2 hb3⟩ hS (BS' := BS) ?_ rfl ?_ (fun j _ => ⟨rfl, rfl⟩) ?_ ?_ ?_ ?_ ?_ ?_
  · rw [g6 slots r.sl.2.2.symm (n6 e hme).1.symm (n6 e hme).2.symm (n6 p hmp).2.symm, hS]
  · rcases hsl with ⟨h1, -⟩ | ⟨h1, -⟩ | ⟨-, e0, t0, h2, htn, h3⟩
    · rw [hc] at h1; simp at h1
    · rw [hd] at h1; cases h1
    · refine Or.inr (Or.inr ⟨rfl, ?_⟩)
      cases a with
      | nil =>
        rw [hc] at h2
        injection h2 with h2 h4
        subst h2
        exact ⟨_, _, rfl, by intro e; have e : t = [] := e; rw [e] at hlen; simp at hlen, h3⟩
      | cons f a =>
        rw [hc] at h2
        injection h2 with h2 h4
        subst h2
        exact ⟨_, _, rfl, by cases a <;> simp, h3⟩
  · refine ⟨fun _ => ?_, ?_, ?_, ?_⟩
    · show Seg h' ((a ++ [p]) ++ t) 0
      rw [Seg_append]
      refine ⟨Seg_last hsa ?_ ?_ ?_, Seg_congr ?_ hst⟩
      · intro x hx
        have hx' : x ∈ a ++ [p] := List.mem_append_left _ hx
        exact g6 _ (n5 x (hm x (Or.inl hx'))).2 (fun h => n3 e hme x (hm x (Or.inl hx')) h.symm) (n1 x (Or.inl hx')) (n4 x (Or.inl hx))
      · intro B hB
        rw [hP] at hB; injection hB with hB; subst hB
        exact g5
      · cases t with
        | nil => decide
        | cons f t =>
          have := ((hbk.mem_off (hm f (Or.inr List.mem_cons_self))).2 hd).1.lt
          show f.iv < W64
          omega
      · intro x hx
        exact g6 _ (n5 x (hm x (Or.inr hx))).2 (fun h => n3 e hme x (hm x (Or.inr hx)) h.symm) (n1 x (Or.inr hx)) (n4 x (Or.inr (List.mem_cons_of_mem _ hx)))
    · intro x hx
      have hx : x ∈ a ++ [p] ∨ x ∈ t := List.mem_append.1 hx
      exact KvOk.congr (g6 _ (n5 x (hm x hx)).1 (n2 x hx) (n3 x (hm x hx) e hme) (n3 x (hm x hx) p hmp)) (hbk.kvs x (hm x hx))
    · have hnd := hbk.nodup
      have e1 : b'.foot = ((a ++ [p]) ++ t).map Ent.kv ++ ((a ++ [p]) ++ t).map Ent.iv := by simp [b', Bk.foot]
      have e2 : (bk i).foot = (bk i).c.map Ent.kv ++ (bk i).c.map Ent.iv := by simp [Bk.foot, hd]
      have hsub : List.Sublist ((a ++ [p]) ++ t) (bk i).c := by
        rw [hc]; exact List.Sublist.append (List.Sublist.refl _) (List.sublist_cons_self _ _)
      rw [e1]
      rw [e2] at hnd
      exact hnd.sublist (List.Sublist.append (hsub.map _) (hsub.map _))
    · intro x hx
      exact hbk.off x ((hmem x).1 hx).1
  · intro x hx
    exact Or.inl ((hmem x).1 hx).1
  · exact fun x hx => Or.inl hx
  · exact fun x hx => hx
  · intro x h1 h2 h3 h4 _
    refine g6 x h1 ?_ ?_ ?_
    · rintro rfl; exact h3 (mem_foot.2 (Or.inl ⟨e, hme, rfl⟩))
    · rintro rfl; exact h3 (mem_foot.2 (Or.inr ⟨hd, e, hme, rfl⟩))
    · rintro rfl; exact h3 (mem_foot.2 (Or.inr ⟨hd, p, hmp, rfl⟩))
  · intro x hx h2 _
    by_cases h3 : x = e.kv
    · rw [h3]; exact g3
    by_cases h4 : x = e.iv
    · rw [h4]; exact g4
    · exact absurd ((hmem x).2 ⟨hx, h3, h4⟩) h2

/-- case (B): the first of two -/
theorem erase_first_of_two (r : RepD dm h base slots bits (cnt + 1) bk lk G) {i : Nat} (hi : i < 2 ^ bits ∧ ¬ dm i) (hnk : (keys (bk i).pairs).Nodup)
    {e f : Ent} (hd : (bk i).dir = false) (hc : (bk i).c = [e, f]) (hek : e.key = k) {B0 BS BS' : Block}
    (h0 : h.blk base = some B0) (hS : h.blk slots = some BS) {h' : Heap}
    (g1 : h'.blk base = some (B0.wr 16 8 ((cnt + 1) % W64 + 18446744073709551615)))
    (g2 : h'.blk slots = some BS') (hsz : BS'.size = BS.size) (w1 : BS'.rd (16 * i) 8 = f.kv) (w2 : BS'.rd (16 * i + 8) 8 = f.key.length)
    (w3 : ∀ j, j ≠ i → BS'.rd (16 * j) 8 = BS.rd (16 * j) 8 ∧ BS'.rd (16 * j + 8) 8 = BS.rd (16 * j + 8) 8)
    (g3 : h'.blk e.kv = none) (g4 : h'.blk e.iv = none) (g5 : h'.blk f.iv = none)
    (g6 : ∀ x, x ≠ base → x ≠ slots → x ≠ e.kv → x ≠ e.iv → x ≠ f.iv → h'.blk x = h.blk x) :
    Erased dm base slots bits cnt bk lk G i k h' := by
  obtain ⟨B0', h0', hs0, hb1, hb2, hb3⟩ := r.b0
  rw [h0] at h0'; injection h0' with h0'; subst h0'
  have hbk := r.ok i
  have hme : e ∈ (bk i).c := by rw [hc]; simp
  have hmf : f ∈ (bk i).c := by rw [hc]; simp
  have hfoot : (bk i).foot = [e.kv, f.kv, e.iv, f.iv] := by simp [Bk.foot, hd, hc]
  have hnd := hbk.nodup
  rw [hfoot] at hnd
  simp only [List.nodup_cons, List.mem_cons, List.not_mem_nil, or_false, not_or, not_false_eq_true, List.nodup_nil, and_true] at hnd
  obtain ⟨⟨d1, d2, d3⟩, ⟨d4, d5⟩, d6⟩ := hnd
  obtain ⟨o1, o2, o3⟩ := (hbk.mem_off hmf).1
  have hfk : h'.blk f.kv = h.blk f.kv := g6 _ o2 o3 (Ne.symm d1) d4 d5
  refine ⟨⟨true, [f]⟩, ?_, ?_⟩
  · unfold Bk.pairs at hnk ⊢
    have e9 : (bk i).c.map (fun e => (e.key, e.val)) = [] ++ (k, e.val) :: [(f.key, f.val)] := by
      rw [hc, List.map_cons, hek]; rfl
    rw [e9] at hnk ⊢
    rw [del_mid hnk]; rfl
  refine r.update hi ⟨_, g1, base_drop hs0 hb1 hb2 hb3⟩ hS g2 hsz (Or.inr (Or.inl ⟨rfl, f, rfl, w1, w2⟩)) w3 ?_ ?_ ?_ ?_ ?_ ?_
  · refine ⟨by simp, ?_, by simp [Bk.foot], ?_⟩
    · intro x hx
      rw [List.mem_singleton.1 hx]
      exact KvOk.congr hfk (hbk.kvs f hmf)
    · intro x hx
      have : x = f.kv := by simpa [Bk.foot] using hx
      rw [this]; exact ⟨o1, o2, o3⟩
  · intro x hx
    have : x = f.kv := by simpa [Bk.foot] using hx
    rw [this, hfoot]; exact Or.inl (by simp)
  · exact fun x hx => Or.inl hx
  · exact fun x hx => hx
  · intro x h1 h2 h3 h4 _
    rw [hfoot] at h3
    simp only [List.mem_cons, List.not_mem_nil, or_false, not_or] at h3
    exact g6 x h1 h2 h3.1 h3.2.2.1 h3.2.2.2
  · intro x hx h2 _
    rw [hfoot] at hx
    have h2 : x ≠ f.kv := by simpa [Bk.foot] using h2
    simp only [List.mem_cons, List.not_mem_nil, or_false] at hx
    rcases hx with rfl | rfl | rfl | rfl
    exacts [g3, absurd rfl h2, g4, g5]

theorem Erased.tableD {m : Pairs} {off : Nat} (hp : ∀ i, (bk i).pairs = m.filter (fun e => decide (hash e.1 % 2 ^ bits = i))) (hn : (keys m).Nodup) {h' : Heap} (hk : k ∈ keys m)
    (hl : Erased dm base slots bits (m.length - 1 + off) bk lk G (hash k % 2 ^ bits) k h') : TableD dm off hash base slots bits G (del m k) lk h' := by
  obtain ⟨b', e1, r⟩ := hl
  have hlen := length_del hn hk
  refine ⟨fun j => if j = hash k % 2 ^ bits then b' else bk j, ?_, ?_, nodup_del hn⟩
  · rw [show (del m k).length = m.length - 1 by omega]; exact r
  · intro i
    show (if i = hash k % 2 ^ bits then b' else bk i).pairs = _
    have hcomm : (del m k).filter (fun e => decide (hash e.1 % 2 ^ bits = i)) = del (m.filter (fun e => decide (hash e.1 % 2 ^ bits = i))) k := by
      unfold del
      rw [List.filter_filter, List.filter_filter]
      congr 1
      funext e
      exact Bool.and_comm _ _
    rw [hcomm]
    by_cases hi : i = hash k % 2 ^ bits
    · rw [if_pos hi, e1, hp, hi]
    · rw [if_neg hi, hp, del_absent]
      rintro hx
      obtain ⟨e, he, rfl⟩ := List.mem_map.1 hx
      rw [List.mem_filter, decide_eq_true_eq] at he
      exact hi he.2.symm

/-- the cases in which erase works; `l` are the items in the slot of the key, oldest first -/
def eraseSafe (l : Pairs) (k : Bytes) : Prop :=
  k ∉ keys l ∨ l.length = 1 ∨ (l.length = 2 ∧ (keys l).head? = some k) ∨ (3 ≤ l.length ∧ (keys l).head? ≠ some k)

/-- the part of erase that unlinks and frees a list item -/
def eraseIv (base slots so prev cur : Nat) : HProg Bool := do
  unlinkIv slots so prev cur
  let old ← H.rd64 cur 8
  H.free old
  H.free cur
  unchain slots so
  dropCount base
  pure true

theorem eraseIv_spec (r : RepD dm h base slots bits (cnt + 1) bk lk G) {i : Nat} (hi : i < 2 ^ bits ∧ ¬ dm i) (hnk : (keys (bk i).pairs).Nodup)
    {a t : List Ent} {e : Ent} (hd : (bk i).dir = false) (hc : (bk i).c = a ++ e :: t) (hek : e.key = k)
    (hsafe : (a = [] ∧ t.length ≤ 1) ∨ (a ≠ [] ∧ 2 ≤ a.length + t.length)) :
    wp (eraseIv base slots (16 * i) (lastIv 0 a) e.iv) (fun out h' => out = .ok true ∧ Erased dm base slots bits cnt bk lk G i k h') h := by
  obtain ⟨B0, h0, hs0, hb1, hb2, hb3⟩ := r.b0
  obtain ⟨BS, hS, hsS, hsl⟩ := r.slot hi
  have hbs := r.sl.2.2
  have hbk := r.ok i
  have hme : e ∈ (bk i).c := by rw [hc]; simp
  obtain ⟨⟨o1, o2, o3⟩, o4⟩ := hbk.mem_off hme
  obtain ⟨o4, o5, o6⟩ := o4 hd
  have n3 : ∀ x ∈ (bk i).c, ∀ y ∈ (bk i).c, x.kv ≠ y.iv := fun x hx y hy => kv_iv_ne hbk.nodup hd hx hy
  have hseg := hbk.seg hd
  rw [hc, Seg_append] at hseg
  obtain ⟨hsa, ⟨E, b1, b2, b3, b4, b5⟩, hst⟩ := hseg
  obtain ⟨K, hK, -⟩ := hbk.kvs e hme
  have nee := n3 e hme e hme
  unfold eraseIv unlinkIv unchain
  simp only [Prog.bind_def, Prog.bind_assoc]
  refine wp_rd b1 (by omega) ?_
  rw [b3]
  rcases List.eq_nil_or_concat a with rfl | ⟨a0, p, hap⟩
  · rcases hsafe with ⟨-, ht⟩ | ⟨h1, -⟩
    rotate_left
    · exact absurd rfl h1
    rw [if_neg (show ¬ lastIv 0 [] ≠ 0 by simp [lastIv])]
    refine wp_wr hS (by omega) ?_
    refine wp_rd (B := E) (by rw [Heap.set_ne _ _ _ _ o6]; exact b1) (by omega) ?_
    rw [b4]
    refine wp_free (B := K) (by rw [Heap.set_ne _ _ _ _ o3]; exact hK) ?_
    refine wp_free (B := E) (by rw [Heap.del_ne _ _ _ nee.symm, Heap.set_ne _ _ _ _ o6]; exact b1) ?_
    refine wp_rd (B := BS.wr (16 * i) 8 (headIv t 0)) (by rw [Heap.del_ne _ _ _ o6.symm, Heap.del_ne _ _ _ o3.symm, Heap.set_same]) (by rw [Block.size_wr]; omega) ?_
    cases t with
    | nil =>
      rw [Block.rd_wr_same8 _ _ _ (by decide)]
      rw [if_neg (show ¬ headIv [] 0 ≠ 0 by simp [headIv])]
      simp only [Prog.pure_def, Prog.ret_bind]
      refine wp_bind_of (dropCount_spec (B0 := B0) (by rw [Heap.del_ne _ _ _ o5.symm, Heap.del_ne _ _ _ o2.symm, Heap.set_ne _ _ _ _ hbs]; exact h0) hs0 hb3) ?_ ?_
      · rintro _ h' ⟨-, rfl⟩
        have hfoot : (bk i).foot = [e.kv, e.iv] := by simp [Bk.foot, hd, hc]
        refine ⟨rfl, ⟨true, []⟩, ?_, r.empty hi hS (BS' := BS.wr (16 * i) 8 0) ?_ rfl (Block.rd_wr_same8 _ _ _ (by decide)) ?_ ⟨_, Heap.set_same _ _ _, base_drop hs0 hb1 hb2 hb3⟩ ?_ ?_⟩
        · unfold Bk.pairs
          rw [hc]
          simp [del, hek]
        · rw [Heap.set_ne _ _ _ _ hbs.symm, Heap.del_ne _ _ _ o6.symm, Heap.del_ne _ _ _ o3.symm, Heap.set_same]; rfl
        · intro j hj
          rw [Block.rd_wr_ne _ (by omega), Block.rd_wr_ne _ (by omega)]
          exact ⟨rfl, rfl⟩
        · intro x hx
          rw [hfoot] at hx
          simp only [List.mem_cons, List.not_mem_nil, or_false] at hx
          rcases hx with rfl | rfl
          · rw [Heap.set_ne _ _ _ _ o2, Heap.del_ne _ _ _ nee, Heap.del_same]
          · rw [Heap.set_ne _ _ _ _ o5, Heap.del_same]
        · intro x h1 h2 h3
          rw [hfoot] at h3
          simp only [List.mem_cons, List.not_mem_nil, or_false, not_or] at h3
          rw [Heap.set_ne _ _ _ _ h1, Heap.del_ne _ _ _ h3.2, Heap.del_ne _ _ _ h3.1, Heap.set_ne _ _ _ _ h2]
      · rintro _ _ ⟨hx, -⟩; cases hx
    | cons f t =>
      have ht0 : t = [] := by simpa using ht
      subst ht0
      have hmf : f ∈ (bk i).c := by rw [hc]; simp
      obtain ⟨⟨q1, q2, q3⟩, q4⟩ := hbk.mem_off hmf
      obtain ⟨q4, q5, q6⟩ := q4 hd
      have hev := q4.even
      obtain ⟨⟨F, f1, f2, f3, f4, f5⟩, -⟩ := hst
      have nfe : f.iv ≠ e.iv := nodup_mid (a := []) (hc ▸ ivs_nodup hbk.nodup hd) (Or.inr List.mem_cons_self)
      have nfk : f.iv ≠ e.kv := (n3 e hme f hmf).symm
      rw [show headIv [f] 0 = f.iv from rfl, Block.rd_wr_same8 _ _ _ (by have := q4.lt; omega)]
      rw [if_pos q4.ne]
      unfold oddBlk
      rw [hev, Nat.sub_zero]
      simp only [Prog.bind_assoc]
      refine wp_rd (B := F) (by rw [Heap.del_ne _ _ _ nfe, Heap.del_ne _ _ _ nfk, Heap.set_ne _ _ _ _ q6]; exact f1) (by omega) ?_
      rw [f3, if_pos (show headIv [] 0 = 0 from rfl)]
      refine wp_rd (B := F) (by rw [Heap.del_ne _ _ _ nfe, Heap.del_ne _ _ _ nfk, Heap.set_ne _ _ _ _ q6]; exact f1) (by omega) ?_
      rw [show F.rd (0 + 8) 8 = f.kv from f4]
      refine wp_wr (B := BS.wr (16 * i) 8 f.iv) (by rw [Heap.del_ne _ _ _ o6.symm, Heap.del_ne _ _ _ o3.symm, Heap.set_same]) (by rw [Block.size_wr]; omega) ?_
      refine wp_rd (B := F) (by rw [Heap.set_ne _ _ _ _ q6, Heap.del_ne _ _ _ nfe, Heap.del_ne _ _ _ nfk, Heap.set_ne _ _ _ _ q6]; exact f1) (by omega) ?_
      rw [show F.rd (0 + 16) 8 = f.key.length from f5]
      refine wp_wr (Heap.set_same _ _ _) (by simp only [Block.size_wr]; omega) ?_
      rw [Heap.set_set]
      refine wp_free (B := F) (by rw [Heap.set_ne _ _ _ _ q6, Heap.del_ne _ _ _ nfe, Heap.del_ne _ _ _ nfk, Heap.set_ne _ _ _ _ q6]; exact f1) ?_
      refine wp_bind_of (dropCount_spec (B0 := B0) (by
        rw [Heap.del_ne _ _ _ q5.symm, Heap.set_ne _ _ _ _ hbs, Heap.del_ne _ _ _ o5.symm, Heap.del_ne _ _ _ o2.symm, Heap.set_ne _ _ _ _ hbs]; exact h0) hs0 hb3) ?_ ?_
      · rintro _ h' ⟨-, rfl⟩
        obtain ⟨w1, w2, w3⟩ := slots_wr (BS := BS.wr (16 * i) 8 f.iv) (i := i) (a := f.kv) (b := f.key.length) (by have := q1.lt; omega) (by rw [← f5]; exact Block.rd8_lt _ _)
        refine ⟨rfl, erase_first_of_two r hi hnk hd hc hek h0 hS (Heap.set_same _ _ _) (BS' := ((BS.wr (16 * i) 8 f.iv).wr (16 * i) 8 f.kv).wr (16 * i + 8) 8 f.key.length) ?_ rfl w1 w2 ?_ ?_ ?_ ?_ ?_⟩
        · rw [Heap.set_ne _ _ _ _ hbs.symm, Heap.del_ne _ _ _ q6.symm, Heap.set_same]
        · intro j hj
          rw [(w3 j hj).1, (w3 j hj).2, Block.rd_wr_ne _ (by omega), Block.rd_wr_ne _ (by omega)]
          exact ⟨rfl, rfl⟩
        · rw [Heap.set_ne _ _ _ _ o2, Heap.del_ne _ _ _ nfk.symm, Heap.set_ne _ _ _ _ o3, Heap.del_ne _ _ _ nee, Heap.del_same]
        · rw [Heap.set_ne _ _ _ _ o5, Heap.del_ne _ _ _ nfe.symm, Heap.set_ne _ _ _ _ o6, Heap.del_same]
        · rw [Heap.set_ne _ _ _ _ q5, Heap.del_same]
        · intro x y1 y2 y3 y4 y5
          rw [Heap.set_ne _ _ _ _ y1, Heap.del_ne _ _ _ y5, Heap.set_ne _ _ _ _ y2, Heap.del_ne _ _ _ y4, Heap.del_ne _ _ _ y3, Heap.set_ne _ _ _ _ y2]
      · rintro _ _ ⟨hx, -⟩; cases hx
  · have hap : a = a0 ++ [p] := by rw [hap]; simp
    subst hap
    rcases hsafe with ⟨h1, -⟩ | ⟨-, hlen⟩
    · simp at h1
    have hmp : p ∈ (bk i).c := by rw [hc]; simp
    obtain ⟨p4, p5, p6⟩ := (hbk.mem_off hmp).2 hd
    obtain ⟨P, hP, hPs, -⟩ := (Seg_append.1 hsa).2.1
    have npe : p.iv ≠ e.iv := nodup_mid (hc ▸ ivs_nodup hbk.nodup hd) (Or.inl (by simp))
    have npk : p.iv ≠ e.kv := (n3 e hme p hmp).symm
    rw [lastIv_append, if_pos p4.ne]
    refine wp_wr hP (by omega) ?_
    refine wp_rd (B := E) (by rw [Heap.set_ne _ _ _ _ npe.symm]; exact b1) (by omega) ?_
    rw [b4]
    refine wp_free (B := K) (by rw [Heap.set_ne _ _ _ _ npk.symm]; exact hK) ?_
    refine wp_free (B := E) (by rw [Heap.del_ne _ _ _ nee.symm, Heap.set_ne _ _ _ _ npe.symm]; exact b1) ?_
    refine wp_rd (B := BS) (by rw [Heap.del_ne _ _ _ o6.symm, Heap.del_ne _ _ _ o3.symm, Heap.set_ne _ _ _ _ p6.symm]; exact hS) (by omega) ?_
    -- the first of the list
    obtain ⟨f, c0, hfc⟩ : ∃ f c0, a0 ++ [p] = f :: c0 := by
      cases a0 with
      | nil => exact ⟨p, [], rfl⟩
      | cons f a0 => exact ⟨f, a0 ++ [p], rfl⟩
    have hw : BS.rd (16 * i) 8 = f.iv + 1 := by
      rcases hsl with ⟨h1, -⟩ | ⟨h1, -⟩ | ⟨-, e0, t0, h2, htn, h3⟩
      · rw [hc] at h1; simp at h1
      · rw [hd] at h1; cases h1
      · rw [hc, hfc] at h2
        injection h2 with h2 h4
        rw [h2]; exact h3
    have hmf : f ∈ (bk i).c := by rw [hc, hfc]; simp
    obtain ⟨q4, q5, q6⟩ := (hbk.mem_off hmf).2 hd
    have hev := q4.even
    -- its block after the update
    let h2 : Heap := ((h.set p.iv (P.wr 0 8 (headIv t 0))).del e.kv).del e.iv
    have hseg2 : Seg h2 ((a0 ++ [p]) ++ t) 0 := by
      have hh : ∀ x, x ≠ p.iv → x ≠ e.kv → x ≠ e.iv → h2.blk x = h.blk x := fun x y1 y2 y3 => by
        show (((h.set p.iv (P.wr 0 8 (headIv t 0))).del e.kv).del e.iv).blk x = _
        rw [Heap.del_ne _ _ _ y3, Heap.del_ne _ _ _ y2, Heap.set_ne _ _ _ _ y1]
      have hm : ∀ x, x ∈ a0 ++ [p] ∨ x ∈ t → x ∈ (bk i).c := by
        intro x hx; rw [hc, List.mem_append, List.mem_cons]
        rcases hx with h | h
        exacts [Or.inl h, Or.inr (Or.inr h)]
      have n1 : ∀ x, x ∈ a0 ++ [p] ∨ x ∈ t → x.iv ≠ e.iv := fun x hx => nodup_mid (hc ▸ ivs_nodup hbk.nodup hd) hx
      have n4 : ∀ x, x ∈ a0 ∨ x ∈ e :: t → x.iv ≠ p.iv := fun x hx =>
        nodup_mid (e := p) (a := a0) (t := e :: t) (by
          have := ivs_nodup hbk.nodup hd
          rw [hc, List.append_assoc] at this
          exact this) hx
      rw [Seg_append]
      refine ⟨Seg_last hsa ?_ ?_ ?_, Seg_congr ?_ hst⟩
      · intro x hx
        have hx' : x ∈ a0 ++ [p] := List.mem_append_left _ hx
        exact hh _ (n4 x (Or.inl hx)) (n3 e hme x (hm x (Or.inl hx'))).symm (n1 x (Or.inl hx'))
      · intro B hB
        rw [hP] at hB; injection hB with hB; subst hB
        show (((h.set p.iv (P.wr 0 8 (headIv t 0))).del e.kv).del e.iv).blk p.iv = _
        rw [Heap.del_ne _ _ _ npe, Heap.del_ne _ _ _ npk, Heap.set_same]
      · cases t with
        | nil => decide
        | cons f t =>
          have := ((hbk.mem_off (hm f (Or.inr List.mem_cons_self))).2 hd).1.lt
          show f.iv < W64
          omega
      · intro x hx
        exact hh _ (n4 x (Or.inr (List.mem_cons_of_mem _ hx))) (n3 e hme x (hm x (Or.inr hx))).symm (n1 x (Or.inr hx))
    rw [hfc] at hseg2
    obtain ⟨⟨F, f1, f2, f3, -⟩, -⟩ := hseg2
    have hodd : F.rd 1 8 ≠ 0 := by
      refine Block.rd_odd F ?_
      rw [f3]
      obtain ⟨g, c1, hg, hmg⟩ : ∃ g c1, c0 ++ t = g :: c1 ∧ g ∈ (bk i).c := by
        have hl2 : 1 ≤ (c0 ++ t).length := by
          have := congrArg List.length hfc
          rw [List.length_cons] at this
          rw [List.length_append]; omega
        cases hct : c0 ++ t with
        | nil => rw [hct] at hl2; simp at hl2
        | cons g c1 =>
          refine ⟨g, c1, rfl, ?_⟩
          have hg : g ∈ c0 ++ t := by rw [hct]; exact List.mem_cons_self
          rw [hc, hfc, List.mem_append, List.mem_cons, List.mem_cons]
          rcases List.mem_append.1 hg with hg | hg
          exacts [Or.inl (Or.inr hg), Or.inr (Or.inr hg)]
      show 256 ≤ headIv (c0 ++ t) 0
      rw [hg]
      exact ((hbk.mem_off hmg).2 hd).1.low
    rw [hw, if_pos (by omega)]
    unfold oddBlk
    rw [show (f.iv + 1) % 2 = 1 by omega, Nat.add_sub_cancel]
    simp only [Prog.bind_assoc]
    refine wp_rd (B := F) f1 (by omega) ?_
    rw [if_neg hodd]
    simp only [Prog.pure_def, Prog.ret_bind]
    refine wp_bind_of (dropCount_spec (B0 := B0) (by rw [Heap.del_ne _ _ _ o5.symm, Heap.del_ne _ _ _ o2.symm, Heap.set_ne _ _ _ _ p5.symm]; exact h0) hs0 hb3) ?_ ?_
    · rintro _ h' ⟨-, rfl⟩
      refine ⟨rfl, erase_mid r hi hnk hd hc hek h0 hP (Heap.set_same _ _ _) ?_ ?_ ?_ ?_ ?_⟩
      · rw [Heap.set_ne _ _ _ _ o2, Heap.del_ne _ _ _ nee, Heap.del_same]
      · rw [Heap.set_ne _ _ _ _ o5, Heap.del_same]
      · rw [Heap.set_ne _ _ _ _ p5, Heap.del_ne _ _ _ npe, Heap.del_ne _ _ _ npk, Heap.set_same]
      · intro x y1 y2 y3 y4
        rw [Heap.set_ne _ _ _ _ y1, Heap.del_ne _ _ _ y3, Heap.del_ne _ _ _ y2, Heap.set_ne _ _ _ _ y4]
      · rw [List.length_append] at hlen; simp at hlen; omega
    · rintro _ _ ⟨hx, -⟩; cases hx

/-- erase, with or without a check, in the cases in which it works, of a key in an undamaged slot -/
theorem erase_specD {m : Pairs} {off : Nat} (t : TableD dm off hash base slots bits G m lk h) {c : Option Check} (hdc : ∀ c', c = some c' → ¬ dm (hash c'.1 % 2 ^ bits)) (hdm : ¬ dm (hash k % 2 ^ bits))
    (hsafe : checkAll m c = true → eraseSafe (m.filter (fun e => decide (hash e.1 % 2 ^ bits = hash k % 2 ^ bits))) k) :
    wp (erase hash base k c) (fun out h' => (checkAll m c = false ∧ out = .ok false ∧ h' = h) ∨
      (checkAll m c = true ∧ k ∉ keys m ∧ out = .ok false ∧ h' = h) ∨
      (checkAll m c = true ∧ k ∈ keys m ∧ out = .ok true ∧ TableD dm off hash base slots bits G (del m k) lk h')) h := by
  obtain ⟨bk, r, hp, hn⟩ := t
  unfold erase
  refine wp_bind_of (checkOk_spec r (bucket_get hp) hdc) ?_ ?_
  rotate_left
  · rintro _ _ ⟨-, hx⟩; cases hx
  rintro g h' ⟨rfl, hg⟩
  injection hg with hg
  subst hg
  cases hcc : checkAll m c with
  | false => exact Or.inl ⟨rfl, rfl, rfl⟩
  | true =>
  have hsf := hsafe hcc
  rw [← hp] at hsf
  rw [if_pos rfl]
  simp only [Prog.bind_def]
  obtain ⟨B0, h0, hs0, hb1, hb2, hb3⟩ := r.b0
  have hi : hash k % 2 ^ bits < 2 ^ bits ∧ ¬ dm (hash k % 2 ^ bits) := ⟨Nat.mod_lt (hash k) (Nat.two_pow_pos bits), hdm⟩
  obtain ⟨BS, hS, hsS, hsl⟩ := r.slot hi
  have hbk := r.ok (hash k % 2 ^ bits)
  have hkm := bucket_keys hp k
  have htab := fun {h'} => Erased.tableD (dm := dm) (off := off) (base := base) (slots := slots) (lk := lk) (G := G) (k := k) (h' := h') hp hn
  have hnk : (keys (bk (hash k % 2 ^ bits)).pairs).Nodup := by
    rw [hp]; exact List.Nodup.sublist (List.Sublist.map _ List.filter_sublist) hn
  refine wp_rd h0 (by omega) ?_
  refine wp_rd h0 (by omega) ?_
  rw [hb1, hb2]
  unfold slotOff
  generalize hash k % 2 ^ bits = i at *
  refine wp_rd hS (by omega) ?_
  rcases hsl with ⟨hc, hw⟩ | ⟨hd, e, hc, hw1, hw2⟩ | ⟨hd, e, t, hc, htn, hw⟩
  · rw [hw, if_pos rfl]
    exact Or.inr (Or.inl ⟨trivial, by rw [← hkm]; simp [Bk.pairs, hc, keys], rfl, rfl⟩)
  · have he : e ∈ (bk i).c := by rw [hc]; exact List.mem_singleton.2 rfl
    obtain ⟨ho, ho2, ho3⟩ := (hbk.mem_off he).1
    rw [hw1, if_neg ho.ne, if_pos ho.even]
    refine wp_bind_of (keyMatches_spec hS (by omega) hw1 hw2 (hbk.kvs e he) k) ?_ ?_
    rotate_left
    · rintro _ _ ⟨hx, -⟩; cases hx
    rintro b h'' ⟨hm, rfl⟩
    injection hm with hm
    subst hm
    by_cases hm : e.key = k
    · rw [if_pos (by simpa using hm)]
      refine wp_rd hS (by omega) ?_
      rw [hw1]
      obtain ⟨KB, hKB, -⟩ := hbk.kvs e he
      refine wp_free hKB ?_
      have hS2 : (h''.del e.kv).blk slots = some BS := by rw [Heap.del_ne _ _ _ ho3.symm]; exact hS
      refine wp_wr hS2 (by omega) ?_
      refine wp_wr (Heap.set_same _ _ _) (by rw [Block.size_wr]; omega) ?_
      rw [Heap.set_set]
      have hkin : k ∈ keys m := by rw [← hkm]; simp [Bk.pairs, hc, keys, hm]
      have hm1 : m.length - 1 + off + 1 = m.length + off := by
        cases m with
        | nil => simp [keys] at hkin
        | cons => simp only [List.length_cons]; omega
      rw [← hm1] at hb3
      refine wp_bind_of (dropCount_spec (B0 := B0) (by rw [Heap.set_ne _ _ _ _ r.sl.2.2, Heap.del_ne _ _ _ ho2.symm]; exact h0) hs0 hb3) ?_ ?_
      · rintro _ h3 ⟨-, rfl⟩
        have hfoot : (bk i).foot = [e.kv] := by simp [Bk.foot, hd, hc]
        obtain ⟨w1, w2, w3⟩ := slots_wr (BS := BS) (i := i) (a := 0) (b := 0) (by decide) (by decide)
        refine Or.inr (Or.inr ⟨trivial, hkin, rfl, htab hkin ⟨⟨true, []⟩, ?_, r.empty hi hS (BS' := (BS.wr (16 * i) 8 0).wr (16 * i + 8) 8 0) ?_ rfl w1 w3
          ⟨_, Heap.set_same _ _ _, base_drop hs0 hb1 hb2 hb3⟩ ?_ ?_⟩⟩)
        · unfold Bk.pairs
          rw [hc]
          simp [del, hm]
        · rw [Heap.set_ne _ _ _ _ r.sl.2.2.symm, Heap.set_same]
        · intro x hx
          rw [hfoot] at hx
          rw [List.mem_singleton.1 hx, Heap.set_ne _ _ _ _ ho2, Heap.set_ne _ _ _ _ ho3, Heap.del_same]
        · intro x h1 h2 h3
          rw [hfoot] at h3
          rw [Heap.set_ne _ _ _ _ h1, Heap.set_ne _ _ _ _ h2, Heap.del_ne _ _ _ (by simpa using h3)]
      · rintro _ _ ⟨hx, -⟩; cases hx
    · rw [if_neg (by simpa using hm)]
      have hm' : k ≠ e.key := fun x => hm x.symm
      exact Or.inr (Or.inl ⟨trivial, by rw [← hkm]; simp [Bk.pairs, hc, keys, hm'], rfl, rfl⟩)
  · have he : e ∈ (bk i).c := by rw [hc]; exact List.mem_cons_self
    have ho := ((hbk.mem_off he).2 hd).1
    have he2 := ho.even
    rw [hw, if_neg (by omega), if_neg (by omega), Nat.add_sub_cancel]
    have := walkList_spec (k := k) (bk i).c maxNodes 0 hbk.len (hbk.seg hd) (hbk.walkable hd)
    rw [hc] at this
    refine wp_bind_of this ?_ ?_
    rotate_left
    · rintro _ _ ⟨-, w, hx, -⟩; cases hx
    rintro w h'' ⟨rfl, w', hw', hwk⟩
    injection hw' with hw'
    subst hw'
    rw [← hc] at hwk
    cases hwk with
    | absent ha =>
      rw [if_neg (by simp)]
      refine Or.inr (Or.inl ⟨trivial, ?_, rfl, rfl⟩)
      rw [← hkm]
      unfold Bk.pairs
      rw [keys_pairs]
      rintro ⟨x, hx, hk⟩
      exact ha x hx hk
    | found a t' e' hce ha hek =>
      have he' : e' ∈ (bk i).c := by rw [hce]; simp
      rw [if_pos ((hbk.walkable hd) e' he').2]
      have hkin0 : k ∈ keys (bk i).pairs := by
        unfold Bk.pairs; rw [keys_pairs]; exact ⟨e', he', hek⟩
      have hkin : k ∈ keys m := by rw [← hkm]; exact hkin0
      have hm1 : m.length - 1 + off + 1 = m.length + off := by
        cases m with
        | nil => simp [keys] at hkin
        | cons => simp only [List.length_cons]; omega
      rw [← hm1] at r
      have hlen : (bk i).pairs.length = a.length + (t'.length + 1) := by
        unfold Bk.pairs; rw [hce]; simp
      have hsafe' : (a = [] ∧ t'.length ≤ 1) ∨ (a ≠ [] ∧ 2 ≤ a.length + t'.length) := by
        rcases hsf with h1 | h1 | ⟨h1, h2⟩ | ⟨h1, h2⟩
        · exact absurd hkin0 h1
        · cases a with
          | nil => left; exact ⟨rfl, by simp at hlen; omega⟩
          | cons => simp at hlen; omega
        · cases a with
          | nil => left; exact ⟨rfl, by simp at hlen; omega⟩
          | cons x a =>
            exfalso
            unfold Bk.pairs keys at h2
            rw [hce] at h2
            simp at h2
            exact ha x List.mem_cons_self h2
        · cases a with
          | nil =>
            exfalso
            unfold Bk.pairs keys at h2
            rw [hce] at h2
            simp at h2
            exact h2 hek
          | cons x a => right; exact ⟨by simp, by omega⟩
      refine wp_mono ?_ (eraseIv_spec r hi hnk hd hce hek hsafe')
      rintro out h3 ⟨rfl, hE⟩
      exact Or.inr (Or.inr ⟨trivial, hkin, rfl, htab hkin hE⟩)


/-- erase, with or without a check, in the cases in which it works -/
theorem erase_spec {m : Pairs} (t : Table hash base slots bits G m lk h) {c : Option Check}
    (hsafe : checkAll m c = true → eraseSafe (m.filter (fun e => decide (hash e.1 % 2 ^ bits = hash k % 2 ^ bits))) k) :
    wp (erase hash base k c) (fun out h' => (checkAll m c = false ∧ out = .ok false ∧ h' = h) ∨
      (checkAll m c = true ∧ k ∉ keys m ∧ out = .ok false ∧ h' = h) ∨
      (checkAll m c = true ∧ k ∈ keys m ∧ out = .ok true ∧ Table hash base slots bits G (del m k) lk h')) h :=
  erase_specD (tableD_iff.2 t) (fun _ _ h => h) (fun h => h) hsafe

end
end Verif.HashTable
