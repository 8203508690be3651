import Verif.HashTableIter
/-
wp-specification of HashTable::incr.
-/
namespace Verif

/-- the number a byte string stands for, little-endian -/
def leNat : Bytes → Nat
  | [] => 0
  | b :: t => b.toNat + 256 * leNat t

/-- the low `n` bytes of `v`, little-endian -/
def natLe : Nat → Nat → Bytes
  | 0, _ => []
  | n + 1, v => UInt8.ofNat v :: natLe n (v / 256)

@[simp] theorem natLe_length (n v : Nat) : (natLe n v).length = n := by
  induction n generalizing v with
  | zero => rfl
  | succ n ih => simp [natLe, ih]

theorem leNat_natLe (n v : Nat) : leNat (natLe n v) = v % 256 ^ n := by
  induction n generalizing v with
  | zero => simp [natLe, leNat, Nat.mod_one]
  | succ n ih =>
    show (UInt8.ofNat v).toNat + 256 * leNat (natLe n (v / 256)) = _
    have h1 : (UInt8.ofNat v).toNat = v % 256 := UInt8.toNat_ofNat'
    rw [ih, h1, Nat.pow_succ, Nat.mul_comm (256 ^ n) 256, Nat.mod_mul]

theorem leRd_bsRd (f : Nat → UInt8) (n : Nat) : ∀ a, leRd f a n = leNat (bsRd f a n) := by
  induction n with
  | zero => intro a; rfl
  | succ n ih => intro a; show _ + 256 * leRd f (a + 1) n = _ + 256 * leNat _; rw [ih]

theorem bsRd_leWr (f : Nat → UInt8) (n : Nat) : ∀ (a v : Nat) (g : Nat → UInt8), (∀ j, j < n → g (a + j) = UInt8.ofNat (v / 256 ^ j)) → bsRd g a n = natLe n v := by
  induction n with
  | zero => intro a v g _; rfl
  | succ n ih =>
    intro a v g hg
    show g a :: bsRd g (a + 1) n = UInt8.ofNat v :: natLe n (v / 256)
    rw [ih (a + 1) (v / 256) g ?_]
    · have := hg 0 (by omega)
      simp only [Nat.add_zero, Nat.pow_zero, Nat.div_one] at this
      rw [this]
    · intro j hj
      have := hg (j + 1) (by omega)
      rw [show a + 1 + j = a + (j + 1) by omega, this, Nat.pow_succ, Nat.mul_comm, Nat.div_div_eq_div_mul]

theorem Block.rd_eq (B : Block) (o n : Nat) : B.rd o n = leNat (B.rdB o n) := leRd_bsRd _ _ _

theorem Block.rdB_wr_same (B : Block) (o n v : Nat) : (B.wr o n v).rdB o n = natLe n v := by
  refine bsRd_leWr B.data n o v _ ?_
  intro j hj
  show (if o ≤ o + j ∧ o + j < o + n then UInt8.ofNat (v / 256 ^ (o + j - o)) else B.data (o + j)) = _
  rw [if_pos (by omega), Nat.add_sub_cancel_left]

theorem Heap.set_comm (h : Heap) {o o' : Nat} (b b' : Block) (hne : o ≠ o') : (h.set o b).set o' b' = (h.set o' b').set o b := by
  simp only [Heap.set]
  congr 1
  funext x
  by_cases h1 : x = o
  · subst h1; simp [hne]
  · by_cases h2 : x = o'
    · subst h2; simp [h1]
    · simp [h1, h2]

namespace HashTable
attribute [local irreducible] Block.rd Block.rdB

section
variable {h : Heap} {base slots bits cnt : Nat} {bk : Nat → Bk} {lk : List Nat} {G : Nat → Option Block} {hash : Bytes → Nat} {k v : Bytes} {dm : Nat → Prop} {R : Type}

/-- what update of a number in place does to the table -/
theorem bump_update (r : RepD dm h base slots bits cnt bk lk G) {i : Nat} (hi : i < 2 ^ bits ∧ ¬ dm i) {e : Ent} (hd : (bk i).dir = true) (hc : (bk i).c = [e]) (hek : e.key = k) {K : Block}
    (hK : h.blk e.kv = some K) (x : Nat) :
    Linked dm base slots bits cnt bk lk G i k (natLe e.val.length x) (h.set e.kv (K.wr e.key.length e.val.length x)) := by
  obtain ⟨B0, h0, hr0⟩ := r.b0
  obtain ⟨BS, hS, hsS, hsl⟩ := r.slot hi
  have hbk := r.ok i
  have he : e ∈ (bk i).c := by rw [hc]; exact List.mem_singleton.2 rfl
  obtain ⟨ho, ho2, ho3⟩ := (hbk.mem_off he).1
  have hfoot : (bk i).foot = [e.kv] := by simp [Bk.foot, hd, hc]
  obtain ⟨K', k1, k2, k3, k4⟩ := hbk.kvs e he
  rw [hK] at k1; injection k1 with k1; subst k1
  refine ⟨⟨true, [⟨e.iv, e.kv, e.key, natLe e.val.length x⟩]⟩, by simp [Bk.pairs, hc, put, hek], ?_⟩
  rw [if_pos (by simp [Bk.pairs, hc, keys, hek])]
  refine r.update hi ⟨B0, ?_, hr0⟩ hS (BS' := BS) ?_ rfl ?_ (fun _ _ => ⟨rfl, rfl⟩) ?_ ?_ ?_ ?_ ?_ ?_
  · rw [Heap.set_ne _ _ _ _ ho2.symm]; exact h0
  · rw [Heap.set_ne _ _ _ _ ho3.symm]; exact hS
  · rcases hsl with ⟨h1, -⟩ | ⟨-, e', h1, h2, h3⟩ | ⟨h1, -⟩
    · rw [hc] at h1; cases h1
    · rw [hc] at h1
      injection h1 with h1
      subst h1
      exact Or.inr (Or.inl ⟨rfl, _, rfl, h2, h3⟩)
    · rw [hd] at h1; cases h1
  · refine ⟨by simp, ?_, by simp [Bk.foot], ?_⟩
    · intro e' he
      rw [List.mem_singleton.1 he]
      refine ⟨_, Heap.set_same _ _ _, ?_, ?_, ?_⟩
      · rw [Block.size_wr, natLe_length]; exact k2
      · rw [Block.rdB_wr_disj _ _ _ _ _ _ (by simp)]; exact k3
      · simp only [natLe_length]
        exact Block.rdB_wr_same _ _ _ _
    · intro y hy
      have : y = e.kv := by simpa [Bk.foot] using hy
      rw [this]; exact ⟨ho, ho2, ho3⟩
  · intro y hy
    have : y = e.kv := by simpa [Bk.foot] using hy
    rw [this, hfoot]; exact Or.inl (by simp)
  · exact fun x hx => Or.inl hx
  · exact fun x hx => hx
  · intro y h1 h2 h3 h4 _
    rw [hfoot] at h3
    rw [Heap.set_ne _ _ _ _ (by simpa using h3)]
  · intro y hy h2
    rw [hfoot] at hy
    exfalso
    refine h2 ?_
    have : y = e.kv := by simpa using hy
    rw [this]; simp [Bk.foot]

/-- the new block of a number -/
theorem newNum_kv {kv : Nat} {d : Nat → UInt8} {n : Nat} (f : Fresh h kv (k.length + 8)) (hn : h.blk kv = none) :
    NewKv h base slots kv (((⟨k.length + 8, d⟩ : Block).wrB 0 k).wr k.length 8 n) k (natLe 8 n) := by
  refine ⟨hn, Off.of f, by simp, ?_, Block.rdB_wr_same _ _ _ _⟩
  rw [Block.rdB_wr_disj _ _ _ _ _ _ (by omega), Block.rdB_wrB_same]

theorem Fresh.sub {h : Heap} {o n x : Nat} {B : Block} (f : Fresh (h.set x B) o n) : h.blk o = none ∧ o ≠ x := by
  have := f.none
  rw [Heap.set_blk] at this
  split at this
  · cases this
  · rename_i hne; exact ⟨this, hne⟩

/-- the result of incr, for the pair of a key and a list of the items in its slot; `T` says what the heap holds -/
def IncrResOf (T : Pairs → List Nat → Heap → Prop) (N : Num R) (hash : Bytes → Nat) (bits : Nat) (m : Pairs) (lk : List Nat) (k : Bytes) (h : Heap) (out : Out R) (h' : Heap) : Prop :=
  (∃ v, get m k = some v ∧ v.length ∈ N.sizes ∧ out = .ok (N.out v.length (N.upd v.length (leNat v) % 256 ^ v.length)) ∧
      T (put m k (natLe v.length (N.upd v.length (leNat v)))) lk h') ∨
  (∃ v, get m k = some v ∧ v.length ∉ N.sizes ∧ out = .err .outOfRange ∧ h' = h) ∨
  (get m k = none ∧ out = .ok N.initOut ∧ T (put m k (natLe 8 N.init)) lk h') ∨
  (get m k = none ∧ out = .err .noMem ∧ ((m.filter (fun e => decide (hash e.1 % 2 ^ bits = hash k % 2 ^ bits))).length ≤ 1 → ∃ lk', T m lk' h'))

/-- the result of incr, for the pair of a key and a list of the items in its slot -/
abbrev IncrRes (N : Num R) (hash : Bytes → Nat) (base slots bits : Nat) (G : Nat → Option Block) (m : Pairs) (lk : List Nat) (k : Bytes) (h : Heap) (out : Out R) (h' : Heap) : Prop :=
  IncrResOf (Table hash base slots bits G) N hash bits m lk k h out h'

theorem incr_specD {m : Pairs} {off : Nat} (t : TableD dm off hash base slots bits G m lk h) (N : Num R) (hdm : ¬ dm (hash k % 2 ^ bits)) (hkl : k.length + 8 ≤ 4611686018427387904)
    (hsafe : k ∈ keys m → (m.filter (fun e => decide (hash e.1 % 2 ^ bits = hash k % 2 ^ bits))).length = 1) :
    wp (incr hash base k N) (IncrResOf (TableD dm off hash base slots bits G) N hash bits m lk k h) h := by
  obtain ⟨bk, r, hp, hn⟩ := t
  unfold IncrResOf
  rw [← hp] at hsafe ⊢
  obtain ⟨B0, h0, hs0, hb1, hb2, hb3⟩ := r.b0
  have hi : hash k % 2 ^ bits < 2 ^ bits ∧ ¬ dm (hash k % 2 ^ bits) := ⟨Nat.mod_lt (hash k) (Nat.two_pow_pos bits), hdm⟩
  obtain ⟨BS, hS, hsS, hsl⟩ := r.slot hi
  have hbk := r.ok (hash k % 2 ^ bits)
  have hkm := bucket_keys hp k
  have hgm := bucket_get hp k
  have htab := fun {v h'} => Linked.tableD (dm := dm) (off := off) (base := base) (slots := slots) (lk := lk) (G := G) (k := k) (v := v) (h' := h') hp hn
  have hold : ∀ {lk' h'}, RepD dm h' base slots bits (m.length + off) bk lk' G → ∃ lk', TableD dm off hash base slots bits G m lk' h' := fun r => ⟨_, bk, r, hp, hn⟩
  have hbs := r.sl.2.2
  unfold incr
  simp only [Prog.bind_def]
  refine wp_rd h0 (by omega) ?_
  refine wp_rd h0 (by omega) ?_
  rw [hb1, hb2]
  unfold slotOff
  generalize hash k % 2 ^ bits = i at *
  refine wp_rd hS (by omega) ?_
  rcases hsl with ⟨hc, hw⟩ | ⟨hd, e, hc, hw1, hw2⟩ | ⟨hd, e, t, hc, htn, hw⟩
  · have hnone : get m k = none := by rw [hgm]; simp [Bk.pairs, hc, get]
    rw [hw, if_pos rfl]
    unfold newNum
    simp only [Prog.bind_def, Prog.bind_assoc]
    refine wp_alloc hkl ?_ (Or.inr (Or.inr (Or.inr ⟨hnone, rfl, fun _ => hold r⟩)))
    intro kv d f
    obtain ⟨k1, k2, k3⟩ := kv_ne r f.none
    refine wp_wr (B := BS) (by rw [Heap.set_ne _ _ _ _ k2.symm]; exact hS) (by omega) ?_
    rw [Heap.set_comm _ _ _ k2]
    refine wp_wrB (Heap.set_same _ _ _) (by simp) ?_
    rw [Heap.set_set]
    refine wp_wr (Heap.set_same _ _ _) (by simp) ?_
    rw [Heap.set_set, Heap.set_comm _ _ _ k2.symm]
    refine wp_wr (Heap.set_same _ _ _) (by rw [Block.size_wr]; omega) ?_
    rw [Heap.set_set]
    refine wp_bind_of (bumpCount_spec (B0 := B0) (by rw [Heap.set_ne _ _ _ _ hbs, Heap.set_ne _ _ _ _ k1.symm]; exact h0) hs0 hb3) ?_ ?_
    · rintro _ h' ⟨-, rfl⟩
      exact Or.inr (Or.inr (Or.inl ⟨hnone, rfl, htab (link_empty r hi (newNum_kv f f.none) (by show k.length < W64; omega) hc hS h0)⟩))
    · rintro _ _ ⟨hx, -⟩; cases hx
  · have he : e ∈ (bk i).c := by rw [hc]; exact List.mem_singleton.2 rfl
    obtain ⟨ho, ho2, ho3⟩ := (hbk.mem_off he).1
    rw [hw1, if_neg ho.ne, if_pos ho.even]
    refine wp_bind_of (keyMatches_spec hS (by omega) hw1 hw2 (hbk.kvs e he) k) ?_ ?_
    rotate_left
    · rintro _ _ ⟨hx, -⟩; cases hx
    rintro b h' ⟨hm, rfl⟩
    injection hm with hm
    subst hm
    by_cases hm : e.key = k
    · have hsome : get m k = some e.val := by rw [hgm]; simp [Bk.pairs, hc, get, hm]
      rw [if_pos (by simpa using hm)]
      refine wp_bind_of (locate_spec hS (by omega) hw1 hw2 (hbk.kvs e he)) ?_ ?_
      rotate_left
      · rintro _ _ ⟨hx, -⟩; cases hx
      rintro l h' ⟨hl, rfl⟩
      injection hl with hl
      subst hl
      obtain ⟨K, k1, k2, k3, k4⟩ := hbk.kvs e he
      unfold bump
      simp only
      by_cases hsz : e.val.length ∈ N.sizes
      · rw [if_pos hsz]
        refine wp_rd k1 (by omega) ?_
        refine wp_wr k1 (by omega) ?_
        refine wp_rd (Heap.set_same _ _ _) (by rw [Block.size_wr]; omega) ?_
        rw [Block.rd_wr_same, Block.rd_eq, k4]
        exact Or.inl ⟨e.val, hsome, hsz, rfl, htab (bump_update r hi hd hc hm k1 _)⟩
      · rw [if_neg hsz]
        exact Or.inr (Or.inl ⟨e.val, hsome, hsz, rfl, rfl⟩)
    · rw [if_neg (by simpa using hm)]
      have hnone : get m k = none := by rw [hgm]; simp [Bk.pairs, hc, get, hm]
      have hfail : ∀ {h' : Heap}, (∃ lk', RepD dm h' base slots bits (m.length + off) bk lk' G) → IncrResOf (TableD dm off hash base slots bits G) N hash bits m lk k h' (.err .noMem) h' := fun ⟨_, r'⟩ =>
        Or.inr (Or.inr (Or.inr ⟨hnone, rfl, fun _ => hold r'⟩))
      have hbad : ∀ {h' : Heap}, (∃ lk', RepD dm h' base slots bits (m.length + off) bk lk' G) → ((bk i).pairs.length ≤ 1 → ∃ lk', TableD dm off hash base slots bits G m lk' h') :=
        fun ⟨_, r'⟩ _ => hold r'
      refine wp_alloc (by decide) ?_ (Or.inr (Or.inr (Or.inr ⟨hnone, rfl, hbad ⟨_, r⟩⟩)))
      intro ex d1 f1
      have hex := f1.none
      obtain ⟨x1, x2, x3⟩ := kv_ne r hex
      refine wp_alloc (by decide) ?_ (Or.inr (Or.inr (Or.inr ⟨hnone, rfl, hbad ⟨_, r.leak hex⟩⟩)))
      intro cr d2 f2
      obtain ⟨hcr, crex⟩ := Fresh.sub f2
      obtain ⟨c1, c2, c3⟩ := kv_ne r hcr
      refine wp_wr (Heap.set_same _ _ _) (by simp) ?_
      rw [Heap.set_set]
      unfold newNum
      simp only [Prog.bind_def, Prog.bind_assoc]
      refine wp_alloc hkl ?_ (Or.inr (Or.inr (Or.inr ⟨hnone, rfl, hbad ⟨_, (r.leak hex).leak f2.none⟩⟩)))
      intro kv d f
      obtain ⟨hkv1, kvcr⟩ := Fresh.sub f
      have hkv : h'.blk kv = none ∧ kv ≠ ex := by
        rw [Heap.set_blk] at hkv1
        split at hkv1
        · cases hkv1
        · rename_i hne; exact ⟨hkv1, hne⟩
      obtain ⟨hkv, kvex⟩ := hkv
      obtain ⟨k1, k2, k3⟩ := kv_ne r hkv
      refine wp_wr (B := (⟨24, d2⟩ : Block).wr 0 8 0) (by rw [Heap.set_ne _ _ _ _ kvcr.symm, Heap.set_same]) (by simp) ?_
      rw [Heap.set_comm _ _ _ kvcr]
      refine wp_wrB (Heap.set_same _ _ _) (by simp) ?_
      rw [Heap.set_set]
      refine wp_wr (Heap.set_same _ _ _) (by simp) ?_
      rw [Heap.set_set, Heap.set_comm _ _ _ kvcr.symm, Heap.set_comm _ _ _ kvcr.symm]
      refine wp_wr (B := ((⟨24, d2⟩ : Block).wr 0 8 0).wr 8 8 kv) (by rw [Heap.set_same]) (by simp) ?_
      simp only [Heap.set_set]
      refine wp_wr (B := ⟨24, d1⟩) (by rw [Heap.set_ne _ _ _ _ (Ne.symm crex), Heap.set_ne _ _ _ _ kvex.symm, Heap.set_same]) (by simp) ?_
      refine wp_rd (B := BS) (by rw [Heap.set_ne _ _ _ _ x2.symm, Heap.set_ne _ _ _ _ c2.symm, Heap.set_ne _ _ _ _ k2.symm, Heap.set_ne _ _ _ _ x2.symm]; exact hS) (by omega) ?_
      rw [hw1]
      refine wp_wr (Heap.set_same _ _ _) (by simp) ?_
      rw [Heap.set_set]
      refine wp_rd (B := BS) (by rw [Heap.set_ne _ _ _ _ x2.symm, Heap.set_ne _ _ _ _ c2.symm, Heap.set_ne _ _ _ _ k2.symm, Heap.set_ne _ _ _ _ x2.symm]; exact hS) (by omega) ?_
      rw [hw2]
      refine wp_wr (Heap.set_same _ _ _) (by simp) ?_
      rw [Heap.set_set]
      refine wp_wr (B := BS) (by rw [Heap.set_ne _ _ _ _ x2.symm, Heap.set_ne _ _ _ _ c2.symm, Heap.set_ne _ _ _ _ k2.symm, Heap.set_ne _ _ _ _ x2.symm]; exact hS) (by omega) ?_
      refine wp_wr (Heap.set_same _ _ _) (by rw [Block.size_wr]; omega) ?_
      rw [Heap.set_set]
      refine wp_bind_of (bumpCount_spec (B0 := B0) (by
        rw [Heap.set_ne _ _ _ _ hbs, Heap.set_ne _ _ _ _ x1.symm, Heap.set_ne _ _ _ _ c1.symm, Heap.set_ne _ _ _ _ k1.symm, Heap.set_ne _ _ _ _ x1.symm]; exact h0) hs0 hb3) ?_ ?_
      rotate_left
      · rintro _ _ ⟨hx, -⟩; cases hx
      rintro _ h4 ⟨-, rfl⟩
      have hlen : e.key.length < W64 := by rw [← hw2]; exact Block.rd8_lt _ _
      refine Or.inr (Or.inr (Or.inl ⟨hnone, rfl, htab ?_⟩))
      have nk : NewKv h' base slots kv (((⟨k.length + 8, d⟩ : Block).wrB 0 k).wr k.length 8 N.init) k (natLe 8 N.init) := by
        refine ⟨hkv, Off.of f, by simp, ?_, Block.rdB_wr_same _ _ _ _⟩
        rw [Block.rdB_wr_disj _ _ _ _ _ _ (by omega), Block.rdB_wrB_same]
      refine link_second r hi nk hd hc hm hS h0 hex (Off.of f1) hcr (Off.of f2) kvex.symm kvcr.symm crex
        (iv_words ⟨24, d1⟩ rfl (by have := (Off.of f2).lt; omega) (by have := ho.lt; omega) hlen)
        (iv_words ⟨24, d2⟩ rfl (by decide) (by have := (Off.of f).lt; omega) (by show k.length < W64; omega)) (Heap.set_same _ _ _) ?_ ?_ ?_ ?_ ?_
      · rw [Heap.set_ne _ _ _ _ hbs.symm, Heap.set_same]
      · rw [Heap.set_ne _ _ _ _ k1, Heap.set_ne _ _ _ _ k2, Heap.set_ne _ _ _ _ kvex, Heap.set_ne _ _ _ _ kvcr, Heap.set_same]
      · rw [Heap.set_ne _ _ _ _ x1, Heap.set_ne _ _ _ _ x2, Heap.set_same]
      · rw [Heap.set_ne _ _ _ _ c1, Heap.set_ne _ _ _ _ c2, Heap.set_ne _ _ _ _ crex, Heap.set_same]
      · intro x y1 y2 y3 y4 y5
        rw [Heap.set_ne _ _ _ _ y1, Heap.set_ne _ _ _ _ y2, Heap.set_ne _ _ _ _ y4, Heap.set_ne _ _ _ _ y5, Heap.set_ne _ _ _ _ y3, Heap.set_ne _ _ _ _ y4]
  · have he : e ∈ (bk i).c := by rw [hc]; exact List.mem_cons_self
    have ho := ((hbk.mem_off he).2 hd).1
    have he2 := ho.even
    have hbig : ¬ (bk i).pairs.length ≤ 1 := by
      unfold Bk.pairs
      rw [hc, List.length_map, List.length_cons]
      have := List.length_pos_iff.2 htn
      omega
    rw [hw, if_neg (by omega), if_neg (by omega), Nat.add_sub_cancel]
    have := walkList_spec (k := k) (bk i).c maxNodes 0 hbk.len (hbk.seg hd) (hbk.walkable hd)
    rw [hc] at this
    refine wp_bind_of this ?_ ?_
    rotate_left
    · rintro _ _ ⟨-, w, hx, -⟩; cases hx
    rintro w h'' ⟨rfl, w', hw', hwk⟩
    injection hw' with hw'
    subst hw'
    rw [← hc] at hwk
    cases hwk with
    | found a t' e' hce ha hek =>
      exfalso
      have he' : e' ∈ (bk i).c := by rw [hce]; simp
      have hkin0 : k ∈ keys (bk i).pairs := by
        unfold Bk.pairs; rw [keys_pairs]; exact ⟨e', he', hek⟩
      have := hsafe (hkm.1 hkin0)
      omega
    | absent ha =>
      rw [if_neg (by simp)]
      have hnone : get m k = none := by
        rw [hgm, get_none]
        unfold Bk.pairs
        rw [keys_pairs]
        rintro ⟨x, hx, hk⟩
        exact ha x hx hk
      refine wp_alloc (by decide) ?_ (Or.inr (Or.inr (Or.inr ⟨hnone, rfl, fun hx => absurd hx hbig⟩)))
      intro cr d2 f2
      have hcr0 := f2.none
      obtain ⟨c1, c2, c3⟩ := kv_ne r hcr0
      obtain ⟨a, e', hce⟩ : ∃ a e', (bk i).c = a ++ [e'] := by
        rcases List.eq_nil_or_concat (bk i).c with h1 | ⟨a, e', h1⟩
        · rw [hc] at h1; cases h1
        · exact ⟨a, e', by rw [h1]; simp⟩
      have hme : e' ∈ (bk i).c := by rw [hce]; simp
      obtain ⟨o4, o5, o6⟩ := (hbk.mem_off hme).2 hd
      have ecr : e'.iv ≠ cr := fun hx => c3 i (mem_foot.2 (Or.inr ⟨hd, e', hme, hx⟩))
      have hlast : lastIv 0 (bk i).c = e'.iv := by rw [hce, lastIv_append]
      rw [hlast]
      obtain ⟨nx, E, hE, hEs, -⟩ := Seg_mem (hbk.seg hd) hme
      refine wp_wr (B := E) (by rw [Heap.set_ne _ _ _ _ ecr]; exact hE) (by omega) ?_
      refine wp_wr (B := ⟨24, d2⟩) (by rw [Heap.set_ne _ _ _ _ ecr.symm, Heap.set_same]) (by simp) ?_
      unfold newNum
      simp only [Prog.bind_def, Prog.bind_assoc]
      refine wp_alloc hkl ?_ (Or.inr (Or.inr (Or.inr ⟨hnone, rfl, fun hx => absurd hx hbig⟩)))
      intro kv d f
      obtain ⟨hkv1, kvcr⟩ := Fresh.sub f
      rw [Heap.set_blk] at hkv1
      split at hkv1
      · cases hkv1
      rename_i kve
      rw [Heap.set_blk] at hkv1
      split at hkv1
      · cases hkv1
      obtain ⟨k1, k2, k3⟩ := kv_ne r hkv1
      refine wp_wr (B := (⟨24, d2⟩ : Block).wr 0 8 0) (by rw [Heap.set_ne _ _ _ _ kvcr.symm, Heap.set_same]) (by simp) ?_
      rw [Heap.set_comm _ _ _ kvcr]
      refine wp_wrB (Heap.set_same _ _ _) (by simp) ?_
      rw [Heap.set_set]
      refine wp_wr (Heap.set_same _ _ _) (by simp) ?_
      rw [Heap.set_set, Heap.set_comm _ _ _ kvcr.symm, Heap.set_comm _ _ _ kvcr.symm]
      refine wp_wr (B := ((⟨24, d2⟩ : Block).wr 0 8 0).wr 8 8 kv) (by rw [Heap.set_same]) (by simp) ?_
      simp only [Heap.set_set]
      refine wp_bind_of (bumpCount_spec (B0 := B0) (by
        rw [Heap.set_ne _ _ _ _ c1.symm, Heap.set_ne _ _ _ _ k1.symm, Heap.set_ne _ _ _ _ o5.symm, Heap.set_ne _ _ _ _ c1.symm]; exact h0) hs0 hb3) ?_ ?_
      rotate_left
      · rintro _ _ ⟨hx, -⟩; cases hx
      rintro _ h4 ⟨-, rfl⟩
      refine Or.inr (Or.inr (Or.inl ⟨hnone, rfl, htab ?_⟩))
      have nk : NewKv h'' base slots kv (((⟨k.length + 8, d⟩ : Block).wrB 0 k).wr k.length 8 N.init) k (natLe 8 N.init) := by
        refine ⟨hkv1, Off.of f, by simp, ?_, Block.rdB_wr_same _ _ _ _⟩
        rw [Block.rdB_wr_disj _ _ _ _ _ _ (by omega), Block.rdB_wrB_same]
      refine link_append r hi nk hd hce ha h0 hE hcr0 (Off.of f2) kvcr.symm
        (iv_words ⟨24, d2⟩ rfl (by decide) (by have := (Off.of f).lt; omega) (by show k.length < W64; omega)) (Heap.set_same _ _ _) ?_ ?_ ?_ ?_
      · rw [Heap.set_ne _ _ _ _ k1, Heap.set_ne _ _ _ _ kvcr, Heap.set_same]
      · rw [Heap.set_ne _ _ _ _ o5, Heap.set_ne _ _ _ _ ecr, Heap.set_ne _ _ _ _ (Ne.symm kve), Heap.set_same]
      · rw [Heap.set_ne _ _ _ _ c1, Heap.set_same]
      · intro x y1 y2 y3 y4
        rw [Heap.set_ne _ _ _ _ y1, Heap.set_ne _ _ _ _ y4, Heap.set_ne _ _ _ _ y2, Heap.set_ne _ _ _ _ y3, Heap.set_ne _ _ _ _ y4]

theorem incr_spec {m : Pairs} (t : Table hash base slots bits G m lk h) (N : Num R) (hkl : k.length + 8 ≤ 4611686018427387904)
    (hsafe : k ∈ keys m → (m.filter (fun e => decide (hash e.1 % 2 ^ bits = hash k % 2 ^ bits))).length = 1) :
    wp (incr hash base k N) (IncrRes N hash base slots bits G m lk k h) h :=
  incr_specD (tableD_iff.2 t) N (fun h => h) hkl hsafe

end
end HashTable
end Verif
