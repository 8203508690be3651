import Verif.HashTableSpec
/-
wp-specifications of the HashTable methods that update: insert, create, clear.
-/
namespace Verif.HashTable
open Verif

attribute [local irreducible] Block.rd Block.rdB

section
variable {h : Heap} {base slots bits cnt : Nat} {bk : Nat → Bk} {lk : List Nat} {G : Nat → Option Block} {hash : Bytes → Nat} {k v : Bytes} {dm : Nat → Prop}

/-- a new block that nothing refers to -/
theorem RepD.leak (r : RepD dm h base slots bits cnt bk lk G) {x : Nat} {B : Block} (hx : h.blk x = none) : RepD dm (h.set x B) base slots bits cnt bk (x :: lk) G := by
  obtain ⟨n1, n2, n3⟩ := kv_ne r hx
  obtain ⟨B0, h0, hr0⟩ := r.b0
  obtain ⟨BS, hS, hrS⟩ := r.bs
  refine ⟨r.blt, r.b31, ⟨B0, by rw [Heap.set_ne _ _ _ _ n1.symm]; exact h0, hr0⟩, ⟨BS, by rw [Heap.set_ne _ _ _ _ n2.symm]; exact hS, hrS⟩, r.sl, r.out, r.dead, ?_, r.disj, ?_⟩
  · intro i
    refine (r.ok i).congr ?_
    intro y hy
    exact Heap.set_ne _ _ _ _ (show y ≠ x from fun e => n3 i (e ▸ hy))
  · intro y
    rw [r.frame y]
    by_cases hy : y = x
    · subst hy
      rw [if_pos (c := y = base ∨ y = slots ∨ (∃ i, y ∈ (bk i).foot) ∨ y ∈ y :: lk) (Or.inr (Or.inr (Or.inr List.mem_cons_self)))]
      split
      · rfl
      · exact hx
    · rw [Heap.set_ne _ _ _ _ hy]
      have e : (y ∈ x :: lk) = (y ∈ lk) := by rw [List.mem_cons]; simp [hy]
      by_cases hh : y = base ∨ y = slots ∨ (∃ i, y ∈ (bk i).foot) ∨ y ∈ lk
      · rw [if_pos hh, if_pos (by rw [e]; exact hh)]
      · rw [if_neg hh, if_neg (by rw [e]; exact hh)]

/-- the outcome of linking in a new pair -/
def LinkRes (dm : Nat → Prop) (base slots bits cnt : Nat) (bk : Nat → Bk) (lk : List Nat) (G : Nat → Option Block) (i : Nat) (k v : Bytes) (out : Out Unit) (h' : Heap) : Prop :=
  (out = .ok () ∧ Linked dm base slots bits cnt bk lk G i k v h') ∨ (out = .err .noMem ∧ ∃ lk', RepD dm h' base slots bits cnt bk lk' G)

theorem Block.rd_wr_ne (B : Block) {o v o' : Nat} (h : o + 8 ≤ o' ∨ o' + 8 ≤ o) : (B.wr o 8 v).rd o' 8 = B.rd o' 8 := Block.rd_wr_disj _ _ _ _ _ _ h

/-- three words written into a block of 24 bytes -/
theorem iv_words (B : Block) {a b c : Nat} (hs : B.size = 24) (ha : a < W64) (hb : b < W64) (hc : c < W64) :
    (((B.wr 0 8 a).wr 8 8 b).wr 16 8 c).size = 24 ∧ (((B.wr 0 8 a).wr 8 8 b).wr 16 8 c).rd 0 8 = a ∧ (((B.wr 0 8 a).wr 8 8 b).wr 16 8 c).rd 8 8 = b ∧
      (((B.wr 0 8 a).wr 8 8 b).wr 16 8 c).rd 16 8 = c := by
  refine ⟨hs, ?_, ?_, Block.rd_wr_same8 _ _ _ hc⟩
  · rw [Block.rd_wr_ne _ (by omega), Block.rd_wr_ne _ (by omega), Block.rd_wr_same8 _ _ _ ha]
  · rw [Block.rd_wr_ne _ (by omega), Block.rd_wr_same8 _ _ _ hb]

theorem link_spec (r : RepD dm h base slots bits cnt bk lk G) {i : Nat} (hi : i < 2 ^ bits ∧ ¬ dm i) {kv : Nat} {K : Block} (n : NewKv h base slots kv K k v)
    (hkl : k.length < W64) :
    wp (link base slots (16 * i) kv k) (LinkRes dm base slots bits cnt bk lk G i k v) (h.set kv K) := by
  obtain ⟨B0, h0, hs0, hb1, hb2, hb3⟩ := r.b0
  obtain ⟨BS, hS, hsS, hsl⟩ := r.slot hi
  obtain ⟨k1, k2, k3⟩ := kv_ne r n.none
  have hbs := r.sl.2.2
  have hbk := r.ok i
  have hS1 : (h.set kv K).blk slots = some BS := by rw [Heap.set_ne _ _ _ _ k2.symm]; exact hS
  have h01 : (h.set kv K).blk base = some B0 := by rw [Heap.set_ne _ _ _ _ k1.symm]; exact h0
  have hleak : ∃ lk', RepD dm (h.set kv K) base slots bits cnt bk lk' G := ⟨_, r.leak n.none⟩
  unfold link
  simp only [Prog.bind_def]
  refine wp_rd hS1 (by omega) ?_
  have hkvs : ∀ e ∈ (bk i).c, KvOk (h.set kv K) e := fun e he => (hbk.kvs e he).congr
    (Heap.set_ne _ _ _ _ (show e.kv ≠ kv from fun hx => k3 i (mem_foot.2 (Or.inl ⟨e, he, hx⟩))))
  rcases hsl with ⟨hc, hw⟩ | ⟨hd, e, hc, hw1, hw2⟩ | ⟨hd, e, t, hc, htn, hw⟩
  · rw [hw, if_pos rfl]
    refine wp_wr hS1 (by omega) ?_
    refine wp_wr (Heap.set_same _ _ _) (by rw [Block.size_wr]; omega) ?_
    rw [Heap.set_set]
    refine wp_mono ?_ (bumpCount_spec (B0 := B0) (by rw [Heap.set_ne _ _ _ _ hbs]; exact h01) hs0 hb3)
    rintro out h' ⟨rfl, rfl⟩
    exact Or.inl ⟨rfl, link_empty r hi n hkl hc hS h0⟩
  · have he : e ∈ (bk i).c := by rw [hc]; exact List.mem_singleton.2 rfl
    obtain ⟨ho, ho2, ho3⟩ := (hbk.mem_off he).1
    rw [hw1, if_neg ho.ne, if_pos ho.even]
    refine wp_bind_of (keyMatches_spec hS1 (by omega) hw1 hw2 (hkvs e he) k) ?_ ?_
    rotate_left
    · rintro _ _ ⟨hx, -⟩; cases hx
    rintro m h' ⟨hm, rfl⟩
    injection hm with hm
    subst hm
    by_cases hm : e.key = k
    · rw [if_pos (by simpa using hm)]
      refine wp_rd hS1 (by omega) ?_
      rw [hw1]
      obtain ⟨KB, hKB, -⟩ := hkvs e he
      refine wp_free hKB ?_
      have hS2 : ((h.set kv K).del e.kv).blk slots = some BS := by rw [Heap.del_ne _ _ _ ho3.symm]; exact hS1
      refine wp_wr hS2 (by omega) ?_
      refine ⟨_, Heap.set_same _ _ _, by rw [Block.size_wr]; omega, ?_⟩
      rw [Heap.set_set]
      exact Or.inl ⟨rfl, link_same r hi n hkl hd hc hm hS⟩
    · rw [if_neg (by simpa using hm)]
      refine wp_alloc (by decide) ?_ (Or.inr ⟨rfl, hleak⟩)
      intro ex d1 f1
      have hex : h.blk ex = none := by
        have := f1.none
        rw [Heap.set_blk] at this
        split at this
        · cases this
        · exact this
      have exkv : ex ≠ kv := by
        rintro rfl
        have := f1.none
        rw [Heap.set_same] at this; cases this
      obtain ⟨x1, x2, x3⟩ := kv_ne r hex
      refine wp_alloc (by decide) ?_ (Or.inr ⟨rfl, _, (r.leak n.none).leak f1.none⟩)
      intro cr d2 f2
      have hcr0 := f2.none
      rw [Heap.set_blk] at hcr0
      split at hcr0
      · cases hcr0
      rename_i crex
      rw [Heap.set_blk] at hcr0
      split at hcr0
      · cases hcr0
      rename_i crkv
      obtain ⟨c1, c2, c3⟩ := kv_ne r hcr0
      refine wp_wr (Heap.set_same _ _ _) (by simp) ?_
      rw [Heap.set_set]
      refine wp_wr (Heap.set_same _ _ _) (by simp) ?_
      rw [Heap.set_set]
      refine wp_wr (Heap.set_same _ _ _) (by simp) ?_
      rw [Heap.set_set]
      refine wp_wr (B := ⟨24, d1⟩) (by rw [Heap.set_ne _ _ _ _ (Ne.symm crex), Heap.set_same]) (by simp) ?_
      refine wp_rd (B := BS) (by rw [Heap.set_ne _ _ _ _ x2.symm, Heap.set_ne _ _ _ _ c2.symm, Heap.set_ne _ _ _ _ x2.symm]; exact hS1) (by omega) ?_
      rw [hw1]
      refine wp_wr (Heap.set_same _ _ _) (by simp) ?_
      rw [Heap.set_set]
      refine wp_rd (B := BS) (by rw [Heap.set_ne _ _ _ _ x2.symm, Heap.set_ne _ _ _ _ c2.symm, Heap.set_ne _ _ _ _ x2.symm]; exact hS1) (by omega) ?_
      rw [hw2]
      refine wp_wr (Heap.set_same _ _ _) (by simp) ?_
      rw [Heap.set_set]
      refine wp_wr (B := BS) (by rw [Heap.set_ne _ _ _ _ x2.symm, Heap.set_ne _ _ _ _ c2.symm, Heap.set_ne _ _ _ _ x2.symm]; exact hS1) (by omega) ?_
      refine wp_wr (Heap.set_same _ _ _) (by rw [Block.size_wr]; omega) ?_
      rw [Heap.set_set]
      refine wp_mono ?_ (bumpCount_spec (B0 := B0) (by
        rw [Heap.set_ne _ _ _ _ hbs, Heap.set_ne _ _ _ _ x1.symm, Heap.set_ne _ _ _ _ c1.symm, Heap.set_ne _ _ _ _ x1.symm]; exact h01) hs0 hb3)
      rintro out h' ⟨rfl, rfl⟩
      refine Or.inl ⟨rfl, ?_⟩
      obtain ⟨KB, hKB, hKs, -⟩ := hbk.kvs e he
      have hlen : e.key.length < W64 := by rw [← hw2]; exact Block.rd8_lt _ _
      refine link_second r hi n hd hc hm hS h0 hex (Off.of f1) hcr0 (Off.of f2) exkv crkv crex
        (iv_words ⟨24, d1⟩ rfl (by have := (Off.of f2).lt; omega) (by have := ho.lt; omega) hlen)
        (iv_words ⟨24, d2⟩ rfl (by decide) (by have := n.off.lt; omega) hkl) (Heap.set_same _ _ _) ?_ ?_ ?_ ?_ ?_
      · rw [Heap.set_ne _ _ _ _ hbs.symm, Heap.set_same]
      · rw [Heap.set_ne _ _ _ _ k1, Heap.set_ne _ _ _ _ k2, Heap.set_ne _ _ _ _ exkv.symm, Heap.set_ne _ _ _ _ (Ne.symm crkv), Heap.set_ne _ _ _ _ exkv.symm, Heap.set_same]
      · rw [Heap.set_ne _ _ _ _ x1, Heap.set_ne _ _ _ _ x2, Heap.set_same]
      · rw [Heap.set_ne _ _ _ _ c1, Heap.set_ne _ _ _ _ c2, Heap.set_ne _ _ _ _ crex, Heap.set_same]
      · intro x y1 y2 y3 y4 y5
        rw [Heap.set_ne _ _ _ _ y1, Heap.set_ne _ _ _ _ y2, Heap.set_ne _ _ _ _ y4, Heap.set_ne _ _ _ _ y5, Heap.set_ne _ _ _ _ y4, Heap.set_ne _ _ _ _ y3]
  · have he : e ∈ (bk i).c := by rw [hc]; exact List.mem_cons_self
    have ho := ((hbk.mem_off he).2 hd).1
    have he2 := ho.even
    have hivs : ∀ x ∈ (bk i).c, x.iv ≠ kv := fun x hx hy => k3 i (mem_foot.2 (Or.inr ⟨hd, x, hx, hy⟩))
    have hseg : Seg (h.set kv K) (bk i).c 0 := Seg_congr (fun x hx => Heap.set_ne _ _ _ _ (hivs x hx)) (hbk.seg hd)
    rw [hw, if_neg (by omega), if_neg (by omega), Nat.add_sub_cancel]
    have := walkList_spec (k := k) (bk i).c maxNodes 0 hbk.len hseg (fun x hx => ⟨hkvs x hx, (hbk.walkable hd x hx).2⟩)
    rw [hc] at this
    refine wp_bind_of this ?_ ?_
    rotate_left
    · rintro _ _ ⟨-, w, hx, -⟩; cases hx
    rintro w h' ⟨rfl, w', hw', hwk⟩
    injection hw' with hw'
    subst hw'
    rw [← hc] at hwk
    cases hwk with
    | absent ha =>
      rw [if_neg (by simp)]
      refine wp_alloc (by decide) ?_ (Or.inr ⟨rfl, hleak⟩)
      intro cr d2 f2
      have hcr0 := f2.none
      rw [Heap.set_blk] at hcr0
      split at hcr0
      · cases hcr0
      rename_i crkv
      obtain ⟨c1, c2, c3⟩ := kv_ne r hcr0
      obtain ⟨a, e', hce⟩ : ∃ a e', (bk i).c = a ++ [e'] := by
        rcases List.eq_nil_or_concat (bk i).c with h1 | ⟨a, e', h1⟩
        · rw [hc] at h1; cases h1
        · exact ⟨a, e', by rw [h1]; simp⟩
      have hme : e' ∈ (bk i).c := by rw [hce]; simp
      obtain ⟨o4, o5, o6⟩ := (hbk.mem_off hme).2 hd
      have ecr : e'.iv ≠ cr := fun hx => c3 i (mem_foot.2 (Or.inr ⟨hd, e', hme, hx⟩))
      have hlast : lastIv 0 (bk i).c = e'.iv := by rw [hce, lastIv_append]
      rw [hlast]
      obtain ⟨nx, E, hE, hEs, -⟩ := Seg_mem (hbk.seg hd) hme
      refine wp_wr (B := E) (by rw [Heap.set_ne _ _ _ _ ecr, Heap.set_ne _ _ _ _ (hivs e' hme)]; exact hE) (by omega) ?_
      refine wp_wr (B := ⟨24, d2⟩) (by rw [Heap.set_ne _ _ _ _ ecr.symm, Heap.set_same]) (by simp) ?_
      refine wp_wr (Heap.set_same _ _ _) (by simp) ?_
      rw [Heap.set_set]
      refine wp_wr (Heap.set_same _ _ _) (by simp) ?_
      rw [Heap.set_set]
      refine wp_mono ?_ (bumpCount_spec (B0 := B0) (by
        rw [Heap.set_ne _ _ _ _ c1.symm, Heap.set_ne _ _ _ _ o5.symm, Heap.set_ne _ _ _ _ c1.symm]; exact h01) hs0 hb3)
      rintro out h' ⟨rfl, rfl⟩
      refine Or.inl ⟨rfl, ?_⟩
      refine link_append r hi n hd hce ha h0 hE hcr0 (Off.of f2) crkv
        (iv_words ⟨24, d2⟩ rfl (by decide) (by have := n.off.lt; omega) hkl) (Heap.set_same _ _ _) ?_ ?_ ?_ ?_
      · rw [Heap.set_ne _ _ _ _ k1, Heap.set_ne _ _ _ _ (Ne.symm crkv), Heap.set_ne _ _ _ _ (hivs e' hme).symm, Heap.set_ne _ _ _ _ (Ne.symm crkv), Heap.set_same]
      · rw [Heap.set_ne _ _ _ _ o5, Heap.set_ne _ _ _ _ ecr, Heap.set_same]
      · rw [Heap.set_ne _ _ _ _ c1, Heap.set_same]
      · intro x y1 y2 y3 y4
        rw [Heap.set_ne _ _ _ _ y1, Heap.set_ne _ _ _ _ y4, Heap.set_ne _ _ _ _ y3, Heap.set_ne _ _ _ _ y4, Heap.set_ne _ _ _ _ y2]
    | found a t' e' hce ha hek =>
      have he' : e' ∈ (bk i).c := by rw [hce]; simp
      rw [if_pos ((hbk.walkable hd) e' he').2]
      have hseg0 := hbk.seg hd
      rw [hce, Seg_append] at hseg0
      obtain ⟨-, ⟨B, b1, b2, b3, b4, b5⟩, -⟩ := hseg0
      have hB : (h.set kv K).blk e'.iv = some B := by rw [Heap.set_ne _ _ _ _ (hivs e' he')]; exact b1
      have nkk : e'.kv ≠ kv := fun hx => k3 i (mem_foot.2 (Or.inl ⟨e', he', hx⟩))
      have nki := kv_iv_ne hbk.nodup hd he' he'
      refine wp_rd hB (by omega) ?_
      rw [b4]
      obtain ⟨KB, hKB, -⟩ := hkvs e' he'
      refine wp_free hKB ?_
      refine wp_wr (B := B) (by rw [Heap.del_ne _ _ _ nki.symm]; exact hB) (by omega) ?_
      refine ⟨_, Heap.set_same _ _ _, by rw [Block.size_wr]; omega, ?_⟩
      rw [Heap.set_set]
      refine Or.inl ⟨rfl, ?_⟩
      refine link_replace r hi n hd hce ha hek (E := (B.wr 8 8 kv).wr 16 8 k.length) ⟨b2, ?_, ?_, Block.rd_wr_same8 _ _ _ hkl⟩ ?_ (Heap.set_same _ _ _) ?_ ?_
      · rw [Block.rd_wr_ne _ (by omega), Block.rd_wr_ne _ (by omega), b3]
      · rw [Block.rd_wr_ne _ (by omega), Block.rd_wr_same8 _ _ _ (by have := n.off.lt; omega)]
      · rw [Heap.set_ne _ _ _ _ (hivs e' he').symm, Heap.del_ne _ _ _ nkk.symm, Heap.set_same]
      · rw [Heap.set_ne _ _ _ _ nki, Heap.del_same]
      · intro x y1 y2 y3
        rw [Heap.set_ne _ _ _ _ y2, Heap.del_ne _ _ _ y3, Heap.set_ne _ _ _ _ y1]

/-- the heap holds a hash table with the pairs `m`, in the order in which the keys were inserted; the slots in `dm` are damaged, and the item count is off by `off` -/
def TableD (dm : Nat → Prop) (off : Nat) (hash : Bytes → Nat) (base slots bits : Nat) (G : Nat → Option Block) (m : Pairs) (lk : List Nat) (h : Heap) : Prop :=
  ∃ bk, RepD dm h base slots bits (m.length + off) bk lk G ∧ (∀ i, (bk i).pairs = m.filter (fun e => decide (hash e.1 % 2 ^ bits = i))) ∧ (keys m).Nodup

/-- the heap holds a hash table with the pairs `m`, in the order in which the keys were inserted -/
def Table (hash : Bytes → Nat) (base slots bits : Nat) (G : Nat → Option Block) (m : Pairs) (lk : List Nat) (h : Heap) : Prop :=
  ∃ bk, Rep h base slots bits m.length bk lk G ∧ (∀ i, (bk i).pairs = m.filter (fun e => decide (hash e.1 % 2 ^ bits = i))) ∧ (keys m).Nodup

theorem tableD_iff {m : Pairs} : TableD (fun _ => False) 0 hash base slots bits G m lk h ↔ Table hash base slots bits G m lk h := Iff.rfl

theorem bucket_get {m : Pairs} (hp : ∀ i, (bk i).pairs = m.filter (fun e => decide (hash e.1 % 2 ^ bits = i))) (k : Bytes) :
    get m k = get (bk (hash k % 2 ^ bits)).pairs k := by
  rw [hp, get_filter (fun x => decide (hash x % 2 ^ bits = hash k % 2 ^ bits)) (by simp)]

theorem bucket_keys {m : Pairs} (hp : ∀ i, (bk i).pairs = m.filter (fun e => decide (hash e.1 % 2 ^ bits = i))) (k : Bytes) :
    k ∈ keys (bk (hash k % 2 ^ bits)).pairs ↔ k ∈ keys m := by
  have := bucket_get hp k
  have a := get_none (m := m) (k := k)
  have b := get_none (m := (bk (hash k % 2 ^ bits)).pairs) (k := k)
  rw [← this] at b
  rw [a] at b
  exact (not_iff_not.1 b).symm

/-- there are fewer items than addresses -/
theorem Table.len {m : Pairs} (t : Table hash base slots bits G m lk h) : m.length ≤ 9223372036854775808 := by
  obtain ⟨bk, r, hp, hn⟩ := t
  have hex : ∀ e : Bytes × Bytes, ∃ x, e ∈ m → ∃ en ∈ (bk (hash e.1 % 2 ^ bits)).c, en.kv = x ∧ en.key = e.1 := by
    intro e
    by_cases he : e ∈ m
    · have : e ∈ (bk (hash e.1 % 2 ^ bits)).pairs := by rw [hp]; simp [he]
      obtain ⟨en, h1, h2⟩ := List.mem_map.1 this
      exact ⟨en.kv, fun _ => ⟨en, h1, rfl, by rw [← h2]⟩⟩
    · exact ⟨0, fun h => absurd h he⟩
  choose f hf using hex
  have hnm : m.Nodup := List.Nodup.of_map _ hn
  have hnd : (m.map f).Nodup := by
    refine List.Nodup.map_on ?_ hnm
    intro a ha b hb hab
    obtain ⟨ea, a1, a2, a3⟩ := hf a ha
    obtain ⟨eb, b1, b2, b3⟩ := hf b hb
    have hi : hash a.1 % 2 ^ bits = hash b.1 % 2 ^ bits := by
      by_contra hne
      exact r.disj _ _ hne (f a) (mem_foot.2 (Or.inl ⟨ea, a1, a2⟩)) (mem_foot.2 (Or.inl ⟨eb, b1, b2.trans hab.symm⟩))
    rw [← hi] at b1
    have := List.inj_on_of_nodup_map (kvs_nodup (r.ok (hash a.1 % 2 ^ bits)).nodup) a1 b1 (by rw [a2, b2, hab])
    subst this
    exact List.inj_on_of_nodup_map hn ha hb (a3.symm.trans b3)
  have := nodup_bound (n := 9223372036854775808) hnd (by
    intro x hx
    obtain ⟨a, ha, rfl⟩ := List.mem_map.1 hx
    obtain ⟨ea, a1, a2, a3⟩ := hf a ha
    exact (a2 ▸ ((r.ok _).mem_off a1).1.1).lt)
  rwa [List.length_map] at this

theorem size_spec {m : Pairs} (t : Table hash base slots bits G m lk h) : wp (size base) (fun out h' => out = .ok m.length ∧ h' = h) h := by
  have hl := t.len
  obtain ⟨bk, r, hp, hn⟩ := t
  obtain ⟨B0, h0, hs0, hb1, hb2, hb3⟩ := r.b0
  unfold size
  refine wp_rd h0 (by omega) ?_
  rw [hb3, Nat.mod_eq_of_lt (by omega)]
  exact ⟨rfl, rfl⟩

theorem Linked.tableD {m : Pairs} {off : Nat} (hp : ∀ i, (bk i).pairs = m.filter (fun e => decide (hash e.1 % 2 ^ bits = i))) (hn : (keys m).Nodup) {h' : Heap}
    (hl : Linked dm base slots bits (m.length + off) bk lk G (hash k % 2 ^ bits) k v h') : TableD dm off hash base slots bits G (put m k v) lk h' := by
  obtain ⟨b', e1, r⟩ := hl
  refine ⟨fun j => if j = hash k % 2 ^ bits then b' else bk j, ?_, ?_, nodup_put hn⟩
  · rw [length_put, Nat.add_right_comm]
    simp only [bucket_keys hp] at r
    exact r
  · intro i
    rw [put_filter (fun x => decide (hash x % 2 ^ bits = i))]
    show (if i = hash k % 2 ^ bits then b' else bk i).pairs = _
    by_cases hi : i = hash k % 2 ^ bits
    · rw [if_pos hi, e1, hp]
      subst hi
      simp
    · rw [if_neg hi, if_neg (by simpa using fun e => hi e.symm), hp]

/-- insert, with or without a check, into an undamaged slot -/
theorem insert_specD {m : Pairs} {off : Nat} (t : TableD dm off hash base slots bits G m lk h) {c : Option Check} (hdc : ∀ c', c = some c' → ¬ dm (hash c'.1 % 2 ^ bits)) (hdm : ¬ dm (hash k % 2 ^ bits)) (hl : k.length + v.length ≤ 4611686018427387904) :
    wp (insert hash base k v c) (fun out h' => (checkAll m c = false ∧ out = .ok false ∧ h' = h) ∨
      (checkAll m c = true ∧ out = .ok true ∧ TableD dm off hash base slots bits G (put m k v) lk h') ∨
      (checkAll m c = true ∧ out = .err .noMem ∧ ∃ lk', TableD dm off hash base slots bits G m lk' h')) h := by
  obtain ⟨bk, r, hp, hn⟩ := t
  unfold insert
  refine wp_bind_of (checkOk_spec r (bucket_get hp) hdc) ?_ ?_
  rotate_left
  · rintro _ _ ⟨-, hx⟩; cases hx
  rintro g h' ⟨rfl, hg⟩
  injection hg with hg
  subst hg
  cases hc : checkAll m c with
  | false => exact Or.inl ⟨rfl, rfl, rfl⟩
  | true =>
  rw [if_pos rfl]
  refine wp_alloc hl ?_ (Or.inr (Or.inr ⟨rfl, rfl, lk, bk, r, hp, hn⟩))
  intro kv d f
  refine wp_wrB (Heap.set_same _ _ _) (by simp) ?_
  rw [Heap.set_set]
  refine wp_wrB (Heap.set_same _ _ _) (by simp) ?_
  rw [Heap.set_set]
  have nk : NewKv h' base slots kv (((⟨k.length + v.length, d⟩ : Block).wrB 0 k).wrB k.length v) k v := by
    refine ⟨f.none, Off.of f, rfl, ?_, Block.rdB_wrB_same _ _ _⟩
    rw [Block.rdB_wrB_disj _ _ _ _ _ (by omega), Block.rdB_wrB_same]
  obtain ⟨n1, n2, n3⟩ := kv_ne r f.none
  obtain ⟨B0, h0, hs0, hb1, hb2, hb3⟩ := r.b0
  have h01 : ∀ K, (h'.set kv K).blk base = some B0 := fun K => by rw [Heap.set_ne _ _ _ _ n1.symm]; exact h0
  refine wp_rd (h01 _) (by omega) ?_
  refine wp_rd (h01 _) (by omega) ?_
  rw [hb1, hb2]
  refine wp_bind_of (link_spec r ⟨Nat.mod_lt (hash k) (Nat.two_pow_pos bits), hdm⟩ nk (by show k.length < W64; omega)) ?_ ?_
  · rintro _ h'' (⟨-, hL⟩ | ⟨hx, -⟩)
    · exact Or.inr (Or.inl ⟨rfl, rfl, hL.tableD hp hn⟩)
    · cases hx
  · rintro _ h'' (⟨hx, -⟩ | ⟨hx, lk', r'⟩)
    · cases hx
    · injection hx with hx; subst hx
      exact Or.inr (Or.inr ⟨rfl, rfl, lk', bk, r', hp, hn⟩)

/-! ### create -/

/-- insert, with or without a check -/
theorem insert_spec {m : Pairs} (t : Table hash base slots bits G m lk h) {c : Option Check} (hl : k.length + v.length ≤ 4611686018427387904) :
    wp (insert hash base k v c) (fun out h' => (checkAll m c = false ∧ out = .ok false ∧ h' = h) ∨
      (checkAll m c = true ∧ out = .ok true ∧ Table hash base slots bits G (put m k v) lk h') ∨
      (checkAll m c = true ∧ out = .err .noMem ∧ ∃ lk', Table hash base slots bits G m lk' h')) h :=
  insert_specD (tableD_iff.2 t) (fun _ _ h => h) (fun h => h) hl

theorem zeroSlots_spec (n : Nat) : ∀ (x : Nat) (h : Heap) (BS : Block), h.blk slots = some BS → 16 * (x + n) ≤ BS.size → (∀ j, j < x → BS.rd (16 * j) 8 = 0) →
    wp (zeroSlots slots n x) (fun out h' => out = .ok () ∧ ∃ BS', h' = h.set slots BS' ∧ BS'.size = BS.size ∧ ∀ j, j < x + n → BS'.rd (16 * j) 8 = 0) h := by
  induction n with
  | zero =>
    intro x h BS hS _ hz
    refine ⟨rfl, BS, ?_, rfl, hz⟩
    cases h
    simp only [Heap.set, Heap.mk.injEq, and_true]
    funext y
    split
    · rename_i e; rw [e]; exact hS
    · rfl
  | succ n ih =>
    intro x h BS hS hs hz
    unfold zeroSlots
    refine wp_wr hS (by omega) ?_
    refine wp_wr (Heap.set_same _ _ _) (by rw [Block.size_wr]; omega) ?_
    rw [Heap.set_set]
    obtain ⟨w1, w2, w3⟩ := slots_wr (BS := BS) (i := x) (a := 0) (b := 0) (by decide) (by decide)
    refine wp_mono ?_ (ih (x + 1) _ _ (Heap.set_same _ _ _) (by simp only [Block.size_wr]; omega) ?_)
    · rintro out h' ⟨e1, BS', rfl, e2, e3⟩
      exact ⟨e1, BS', by rw [Heap.set_set], e2, fun j hj => e3 j (by omega)⟩
    · intro j hj
      by_cases e : j = x
      · rw [e]; exact w1
      · rw [(w3 j e).1]; exact hz j (by omega)

theorem two_pow_small (hb : bits < 31) : 2 ^ bits ≤ 1073741824 := by
  have : 2 ^ bits ≤ 2 ^ 30 := Nat.pow_le_pow_right (by decide) (by omega)
  exact this

theorem create_spec (h : Heap) (hb : 2 ≤ bits) (hb2 : bits < 31) :
    wp (create bits) (fun out h' => (out = .err .noMem ∧ ∀ x B, h.blk x = some B → h'.blk x = some B) ∨
      ∃ base slots, out = .ok base ∧ Off base ∧ Table hash base slots bits h.blk [] [] h') h := by
  have hp := two_pow_small hb2
  unfold create createBase
  rw [if_neg (by omega)]
  refine wp_alloc (by decide) ?_ (Or.inl ⟨rfl, fun _ _ h => h⟩)
  intro base d1 f1
  refine wp_alloc (by omega) ?_ (Or.inl ⟨rfl, ?_⟩)
  · intro slots d2 f2
    have hsl := f2.none
    rw [Heap.set_blk] at hsl
    split at hsl
    · cases hsl
    rename_i hne
    have hb0 : ∀ x : Block, ((h.set base ⟨24, d1⟩).set slots x).blk base = some ⟨24, d1⟩ := fun x => by rw [Heap.set_ne _ _ _ _ (Ne.symm hne), Heap.set_same]
    refine wp_wr (hb0 _) (by simp) ?_
    refine wp_wr (Heap.set_same _ _ _) (by simp) ?_
    rw [Heap.set_set]
    refine wp_wr (Heap.set_same _ _ _) (by simp) ?_
    rw [Heap.set_set]
    refine wp_bind_of (zeroSlots_spec (slots := slots) (2 ^ bits) 0 _ ⟨16 * 2 ^ bits, d2⟩ (by rw [Heap.set_ne _ _ _ _ hne, Heap.set_same]) (by simp) (by omega)) ?_ ?_
    · rintro _ h' ⟨-, BS', rfl, e2, e3⟩
      refine Or.inr ⟨base, slots, rfl, Off.of f1, fun _ => ⟨true, []⟩, ?_, by simp [Bk.pairs], by simp [keys]⟩
      have hbw := iv_words (⟨24, d1⟩ : Block) (a := bits) (b := slots) (c := 0) rfl (by show bits < W64; omega) (by have := (Off.of f2).lt; omega) (by decide)
      refine ⟨by have := (Off.of f1).lt; omega, hb2, ⟨_, ?_, hbw⟩, ⟨BS', Heap.set_same _ _ _, e2, fun i hi _ => Or.inl ⟨rfl, e3 i (by omega)⟩⟩,
        ⟨f2.pos, by have := (Off.of f2).lt; omega, Ne.symm hne⟩, fun _ _ => rfl, fun _ h => h.elim, ?_, ?_, ?_⟩
      · rw [Heap.set_ne _ _ _ _ (Ne.symm hne), Heap.set_same]
      · exact fun _ => ⟨by simp, by simp, by simp [Bk.foot], by simp [Bk.foot]⟩
      · simp [Bk.foot]
      · intro x
        by_cases h1 : x = base
        · rw [if_pos (Or.inl h1), h1]; exact f1.none
        by_cases h2 : x = slots
        · rw [if_pos (Or.inr (Or.inl h2)), h2]; exact hsl
        rw [if_neg (by simp [h1, h2, Bk.foot]), Heap.set_ne _ _ _ _ h2, Heap.set_ne _ _ _ _ h1, Heap.set_ne _ _ _ _ h2, Heap.set_ne _ _ _ _ h1]
    · rintro _ _ ⟨hx, -⟩; cases hx
  · intro x B hx
    rw [Heap.set_ne _ _ _ _ (show x ≠ base from fun e => by rw [e, f1.none] at hx; cases hx)]; exact hx

end
end Verif.HashTable
