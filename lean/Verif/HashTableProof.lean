import Verif.HashTable
import Verif.HeapOk
/-
Representation invariant of HashTable and specifications of its inner functions.
-/
namespace Verif.HashTable
open Verif

/-! ### Association lists -/

abbrev Pairs := List (Bytes × Bytes)

/-- overwrite in place or append -/
def put : Pairs → Bytes → Bytes → Pairs
  | [], k, v => [(k, v)]
  | (a, b) :: t, k, v => if a = k then (k, v) :: t else (a, b) :: put t k v

def keys (m : Pairs) : List Bytes := m.map (·.1)

theorem put_absent {m : Pairs} {k v : Bytes} (h : k ∉ keys m) : put m k v = m ++ [(k, v)] := by
  induction m with
  | nil => rfl
  | cons e t ih =>
    obtain ⟨a, b⟩ := e
    simp only [keys, List.map_cons, List.mem_cons, not_or] at h
    rw [put, if_neg (fun e => h.1 e.symm), ih h.2]; rfl

theorem put_present {a t : Pairs} {k v w : Bytes} (h : k ∉ keys a) : put (a ++ (k, w) :: t) k v = a ++ (k, v) :: t := by
  induction a with
  | nil => simp [put]
  | cons e a ih =>
    obtain ⟨x, y⟩ := e
    simp only [keys, List.map_cons, List.mem_cons, not_or] at h
    rw [List.cons_append, put, if_neg (fun e => h.1 e.symm), ih h.2]; rfl

theorem put_filter {m : Pairs} {k v : Bytes} (p : Bytes → Bool) :
    (put m k v).filter (fun e => p e.1) = if p k then put (m.filter (fun e => p e.1)) k v else m.filter (fun e => p e.1) := by
  induction m with
  | nil => simp only [put]; by_cases h : p k <;> simp [h, put]
  | cons e t ih =>
    obtain ⟨a, b⟩ := e
    rw [put]
    by_cases h : a = k
    · subst h
      by_cases h2 : p a <;> simp [h2, put]
    · rw [if_neg h]
      by_cases h2 : p a
      · by_cases h3 : p k <;> simp [h2, h3, put, h] at ih ⊢ <;> exact ih
      · by_cases h3 : p k <;> simp [h2, h3] at ih ⊢ <;> exact ih

theorem keys_put {m : Pairs} {k v : Bytes} : keys (put m k v) = if k ∈ keys m then keys m else keys m ++ [k] := by
  induction m with
  | nil => simp [put, keys]
  | cons e t ih =>
    obtain ⟨a, b⟩ := e
    rw [put]
    by_cases h : a = k
    · subst h; simp [keys]
    · rw [if_neg h]
      have h' : k ≠ a := fun e => h e.symm
      show a :: keys (put t k v) = if k ∈ a :: keys t then a :: keys t else a :: keys t ++ [k]
      rw [ih]
      by_cases h3 : k ∈ keys t <;> simp [h3, h']

theorem nodup_put {m : Pairs} {k v : Bytes} (h : (keys m).Nodup) : (keys (put m k v)).Nodup := by
  rw [keys_put]
  split
  · exact h
  · rename_i hk
    rw [List.nodup_append]
    exact ⟨h, by simp, by intro a ha b hb; rw [List.mem_singleton.1 hb]; exact fun e => hk (e ▸ ha)⟩

theorem length_put {m : Pairs} {k v : Bytes} : (put m k v).length = m.length + if k ∈ keys m then 0 else 1 := by
  have h := congrArg List.length (keys_put (m := m) (k := k) (v := v))
  by_cases h3 : k ∈ keys m <;> simp only [h3, if_true, if_false] at h ⊢ <;> simpa [keys] using h

/-! ### Representation -/

/-- an item: its IndirectValue (if in a list), key-value block, key and value -/
structure Ent where
  iv : Nat
  kv : Nat
  key : Bytes
  val : Bytes

/-- a slot: a single direct item or a list of indirect ones -/
structure Bk where
  dir : Bool
  c : List Ent

def Bk.foot (b : Bk) : List Nat := b.c.map Ent.kv ++ if b.dir then [] else b.c.map Ent.iv
def Bk.pairs (b : Bk) : Pairs := b.c.map fun e => (e.key, e.val)

def KvOk (h : Heap) (e : Ent) : Prop :=
  ∃ B, h.blk e.kv = some B ∧ B.size = e.key.length + e.val.length ∧ B.rdB 0 e.key.length = e.key ∧ B.rdB e.key.length e.val.length = e.val

def IvOk (h : Heap) (e : Ent) (nx : Nat) : Prop :=
  ∃ B, h.blk e.iv = some B ∧ B.size = 24 ∧ B.rd 0 8 = nx ∧ B.rd 8 8 = e.kv ∧ B.rd 16 8 = e.key.length

def headIv : List Ent → Nat → Nat
  | [], nx => nx
  | e :: _, _ => e.iv

def lastIv : Nat → List Ent → Nat
  | p, [] => p
  | _, e :: t => lastIv e.iv t

/-- the items are linked in this order and the last one's next is `nx` -/
def Seg (h : Heap) : List Ent → Nat → Prop
  | [], _ => True
  | e :: t, nx => IvOk h e (headIv t nx) ∧ Seg h t nx

theorem headIv_append (a b : List Ent) (nx : Nat) : headIv (a ++ b) nx = headIv a (headIv b nx) := by cases a <;> rfl

theorem Seg_append {h : Heap} {a b : List Ent} {nx : Nat} : Seg h (a ++ b) nx ↔ Seg h a (headIv b nx) ∧ Seg h b nx := by
  induction a with
  | nil => simp [Seg]
  | cons e a ih => simp only [List.cons_append, Seg, ih, headIv_append, and_assoc]

theorem Seg_congr {h h' : Heap} {c : List Ent} {nx : Nat} (hs : ∀ e ∈ c, h'.blk e.iv = h.blk e.iv) (hc : Seg h c nx) : Seg h' c nx := by
  induction c with
  | nil => trivial
  | cons e t ih =>
    refine ⟨?_, ih (fun e he => hs e (List.mem_cons_of_mem _ he)) hc.2⟩
    obtain ⟨B, h1, h2⟩ := hc.1
    exact ⟨B, by rw [hs e List.mem_cons_self]; exact h1, h2⟩

theorem Seg_mem {h : Heap} {c : List Ent} {nx : Nat} (hc : Seg h c nx) {e : Ent} (he : e ∈ c) : ∃ nx', IvOk h e nx' := by
  induction c with
  | nil => cases he
  | cons f t ih =>
    rcases List.mem_cons.1 he with rfl | he
    · exact ⟨_, hc.1⟩
    · exact ih hc.2 he

theorem lastIv_append (p : Nat) (a : List Ent) (e : Ent) : lastIv p (a ++ [e]) = e.iv := by
  induction a generalizing p with
  | nil => rfl
  | cons f a ih => exact ih f.iv

theorem KvOk.congr {h h' : Heap} {e : Ent} (hs : h'.blk e.kv = h.blk e.kv) (hc : KvOk h e) : KvOk h' e := by
  obtain ⟨B, h1, h2⟩ := hc
  exact ⟨B, by rw [hs]; exact h1, h2⟩

/-- an offset that an allocator may return -/
structure Off (x : Nat) : Prop where
  low : 256 ≤ x
  al : x % 8 = 0
  lt : x < 9223372036854775808

theorem Off.ne {x : Nat} (h : Off x) : x ≠ 0 := by have := h.low; omega
theorem Off.even {x : Nat} (h : Off x) : x % 2 = 0 := by have := h.al; omega
theorem Off.of {h : Heap} {o n : Nat} (f : Fresh h o n) : Off o := ⟨f.low, f.align, by have := f.lt; omega⟩

/-- what the two words of a slot say -/
def SlotOk (BS : Block) (i : Nat) (b : Bk) : Prop :=
  (b.c = [] ∧ BS.rd (16 * i) 8 = 0) ∨
  (b.dir = true ∧ ∃ e, b.c = [e] ∧ BS.rd (16 * i) 8 = e.kv ∧ BS.rd (16 * i + 8) 8 = e.key.length) ∨
  (b.dir = false ∧ ∃ e t, b.c = e :: t ∧ t ≠ [] ∧ BS.rd (16 * i) 8 = e.iv + 1)

theorem SlotOk.congr {B B' : Block} {i : Nat} {b : Bk} (h1 : B'.rd (16 * i) 8 = B.rd (16 * i) 8) (h2 : B'.rd (16 * i + 8) 8 = B.rd (16 * i + 8) 8)
    (h : SlotOk B i b) : SlotOk B' i b := by
  unfold SlotOk at *
  rw [h1, h2]; exact h

structure BkOk (h : Heap) (base slots : Nat) (b : Bk) : Prop where
  seg : b.dir = false → Seg h b.c 0
  kvs : ∀ e ∈ b.c, KvOk h e
  nodup : b.foot.Nodup
  off : ∀ x ∈ b.foot, Off x ∧ x ≠ base ∧ x ≠ slots

open scoped Classical in
/-- The heap holds a hash table at `base` with slots block `slots` and slot contents `bk`; `lk` are blocks that failed inserts abandoned.  Everything else in the heap is `G`.
`dm` = the slots that a process was writing when it died: nothing is known of their contents, and they are counted as empty. -/
structure RepD (dm : Nat → Prop) (h : Heap) (base slots bits cnt : Nat) (bk : Nat → Bk) (lk : List Nat) (G : Nat → Option Block) : Prop where
  blt : base < W64
  b31 : bits < 31
  b0 : ∃ B0, h.blk base = some B0 ∧ B0.size = 24 ∧ B0.rd 0 8 = bits ∧ B0.rd 8 8 = slots ∧ B0.rd 16 8 = cnt % W64
  bs : ∃ BS, h.blk slots = some BS ∧ BS.size = 16 * 2 ^ bits ∧ ∀ i, i < 2 ^ bits → ¬ dm i → SlotOk BS i (bk i)
  sl : slots ≠ 0 ∧ slots < W64 ∧ base ≠ slots
  out : ∀ i, 2 ^ bits ≤ i → (bk i).c = []
  dead : ∀ i, dm i → (bk i).c = []
  ok : ∀ i, BkOk h base slots (bk i)
  disj : ∀ i j, i ≠ j → ∀ x, x ∈ (bk i).foot → x ∈ (bk j).foot → False
  frame : ∀ x, G x = if x = base ∨ x = slots ∨ (∃ i, x ∈ (bk i).foot) ∨ x ∈ lk then none else h.blk x

/-- a table without damaged slots -/
abbrev Rep := RepD fun _ => False

theorem mem_foot {b : Bk} {x : Nat} : x ∈ b.foot ↔ (∃ e ∈ b.c, e.kv = x) ∨ (b.dir = false ∧ ∃ e ∈ b.c, e.iv = x) := by
  unfold Bk.foot
  rw [List.mem_append, List.mem_map]
  cases b.dir <;> simp

theorem BkOk.live {h : Heap} {base slots : Nat} {b : Bk} (hb : BkOk h base slots b) {x : Nat} (hx : x ∈ b.foot) : ∃ B, h.blk x = some B := by
  rcases mem_foot.1 hx with ⟨e, he, rfl⟩ | ⟨hd, e, he, rfl⟩
  · obtain ⟨B, h1, -⟩ := hb.kvs e he; exact ⟨B, h1⟩
  · obtain ⟨nx, B, h1, -⟩ := Seg_mem (hb.seg hd) he; exact ⟨B, h1⟩

theorem BkOk.congr {h h' : Heap} {base slots : Nat} {b : Bk} (hb : BkOk h base slots b) (hs : ∀ x ∈ b.foot, h'.blk x = h.blk x) : BkOk h' base slots b := by
  refine ⟨?_, ?_, hb.nodup, hb.off⟩
  · intro hd
    refine Seg_congr ?_ (hb.seg hd)
    intro e he
    exact hs _ (mem_foot.2 (Or.inr ⟨hd, e, he, rfl⟩))
  · intro e he
    exact (hb.kvs e he).congr (hs _ (mem_foot.2 (Or.inl ⟨e, he, rfl⟩)))

section
variable {h : Heap} {base slots bits cnt : Nat} {bk : Nat → Bk} {lk : List Nat} {G : Nat → Option Block} {dm : Nat → Prop}

theorem RepD.base_live (r : RepD dm h base slots bits cnt bk lk G) : h.blk base ≠ none := by
  obtain ⟨B, h1, -⟩ := r.b0; rw [h1]; simp
theorem RepD.slots_live (r : RepD dm h base slots bits cnt bk lk G) : h.blk slots ≠ none := by
  obtain ⟨B, h1, -⟩ := r.bs; rw [h1]; simp
theorem RepD.foot_live (r : RepD dm h base slots bits cnt bk lk G) {i x : Nat} (hx : x ∈ (bk i).foot) : h.blk x ≠ none := by
  obtain ⟨B, h1⟩ := (r.ok i).live hx; rw [h1]; simp

/-- replace the contents of slot i -/
theorem RepD.update (r : RepD dm h base slots bits cnt bk lk G) {i : Nat} (hi : i < 2 ^ bits ∧ ¬ dm i) {h' : Heap} {b' : Bk} {lk' : List Nat} {cnt' : Nat}
    (hb0 : ∃ B0, h'.blk base = some B0 ∧ B0.size = 24 ∧ B0.rd 0 8 = bits ∧ B0.rd 8 8 = slots ∧ B0.rd 16 8 = cnt' % W64)
    {BS BS' : Block} (hBS : h.blk slots = some BS) (hBS' : h'.blk slots = some BS') (hsz : BS'.size = BS.size) (hsl : SlotOk BS' i b')
    (hoth : ∀ j, j ≠ i → BS'.rd (16 * j) 8 = BS.rd (16 * j) 8 ∧ BS'.rd (16 * j + 8) 8 = BS.rd (16 * j + 8) 8)
    (hbk : BkOk h' base slots b')
    (hin : ∀ x ∈ b'.foot, x ∈ (bk i).foot ∨ h.blk x = none)
    (hlk : ∀ x ∈ lk', x ∈ lk ∨ x ∈ (bk i).foot ∨ h.blk x = none) (hlk2 : ∀ x ∈ lk, x ∈ lk')
    (hsame : ∀ x, x ≠ base → x ≠ slots → x ∉ (bk i).foot → x ∉ b'.foot → h.blk x ≠ none ∨ x ∉ lk' → h'.blk x = h.blk x)
    (hgone : ∀ x ∈ (bk i).foot, x ∉ b'.foot → x ∉ lk' → h'.blk x = none) :
    RepD dm h' base slots bits cnt' (fun j => if j = i then b' else bk j) lk' G := by
  have hs0 := r.bs
  obtain ⟨BS0, k1, k2, k3⟩ := hs0
  rw [hBS] at k1; injection k1 with k1; subst k1
  have hdis : ∀ j, j ≠ i → ∀ x ∈ (bk j).foot, x ∉ b'.foot := by
    intro j hj x hx hx'
    rcases hin x hx' with h1 | h1
    · exact r.disj i j (Ne.symm hj) x h1 hx
    · exact r.foot_live hx h1
  refine ⟨r.blt, r.b31, hb0, ⟨BS', hBS', by rw [hsz, k2], ?_⟩, r.sl, ?_, ?_, ?_, ?_, ?_⟩
  · intro j hj hjd
    by_cases e : j = i
    · subst e; rw [if_pos rfl]; exact hsl
    · rw [if_neg e]; exact (k3 j hj hjd).congr (hoth j e).1 (hoth j e).2
  · intro j hj
    rw [if_neg (by have := hi.1; omega)]; exact r.out j hj
  · intro j hj
    rw [if_neg (by rintro rfl; exact hi.2 hj)]; exact r.dead j hj
  · intro j
    by_cases e : j = i
    · rw [if_pos e]; exact hbk
    · rw [if_neg e]
      refine (r.ok j).congr ?_
      intro x hx
      exact hsame x ((r.ok j).off x hx).2.1 ((r.ok j).off x hx).2.2 (fun hx' => r.disj i j (Ne.symm e) x hx' hx) (hdis j e x hx) (Or.inl (r.foot_live hx))
  · intro j l hjl x hx hy
    split at hx <;> split at hy
    · omega
    · rename_i e1 e2; exact hdis l e2 x hy hx
    · rename_i e1 e2; exact hdis j e1 x hx hy
    · exact r.disj j l hjl x hx hy
  · intro x
    have hfr := r.frame x
    by_cases hbs : x = base ∨ x = slots
    · rw [if_pos (hbs.imp_right Or.inl)] at hfr ⊢; exact hfr
    rw [not_or] at hbs
    obtain ⟨hb1, hb2⟩ := hbs
    by_cases hlkx : x ∈ lk'
    · rw [if_pos (Or.inr (Or.inr (Or.inr hlkx)))]
      rw [hfr]
      rcases hlk x hlkx with h1 | h1 | h1
      · rw [if_pos (Or.inr (Or.inr (Or.inr h1)))]
      · rw [if_pos (Or.inr (Or.inr (Or.inl ⟨i, h1⟩)))]
      · split
        · rfl
        · exact h1
    by_cases hf' : x ∈ b'.foot
    · rw [if_pos (Or.inr (Or.inr (Or.inl ⟨i, by rw [if_pos rfl]; exact hf'⟩))), hfr]
      rcases hin x hf' with h1 | h1
      · rw [if_pos (Or.inr (Or.inr (Or.inl ⟨i, h1⟩)))]
      · split
        · rfl
        · exact h1
    by_cases hj : ∃ j, j ≠ i ∧ x ∈ (bk j).foot
    · obtain ⟨j, hj, hx⟩ := hj
      rw [if_pos (Or.inr (Or.inr (Or.inl ⟨j, by rw [if_neg hj]; exact hx⟩))), hfr, if_pos (Or.inr (Or.inr (Or.inl ⟨j, hx⟩)))]
    rw [if_neg (by
      rintro (h1 | h1 | ⟨j, h1⟩ | h1)
      · exact hb1 h1
      · exact hb2 h1
      · split at h1
        · exact hf' h1
        · rename_i e; exact hj ⟨j, e, h1⟩
      · exact hlkx h1)]
    by_cases hf : x ∈ (bk i).foot
    · rw [hfr, if_pos (Or.inr (Or.inr (Or.inl ⟨i, hf⟩))), hgone x hf hf' hlkx]
    · rw [hfr, if_neg (by
        rintro (h1 | h1 | ⟨j, h1⟩ | h1)
        · exact hb1 h1
        · exact hb2 h1
        · by_cases e : j = i
          · subst e; exact hf h1
          · exact hj ⟨j, e, h1⟩
        · exact hlkx (hlk2 x h1)), hsame x hb1 hb2 hf hf' (Or.inr hlkx)]
end

/-! ### Searching -/

theorem keyMatches_spec {h : Heap} {b o : Nat} {B : Block} (hB : h.blk b = some B) (hs : o + 16 ≤ B.size) {e : Ent} (h1 : B.rd o 8 = e.kv)
    (h2 : B.rd (o + 8) 8 = e.key.length) (hk : KvOk h e) (k : Bytes) :
    wp (keyMatches b o k) (fun out h' => out = .ok (decide (e.key = k)) ∧ h' = h) h := by
  obtain ⟨K, k1, k2, k3, k4⟩ := hk
  unfold keyMatches
  refine wp_rd hB (by omega) ?_
  rw [h2]
  by_cases hl : e.key.length = k.length
  · rw [if_pos hl]
    refine wp_rd hB (by omega) ?_
    rw [h1]
    refine wp_rdB k1 (by omega) ?_
    rw [← hl, k3]
    exact ⟨rfl, rfl⟩
  · rw [if_neg hl]
    refine ⟨?_, rfl⟩
    rw [decide_eq_false]
    rintro rfl
    exact hl rfl

/-- where a search for `k` ends -/
inductive Walk (k : Bytes) (p : Nat) (c : List Ent) : Nat × Nat → Prop
  | absent : (∀ e ∈ c, e.key ≠ k) → Walk k p c (lastIv p c, 0)
  | found (a t : List Ent) (e : Ent) : c = a ++ e :: t → (∀ e ∈ a, e.key ≠ k) → e.key = k → Walk k p c (lastIv p a, e.iv)

theorem walkList_spec {h : Heap} {k : Bytes} (c : List Ent) : ∀ (fuel p : Nat), c.length < fuel → Seg h c 0 → (∀ e ∈ c, KvOk h e ∧ e.iv ≠ 0) →
    wp (walkList k fuel p (headIv c 0)) (fun out h' => h' = h ∧ ∃ w, out = .ok w ∧ Walk k p c w) h := by
  induction c with
  | nil =>
    intro fuel p hf _ _
    obtain ⟨f, rfl⟩ : ∃ f, fuel = f + 1 := ⟨fuel - 1, by simp at hf; omega⟩
    exact ⟨rfl, _, rfl, .absent (by simp)⟩
  | cons e t ih =>
    intro fuel p hf hs hk
    obtain ⟨f, rfl⟩ : ∃ f, fuel = f + 1 := ⟨fuel - 1, by simp at hf; omega⟩
    obtain ⟨hk1, hk2⟩ := hk e List.mem_cons_self
    obtain ⟨⟨B, b1, b2, b3, b4, b5⟩, hs2⟩ := hs
    show wp (walkList k (f + 1) p e.iv) _ h
    unfold walkList
    rw [if_neg hk2]
    refine wp_bind_of (keyMatches_spec b1 (by omega) b4 b5 hk1 k) ?_ ?_
    rotate_left
    · rintro _ _ ⟨he, -⟩; cases he
    rintro m h' ⟨he, rfl⟩
    injection he with he
    subst he
    by_cases hm : e.key = k
    · rw [if_pos (by simpa using hm)]
      exact ⟨rfl, _, rfl, .found [] t e rfl (by simp) hm⟩
    · rw [if_neg (by simpa using hm)]
      refine wp_rd b1 (by omega) ?_
      rw [b3]
      refine wp_mono ?_ (ih f e.iv (by simp at hf; omega) hs2 (fun x hx => hk x (List.mem_cons_of_mem _ hx)))
      rintro out h'' ⟨rfl, w, rfl, hw⟩
      refine ⟨rfl, w, rfl, ?_⟩
      cases hw with
      | absent ha =>
        exact .absent (p := p) (c := e :: t) (by
          intro x hx
          rcases List.mem_cons.1 hx with rfl | hx
          · exact hm
          · exact ha x hx)
      | found a t' e' hc ha he =>
        subst hc
        exact .found (p := p) (e :: a) t' e' rfl (by
          intro x hx
          rcases List.mem_cons.1 hx with rfl | hx
          · exact hm
          · exact ha x hx) he

end Verif.HashTable
