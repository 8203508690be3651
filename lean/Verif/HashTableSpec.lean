import Verif.HashTableProof
import Mathlib.Tactic.Tauto
/-
wp-specifications of the HashTable methods.
-/
namespace Verif.HashTable
open Verif

attribute [local irreducible] Block.rd Block.rdB

/-- the value of a key -/
def get : Pairs → Bytes → Option Bytes
  | [], _ => none
  | (a, b) :: t, k => if a = k then some b else get t k

theorem get_none {m : Pairs} {k : Bytes} : get m k = none ↔ k ∉ keys m := by
  induction m with
  | nil => simp [get, keys]
  | cons e t ih =>
    obtain ⟨a, b⟩ := e
    by_cases h : a = k
    · simp [get, keys, h]
    · have h' : k ≠ a := fun e => h e.symm
      simp only [get, if_neg h, ih, keys, List.map_cons, List.mem_cons, not_or, h', ne_eq, not_false_eq_true, true_and]

theorem get_append {a t : Pairs} {k v : Bytes} (h : k ∉ keys a) : get (a ++ (k, v) :: t) k = some v := by
  induction a with
  | nil => simp [get]
  | cons e a ih =>
    obtain ⟨x, y⟩ := e
    simp only [keys, List.map_cons, List.mem_cons, not_or] at h
    rw [List.cons_append, get, if_neg (fun e => h.1 e.symm), ih h.2]

theorem get_filter {m : Pairs} {k : Bytes} (p : Bytes → Bool) (hp : p k = true) : get (m.filter (fun e => p e.1)) k = get m k := by
  induction m with
  | nil => rfl
  | cons e t ih =>
    obtain ⟨a, b⟩ := e
    by_cases h : a = k
    · subst h; simp [hp, get]
    · by_cases h2 : p a
      · simp [h2, get, h, ih]
      · simp [h2, get, h, ih]

theorem nodup_bound {l : List Nat} {n : Nat} (hn : l.Nodup) (hl : ∀ x ∈ l, x < n) : l.length ≤ n := by
  rw [← List.toFinset_card_of_nodup hn, ← Finset.card_range n]
  refine Finset.card_le_card ?_
  intro x hx
  exact Finset.mem_range.2 (hl x (List.mem_toFinset.1 hx))

theorem keys_pairs {c : List Ent} {k : Bytes} : k ∈ keys (c.map fun e => (e.key, e.val)) ↔ ∃ e ∈ c, e.key = k := by
  simp [keys]

theorem BkOk.len {h : Heap} {base slots : Nat} {b : Bk} (hb : BkOk h base slots b) : b.c.length < maxNodes := by
  have h1 : (b.c.map Ent.kv).Nodup := by
    have := hb.nodup
    unfold Bk.foot at this
    exact (List.nodup_append.1 this).1
  have h2 := nodup_bound (n := 9223372036854775808) h1 (by
    intro x hx
    obtain ⟨e, he, rfl⟩ := List.mem_map.1 hx
    exact (hb.off _ (mem_foot.2 (Or.inl ⟨e, he, rfl⟩))).1.lt)
  rw [List.length_map] at h2
  rw [maxNodes_eq]
  omega

theorem BkOk.walkable {h : Heap} {base slots : Nat} {b : Bk} (hb : BkOk h base slots b) (hd : b.dir = false) : ∀ e ∈ b.c, KvOk h e ∧ e.iv ≠ 0 :=
  fun e he => ⟨hb.kvs e he, (hb.off _ (mem_foot.2 (Or.inr ⟨hd, e, he, rfl⟩))).1.ne⟩

section
variable {h : Heap} {base slots bits cnt : Nat} {bk : Nat → Bk} {lk : List Nat} {G : Nat → Option Block} {hash : Bytes → Nat} {k v : Bytes} {dm : Nat → Prop}

theorem locate_spec {b o : Nat} {B : Block} (hB : h.blk b = some B) (hs : o + 16 ≤ B.size) {e : Ent} (h1 : B.rd o 8 = e.kv)
    (h2 : B.rd (o + 8) 8 = e.key.length) (hk : KvOk h e) :
    wp (locate b o) (fun out h' => out = .ok (e.kv, e.key.length, e.val.length) ∧ h' = h) h := by
  obtain ⟨K, k1, k2, -⟩ := hk
  unfold locate
  refine wp_rd hB (by omega) ?_
  refine wp_rd hB (by omega) ?_
  rw [h1, h2]
  refine wp_bsize k1 ?_
  rw [k2, Nat.add_sub_cancel_left]
  exact ⟨rfl, rfl⟩

/-- the outcome of a search -/
def Found (h : Heap) (m : Pairs) (k : Bytes) : Option Loc → Prop
  | none => get m k = none
  | some l => ∃ e, KvOk h e ∧ e.key = k ∧ get m k = some e.val ∧ l = (e.kv, k.length, e.val.length)

theorem RepD.slot (r : RepD dm h base slots bits cnt bk lk G) {i : Nat} (hi : i < 2 ^ bits ∧ ¬ dm i) :
    ∃ BS, h.blk slots = some BS ∧ 16 * i + 16 ≤ BS.size ∧ SlotOk BS i (bk i) := by
  obtain ⟨BS, h1, h2, h3⟩ := r.bs
  refine ⟨BS, h1, ?_, h3 i hi.1 hi.2⟩
  rw [h2]
  exact Nat.mul_le_mul_left 16 hi.1

theorem Rep.slot (r : Rep h base slots bits cnt bk lk G) {i : Nat} (hi : i < 2 ^ bits) :
    ∃ BS, h.blk slots = some BS ∧ 16 * i + 16 ≤ BS.size ∧ SlotOk BS i (bk i) := RepD.slot r ⟨hi, fun h => h⟩

theorem walkTables_spec (r : RepD dm h base slots bits cnt bk lk G) (hdm : ¬ dm (hash k % 2 ^ bits)) :
    wp (walkTables hash base k) (fun out h' => h' = h ∧ ∃ l, out = .ok l ∧ Found h (bk (hash k % 2 ^ bits)).pairs k l) h := by
  obtain ⟨B0, h0, hs0, hb1, hb2, hb3⟩ := r.b0
  obtain ⟨BS, hS, hsS, hsl⟩ := r.slot ⟨Nat.mod_lt (hash k) (Nat.two_pow_pos bits), hdm⟩
  unfold walkTables slotOff
  simp only [Prog.bind_def, Prog.pure_def]
  refine wp_rd h0 (by omega) ?_
  rw [hb2, if_neg r.sl.1]
  refine wp_rd h0 (by omega) ?_
  rw [hb1]
  generalize hash k % 2 ^ bits = i at *
  refine wp_rd hS (by omega) ?_
  have hbk := r.ok i
  rcases hsl with ⟨hc, hw⟩ | ⟨hd, e, hc, hw1, hw2⟩ | ⟨hd, e, t, hc, htn, hw⟩
  · rw [hw, if_pos rfl]
    exact ⟨rfl, none, rfl, by simp [Found, Bk.pairs, hc, get]⟩
  · have he : e ∈ (bk i).c := by rw [hc]; exact List.mem_singleton.2 rfl
    have ho := (hbk.off _ (mem_foot.2 (Or.inl ⟨e, he, rfl⟩))).1
    rw [hw1, if_neg ho.ne, if_pos ho.even]
    refine wp_bind_of (keyMatches_spec hS (by omega) hw1 hw2 (hbk.kvs e he) k) ?_ ?_
    rotate_left
    · rintro _ _ ⟨hx, -⟩; cases hx
    rintro m h' ⟨hm, rfl⟩
    injection hm with hm
    subst hm
    by_cases hm : e.key = k
    · rw [if_pos (by simpa using hm)]
      refine wp_bind_of (locate_spec hS (by omega) hw1 hw2 (hbk.kvs e he)) ?_ ?_
      · rintro l h' ⟨hl, rfl⟩
        injection hl with hl
        subst hl
        exact ⟨rfl, _, rfl, e, hbk.kvs e he, hm, by simp [Bk.pairs, hc, get, hm], by rw [hm]⟩
      · rintro _ _ ⟨hx, -⟩; cases hx
    · rw [if_neg (by simpa using hm)]
      exact ⟨rfl, none, rfl, by simp [Found, Bk.pairs, hc, get, hm]⟩
  · have he : e ∈ (bk i).c := by rw [hc]; exact List.mem_cons_self
    have ho := (hbk.off _ (mem_foot.2 (Or.inr ⟨hd, e, he, rfl⟩))).1
    have he2 := ho.even
    rw [hw, if_neg (by omega), if_neg (by omega), Nat.add_sub_cancel]
    have := walkList_spec (k := k) (bk i).c maxNodes 0 hbk.len (hbk.seg hd) (hbk.walkable hd)
    rw [hc] at this
    refine wp_bind_of this ?_ ?_
    rotate_left
    · rintro _ _ ⟨-, w, hx, -⟩; cases hx
    rintro w h' ⟨rfl, w', hw', hwk⟩
    injection hw' with hw'
    subst hw'
    rw [← hc] at hwk
    cases hwk with
    | absent ha =>
      rw [if_neg (by simp)]
      refine ⟨rfl, none, rfl, ?_⟩
      show get _ _ = none
      rw [get_none]
      unfold Bk.pairs
      rw [keys_pairs]
      rintro ⟨x, hx, hk⟩
      exact ha x hx hk
    | found a t' e' hce ha hek =>
      have he' : e' ∈ (bk i).c := by rw [hce]; simp
      rw [if_pos ((hbk.walkable hd) e' he').2]
      obtain ⟨nx, B, b1, b2, b3, b4, b5⟩ := Seg_mem (hbk.seg hd) he'
      refine wp_bind_of (locate_spec b1 (by omega) b4 b5 (hbk.kvs e' he')) ?_ ?_
      · rintro l h' ⟨hl, rfl⟩
        injection hl with hl
        subst hl
        refine ⟨rfl, _, rfl, e', hbk.kvs e' he', hek, ?_, by rw [hek]⟩
        unfold Bk.pairs
        rw [hce, List.map_append, List.map_cons, ← hek]
        refine get_append ?_
        rw [keys_pairs]
        rintro ⟨x, hx, hk⟩
        exact ha x hx (hk.trans hek)
      · rintro _ _ ⟨hx, -⟩; cases hx

theorem exist_spec (r : RepD dm h base slots bits cnt bk lk G) (hdm : ¬ dm (hash k % 2 ^ bits)) :
    wp (exist hash base k) (fun out h' => h' = h ∧ out = .ok (get (bk (hash k % 2 ^ bits)).pairs k).isSome) h := by
  unfold exist
  refine wp_bind_of (walkTables_spec r hdm) ?_ ?_
  · rintro l h' ⟨rfl, l', hl, hf⟩
    injection hl with hl
    subst hl
    refine ⟨rfl, ?_⟩
    cases l with
    | none => rw [show get _ _ = none from hf]; rfl
    | some l =>
      obtain ⟨e, -, -, h1, -⟩ := hf
      rw [h1]; rfl
  · rintro _ _ ⟨-, w, hx, -⟩; cases hx

theorem at_spec (r : RepD dm h base slots bits cnt bk lk G) (hdm : ¬ dm (hash k % 2 ^ bits)) :
    wp («at» hash base k) (fun out h' => h' = h ∧ out = match get (bk (hash k % 2 ^ bits)).pairs k with
      | some v => .ok v
      | none => .err .outOfRange) h := by
  unfold «at»
  refine wp_bind_of (walkTables_spec r hdm) ?_ ?_
  · rintro l h' ⟨rfl, l', hl, hf⟩
    injection hl with hl
    subst hl
    cases l with
    | none => rw [show get _ _ = none from hf]; exact ⟨rfl, rfl⟩
    | some l =>
      obtain ⟨e, ⟨K, k1, k2, k3, k4⟩, h2, h1, rfl⟩ := hf
      rw [h1]
      refine wp_rdB k1 (by rw [k2, h2]) ?_
      rw [← h2, k4]
      exact ⟨rfl, rfl⟩
  · rintro _ _ ⟨-, w, hx, -⟩; cases hx

/-- does the checked key have the requested value? -/
def checkVal (m : Pairs) (c : Check) : Bool := decide (get m c.1 = c.2)

theorem executeCheck_spec (r : RepD dm h base slots bits cnt bk lk G) {c : Check} (hdm : ¬ dm (hash c.1 % 2 ^ bits)) :
    wp (executeCheck hash base c) (fun out h' => h' = h ∧ out = .ok (checkVal (bk (hash c.1 % 2 ^ bits)).pairs c)) h := by
  unfold executeCheck
  refine wp_bind_of (walkTables_spec r hdm) ?_ ?_
  · rintro l h' ⟨rfl, l', hl, hf⟩
    injection hl with hl
    subst hl
    obtain ⟨ck, cv⟩ := c
    cases l with
    | none =>
      have : get _ ck = none := hf
      unfold checkVal
      simp only at this ⊢
      rw [this]
      refine ⟨rfl, ?_⟩
      cases cv <;> simp
    | some l =>
      obtain ⟨e, ⟨K, k1, k2, k3, k4⟩, h2, h1, rfl⟩ := hf
      simp only at h1 h2
      unfold checkVal
      simp only
      rw [h1]
      cases cv with
      | none => exact ⟨rfl, by simp⟩
      | some v =>
        simp only
        by_cases hv : v.length = e.val.length
        · rw [if_neg (by simpa using hv)]
          refine wp_rdB k1 (by rw [k2, ← h2, hv]) ?_
          rw [← h2, hv, k4]
          exact ⟨rfl, by simp⟩
        · rw [if_pos hv]
          refine ⟨rfl, ?_⟩
          rw [decide_eq_false]
          intro he
          injection he with he
          exact hv (by rw [he])
  · rintro _ _ ⟨-, w, hx, -⟩; cases hx

/-- an absent check request always passes -/
def checkAll (m : Pairs) : Option Check → Bool
  | none => true
  | some c => checkVal m c

theorem checkOk_spec (r : RepD dm h base slots bits cnt bk lk G) {m : Pairs}
    (hm : ∀ k, get m k = get (bk (hash k % 2 ^ bits)).pairs k) {c : Option Check} (hdm : ∀ c', c = some c' → ¬ dm (hash c'.1 % 2 ^ bits)) :
    wp (checkOk hash base c) (fun out h' => h' = h ∧ out = .ok (checkAll m c)) h := by
  cases c with
  | none => exact ⟨rfl, rfl⟩
  | some c =>
    refine wp_mono ?_ (executeCheck_spec r (hdm c rfl))
    rintro out h' ⟨rfl, rfl⟩
    refine ⟨rfl, ?_⟩
    simp only [checkAll, checkVal, hm]

/-! ### Updating -/

/-- both words of slot i written -/
theorem slots_wr {BS : Block} {i a b : Nat} (ha : a < W64) (hb : b < W64) :
    ((BS.wr (16 * i) 8 a).wr (16 * i + 8) 8 b).rd (16 * i) 8 = a ∧ ((BS.wr (16 * i) 8 a).wr (16 * i + 8) 8 b).rd (16 * i + 8) 8 = b ∧
    ∀ j, j ≠ i → ((BS.wr (16 * i) 8 a).wr (16 * i + 8) 8 b).rd (16 * j) 8 = BS.rd (16 * j) 8 ∧
      ((BS.wr (16 * i) 8 a).wr (16 * i + 8) 8 b).rd (16 * j + 8) 8 = BS.rd (16 * j + 8) 8 := by
  refine ⟨?_, Block.rd_wr_same8 _ _ _ hb, ?_⟩
  · rw [Block.rd_wr_disj _ _ _ _ _ _ (by omega), Block.rd_wr_same8 _ _ _ ha]
  · intro j hj
    constructor
    · rw [Block.rd_wr_disj _ _ _ _ _ _ (by omega), Block.rd_wr_disj _ _ _ _ _ _ (by omega)]
    · rw [Block.rd_wr_disj _ _ _ _ _ _ (by omega), Block.rd_wr_disj _ _ _ _ _ _ (by omega)]

/-- item_count++ -/
theorem bumpCount_spec {B0 : Block} (h0 : h.blk base = some B0) (hs : B0.size = 24) {n : Nat} (hn : B0.rd 16 8 = n) :
    wp (bumpCount base) (fun out h' => out = .ok () ∧ h' = h.set base (B0.wr 16 8 (n + 1))) h := by
  unfold bumpCount
  refine wp_rd h0 (by omega) ?_
  rw [hn]
  exact ⟨B0, h0, by omega, rfl, rfl⟩

theorem base_bump {B0 : Block} (hs : B0.size = 24) {b s c d : Nat} (h1 : B0.rd 0 8 = b) (h2 : B0.rd 8 8 = s) (h3 : B0.rd 16 8 = c % W64) :
    (B0.wr 16 8 (c % W64 + d)).size = 24 ∧ (B0.wr 16 8 (c % W64 + d)).rd 0 8 = b ∧ (B0.wr 16 8 (c % W64 + d)).rd 8 8 = s ∧
      (B0.wr 16 8 (c % W64 + d)).rd 16 8 = (c + d) % W64 := by
  refine ⟨hs, ?_, ?_, ?_⟩
  · rw [Block.rd_wr_disj _ _ _ _ _ _ (by omega), h1]
  · rw [Block.rd_wr_disj _ _ _ _ _ _ (by omega), h2]
  · rw [Block.rd_wr_same, show (256 : Nat) ^ 8 = W64 from rfl, Nat.mod_add_mod]

/-- the new key-value block -/
structure NewKv (h : Heap) (base slots kv : Nat) (K : Block) (k v : Bytes) : Prop where
  none : h.blk kv = none
  off : Off kv
  size : K.size = k.length + v.length
  key : K.rdB 0 k.length = k
  val : K.rdB k.length v.length = v

theorem NewKv.kvOk {h h' : Heap} {kv : Nat} {K : Block} (n : NewKv h base slots kv K k v) (hh : h'.blk kv = some K) (iv : Nat) : KvOk h' ⟨iv, kv, k, v⟩ :=
  ⟨K, hh, n.size, n.key, n.val⟩

/-- what linking a new pair into slot i does -/
def Linked (dm : Nat → Prop) (base slots bits cnt : Nat) (bk : Nat → Bk) (lk : List Nat) (G : Nat → Option Block) (i : Nat) (k v : Bytes) (h' : Heap) : Prop :=
  ∃ b', b'.pairs = put (bk i).pairs k v ∧
    RepD dm h' base slots bits (cnt + if k ∈ keys (bk i).pairs then 0 else 1) (fun j => if j = i then b' else bk j) lk G

theorem kv_ne (r : RepD dm h base slots bits cnt bk lk G) {x : Nat} (hx : h.blk x = none) : x ≠ base ∧ x ≠ slots ∧ ∀ i, x ∉ (bk i).foot :=
  ⟨fun e => r.base_live (e ▸ hx), fun e => r.slots_live (e ▸ hx), fun _ e => r.foot_live e hx⟩

/-- case 1: the slot is empty -/
theorem link_empty (r : RepD dm h base slots bits cnt bk lk G) {i : Nat} (hi : i < 2 ^ bits ∧ ¬ dm i) {kv : Nat} {K : Block} (n : NewKv h base slots kv K k v)
    (hkl : k.length < W64) (hc : (bk i).c = []) {BS B0 : Block} (hS : h.blk slots = some BS)
    (h0 : h.blk base = some B0) :
    Linked dm base slots bits cnt bk lk G i k v
      (((h.set kv K).set slots ((BS.wr (16 * i) 8 kv).wr (16 * i + 8) 8 k.length)).set base (B0.wr 16 8 (cnt % W64 + 1))) := by
  obtain ⟨B0', h0', hs0, hb1, hb2, hb3⟩ := r.b0
  rw [h0] at h0'; injection h0' with h0'; subst h0'
  obtain ⟨k1, k2, k3⟩ := kv_ne r n.none
  have hbs := r.sl.2.2
  obtain ⟨w1, w2, w3⟩ := slots_wr (BS := BS) (i := i) (a := kv) (b := k.length) (by have := n.off.lt; omega) hkl
  refine ⟨⟨true, [⟨0, kv, k, v⟩]⟩, by simp [Bk.pairs, hc, put], ?_⟩
  rw [if_neg (by simp [Bk.pairs, hc, keys])]
  have hkv : ((((h.set kv K).set slots ((BS.wr (16 * i) 8 kv).wr (16 * i + 8) 8 k.length)).set base (B0.wr 16 8 (cnt % W64 + 1))).blk kv) = some K := by
    rw [Heap.set_ne _ _ _ _ k1, Heap.set_ne _ _ _ _ k2, Heap.set_same]
  refine r.update hi ⟨_, Heap.set_same _ _ _, base_bump hs0 hb1 hb2 hb3⟩ hS (BS' := (BS.wr (16 * i) 8 kv).wr (16 * i + 8) 8 k.length) ?_ rfl ?_ w3 ?_ ?_ ?_ ?_ ?_ ?_
  · rw [Heap.set_ne _ _ _ _ hbs.symm, Heap.set_same]
  · exact Or.inr (Or.inl ⟨rfl, _, rfl, w1, w2⟩)
  · refine ⟨by simp, ?_, by simp [Bk.foot], ?_⟩
    · intro e he
      rw [List.mem_singleton.1 he]
      exact n.kvOk hkv 0
    · intro x hx
      have : x = kv := by simpa [Bk.foot] using hx
      subst this
      exact ⟨n.off, k1, k2⟩
  · intro x hx
    have : x = kv := by simpa [Bk.foot] using hx
    subst this
    exact Or.inr n.none
  · exact fun x hx => Or.inl hx
  · exact fun x hx => hx
  · intro x h1 h2 h3 h4 _
    have : x ≠ kv := by simpa [Bk.foot] using h4
    rw [Heap.set_ne _ _ _ _ h1, Heap.set_ne _ _ _ _ h2, Heap.set_ne _ _ _ _ this]
  · intro x hx
    simp [Bk.foot, hc] at hx

/-- case 2: the slot holds the same key directly -/
theorem link_same (r : RepD dm h base slots bits cnt bk lk G) {i : Nat} (hi : i < 2 ^ bits ∧ ¬ dm i) {kv : Nat} {K : Block} (n : NewKv h base slots kv K k v)
    (hkl : k.length < W64) {e : Ent} (hd : (bk i).dir = true) (hc : (bk i).c = [e]) (hek : e.key = k) {BS : Block} (hS : h.blk slots = some BS) :
    Linked dm base slots bits cnt bk lk G i k v
      (((h.set kv K).del e.kv).set slots ((BS.wr (16 * i) 8 kv).wr (16 * i + 8) 8 k.length)) := by
  obtain ⟨B0, h0, hs0, hb1, hb2, hb3⟩ := r.b0
  obtain ⟨k1, k2, k3⟩ := kv_ne r n.none
  have hbs := r.sl.2.2
  have hfe : (bk i).foot = [e.kv] := by simp [Bk.foot, hc, hd]
  obtain ⟨e1, e2, e3⟩ := (r.ok i).off e.kv (by rw [hfe]; simp)
  have hne : kv ≠ e.kv := fun x => k3 i (by rw [hfe, x]; simp)
  obtain ⟨w1, w2, w3⟩ := slots_wr (BS := BS) (i := i) (a := kv) (b := k.length) (by have := n.off.lt; omega) hkl
  refine ⟨⟨true, [⟨0, kv, k, v⟩]⟩, by simp [Bk.pairs, hc, put, hek], ?_⟩
  rw [if_pos (by simp [Bk.pairs, hc, keys, hek])]
  refine r.update hi ⟨B0, ?_, hs0, hb1, hb2, hb3⟩ hS (BS' := (BS.wr (16 * i) 8 kv).wr (16 * i + 8) 8 k.length) (Heap.set_same _ _ _) rfl ?_ w3 ?_ ?_ ?_ ?_ ?_ ?_
  · rw [Heap.set_ne _ _ _ _ hbs, Heap.del_ne _ _ _ e2.symm, Heap.set_ne _ _ _ _ k1.symm, h0]
  · exact Or.inr (Or.inl ⟨rfl, _, rfl, w1, w2⟩)
  · refine ⟨by simp, ?_, by simp [Bk.foot], ?_⟩
    · intro e' he
      rw [List.mem_singleton.1 he]
      refine n.kvOk ?_ 0
      rw [Heap.set_ne _ _ _ _ k2, Heap.del_ne _ _ _ hne, Heap.set_same]
    · intro x hx
      have : x = kv := by simpa [Bk.foot] using hx
      subst this
      exact ⟨n.off, k1, k2⟩
  · intro x hx
    have : x = kv := by simpa [Bk.foot] using hx
    subst this
    exact Or.inr n.none
  · exact fun x hx => Or.inl hx
  · exact fun x hx => hx
  · intro x h1 h2 h3 h4 _
    have h5 : x ≠ kv := by simpa [Bk.foot] using h4
    have h6 : x ≠ e.kv := by rw [hfe] at h3; simpa using h3
    rw [Heap.set_ne _ _ _ _ h2, Heap.del_ne _ _ _ h6, Heap.set_ne _ _ _ _ h5]
  · intro x hx h2 _
    rw [hfe] at hx
    rw [List.mem_singleton.1 hx, Heap.set_ne _ _ _ _ e3, Heap.del_same]

/-- case 3: the slot holds another key directly; it becomes a list of two -/
theorem link_second (r : RepD dm h base slots bits cnt bk lk G) {i : Nat} (hi : i < 2 ^ bits ∧ ¬ dm i) {kv ex cr : Nat} {K : Block} (n : NewKv h base slots kv K k v)
    {e : Ent} (hd : (bk i).dir = true) (hc : (bk i).c = [e]) (hek : e.key ≠ k) {BS B0 E C : Block} (hS : h.blk slots = some BS)
    (h0 : h.blk base = some B0) (hex : h.blk ex = none) (oex : Off ex) (hcr : h.blk cr = none) (ocr : Off cr) (n1 : ex ≠ kv) (n2 : cr ≠ kv) (n3 : cr ≠ ex)
    (hE : E.size = 24 ∧ E.rd 0 8 = cr ∧ E.rd 8 8 = e.kv ∧ E.rd 16 8 = e.key.length)
    (hC : C.size = 24 ∧ C.rd 0 8 = 0 ∧ C.rd 8 8 = kv ∧ C.rd 16 8 = k.length) {h' : Heap}
    (g1 : h'.blk base = some (B0.wr 16 8 (cnt % W64 + 1))) (g2 : h'.blk slots = some ((BS.wr (16 * i) 8 (ex + 1)).wr (16 * i + 8) 8 0))
    (g3 : h'.blk kv = some K) (g4 : h'.blk ex = some E) (g5 : h'.blk cr = some C)
    (g6 : ∀ x, x ≠ base → x ≠ slots → x ≠ kv → x ≠ ex → x ≠ cr → h'.blk x = h.blk x) :
    Linked dm base slots bits cnt bk lk G i k v h' := by
  obtain ⟨B0', h0', hs0, hb1, hb2, hb3⟩ := r.b0
  rw [h0] at h0'; injection h0' with h0'; subst h0'
  obtain ⟨k1, k2, k3⟩ := kv_ne r n.none
  obtain ⟨x1, x2, x3⟩ := kv_ne r hex
  obtain ⟨c1, c2, c3⟩ := kv_ne r hcr
  have hfe : (bk i).foot = [e.kv] := by simp [Bk.foot, hc, hd]
  obtain ⟨e1, e2, e3⟩ := (r.ok i).off e.kv (by rw [hfe]; simp)
  have k4 : kv ≠ e.kv := fun x => k3 i (by rw [hfe, x]; simp)
  have x4 : ex ≠ e.kv := fun x => x3 i (by rw [hfe, x]; simp)
  have c4 : cr ≠ e.kv := fun x => c3 i (by rw [hfe, x]; simp)
  obtain ⟨w1, w2, w3⟩ := slots_wr (BS := BS) (i := i) (a := ex + 1) (b := 0) (by have := oex.lt; omega) (by decide)
  have hek' : k ≠ e.key := fun x => hek x.symm
  have hfoot : ∀ x, x ∈ (⟨false, [⟨ex, e.kv, e.key, e.val⟩, ⟨cr, kv, k, v⟩]⟩ : Bk).foot ↔ x = e.kv ∨ x = kv ∨ x = ex ∨ x = cr := by
    intro x; simp [Bk.foot]
  have hsame : h'.blk e.kv = h.blk e.kv := g6 _ e2 e3 k4.symm x4.symm c4.symm
  refine ⟨⟨false, [⟨ex, e.kv, e.key, e.val⟩, ⟨cr, kv, k, v⟩]⟩, by simp [Bk.pairs, hc, put, hek], ?_⟩
  rw [if_neg (by simp [Bk.pairs, hc, keys, hek'])]
  refine r.update hi ⟨_, g1, base_bump hs0 hb1 hb2 hb3⟩ hS g2 rfl ?_ w3 ?_ ?_ ?_ ?_ ?_ ?_
  · exact Or.inr (Or.inr ⟨rfl, _, _, rfl, by simp, w1⟩)
  · refine ⟨fun _ => ⟨⟨E, g4, hE⟩, ⟨C, g5, hC⟩, trivial⟩, ?_, ?_, ?_⟩
    · intro e' he
      rcases List.mem_cons.1 he with rfl | he
      · exact (KvOk.congr hsame ((r.ok i).kvs e (by rw [hc]; simp)))
      · rw [List.mem_singleton.1 he]
        exact n.kvOk g3 cr
    · simp only [Bk.foot, List.map_cons, List.map_nil, Bool.false_eq_true, if_false, List.cons_append, List.nil_append, List.nodup_cons, List.mem_cons, List.not_mem_nil, or_false,
        not_or, not_false_eq_true, List.nodup_nil, and_true]
      exact ⟨⟨k4.symm, x4.symm, c4.symm⟩, ⟨n1.symm, n2.symm⟩, n3.symm⟩
    · intro x hx
      rcases (hfoot x).1 hx with rfl | rfl | rfl | rfl
      exacts [⟨e1, e2, e3⟩, ⟨n.off, k1, k2⟩, ⟨oex, x1, x2⟩, ⟨ocr, c1, c2⟩]
  · intro x hx
    rcases (hfoot x).1 hx with rfl | rfl | rfl | rfl
    exacts [Or.inl (by rw [hfe]; simp), Or.inr n.none, Or.inr hex, Or.inr hcr]
  · exact fun x hx => Or.inl hx
  · exact fun x hx => hx
  · intro x h1 h2 h3 h4 _
    rw [hfoot, not_or, not_or, not_or] at h4
    exact g6 x h1 h2 h4.2.1 h4.2.2.1 h4.2.2.2
  · intro x hx h2
    rw [hfe] at hx
    exact absurd ((hfoot x).2 (Or.inl (List.mem_singleton.1 hx))) h2

theorem kvs_nodup {b : Bk} (h : b.foot.Nodup) : (b.c.map Ent.kv).Nodup := (List.nodup_append.1 h).1
theorem ivs_nodup {b : Bk} (h : b.foot.Nodup) (hd : b.dir = false) : (b.c.map Ent.iv).Nodup := by
  have := (List.nodup_append.1 h).2.1
  rw [hd] at this; exact this
theorem kv_iv_ne {b : Bk} (h : b.foot.Nodup) (hd : b.dir = false) {e f : Ent} (he : e ∈ b.c) (hf : f ∈ b.c) : e.kv ≠ f.iv := by
  refine (List.nodup_append.1 h).2.2 _ (List.mem_map.2 ⟨e, he, rfl⟩) _ ?_
  rw [hd]; exact List.mem_map.2 ⟨f, hf, rfl⟩

theorem nodup_mid {α β : Type} {f : α → β} {a t : List α} {e x : α} (h : ((a ++ e :: t).map f).Nodup) (hx : x ∈ a ∨ x ∈ t) : f x ≠ f e := by
  rw [List.map_append, List.map_cons, List.nodup_middle] at h
  have := (List.nodup_cons.1 h).1
  intro he
  refine this ?_
  rw [← he, ← List.map_append]
  exact List.mem_map.2 ⟨x, List.mem_append.2 hx, rfl⟩

theorem BkOk.mem_off {h : Heap} {base slots : Nat} {b : Bk} (hb : BkOk h base slots b) {e : Ent} (he : e ∈ b.c) :
    (Off e.kv ∧ e.kv ≠ base ∧ e.kv ≠ slots) ∧ (b.dir = false → Off e.iv ∧ e.iv ≠ base ∧ e.iv ≠ slots) :=
  ⟨hb.off _ (mem_foot.2 (Or.inl ⟨e, he, rfl⟩)), fun hd => hb.off _ (mem_foot.2 (Or.inr ⟨hd, e, he, rfl⟩))⟩

/-- case 4: the key is in the list -/
theorem link_replace (r : RepD dm h base slots bits cnt bk lk G) {i : Nat} (hi : i < 2 ^ bits ∧ ¬ dm i) {kv : Nat} {K : Block} (n : NewKv h base slots kv K k v)
    {a t : List Ent} {e : Ent} (hd : (bk i).dir = false) (hc : (bk i).c = a ++ e :: t) (hak : ∀ x ∈ a, x.key ≠ k) (hek : e.key = k) {E : Block}
    (hE : E.size = 24 ∧ E.rd 0 8 = headIv t 0 ∧ E.rd 8 8 = kv ∧ E.rd 16 8 = k.length) {h' : Heap}
    (g3 : h'.blk kv = some K) (g4 : h'.blk e.iv = some E) (g5 : h'.blk e.kv = none)
    (g6 : ∀ x, x ≠ kv → x ≠ e.iv → x ≠ e.kv → h'.blk x = h.blk x) :
    Linked dm base slots bits cnt bk lk G i k v h' := by
  obtain ⟨B0, h0, hs0, hb1, hb2, hb3⟩ := r.b0
  obtain ⟨BS, hS, hsS, hsl⟩ := r.slot hi
  obtain ⟨k1, k2, k3⟩ := kv_ne r n.none
  have hbk := r.ok i
  have hm : ∀ x, x ∈ a ∨ x ∈ t → x ∈ (bk i).c := by
    intro x hx; rw [hc, List.mem_append, List.mem_cons]; tauto
  have hme : e ∈ (bk i).c := by rw [hc]; simp
  obtain ⟨⟨o1, o2, o3⟩, o4⟩ := hbk.mem_off hme
  obtain ⟨o4, o5, o6⟩ := o4 hd
  have n1 : ∀ x, x ∈ a ∨ x ∈ t → x.iv ≠ e.iv := fun x hx => nodup_mid (hc ▸ ivs_nodup hbk.nodup hd) hx
  have n2 : ∀ x, x ∈ a ∨ x ∈ t → x.kv ≠ e.kv := fun x hx => nodup_mid (hc ▸ kvs_nodup hbk.nodup) hx
  have n3 : ∀ x ∈ (bk i).c, ∀ y ∈ (bk i).c, x.kv ≠ y.iv := fun x hx y hy => kv_iv_ne hbk.nodup hd hx hy
  have n4 : ∀ x ∈ (bk i).c, x.kv ≠ kv ∧ x.iv ≠ kv := fun x hx =>
    ⟨fun he => k3 i (mem_foot.2 (Or.inl ⟨x, hx, he⟩)), fun he => k3 i (mem_foot.2 (Or.inr ⟨hd, x, hx, he⟩))⟩
  let b' : Bk := ⟨false, a ++ ⟨e.iv, kv, k, v⟩ :: t⟩
  have hseg := hbk.seg hd
  rw [hc, Seg_append] at hseg
  obtain ⟨hsa, hse, hst⟩ := hseg
  have hiv : ∀ x, x ∈ a ∨ x ∈ t → h'.blk x.iv = h.blk x.iv := fun x hx =>
    g6 _ (n4 x (hm x hx)).2 (n1 x hx) (fun he => n3 e hme x (hm x hx) he.symm)
  have hmem : ∀ x, x ∈ b'.foot ↔ x = kv ∨ (x ∈ (bk i).foot ∧ x ≠ e.kv) := by
    intro x
    rw [mem_foot, mem_foot, hc]
    simp only [b', List.mem_append, List.mem_cons, true_and, hd]
    constructor
    · rintro (⟨y, (hy | rfl | hy), rfl⟩ | ⟨y, (hy | rfl | hy), rfl⟩)
      · exact Or.inr ⟨Or.inl ⟨y, Or.inl hy, rfl⟩, n2 y (Or.inl hy)⟩
      · exact Or.inl rfl
      · exact Or.inr ⟨Or.inl ⟨y, Or.inr (Or.inr hy), rfl⟩, n2 y (Or.inr hy)⟩
      · exact Or.inr ⟨Or.inr ⟨y, Or.inl hy, rfl⟩, fun he => n3 e hme y (hm y (Or.inl hy)) he.symm⟩
      · exact Or.inr ⟨Or.inr ⟨e, Or.inr (Or.inl rfl), rfl⟩, fun he => n3 e hme e hme he.symm⟩
      · exact Or.inr ⟨Or.inr ⟨y, Or.inr (Or.inr hy), rfl⟩, fun he => n3 e hme y (hm y (Or.inr hy)) he.symm⟩
    · rintro (rfl | ⟨⟨y, (hy | rfl | hy), rfl⟩ | ⟨y, (hy | rfl | hy), rfl⟩, hne⟩)
      · exact Or.inl ⟨_, Or.inr (Or.inl rfl), rfl⟩
      · exact Or.inl ⟨y, Or.inl hy, rfl⟩
      · exact absurd rfl hne
      · exact Or.inl ⟨y, Or.inr (Or.inr hy), rfl⟩
      · exact Or.inr ⟨y, Or.inl hy, rfl⟩
      · exact Or.inr ⟨_, Or.inr (Or.inl rfl), rfl⟩
      · exact Or.inr ⟨y, Or.inr (Or.inr hy), rfl⟩
  have hka : k ∉ keys (a.map fun e => (e.key, e.val)) := by
    rw [keys_pairs]; rintro ⟨x, hx, he⟩; exact hak x hx he
  refine ⟨b', ?_, ?_⟩
  · simp only [b', Bk.pairs, hc, List.map_append, List.map_cons]
    rw [hek, put_present hka]
  rw [if_pos (by unfold Bk.pairs; rw [keys_pairs]; exact ⟨e, hme, hek⟩)]
  refine r.update hi ⟨B0, ?_, hs0, hb1, hb2, hb3⟩ hS (BS' := BS) ?_ rfl ?_ (fun j _ => ⟨rfl, rfl⟩) ?_ ?_ ?_ ?_ ?_ ?_
  · rw [g6 base k1.symm o5.symm o2.symm, h0]
  · rw [g6 slots k2.symm o6.symm o3.symm, hS]
  · rcases hsl with ⟨h1, -⟩ | ⟨h1, -⟩ | ⟨-, e0, t0, h2, htn, h3⟩
    · rw [hc] at h1; simp at h1
    · rw [hd] at h1; cases h1
    · refine Or.inr (Or.inr ⟨rfl, ?_⟩)
      cases a with
      | nil =>
        rw [hc] at h2
        injection h2 with h2 h4
        subst h2
        exact ⟨_, _, rfl, h4 ▸ htn, h3⟩
      | cons f a =>
        rw [hc] at h2
        injection h2 with h2 h4
        subst h2
        exact ⟨_, _, rfl, by cases a <;> simp, h3⟩
  · refine ⟨fun _ => ?_, ?_, ?_, ?_⟩
    · show Seg h' (a ++ _ :: t) 0
      rw [Seg_append]
      refine ⟨Seg_congr (fun x hx => hiv x (Or.inl hx)) hsa, ⟨E, g4, hE⟩, Seg_congr (fun x hx => hiv x (Or.inr hx)) hst⟩
    · intro x hx
      have hx' : x ∈ a ++ ⟨e.iv, kv, k, v⟩ :: t := hx
      rw [List.mem_append, List.mem_cons] at hx'
      have : x ∈ a ∨ x ∈ t → KvOk h' x := fun hx => KvOk.congr
        (g6 _ (n4 x (hm x hx)).1 (n3 x (hm x hx) e hme) (n2 x hx)) (hbk.kvs x (hm x hx))
      rcases hx' with hx' | rfl | hx'
      · exact this (Or.inl hx')
      · exact n.kvOk g3 _
      · exact this (Or.inr hx')
    · have hnd := hbk.nodup
      have e1 : b'.foot = a.map Ent.kv ++ kv :: (t.map Ent.kv ++ (bk i).c.map Ent.iv) := by
        simp [b', Bk.foot, hc]
      have e2 : (bk i).foot = a.map Ent.kv ++ e.kv :: (t.map Ent.kv ++ (bk i).c.map Ent.iv) := by
        simp [Bk.foot, hc, hd]
      rw [e1, List.nodup_middle, List.nodup_cons]
      rw [e2, List.nodup_middle, List.nodup_cons] at hnd
      refine ⟨?_, hnd.2⟩
      intro hx
      refine k3 i ?_
      rw [e2, List.mem_append, List.mem_cons]
      rw [List.mem_append] at hx
      tauto
    · intro x hx
      rcases (hmem x).1 hx with rfl | ⟨hx, -⟩
      · exact ⟨n.off, k1, k2⟩
      · exact hbk.off x hx
  · intro x hx
    rcases (hmem x).1 hx with rfl | ⟨hx, -⟩
    · exact Or.inr n.none
    · exact Or.inl hx
  · exact fun x hx => Or.inl hx
  · exact fun x hx => hx
  · intro x h1 h2 h3 h4 _
    refine g6 x (fun e => h4 ((hmem x).2 (Or.inl e))) ?_ ?_
    · rintro rfl; exact h3 (mem_foot.2 (Or.inr ⟨hd, e, hme, rfl⟩))
    · rintro rfl; exact h3 (mem_foot.2 (Or.inl ⟨e, hme, rfl⟩))
  · intro x hx h2 _
    by_cases hx2 : x = e.kv
    · rw [hx2]; exact g5
    · exact absurd ((hmem x).2 (Or.inr ⟨hx, hx2⟩)) h2

theorem Seg_last {h h' : Heap} {a : List Ent} {e : Ent} {nx nx' : Nat} (hs : Seg h (a ++ [e]) nx) (ha : ∀ x ∈ a, h'.blk x.iv = h.blk x.iv)
    (he : ∀ B, h.blk e.iv = some B → h'.blk e.iv = some (B.wr 0 8 nx')) (hnx : nx' < W64) : Seg h' (a ++ [e]) nx' := by
  rw [Seg_append] at hs ⊢
  obtain ⟨h1, ⟨B, b1, b2, b3, b4, b5⟩, -⟩ := hs
  refine ⟨Seg_congr ha h1, ⟨B.wr 0 8 nx', he B b1, b2, Block.rd_wr_same8 _ _ _ hnx, ?_, ?_⟩, trivial⟩
  · rw [Block.rd_wr_disj _ _ _ _ _ _ (by omega), b4]
  · rw [Block.rd_wr_disj _ _ _ _ _ _ (by omega), b5]

/-- case 5: the key is not in the list and goes to its end -/
theorem link_append (r : RepD dm h base slots bits cnt bk lk G) {i : Nat} (hi : i < 2 ^ bits ∧ ¬ dm i) {kv cr : Nat} {K : Block} (n : NewKv h base slots kv K k v)
    {a : List Ent} {e : Ent} (hd : (bk i).dir = false) (hc : (bk i).c = a ++ [e]) (hak : ∀ x ∈ (bk i).c, x.key ≠ k) {B0 C E : Block}
    (h0 : h.blk base = some B0) (hE : h.blk e.iv = some E) (hcr : h.blk cr = none) (ocr : Off cr) (ncr : cr ≠ kv)
    (hC : C.size = 24 ∧ C.rd 0 8 = 0 ∧ C.rd 8 8 = kv ∧ C.rd 16 8 = k.length) {h' : Heap}
    (g1 : h'.blk base = some (B0.wr 16 8 (cnt % W64 + 1))) (g3 : h'.blk kv = some K) (g4 : h'.blk e.iv = some (E.wr 0 8 cr)) (g5 : h'.blk cr = some C)
    (g6 : ∀ x, x ≠ base → x ≠ kv → x ≠ e.iv → x ≠ cr → h'.blk x = h.blk x) :
    Linked dm base slots bits cnt bk lk G i k v h' := by
  obtain ⟨B0', h0', hs0, hb1, hb2, hb3⟩ := r.b0
  rw [h0] at h0'; injection h0' with h0'; subst h0'
  obtain ⟨BS, hS, hsS, hsl⟩ := r.slot hi
  obtain ⟨k1, k2, k3⟩ := kv_ne r n.none
  obtain ⟨c1, c2, c3⟩ := kv_ne r hcr
  have hbk := r.ok i
  have hme : e ∈ (bk i).c := by rw [hc]; simp
  have hma : ∀ x ∈ a, x ∈ (bk i).c := by intro x hx; rw [hc]; simp [hx]
  obtain ⟨o4, o5, o6⟩ := (hbk.mem_off hme).2 hd
  have n1 : ∀ x ∈ a, x.iv ≠ e.iv := fun x hx => nodup_mid (hc ▸ ivs_nodup hbk.nodup hd) (Or.inl hx)
  have n3 : ∀ x ∈ (bk i).c, ∀ y ∈ (bk i).c, x.kv ≠ y.iv := fun x hx y hy => kv_iv_ne hbk.nodup hd hx hy
  have n4 : ∀ x ∈ (bk i).c, x.kv ≠ kv ∧ x.iv ≠ kv := fun x hx =>
    ⟨fun he => k3 i (mem_foot.2 (Or.inl ⟨x, hx, he⟩)), fun he => k3 i (mem_foot.2 (Or.inr ⟨hd, x, hx, he⟩))⟩
  have n5 : ∀ x ∈ (bk i).c, x.kv ≠ cr ∧ x.iv ≠ cr := fun x hx =>
    ⟨fun he => c3 i (mem_foot.2 (Or.inl ⟨x, hx, he⟩)), fun he => c3 i (mem_foot.2 (Or.inr ⟨hd, x, hx, he⟩))⟩
  have n6 : ∀ x ∈ (bk i).c, x.kv ≠ base ∧ x.iv ≠ base := fun x hx => ⟨(hbk.mem_off hx).1.2.1, ((hbk.mem_off hx).2 hd).2.1⟩
  let b' : Bk := ⟨false, (bk i).c ++ [⟨cr, kv, k, v⟩]⟩
  have hmem : ∀ x, x ∈ b'.foot ↔ x = kv ∨ x = cr ∨ x ∈ (bk i).foot := by
    intro x
    rw [mem_foot, mem_foot]
    simp only [b', List.mem_append, List.mem_singleton, true_and, hd]
    constructor
    · rintro (⟨y, (hy | rfl), rfl⟩ | ⟨y, (hy | rfl), rfl⟩)
      · exact Or.inr (Or.inr (Or.inl ⟨y, hy, rfl⟩))
      · exact Or.inl rfl
      · exact Or.inr (Or.inr (Or.inr ⟨y, hy, rfl⟩))
      · exact Or.inr (Or.inl rfl)
    · rintro (rfl | rfl | ⟨y, hy, rfl⟩ | ⟨y, hy, rfl⟩)
      · exact Or.inl ⟨_, Or.inr rfl, rfl⟩
      · exact Or.inr ⟨_, Or.inr rfl, rfl⟩
      · exact Or.inl ⟨y, Or.inl hy, rfl⟩
      · exact Or.inr ⟨y, Or.inl hy, rfl⟩
  have hka : k ∉ keys (bk i).pairs := by
    unfold Bk.pairs; rw [keys_pairs]; rintro ⟨x, hx, he⟩; exact hak x hx he
  refine ⟨b', ?_, ?_⟩
  · rw [put_absent hka]
    simp [b', Bk.pairs]
  rw [if_neg hka]
  refine r.update hi ⟨_, g1, base_bump hs0 hb1 hb2 hb3⟩ hS (BS' := BS) ?_ rfl ?_ (fun j _ => ⟨rfl, rfl⟩) ?_ ?_ ?_ ?_ ?_ ?_
  · rw [g6 slots r.sl.2.2.symm k2.symm o6.symm c2.symm, hS]
  · rcases hsl with ⟨h1, -⟩ | ⟨h1, -⟩ | ⟨-, e0, t0, h2, htn, h3⟩
    · rw [hc] at h1; simp at h1
    · rw [hd] at h1; cases h1
    · exact Or.inr (Or.inr ⟨rfl, e0, t0 ++ [⟨cr, kv, k, v⟩], by simp [b', h2], by simp, h3⟩)
  · refine ⟨fun _ => ?_, ?_, ?_, ?_⟩
    · show Seg h' ((bk i).c ++ [_]) 0
      rw [Seg_append]
      refine ⟨?_, ⟨C, g5, hC⟩, trivial⟩
      have hseg := hbk.seg hd
      rw [hc] at hseg ⊢
      refine Seg_last hseg ?_ ?_ (by show cr < W64; have := ocr.lt; omega)
      · intro x hx
        exact g6 _ (n6 x (hma x hx)).2 (n4 x (hma x hx)).2 (n1 x hx) (n5 x (hma x hx)).2
      · intro B hB
        rw [hE] at hB; injection hB with hB; subst hB
        exact g4
    · intro x hx
      rcases List.mem_append.1 hx with hx | hx
      · exact KvOk.congr (g6 _ (n6 x hx).1 (n4 x hx).1 (n3 x hx e hme) (n5 x hx).1) (hbk.kvs x hx)
      · rw [List.mem_singleton.1 hx]
        exact n.kvOk g3 _
    · have e1 : b'.foot = (bk i).c.map Ent.kv ++ kv :: ((bk i).c.map Ent.iv ++ [cr]) := by simp [b', Bk.foot]
      have e2 : (bk i).foot = (bk i).c.map Ent.kv ++ (bk i).c.map Ent.iv := by simp [Bk.foot, hd]
      have hnd := hbk.nodup
      rw [e1, List.nodup_middle, List.nodup_cons, ← List.append_assoc, ← e2]
      refine ⟨?_, ?_⟩
      · rw [List.mem_append, List.mem_singleton]
        rintro (hx | hx)
        · exact k3 i hx
        · exact ncr hx.symm
      · rw [List.nodup_append]
        refine ⟨hnd, by simp, ?_⟩
        intro x hx y hy
        rw [List.mem_singleton.1 hy]
        rintro rfl
        exact c3 i hx
    · intro x hx
      rcases (hmem x).1 hx with rfl | rfl | hx
      · exact ⟨n.off, k1, k2⟩
      · exact ⟨ocr, c1, c2⟩
      · exact hbk.off x hx
  · intro x hx
    rcases (hmem x).1 hx with rfl | rfl | hx
    · exact Or.inr n.none
    · exact Or.inr hcr
    · exact Or.inl hx
  · exact fun x hx => Or.inl hx
  · exact fun x hx => hx
  · intro x h1 h2 h3 h4 _
    refine g6 x h1 (fun e => h4 ((hmem x).2 (Or.inl e))) ?_ (fun e => h4 ((hmem x).2 (Or.inr (Or.inl e))))
    rintro rfl; exact h3 (mem_foot.2 (Or.inr ⟨hd, e, hme, rfl⟩))
  · intro x hx h2
    exact absurd ((hmem x).2 (Or.inr (Or.inr hx))) h2

end
end Verif.HashTable
