import Verif.PrefixTreeNext
/-
Iteration: next_key, next_key_value, begin, ++, find, lower_bound, upper_bound.
-/
namespace Verif.PrefixTree
open Verif
attribute [local irreducible] Block.rd Block.rdB

/-- searching from `k` meets no empty slot inside the range of a node -/
def Safe (g : G) (k : Bytes) : Prop :=
  ∀ p b r hd, k = p ++ b :: r → g.nd p = some hd → hd.s ≤ b.toNat → b.toNat ≤ hd.e → g.nd (p ++ [b]) ≠ none ∨ g.vl (p ++ [b]) ≠ none

/-- `k'` is the least key of `m` above `k` -/
def IsNext (m : Bytes → Option Val) (k k' : Bytes) : Prop := m k' ≠ none ∧ k < k' ∧ ∀ k2, m k2 ≠ none → k < k2 → ¬ k2 < k'

/-- `k'` is the least key of `m` -/
def IsFirst (m : Bytes → Option Val) (k' : Bytes) : Prop := m k' ≠ none ∧ ∀ k2, m k2 ≠ none → ¬ k2 < k'

section
variable {base : Nat} {F : Nat → Option Block} {g : G} {ni nn : Nat} {h : Heap} {I : Heap → Prop}

theorem pos_iff {k : Bytes} {q : List Nat} (h1 : K k < q) (h2 : ∀ k2, g.vl k2 ≠ none → K k < K k2 → K k2 < q → False) : ∀ k2, g.vl k2 ≠ none → (q ≤ K k2 ↔ k < k2) := by
  intro k2 hk
  constructor
  · intro h3
    refine Classical.byContradiction fun h4 => ?_
    rw [← K_lt] at h4
    exact List.not_lt.2 h3 (List.lt_of_le_of_lt (List.not_lt.1 h4) h1)
  · intro h3
    rw [← List.not_lt]
    exact fun h4 => h2 k2 hk (K_lt.2 h3) h4

/-- keys after p ++ b :: r, in the slots up to c -/
theorem keyFrom {p r k2 : Bytes} {b : UInt8} {c : Nat} (h1 : K (p ++ b :: r) < K k2) (h2 : K k2 < enc p ++ [c + 1]) : ∃ x s, k2 = p ++ x :: s ∧ b.toNat ≤ x.toNat ∧ x.toNat < c := by
  rw [K_append] at h1
  obtain ⟨r2, rfl, h3, h4⟩ := keyMid (List.le_of_lt h1) h2
  cases r2 with
  | nil => rw [← List.not_lt] at h3; exact absurd (by simp [List.cons_lt_cons_iff]) h3
  | cons x s =>
    rw [K_cons, K_cons, List.cons_le_cons_iff] at h3
    rw [K_cons, List.cons_lt_cons_iff] at h4
    refine ⟨x, s, rfl, by omega, ?_⟩
    rcases h4 with h4 | ⟨-, h4⟩
    · omega
    · exact absurd h4 (List.not_lt_nil _)

theorem K_lt_slot {p r : Bytes} {b : UInt8} {c : Nat} (h : b.toNat < c) : K (p ++ b :: r) < pos p (some c) := by
  unfold pos
  rw [K_append, app_lt, K_cons, List.cons_lt_cons_iff]
  left; simp only [ix]; omega

theorem seek_spec (t : Tr base F g ni nn h) : ∀ (k p : Bytes) (hd : Hd) (st : List Addr), g.nd p = some hd → Stack g p ((hd.o, hd.off) :: st) → Safe g (p ++ k) →
    wpI I (seek k (hd.o, hd.off) st) (fun out h' => h' = h ∧ ∃ st' i p', out = .ok (st', i) ∧ Stack g p' st' ∧ i ≤ 256 ∧
      ∀ k2, g.vl k2 ≠ none → (pos p' (some i) ≤ K k2 ↔ p ++ k < k2)) h := by
  intro k
  induction k with
  | nil =>
    intro p hd st hp hst _
    refine ⟨rfl, _, 0, p, rfl, hst, by omega, ?_⟩
    rw [List.append_nil]
    refine pos_iff (cons_lt_app (by simp [ix])) ?_
    intro k2 _ h1 h2
    obtain ⟨r, rfl, h3, h4⟩ := keyMid (List.le_of_lt h1) h2
    cases r with
    | nil => rw [List.append_nil] at h1; exact List.lt_irrefl _ h1
    | cons x s =>
      rw [K_cons, List.cons_lt_cons_iff] at h4
      simp only [ix] at h4
      rcases h4 with h4 | ⟨-, h4⟩
      · omega
      · exact absurd h4 (List.not_lt_nil _)
  | cons b k ih =>
    intro p hd st hp hst hsafe
    obtain ⟨B, hB, hn⟩ := t.node p hd hp
    have hsz := lt_size hn
    have hle := hn.le
    have hlt := hn.lt
    have hb := b.toNat_lt
    have hq : p ++ b :: k = p ++ [b] ++ k := by simp
    unfold seek
    simp only [Prog.bind_def]
    refine wpI_rd (B := B) hB (by show hd.off + 1 ≤ _; omega) ?_
    rw [show B.rd hd.off 1 = hd.s from hn.s]
    split
    · rename_i h1
      refine ⟨rfl, _, hd.s, p, rfl, hst, by omega, pos_iff (K_lt_slot h1) ?_⟩
      intro k2 hk h2 h3
      obtain ⟨x, s, rfl, h4, h5⟩ := keyFrom h2 h3
      exact hk (t.outside' hp (Or.inl h5) s)
    · rename_i h1
      refine wpI_rd (B := B) hB (by show hd.off + 1 + 1 ≤ _; omega) ?_
      rw [show B.rd (hd.off + 1) 1 = hd.e from hn.e]
      split
      · rename_i h2
        refine ⟨rfl, _, 256, p, rfl, hst, by omega, pos_iff (K_lt_slot (by omega)) ?_⟩
        intro k2 hk h3 h4
        obtain ⟨x, s, rfl, h5, h6⟩ := keyFrom h3 h4
        exact hk (t.outside' hp (Or.inr (by omega)) s)
      · rename_i h2
        have h1 : hd.s ≤ b.toNat := by omega
        have h2 : b.toNat ≤ hd.e := by omega
        refine wpI_rd (B := B) hB (ch_size hn h1 h2) ?_
        rw [show B.rd (slotOf (hd.o, hd.off) hd.s b.toNat).2 8 = g.word (p ++ [b]) from hn.ch b h1 h2]
        have hs := hsafe p b k hd rfl hp h1 h2
        split
        · rename_i hty
          rw [ne_eq, t.word_node] at hty
          obtain ⟨h3, h4⟩ := not_or.1 hty
          rw [ne_eq, Classical.not_not] at h3
          refine ⟨rfl, _, b.toNat + 1, p, rfl, hst, by omega, pos_iff (K_lt_slot (by omega)) ?_⟩
          intro k2 hk h5 h6
          obtain ⟨x, s, rfl, h7, h8⟩ := keyFrom h5 h6
          have hx : x = b := toNat_inj (by omega)
          subst hx
          by_cases hs : s = []
          · subst hs
            rw [K_append, K_append, app_lt, K_cons, K_cons, List.cons_lt_cons_iff] at h5
            rcases h5 with h5 | ⟨-, h5⟩
            · omega
            · rw [K_lt] at h5; exact List.not_lt_nil _ h5
          · have := (t.below h3 hs).2
            exact hk (by simpa using this)
        · rename_i hty
          rw [ne_eq, Classical.not_not, t.word_node] at hty
          have h3 : g.nd (p ++ [b]) ≠ none := by
            rcases hty with h3 | h3
            · exact h3
            · rcases hs with hs | hs
              · exact hs
              · exact absurd h3 hs
          obtain ⟨hd', h4⟩ := Option.ne_none_iff_exists'.1 h3
          have hw : g.word (p ++ [b]) = hd'.o := by unfold G.word; rw [h4]
          have hoff : hd'.off = 0 := (t.child p b hd' h4).1
          rw [hw, show ((hd'.o, 0) : Addr) = (hd'.o, hd'.off) by rw [hoff], hq]
          exact ih (p ++ [b]) hd' _ h4 (.snoc _ _ _ hd' hst h4) (by rw [← hq]; exact hsafe)

theorem pathOf_spec (t : Tr base F g ni nn h) {p : Bytes} {st : List Addr} (s : Stack g p st) : wpI I (pathOf st) (fun out h' => h' = h ∧ out = .ok p) h := by
  induction s with
  | root hd hr => exact ⟨rfl, rfl⟩
  | snoc p b ns hd hs hn ih =>
    obtain ⟨hp, st', hpn, rfl⟩ := hs.head
    obtain ⟨-, hps, -⟩ := t.child p b hd hn
    obtain ⟨B, hB, hnb⟩ := t.node _ hd hn
    have hsz := lt_size hnb
    unfold pathOf
    simp only [Prog.bind_def]
    refine wpI_bind_of ih ?_ (by rintro e h' ⟨-, h1⟩; cases h1)
    rintro k h' ⟨rfl, h1⟩
    injection h1 with h1; subst h1
    refine wpI_rd (B := B) hB (by show hd.off + 2 + 1 ≤ _; omega) ?_
    rw [show B.rd (hd.off + 2) 1 = hd.ps from hnb.ps, hps]
    refine ⟨rfl, ?_⟩
    rw [UInt8.ofNat_toNat]

theorem found_spec (t : Tr base F g ni nn h) {p : Bytes} {st : List Addr} (s : Stack g p st) (i : Option Nat) : wpI I (found st i) (fun out h' => h' = h ∧ out = .ok (keyOf p i)) h := by
  unfold found
  simp only [Prog.bind_def]
  refine wpI_bind_of (pathOf_spec t s) ?_ (by rintro e h' ⟨-, h1⟩; cases h1)
  rintro k h' ⟨rfl, h1⟩
  injection h1 with h1; subst h1
  cases i <;> exact ⟨rfl, rfl⟩

/-- the first key at or after a position -/
def FirstAt (g : G) (q : List Nat) (out : Out (Bytes × Nat)) : Prop :=
  (∃ k' c v, out = .ok (k', c) ∧ g.vl k' = some (c, v) ∧ q ≤ K k' ∧ ∀ k, g.vl k ≠ none → q ≤ K k → ¬ k < k') ∨
  (out = .err .outOfRange ∧ ∀ k, g.vl k ≠ none → ¬ q ≤ K k)

theorem nextFrom_spec (t : Tr base F g ni nn h) {p : Bytes} {st : List Addr} (s : Stack g p st) {i : Nat} (hi : i ≤ 256) :
    wpI I (nextFrom st i) (fun out h' => h' = h ∧ FirstAt g (pos p (some i)) out) h := by
  unfold nextFrom
  simp only [Prog.bind_def]
  refine wpI_bind_of (scan_spec t maxSteps [] st p (some i) s ⟨List.nodup_nil, by simp⟩ (by simp only [ix]; omega) (by rw [maxSteps_eq]; simp)) ?_ (by rintro e h' ⟨-, r, h1, -⟩; cases h1)
  rintro r h' ⟨rfl, r', h1, h2⟩
  injection h1 with h1; subst h1
  rcases h2 with ⟨k', c, v, st', i', p', rfl, h2, rfl, h4, h5, h6⟩ | ⟨rfl, h2⟩
  · simp only
    refine wpI_bind_of (found_spec t h2 i') ?_ (by rintro e h' ⟨-, h1⟩; cases h1)
    rintro k h' ⟨rfl, h1⟩
    injection h1 with h1; subst h1
    refine ⟨rfl, Or.inl ⟨_, c, v, rfl, h4, List.not_lt.1 h5, fun k hk h7 => ?_⟩⟩
    rcases h6 k hk with h8 | h8
    · exact absurd h8 (List.not_lt.2 h7)
    · exact h8
  · exact ⟨rfl, Or.inr ⟨rfl, fun k hk h3 => List.not_lt.2 h3 (h2 k hk)⟩⟩

theorem nextRaw_some (t : Tr base F g ni nn h) {k : Bytes} (hs : Safe g k) :
    wpI I (nextRaw base (some k)) (fun out h' => h' = h ∧ ((∃ k' c v, out = .ok (k', c) ∧ g.vl k' = some (c, v) ∧ IsNext g.kv k k') ∨
      (out = .err .outOfRange ∧ ∀ k2, g.kv k2 ≠ none → ¬ k < k2))) h := by
  unfold nextRaw
  simp only [Prog.bind_def]
  refine wpI_bind_of (seek_spec t k [] (rootHd base) [] t.root (.root _ t.root) hs) ?_ (by rintro e h' ⟨-, _, _, _, h1, -⟩; cases h1)
  rintro r h' ⟨rfl, st', i, p', h1, h2, h3, h4⟩
  injection h1 with h1; subst h1
  have hk : ∀ k2, g.kv k2 ≠ none → g.vl k2 ≠ none := fun k2 h h' => h (kv_none.2 h')
  refine wpI_mono (fun _ h => h) ?_ (nextFrom_spec t h2 h3)
  rintro out h5 ⟨rfl, (⟨k', c, v, rfl, h6, h7, h8⟩ | ⟨rfl, h6⟩)⟩
  · refine ⟨rfl, Or.inl ⟨k', c, v, rfl, h6, by rw [kv_of h6]; simp, (h4 k' (by rw [h6]; simp)).1 h7, fun k2 h9 h10 => h8 k2 (hk k2 h9) ((h4 k2 (hk k2 h9)).2 h10)⟩⟩
  · exact ⟨rfl, Or.inr ⟨rfl, fun k2 h7 h8 => h6 k2 (hk k2 h7) ((h4 k2 (hk k2 h7)).2 h8)⟩⟩

theorem nextRaw_none (t : Tr base F g ni nn h) :
    wpI I (nextRaw base none) (fun out h' => h' = h ∧ ((∃ k' c v, out = .ok (k', c) ∧ g.vl k' = some (c, v) ∧ IsFirst g.kv k') ∨
      (out = .err .outOfRange ∧ ∀ k2, g.kv k2 = none))) h := by
  obtain ⟨B, hB, hn⟩ := t.node [] _ t.root
  have hsz := lt_size hn
  unfold nextRaw
  simp only [Prog.bind_def]
  refine wpI_rd (B := B) hB (by have : (rootHd base).off = 16 := rfl; omega) ?_
  rw [show B.rd (16 + 8) 8 = cw (g.vl []) from hn.v]
  split
  · rename_i hv
    cases hq : g.vl [] with
    | none => rw [hq] at hv; exact absurd rfl hv
    | some cv =>
      obtain ⟨c, v⟩ := cv
      exact ⟨rfl, Or.inl ⟨[], c, v, rfl, hq, by rw [kv_of hq]; simp, fun k2 _ => List.not_lt_nil _⟩⟩
  · rename_i hv
    have hq : g.vl [] = none := (t.cw_zero []).1 (Classical.not_not.1 hv)
    refine wpI_mono (fun _ h => h) ?_ (nextFrom_spec t (.root _ t.root) (Nat.zero_le 256))
    have hall : ∀ k, g.vl k ≠ none → pos [] (some 0) ≤ K k := by
      intro k hk
      cases k with
      | nil => exact absurd hq hk
      | cons b k =>
        simp only [pos, ix, enc_nil, List.nil_append, K_cons, List.cons_le_cons_iff]
        by_cases e : b.toNat = 0
        · right; exact ⟨by omega, nil_le_K _⟩
        · left; omega
    have hk : ∀ k2, g.kv k2 ≠ none → g.vl k2 ≠ none := fun k2 h h' => h (kv_none.2 h')
    rintro out h5 ⟨rfl, (⟨k', c, v, rfl, h6, h7, h8⟩ | ⟨rfl, h6⟩)⟩
    · exact ⟨rfl, Or.inl ⟨k', c, v, rfl, h6, by rw [kv_of h6]; simp, fun k2 h9 => h8 k2 (hk k2 h9) (hall k2 (hk k2 h9))⟩⟩
    · refine ⟨rfl, Or.inr ⟨rfl, fun k2 => Classical.byContradiction fun h7 => h6 k2 (hk k2 h7) (hall k2 (hk k2 h7))⟩⟩

/-- the keys from which a search meets no empty slot -/
theorem Safe.of_kv (t : Tr base F g ni nn h) {k : Bytes} (hk : g.kv k ≠ none) : Safe g k := by
  intro p b r hd hq hp h1 h2
  by_cases hr : r = []
  · subst hr
    right; rw [← hq]; exact fun h => hk (kv_none.2 h)
  · left
    intro hn
    refine hk (kv_none.2 ?_)
    have := (t.below hn hr).2
    rw [hq]; simpa using this

theorem Safe.of_nd (t : Tr base F g ni nn h) {k : Bytes} (hk : g.nd k ≠ none) : Safe g k := by
  intro p b r hd hq hp h1 h2
  left
  refine t.parent (r := r) ?_
  rw [List.append_assoc, List.singleton_append, ← hq]; exact hk

/-- extensions of a key below which there is nothing -/
theorem Safe.of_leaf (t : Tr base F g ni nn h) {k r : Bytes} (hk : g.kv k ≠ none) (hn : g.nd k = none) : Safe g (k ++ r) := by
  intro p b s hd hq hp h1 h2
  -- p is a proper prefix of k
  have hlen : p.length < k.length := by
    refine Classical.byContradiction fun h3 => ?_
    have : k <+: p := List.prefix_of_prefix_length_le ⟨r, rfl⟩ (by rw [hq]; exact List.prefix_append _ _) (by omega)
    obtain ⟨s', rfl⟩ := this
    by_cases e : s' = []
    · subst e; rw [List.append_nil, hn] at hp; cases hp
    · rw [(t.below hn e).1] at hp; cases hp
  have hpre : p ++ [b] <+: k := List.prefix_of_prefix_length_le (l₃ := k ++ r) ⟨s, by rw [hq]; simp⟩ ⟨r, rfl⟩ (by simp; omega)
  obtain ⟨s', hs'⟩ := hpre
  exact Safe.of_kv t hk p b s' hd (by rw [← hs']; simp) hp h1 h2

/-- the result of next_key_value -/
def NextRes (m : Bytes → Option Val) (k : Option Bytes) (k' : Bytes) : Prop :=
  match k with
  | none => IsFirst m k'
  | some k => IsNext m k k'

def NoNext (m : Bytes → Option Val) (k : Option Bytes) : Prop :=
  match k with
  | none => ∀ k2, m k2 = none
  | some k => ∀ k2, m k2 ≠ none → ¬ k < k2

theorem nextRaw_spec (t : Tr base F g ni nn h) {k : Option Bytes} (hs : ∀ k', k = some k' → Safe g k') :
    wpI I (nextRaw base k) (fun out h' => h' = h ∧ ((∃ k' c v, out = .ok (k', c) ∧ g.vl k' = some (c, v) ∧ NextRes g.kv k k') ∨ (out = .err .outOfRange ∧ NoNext g.kv k))) h := by
  cases k with
  | none => exact nextRaw_none t
  | some k => exact nextRaw_some t (hs k rfl)

theorem nextKey_spec (t : Tr base F g ni nn h) {k : Option Bytes} (hs : ∀ k', k = some k' → Safe g k') :
    wpI I (nextKey base k) (fun out h' => h' = h ∧ ((∃ k', out = .ok k' ∧ NextRes g.kv k k') ∨ (out = .err .outOfRange ∧ NoNext g.kv k))) h := by
  unfold nextKey
  simp only [Prog.bind_def]
  refine wpI_bind_of (nextRaw_spec t hs) ?_ ?_
  · rintro r h' ⟨rfl, (⟨k', c, v, h1, h2, h3⟩ | ⟨h1, -⟩)⟩
    · injection h1 with h1; subst h1
      exact ⟨rfl, Or.inl ⟨k', rfl, h3⟩⟩
    · cases h1
  · rintro e h' ⟨rfl, (⟨k', c, v, h1, -⟩ | ⟨h1, h2⟩)⟩
    · cases h1
    · injection h1 with h1; subst h1
      exact ⟨rfl, Or.inr ⟨rfl, h2⟩⟩

theorem nextKV_spec (t : Tr base F g ni nn h) {k : Option Bytes} (hs : ∀ k', k = some k' → Safe g k') :
    wpI I (nextKV base k) (fun out h' => h' = h ∧ ((∃ k' v, out = .ok (k', v) ∧ g.kv k' = some v ∧ NextRes g.kv k k') ∨ (out = .err .outOfRange ∧ NoNext g.kv k))) h := by
  unfold nextKV
  simp only [Prog.bind_def]
  refine wpI_bind_of (nextRaw_spec t hs) ?_ ?_
  · rintro r h' ⟨rfl, (⟨k', c, v, h1, h2, h3⟩ | ⟨h1, -⟩)⟩
    · injection h1 with h1; subst h1
      refine wpI_bind_of (lookup_spec (t.val _ _ _ h2).1) ?_ (by rintro e h' ⟨-, h1⟩; cases h1)
      rintro v' h' ⟨rfl, h4⟩
      injection h4 with h4; subst h4
      exact ⟨rfl, Or.inl ⟨k', v', rfl, kv_of h2, h3⟩⟩
    · cases h1
  · rintro e h' ⟨rfl, (⟨k', c, v, h1, -⟩ | ⟨h1, h2⟩)⟩
    · cases h1
    · injection h1 with h1; subst h1
      exact ⟨rfl, Or.inr ⟨rfl, h2⟩⟩

end
end Verif.PrefixTree
