import Verif.HashTableErase
/-
wp-specifications of HashTable iteration.
-/
namespace Verif.HashTable
open Verif

attribute [local irreducible] Block.rd Block.rdB

section
variable {h : Heap} {base slots bits cnt : Nat} {bk : Nat → Bk} {lk : List Nat} {G : Nat → Option Block} {hash : Bytes → Nat} {k v : Bytes}

theorem readPair_spec {b o : Nat} {B : Block} (hB : h.blk b = some B) (hs : o + 16 ≤ B.size) {e : Ent} (h1 : B.rd o 8 = e.kv)
    (h2 : B.rd (o + 8) 8 = e.key.length) (hk : KvOk h e) :
    wp (readPair b o) (fun out h' => out = .ok (e.key, e.val) ∧ h' = h) h := by
  obtain ⟨K, k1, k2, k3, k4⟩ := hk
  unfold readPair
  refine wp_rd hB (by omega) ?_
  refine wp_rd hB (by omega) ?_
  rw [h1, h2]
  refine wp_bsize k1 ?_
  refine wp_rdB k1 (by omega) ?_
  rw [k2, Nat.add_sub_cancel_left]
  refine wp_rdB k1 (by omega) ?_
  rw [k3, k4]
  exact ⟨rfl, rfl⟩

theorem readChain_spec (c : List Ent) : ∀ fuel, c.length < fuel → Seg h c 0 → (∀ e ∈ c, KvOk h e ∧ e.iv ≠ 0) →
    wp (readChain fuel (headIv c 0)) (fun out h' => out = .ok (c.map fun e => (e.key, e.val)) ∧ h' = h) h := by
  induction c with
  | nil =>
    intro fuel hf _ _
    obtain ⟨f, rfl⟩ : ∃ f, fuel = f + 1 := ⟨fuel - 1, by simp at hf; omega⟩
    exact ⟨rfl, rfl⟩
  | cons e t ih =>
    intro fuel hf hs hk
    obtain ⟨f, rfl⟩ : ∃ f, fuel = f + 1 := ⟨fuel - 1, by simp at hf; omega⟩
    obtain ⟨hk1, hk2⟩ := hk e List.mem_cons_self
    obtain ⟨⟨B, b1, b2, b3, b4, b5⟩, hs2⟩ := hs
    show wp (readChain (f + 1) e.iv) _ h
    unfold readChain
    rw [if_neg hk2]
    refine wp_bind_of (readPair_spec b1 (by omega) b4 b5 hk1) ?_ ?_
    rotate_left
    · rintro _ _ ⟨hx, -⟩; cases hx
    rintro m h' ⟨he, rfl⟩
    injection he with he
    subst he
    refine wp_rd b1 (by omega) ?_
    rw [b3]
    refine wp_bind_of (ih f (by simp at hf; omega) hs2 (fun x hx => hk x (List.mem_cons_of_mem _ hx))) ?_ ?_
    · rintro l h'' ⟨hl, rfl⟩
      injection hl with hl
      subst hl
      exact ⟨rfl, rfl⟩
    · rintro _ _ ⟨hx, -⟩; cases hx

theorem slotContents_spec (r : Rep h base slots bits cnt bk lk G) {i : Nat} (hi : i < 2 ^ bits) :
    wp (slotContents base i) (fun out h' => out = .ok (bk i).pairs ∧ h' = h) h := by
  obtain ⟨B0, h0, hs0, hb1, hb2, hb3⟩ := r.b0
  obtain ⟨BS, hS, hsS, hsl⟩ := r.slot hi
  have hbk := r.ok i
  unfold slotContents
  refine wp_rd h0 (by omega) ?_
  rw [hb2]
  refine wp_rd hS (by omega) ?_
  rcases hsl with ⟨hc, hw⟩ | ⟨hd, e, hc, hw1, hw2⟩ | ⟨hd, e, t, hc, -, hw⟩
  · rw [hw, if_pos rfl]
    exact ⟨by simp [Bk.pairs, hc], rfl⟩
  · have he : e ∈ (bk i).c := by rw [hc]; exact List.mem_singleton.2 rfl
    have ho := (hbk.mem_off he).1.1
    rw [hw1, if_neg ho.ne, if_pos ho.even]
    refine wp_bind_of (readPair_spec hS (by omega) hw1 hw2 (hbk.kvs e he)) ?_ ?_
    · rintro l h' ⟨hl, rfl⟩
      injection hl with hl
      subst hl
      exact ⟨by simp [Bk.pairs, hc], rfl⟩
    · rintro _ _ ⟨hx, -⟩; cases hx
  · have he : e ∈ (bk i).c := by rw [hc]; exact List.mem_cons_self
    have ho := ((hbk.mem_off he).2 hd).1
    have he2 := ho.even
    rw [hw, if_neg (by omega), if_neg (by omega), Nat.add_sub_cancel]
    have := readChain_spec (bk i).c maxNodes hbk.len (hbk.seg hd) (hbk.walkable hd)
    rw [show headIv (bk i).c 0 = e.iv by rw [hc]; rfl] at this
    exact this

theorem bits_spec (r : Rep h base slots bits cnt bk lk G) : wp (HashTable.bits base) (fun out h' => out = .ok bits ∧ h' = h) h := by
  obtain ⟨B0, h0, hs0, hb1, hb2, hb3⟩ := r.b0
  unfold HashTable.bits
  refine wp_rd h0 (by omega) ?_
  rw [hb1]
  have := r.b31
  exact ⟨by rw [Nat.mod_eq_of_lt (by omega)], rfl⟩

/-- the items in slots s, s+1, …, N-1 -/
def after (bk : Nat → Bk) (N s : Nat) : Pairs := (List.range' s (N - s)).flatMap fun i => (bk i).pairs

theorem after_step {N s : Nat} (hs : s < N) : after bk N s = (bk s).pairs ++ after bk N (s + 1) := by
  unfold after
  rw [show N - s = (N - (s + 1)) + 1 by omega, List.range'_succ, List.flatMap_cons]

theorem after_end {N s : Nat} (hs : N ≤ s) : after bk N s = [] := by
  unfold after
  rw [show N - s = 0 by omega]; rfl

/-- what the iterator has yet to show -/
def Iter.rem (bk : Nat → Bk) (N : Nat) (it : Iter) : Pairs := it.cont.drop it.res ++ after bk N (it.slot + 1)

/-- an iterator that can be dereferenced, or the end -/
def Iter.Valid (bk : Nat → Bk) (N : Nat) (it : Iter) : Prop :=
  (it.slot < N ∧ it.cont = (bk it.slot).pairs ∧ it.res < it.cont.length) ∨ it = ⟨N, 0, []⟩

theorem advance_spec (r : Rep h base slots bits cnt bk lk G) (n : Nat) : ∀ (fuel : Nat) (it : Iter), it.slot < 2 ^ bits → n = 2 ^ bits - it.slot → n < fuel →
    it.cont = (bk it.slot).pairs → it.res ≤ it.cont.length →
    wp (advance base fuel it) (fun out h' => h' = h ∧ ∃ it', out = .ok it' ∧ it'.Valid bk (2 ^ bits) ∧ it'.rem bk (2 ^ bits) = it.rem bk (2 ^ bits)) h := by
  induction n with
  | zero => intro fuel it hs hn; omega
  | succ n ih =>
    intro fuel it hs hn hf hc hr
    obtain ⟨f, rfl⟩ : ∃ f, fuel = f + 1 := ⟨fuel - 1, by omega⟩
    unfold advance
    by_cases hl : it.cont.length ≤ it.res
    · rw [if_pos hl]
      have hdrop : it.rem bk (2 ^ bits) = after bk (2 ^ bits) (it.slot + 1) := by
        unfold Iter.rem; rw [List.drop_eq_nil_iff.2 hl]; rfl
      refine wp_bind_of (bits_spec r) ?_ ?_
      rotate_left
      · rintro _ _ ⟨hx, -⟩; cases hx
      rintro b h' ⟨hb, rfl⟩
      injection hb with hb
      subst hb
      by_cases hlt : it.slot + 1 < 2 ^ b
      · rw [if_pos hlt]
        refine wp_bind_of (slotContents_spec r hlt) ?_ ?_
        rotate_left
        · rintro _ _ ⟨hx, -⟩; cases hx
        rintro c h'' ⟨hb, rfl⟩
        injection hb with hb
        subst hb
        refine wp_mono ?_ (ih f ⟨it.slot + 1, 0, (bk (it.slot + 1)).pairs⟩ hlt (by show n = 2 ^ b - (it.slot + 1); omega) (by omega) rfl (Nat.zero_le _))
        rintro out h3 ⟨rfl, it', rfl, h4, h5⟩
        refine ⟨rfl, it', rfl, h4, ?_⟩
        rw [h5, hdrop, after_step hlt]
        rfl
      · rw [if_neg hlt]
        refine ⟨rfl, _, rfl, Or.inr ?_, ?_⟩
        · rw [show it.slot + 1 = 2 ^ b by omega]
        · rw [hdrop, after_end (by omega)]
          unfold Iter.rem
          rw [after_end (by simp only; omega)]
          rfl
    · rw [if_neg hl]
      exact ⟨rfl, it, rfl, Or.inl ⟨hs, hc, by omega⟩, rfl⟩

theorem end_spec (r : Rep h base slots bits cnt bk lk G) : wp («end» base) (fun out h' => out = .ok ⟨2 ^ bits, 0, []⟩ ∧ h' = h) h := by
  unfold «end» iterAt
  refine wp_bind_of (bits_spec r) ?_ ?_
  rotate_left
  · rintro _ _ ⟨hx, -⟩; cases hx
  rintro b h' ⟨hb, rfl⟩
  injection hb with hb
  subst hb
  refine wp_bind_of (bits_spec r) ?_ ?_
  rotate_left
  · rintro _ _ ⟨hx, -⟩; cases hx
  rintro b' h' ⟨hb, rfl⟩
  injection hb with hb
  subst hb
  rw [if_neg (Nat.lt_irrefl _)]
  exact ⟨rfl, rfl⟩

theorem visit_spec (r : Rep h base slots bits cnt bk lk G) (n : Nat) : ∀ (fuel : Nat) (it : Iter), it.Valid bk (2 ^ bits) → (it.rem bk (2 ^ bits)).length = n → n < fuel →
    wp (visit base fuel it) (fun out h' => out = .ok (it.rem bk (2 ^ bits)) ∧ h' = h) h := by
  induction n with
  | zero =>
    intro fuel it hv hn hf
    obtain ⟨f, rfl⟩ : ∃ f, fuel = f + 1 := ⟨fuel - 1, by omega⟩
    unfold visit
    refine wp_bind_of (end_spec r) ?_ ?_
    rotate_left
    · rintro _ _ ⟨hx, -⟩; cases hx
    rintro e h' ⟨hb, rfl⟩
    injection hb with hb
    subst hb
    rcases hv with ⟨h1, h2, h3⟩ | rfl
    · exfalso
      unfold Iter.rem at hn
      rw [List.length_append, List.length_drop] at hn
      omega
    · rw [if_pos (by unfold Iter.eq; simp)]
      rw [List.length_eq_zero_iff] at hn
      rw [hn]
      exact ⟨rfl, rfl⟩
  | succ n ih =>
    intro fuel it hv hn hf
    obtain ⟨f, rfl⟩ : ∃ f, fuel = f + 1 := ⟨fuel - 1, by omega⟩
    unfold visit
    refine wp_bind_of (end_spec r) ?_ ?_
    rotate_left
    · rintro _ _ ⟨hx, -⟩; cases hx
    rintro e h' ⟨hb, rfl⟩
    injection hb with hb
    subst hb
    rcases hv with ⟨h1, h2, h3⟩ | rfl
    · have hne : it.eq ⟨2 ^ bits, 0, []⟩ = false := by
        unfold Iter.eq
        rw [if_pos (by simp only; omega)]
      rw [hne, if_neg (by simp)]
      unfold Iter.next
      simp only [Prog.bind_def, Prog.bind_assoc]
      refine wp_bind_of (bits_spec r) ?_ ?_
      rotate_left
      · rintro _ _ ⟨hx, -⟩; cases hx
      rintro b h' ⟨hb, rfl⟩
      injection hb with hb
      subst hb
      rw [if_neg (by omega), if_pos h3]
      have hmax : 2 ^ b - it.slot < maxNodes := by
        have := two_pow_small r.b31
        rw [maxNodes_eq]; omega
      refine wp_bind_of (advance_spec r (2 ^ b - it.slot) maxNodes { it with res := it.res + 1 } h1 rfl hmax h2 h3) ?_ ?_
      rotate_left
      · rintro _ _ ⟨-, it', hx, -⟩; cases hx
      rintro it' h'' ⟨rfl, it2, hx, h4, h5⟩
      injection hx with hx
      subst hx
      have hcons : it.rem bk (2 ^ b) = it.cont.getD it.res ([], []) :: it'.rem bk (2 ^ b) := by
        rw [h5]
        unfold Iter.rem
        rw [List.drop_eq_getElem_cons h3, List.getD_eq_getElem?_getD, List.getElem?_eq_getElem h3]
        rfl
      refine wp_bind_of (ih f it' h4 (by rw [hcons] at hn; simpa using hn) (by omega)) ?_ ?_
      · rintro l h3 ⟨hl, rfl⟩
        injection hl with hl
        subst hl
        rw [hcons]
        exact ⟨rfl, rfl⟩
      · rintro _ _ ⟨hx, -⟩; cases hx
    · exfalso
      unfold Iter.rem at hn
      rw [after_end (by simp only; omega)] at hn
      simp at hn

/-- the buckets partition the items -/
theorem partition_perm {α : Type} (m : List α) (f : α → Nat) (N : Nat) :
    ((List.range N).flatMap fun i => m.filter fun e => decide (f e = i)).Perm (m.filter fun e => decide (f e < N)) := by
  induction N with
  | zero => simp
  | succ N ih =>
    rw [List.range_succ, List.flatMap_append]
    have h1 := List.filter_append_perm (fun e => decide (f e < N)) (m.filter fun e => decide (f e < N + 1))
    rw [List.filter_filter, List.filter_filter] at h1
    refine List.Perm.trans ?_ h1
    refine List.Perm.append (ih.trans (.of_eq ?_)) (.of_eq ?_)
    · refine List.filter_congr ?_
      intro x _
      by_cases hx : f x < N
      · simp [hx, Nat.lt_succ_of_lt hx]
      · simp [hx]
    · simp only [List.flatMap_cons, List.flatMap_nil, List.append_nil]
      refine List.filter_congr ?_
      intro x _
      by_cases h1 : f x = N
      · simp [h1]
      · by_cases h2 : f x < N
        · simp [h1, h2]
        · have : ¬ f x < N + 1 := by omega
          simp [h1, this]

/-- iterating shows every pair once -/
theorem items_spec {m : Pairs} (t : Table hash base slots bits G m lk h) : wp (items base) (fun out h' => ∃ l, out = .ok l ∧ l.Perm m ∧ h' = h) h := by
  have hl := t.len
  obtain ⟨bk, r, hp, hn⟩ := t
  have hpos := Nat.two_pow_pos bits
  have hperm : (after bk (2 ^ bits) 0).Perm m := by
    unfold after
    rw [Nat.sub_zero, ← List.range_eq_range']
    have h1 := partition_perm m (fun e => hash e.1 % 2 ^ bits) (2 ^ bits)
    refine List.Perm.trans (.of_eq ?_) (h1.trans (.of_eq ?_))
    · congr 1; funext i; exact hp i
    · rw [List.filter_eq_self]
      intro e _
      simpa using Nat.mod_lt _ hpos
  unfold items begin iterAt
  simp only [Prog.bind_def, Prog.bind_assoc]
  refine wp_bind_of (bits_spec r) ?_ ?_
  rotate_left
  · rintro _ _ ⟨hx, -⟩; cases hx
  rintro b h' ⟨hb, rfl⟩
  injection hb with hb
  subst hb
  rw [if_pos hpos]
  simp only [Prog.bind_assoc]
  refine wp_bind_of (slotContents_spec r hpos) ?_ ?_
  rotate_left
  · rintro _ _ ⟨hx, -⟩; cases hx
  rintro c h'' ⟨hb, rfl⟩
  injection hb with hb
  subst hb
  have hmax : 2 ^ b - 0 < maxNodes := by
    have := two_pow_small r.b31
    rw [maxNodes_eq]; omega
  refine wp_bind_of (advance_spec r (2 ^ b - 0) maxNodes ⟨0, 0, (bk 0).pairs⟩ hpos rfl hmax rfl (Nat.zero_le _)) ?_ ?_
  rotate_left
  · rintro _ _ ⟨-, it', hx, -⟩; cases hx
  rintro it h3 ⟨rfl, it', hx, h4, h5⟩
  injection hx with hx
  subst hx
  have hrem : it.rem bk (2 ^ b) = after bk (2 ^ b) 0 := by
    rw [h5, after_step hpos]; rfl
  refine wp_mono ?_ (visit_spec r _ maxNodes it h4 rfl (by rw [hrem, hperm.length_eq, maxNodes_eq]; omega))
  rintro out h6 ⟨rfl, rfl⟩
  exact ⟨_, rfl, by rw [hrem]; exact hperm, rfl⟩

end
end Verif.HashTable
