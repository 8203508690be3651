import Verif.IterWeak
import Verif.HashTableStep
/-
HashTable: an iteration during which the table changes.
-/
namespace Verif.HashTable
open Verif

/-- call number i finds a table with these bits that holds the pairs `M i` -/
def Seq (hash : Bytes → Nat) (base bits : Nat) (M : Nat → Pairs) (W : Nat → Heap) : Prop :=
  ∀ i, ∃ slots G lk, Table hash base slots bits G (M i) lk (W i)

/-- `l` is what the slots from `s` on yield when they are read by the calls i, …, n-1 -/
structure Swept (hash : Bytes → Nat) (bits : Nat) (M : Nat → Pairs) (s i n : Nat) (l : Pairs) : Prop where
  le : i ≤ n
  nd : (keys l).Nodup
  ge : ∀ e ∈ l, s ≤ hash e.1 % 2 ^ bits
  was : ∀ e ∈ l, ∃ j, i ≤ j ∧ j < n ∧ get (M j) e.1 = some e.2
  all : ∀ k, s ≤ hash k % 2 ^ bits → (∀ j, i ≤ j → j < n → get (M j) k ≠ none) → k ∈ keys l

variable {hash : Bytes → Nat} {base bits : Nat} {M : Nat → Pairs} {W : Nat → Heap} {s i n : Nat} {l : Pairs}

theorem Swept.nil (hs : 2 ^ bits ≤ s) (h : i ≤ n) : Swept hash bits M s i n [] :=
  ⟨h, List.nodup_nil, fun e he => (List.not_mem_nil he).elim, fun e he => (List.not_mem_nil he).elim,
    fun k hk => by have := Nat.mod_lt (hash k) (Nat.two_pow_pos bits); omega⟩

theorem Swept.empty (h : Swept hash bits M s i n l) (hs : 2 ^ bits ≤ s) : l = [] := by
  refine List.eq_nil_iff_forall_not_mem.2 fun e he => ?_
  have := h.ge e he
  have := Nat.mod_lt (hash e.1) (Nat.two_pow_pos bits)
  omega

/-- earlier calls may have been made -/
theorem Swept.earlier {i' : Nat} (h : Swept hash bits M s i n l) (hi : i' ≤ i) : Swept hash bits M s i' n l := by
  refine ⟨by have := h.le; omega, h.nd, h.ge, ?_, ?_⟩
  · intro e he
    obtain ⟨j, a, b, c⟩ := h.was e he
    exact ⟨j, by omega, b, c⟩
  · intro k hk hp
    exact h.all k hk (fun j a b => hp j (by omega) b)

/-- one more slot -/
theorem Swept.cons {c : Pairs} {j : Nat} (hd : (keys (M j)).Nodup) (hc : c = (M j).filter (fun e => decide (hash e.1 % 2 ^ bits = s)))
    (h : Swept hash bits M (s + 1) (j + 1) n l) : Swept hash bits M s j n (c ++ l) := by
  have hle := h.le
  have hcs : ∀ e ∈ c, hash e.1 % 2 ^ bits = s ∧ e ∈ M j := by
    intro e he
    rw [hc, List.mem_filter] at he
    exact ⟨by simpa using he.2, he.1⟩
  refine ⟨by omega, ?_, ?_, ?_, ?_⟩
  · unfold keys
    rw [List.map_append, List.nodup_append]
    refine ⟨?_, h.nd, ?_⟩
    · rw [hc]
      exact (hd.sublist (List.Sublist.map _ List.filter_sublist))
    · rintro a ha b hb rfl
      obtain ⟨e, he, rfl⟩ := List.mem_map.1 ha
      obtain ⟨e', he', h2⟩ := List.mem_map.1 hb
      have h3 := (hcs e he).1
      have h4 := h.ge e' he'
      rw [h2] at h4
      omega
  · intro e he
    rcases List.mem_append.1 he with he | he
    · exact Nat.le_of_eq (hcs e he).1.symm
    · have := h.ge e he; omega
  · intro e he
    rcases List.mem_append.1 he with he | he
    · exact ⟨j, Nat.le_refl _, by omega, (mem_iff_get hd e.1 e.2).1 (hcs e he).2⟩
    · obtain ⟨j', a, b, d⟩ := h.was e he
      exact ⟨j', by omega, b, d⟩
  · intro k hk hp
    unfold keys
    rw [List.map_append, List.mem_append]
    by_cases e : hash k % 2 ^ bits = s
    · left
      have h1 := hp j (Nat.le_refl _) (by omega)
      cases hg : get (M j) k with
      | none => exact absurd hg h1
      | some v =>
        refine List.mem_map.2 ⟨(k, v), ?_, rfl⟩
        rw [hc, List.mem_filter]
        exact ⟨(mem_iff_get hd k v).2 hg, by simpa using e⟩
    · right
      exact h.all k (by omega) (fun j' a b => hp j' (by omega) b)

theorem bits_call (h : Seq hash base bits M W) {β : Type} {k : Nat → SProg β} {Q : Out β → Nat → Prop}
    (hk : iwp (simpl base) W (k bits) Q (i + 1)) : iwp (simpl base) W (sBits.bind k) Q i := by
  obtain ⟨slots, G, lk, bk, r, -⟩ := h i
  exact iwp_call (op := SOp.bits) (v := bits) (bits_spec r) hk

theorem slot_call (h : Seq hash base bits M W) {β : Type} {k : Pairs → SProg β} {Q : Out β → Nat → Prop} (hs : s < 2 ^ bits)
    (hk : iwp (simpl base) W (k ((M i).filter (fun e => decide (hash e.1 % 2 ^ bits = s)))) Q (i + 1)) :
    iwp (simpl base) W ((sSlot s).bind k) Q i := by
  obtain ⟨slots, G, lk, bk, r, hp, -⟩ := h i
  have := slotContents_spec r hs
  rw [hp] at this
  exact iwp_call (op := SOp.slot s) (v := _) this hk

theorem Seq.nd (h : Seq hash base bits M W) (i : Nat) : (keys (M i)).Nodup := by
  obtain ⟨slots, G, lk, bk, r, hp, hn⟩ := h i
  exact hn

theorem Seq.b31 (h : Seq hash base bits M W) : bits < 31 := by
  obtain ⟨slots, G, lk, bk, r, hp, hn⟩ := h 0
  exact r.b31

/-- the most pairs a slot can hold -/
def slotMax : Nat := 9223372036854775808

theorem Seq.len (h : Seq hash base bits M W) (i : Nat) : ((M i).filter (fun e => decide (hash e.1 % 2 ^ bits = s))).length ≤ slotMax := by
  obtain ⟨slots, G, lk, t⟩ := h i
  exact Nat.le_trans (List.length_filter_le _ _) t.len

/-- an upper bound of how many pairs are still to come -/
def Iter.more (N : Nat) (it : Iter) : Nat := (N - it.slot) * (slotMax + 1) + (it.cont.length - it.res)

/-- an iterator that can be dereferenced, or the end -/
def Iter.Ok (N : Nat) (it : Iter) : Prop := (it.slot < N ∧ it.res < it.cont.length) ∨ it = ⟨N, 0, []⟩

theorem advanceC_spec (h : Seq hash base bits M W) (d : Nat) : ∀ (fuel : Nat) (it : Iter) (i : Nat), it.slot < 2 ^ bits → d = 2 ^ bits - it.slot → d < fuel →
    iwp (simpl base) W (advanceC fuel it) (fun out i' => ∃ it', out = .ok it' ∧ it'.Ok (2 ^ bits) ∧ it'.more (2 ^ bits) ≤ it.more (2 ^ bits) ∧
      ∀ n l, Swept hash bits M (it'.slot + 1) i' n l →
        ∃ l2, it.cont.drop it.res ++ l2 = it'.cont.drop it'.res ++ l ∧ Swept hash bits M (it.slot + 1) i n l2) i := by
  induction d with
  | zero => intro fuel it i hs hn; omega
  | succ d ih =>
    intro fuel it i hs hn hf
    obtain ⟨f, rfl⟩ : ∃ f, fuel = f + 1 := ⟨fuel - 1, by omega⟩
    unfold advanceC
    by_cases hl : it.cont.length ≤ it.res
    · rw [if_pos hl]
      have hdrop : it.cont.drop it.res = [] := List.drop_eq_nil_iff.2 hl
      refine bits_call h ?_
      by_cases hlt : it.slot + 1 < 2 ^ bits
      · rw [if_pos hlt]
        refine slot_call h hlt ?_
        have hc : ∃ c, c = (M (i + 1)).filter (fun e => decide (hash e.1 % 2 ^ bits = it.slot + 1)) := ⟨_, rfl⟩
        obtain ⟨c, hc⟩ := hc
        have hlen := h.len (s := it.slot + 1) (i + 1)
        rw [← hc] at hlen ⊢
        refine iwp_mono ?_ (ih f ⟨it.slot + 1, 0, c⟩ (i + 1 + 1) hlt (by show d = 2 ^ bits - (it.slot + 1); omega) (by omega))
        rintro out i' ⟨it', rfl, h1, h2, h3⟩
        refine ⟨it', rfl, h1, Nat.le_trans h2 ?_, ?_⟩
        · unfold Iter.more
          simp only
          rw [show 2 ^ bits - it.slot = (2 ^ bits - (it.slot + 1)) + 1 by omega, Nat.succ_mul]
          omega
        · intro n l hsw
          obtain ⟨l2, h4, h5⟩ := h3 n l hsw
          refine ⟨c ++ l2, ?_, ?_⟩
          · rw [hdrop, List.nil_append]; exact h4
          · exact (Swept.cons (h.nd _) hc h5).earlier (by omega)
      · rw [if_neg hlt]
        have hN : it.slot + 1 = 2 ^ bits := by omega
        refine ⟨_, rfl, Or.inr (by rw [hN]), ?_, ?_⟩
        · unfold Iter.more
          simp only [hN, Nat.sub_self, Nat.zero_mul, List.length_nil]
          omega
        · intro n l hsw
          have hle := hsw.le
          have := hsw.empty (by simp only; omega)
          subst this
          exact ⟨[], by rw [hdrop]; rfl, Swept.nil (by omega) (by omega)⟩
    · rw [if_neg hl]
      exact ⟨it, rfl, Or.inl ⟨hs, by omega⟩, Nat.le_refl _, fun n l hsw => ⟨l, rfl, hsw⟩⟩

theorem endC_call (h : Seq hash base bits M W) {β : Type} {k : Iter → SProg β} {Q : Out β → Nat → Prop}
    (hk : iwp (simpl base) W (k ⟨2 ^ bits, 0, []⟩) Q (i + 2)) : iwp (simpl base) W (endC.bind k) Q i := by
  unfold endC iterAtC
  simp only [Prog.bind_assoc]
  refine bits_call h ?_
  refine bits_call h ?_
  rw [if_neg (Nat.lt_irrefl _)]
  exact hk

theorem visitC_spec (h : Seq hash base bits M W) : ∀ (fuel : Nat) (it : Iter) (i : Nat), it.Ok (2 ^ bits) → it.more (2 ^ bits) < fuel →
    iwp (simpl base) W (visitC fuel it) (fun out n => ∃ l, out = .ok (it.cont.drop it.res ++ l) ∧ Swept hash bits M (it.slot + 1) i n l) i := by
  intro fuel
  induction fuel with
  | zero => intro it i _ hf; omega
  | succ f ih =>
    intro it i hv hf
    unfold visitC
    refine endC_call h ?_
    rcases hv with ⟨h1, h3⟩ | rfl
    · have hne : it.eq ⟨2 ^ bits, 0, []⟩ = false := by
        unfold Iter.eq
        rw [if_pos (by simp only; omega)]
      rw [hne, if_neg (by simp)]
      unfold nextC
      simp only [Prog.bind_assoc]
      refine bits_call h ?_
      rw [if_neg (by omega), if_pos h3]
      have hmax : 2 ^ bits - it.slot < maxNodes := by
        have := two_pow_small h.b31
        rw [maxNodes_eq]; omega
      refine iwp_bind (iwp_mono ?_ (advanceC_spec h (2 ^ bits - it.slot) maxNodes { it with res := it.res + 1 } (i + 2 + 1) h1 rfl hmax))
      rintro out i' ⟨it', rfl, h4, h5, h6⟩
      refine Or.inr ⟨it', rfl, ?_⟩
      have hmore : it'.more (2 ^ bits) < f := by
        have : Iter.more (2 ^ bits) { it with res := it.res + 1 } + 1 = it.more (2 ^ bits) := by
          unfold Iter.more; simp only; omega
        omega
      refine iwp_bind (iwp_mono ?_ (ih it' i' h4 hmore))
      rintro out n ⟨l, rfl, h7⟩
      obtain ⟨l2, h8, h9⟩ := h6 n l h7
      refine Or.inr ⟨_, rfl, l2, ?_, h9.earlier (by omega)⟩
      rw [← h8]
      simp only
      rw [List.drop_eq_getElem_cons h3, List.getD_eq_getElem?_getD, List.getElem?_eq_getElem h3]
      rfl
    · rw [if_pos (by unfold Iter.eq; simp)]
      exact ⟨[], rfl, Swept.nil (by simp only; omega) (by omega)⟩

/-- the whole iteration -/
theorem itemsC_spec (h : Seq hash base bits M W) {fuel : Nat} (hf : (2 ^ bits + 1) * (slotMax + 1) < fuel) :
    iwp (simpl base) W (itemsC fuel) (fun out n => ∃ l, out = .ok l ∧ Swept hash bits M 0 0 n l) 0 := by
  have hpos := Nat.two_pow_pos bits
  have hmax : 2 ^ bits - 0 < maxNodes := by
    have := two_pow_small h.b31
    rw [maxNodes_eq]; omega
  unfold itemsC beginC iterAtC
  simp only [Prog.bind_assoc]
  refine bits_call h ?_
  rw [if_pos hpos]
  simp only [Prog.bind_assoc]
  refine slot_call h hpos ?_
  have hc : ∃ c, c = (M (0 + 1)).filter (fun e => decide (hash e.1 % 2 ^ bits = 0)) := ⟨_, rfl⟩
  obtain ⟨c, hc⟩ := hc
  have hlen := h.len (s := 0) (0 + 1)
  rw [← hc] at hlen ⊢
  refine iwp_bind (iwp_mono ?_ (advanceC_spec h (2 ^ bits - 0) maxNodes ⟨0, 0, c⟩ (0 + 1 + 1) hpos rfl hmax))
  rintro out i' ⟨it', rfl, h4, h5, h6⟩
  refine Or.inr ⟨it', rfl, ?_⟩
  have hm : Iter.more (2 ^ bits) ⟨0, 0, c⟩ ≤ (2 ^ bits + 1) * (slotMax + 1) := by
    unfold Iter.more
    simp only
    rw [Nat.succ_mul, Nat.sub_zero]
    omega
  refine iwp_mono ?_ (visitC_spec h fuel it' i' h4 (by omega))
  rintro out n ⟨l, rfl, h7⟩
  obtain ⟨l2, h8, h9⟩ := h6 n l h7
  refine ⟨_, rfl, ?_⟩
  rw [← h8]
  exact (Swept.cons (h.nd _) hc h9).earlier (by omega)

end Verif.HashTable
