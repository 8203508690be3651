import Verif.PrioQueueSpec
import Verif.WpI
/-
PriorityQueue: what a process that dies in a method leaves behind (for C80).
-/
namespace Verif.PrioQueue
open Verif

/-- the entries `L` are the entries `P` in some order, except that one of them may have been overwritten by a copy of another -/
def Near {α : Type} (L P : List α) : Prop := ∃ (P' : List α) (t : Nat) (y : α), P'.Perm P ∧ y ∈ P ∧ L = P'.set t y

theorem Near.mem {α : Type} {L P : List α} (h : Near L P) {a : α} (ha : a ∈ L) : a ∈ P := by
  obtain ⟨P', t, y, hp, hy, rfl⟩ := h
  rcases List.mem_or_eq_of_mem_set ha with h | h
  · exact hp.mem_iff.1 h
  · rw [h]; exact hy

theorem Near.length {α : Type} {L P : List α} (h : Near L P) : L.length = P.length := by
  obtain ⟨P', t, y, hp, hy, rfl⟩ := h
  rw [List.length_set, hp.length_eq]

theorem Near.map {α β : Type} {L P : List α} (h : Near L P) (f : α → β) : Near (L.map f) (P.map f) := by
  obtain ⟨P', t, y, hp, hy, rfl⟩ := h
  exact ⟨P'.map f, t, f y, hp.map f, List.mem_map_of_mem hy, by rw [List.map_set]⟩

theorem Near.perm {α : Type} {L P Q : List α} (h : Near L P) (hq : P.Perm Q) : Near L Q := by
  obtain ⟨P', t, y, hp, hy, rfl⟩ := h
  exact ⟨P', t, y, hp.trans hq, hq.mem_iff.1 hy, rfl⟩

theorem near_perm {α : Type} {L P : List α} (h : L.Perm P) (h0 : 0 < P.length) : Near L P :=
  match P, h0 with
  | a :: l, _ => ⟨L, L.length, a, h, by simp, by rw [List.set_eq_of_length_le (Nat.le_refl _)]⟩

theorem near_hole {L P : List Nat} {t x : Nat} (h : (L.set t x).Perm P) (hy : L.getD t 0 ∈ P) : Near L P := by
  refine ⟨L.set t x, t, L.getD t 0, h, hy, ?_⟩
  rw [List.set_set]
  by_cases ht : t < L.length
  · rw [List.getD_eq_getElem?_getD, List.getElem?_eq_getElem ht]; simp
  · rw [List.set_eq_of_length_le (by omega)]

theorem siftDownLoop_I {arr item : Nat} {D : Nat → Bytes} {I : Heap → Prop} {P : List Nat} {h0 : Heap} {sz : Nat}
    (hI : ∀ BA' L', BA'.size = sz → Ents BA' L' → Near L' P → I (h0.set arr BA')) (fuel : Nat) : ∀ {h : Heap} {BA : Block} {A : List Nat} {t : Nat},
    (∀ B, h.set arr B = h0.set arr B) → BA.size = sz →
    h.blk arr = some BA → Ents BA A → Items h arr D P → t < A.length → t < fuel → (A.set t item).Perm P → (∀ a ∈ A, a ∈ P) →
    wpI I (siftDownLoop arr 0 item fuel t) (fun out h' => out = .ok () ∧ ∃ BA' L', h' = h0.set arr BA' ∧ BA'.size = sz ∧ Ents BA' L' ∧ L'.Perm P) h := by
  induction fuel with
  | zero => intro h BA A t _ _ _ _ _ _ hf; omega
  | succ f ih =>
    intro h BA A t hset hsz hb he hi ht hf hperm hmem
    have hitP : item ∈ P := hperm.mem_iff.1 (List.mem_iff_getElem.2 ⟨t, by simpa using ht, by simp⟩)
    obtain ⟨-, hitem, IB, hIB, eI⟩ := hi item hitP
    have hsize := he.1
    have fin : wpI I (H.wr64 arr (8 * t) item) (fun out h' => out = .ok () ∧ ∃ BA' L', h' = h0.set arr BA' ∧ BA'.size = sz ∧ Ents BA' L' ∧ L'.Perm P) h := by
      refine ⟨BA, hb, by omega, ?_, rfl, _, _, hset _, hsz, he.set hitem, hperm⟩
      rw [hset]
      exact hI _ _ hsz (he.set hitem) (near_perm hperm (by rw [← hperm.length_eq]; simpa using Nat.lt_of_le_of_lt (Nat.zero_le _) ht))
    unfold siftDownLoop
    by_cases h0' : 0 < t
    · rw [if_pos h0']
      have hp : (t - 1) / 2 < A.length := by omega
      refine wpI_rd hb (by omega) ?_
      rw [he.2 _ hp]
      have hpm := hmem _ (mem_getD hp)
      obtain ⟨-, hplt, PB, hPB, eP⟩ := hi (A.getD ((t - 1) / 2) 0) hpm
      have hless : wpI I (less item (A.getD ((t - 1) / 2) 0)) (fun out h' => (∃ c, out = .ok c) ∧ h' = h) h := by
        unfold less
        refine wpI_bsize hIB (wpI_bsize hPB ?_)
        have h1 : (if IB.size < PB.size then IB.size else PB.size) ≤ IB.size := by split <;> omega
        have h2 : (if IB.size < PB.size then IB.size else PB.size) ≤ PB.size := by split <;> omega
        exact wpI_rdB hIB (by omega) (wpI_rdB hPB (by omega) ⟨⟨_, rfl⟩, rfl⟩)
      refine wpI_bind_of hless ?_ ?_
      · rintro c h' ⟨-, rfl⟩
        cases c with
        | true =>
          simp only [if_true]
          refine wpI_rd hb (by omega) ?_
          rw [he.2 _ hp]
          have hperm' : ((A.set t (A.getD ((t - 1) / 2) 0)).set ((t - 1) / 2) item).Perm P := (set_getD_perm ht hp (by omega)).trans hperm
          have hmem' : ∀ a ∈ A.set t (A.getD ((t - 1) / 2) 0), a ∈ P := by
            intro a ha
            rcases mem_set ha with ha | ha
            · rw [ha]; exact hpm
            · exact hmem a ha
          have hn : Near (A.set t (A.getD ((t - 1) / 2) 0)) P :=
            near_hole hperm' (hmem' ((A.set t (A.getD ((t - 1) / 2) 0)).getD ((t - 1) / 2) 0) (mem_getD (by rw [List.length_set]; exact hp)))
          refine wpI_wr hb (by omega) ?_ ?_
          · rw [hset]
            exact hI _ _ hsz (he.set hplt) hn
          · exact ih (h := h'.set arr (BA.wr (8 * t) 8 (A.getD ((t - 1) / 2) 0))) (BA := BA.wr (8 * t) 8 (A.getD ((t - 1) / 2) 0)) (A := A.set t (A.getD ((t - 1) / 2) 0)) (fun B => by rw [Heap.set_set]; exact hset B) hsz (Heap.set_same _ _ _) (he.set hplt) (hi.set _) (by simpa using hp) (by omega) hperm' hmem'
        | false => simp only [Bool.false_eq_true, if_false]; exact fin
      · rintro e h' ⟨⟨c, he⟩, -⟩; cases he
    · rw [if_neg h0']
      exact fin

theorem siftDown_I {base arr : Nat} {D : Nat → Bytes} {I : Heap → Prop} {P : List Nat} {h : Heap} {B0 BA : Block} {A : List Nat} {t : Nat} (hset : ∀ BA' L', BA'.size = BA.size → Ents BA' L' → Near L' P → I (h.set arr BA'))
    (h0 : h.blk base = some B0) (hs0 : 24 ≤ B0.size) (ha : B0.rd 16 8 = arr) (hb : h.blk arr = some BA) (he : Ents BA A) (hi : Items h arr D P) (ht : t < A.length) (hp : A.Perm P) :
    wpI I (siftDown base 0 t) (fun out h' => out = .ok () ∧ ∃ BA' L', h' = h.set arr BA' ∧ BA'.size = BA.size ∧ Ents BA' L' ∧ L'.Perm P) h := by
  have := he.1
  unfold siftDown
  refine wpI_rd h0 (by omega) ?_
  rw [ha]
  refine wpI_rd hb (by omega) ?_
  rw [he.2 t ht]
  refine siftDownLoop_I hset _ (fun _ => rfl) rfl hb he hi ht (by omega) ?_ (fun a ha => hp.mem_iff.1 ha)
  have : A.set t (A.getD t 0) = A := by
    rw [List.getD_eq_getElem?_getD, List.getElem?_eq_getElem ht]; simp
  rw [this]; exact hp

theorem set_swap (h : Heap) {o o' : Nat} (b b' : Block) (hne : o ≠ o') : (h.set o b).set o' b' = (h.set o' b').set o b := by
  simp only [Heap.set, Heap.mk.injEq, and_true]
  funext x
  by_cases h1 : x = o'
  · subst h1; simp [hne.symm]
  · by_cases h2 : x = o
    · subst h2; simp [h1]
    · simp [h1, h2]

theorem set_self {h : Heap} {x : Nat} {B : Block} (hb : h.blk x = some B) : h.set x B = h := by
  cases h with
  | mk blk base =>
    simp only [Heap.set, Heap.mk.injEq, and_true]
    funext y
    split
    · rename_i e; subst e; exact hb.symm
    · rfl

theorem rightIsLeast_I {arr : Nat} {D : Nat → Bytes} {I : Heap → Prop} {h : Heap} {BA : Block} {A : List Nat} {t : Nat} (hb : h.blk arr = some BA) (he : Ents BA A)
    (hi : Items h arr D A) : wpI I (rightIsLeast arr A.length t) (fun out h' => (∃ c, out = .ok c ∧ (c = true → 2 * t + 2 < A.length)) ∧ h' = h) h := by
  have hsize := he.1
  unfold rightIsLeast
  by_cases hr : 2 * t + 2 < A.length
  · rw [if_pos hr]
    refine wpI_rd hb (by omega) ?_
    refine wpI_rd hb (by omega) ?_
    rw [he.2 _ (show 2 * t + 1 < A.length by omega), he.2 _ hr]
    obtain ⟨-, -, LB, hLB, -⟩ := hi _ (mem_getD (show 2 * t + 1 < A.length by omega))
    obtain ⟨-, -, RB, hRB, -⟩ := hi _ (mem_getD hr)
    refine wpI_bind_of (R := fun out h' => (∃ c, out = .ok c) ∧ h' = h) ?_ ?_ ?_
    · unfold less
      refine wpI_bsize hLB (wpI_bsize hRB ?_)
      have h1 : (if LB.size < RB.size then LB.size else RB.size) ≤ LB.size := by split <;> omega
      have h2 : (if LB.size < RB.size then LB.size else RB.size) ≤ RB.size := by split <;> omega
      exact wpI_rdB hLB (by omega) (wpI_rdB hRB (by omega) ⟨⟨_, rfl⟩, rfl⟩)
    · rintro c h' ⟨-, rfl⟩
      exact ⟨⟨_, rfl, fun _ => hr⟩, rfl⟩
    · rintro e h' ⟨⟨c, he⟩, -⟩; cases he
  · rw [if_neg hr]
    exact ⟨⟨false, rfl, fun h => by cases h⟩, rfl⟩

theorem siftUpLoop_I {base arr item : Nat} (hab : arr ≠ base) {D : Nat → Bytes} {I : Heap → Prop} {P : List Nat} {h0 : Heap} {sz : Nat} {B0 : Block} (hs0 : 24 ≤ B0.size) (hn : B0.rd 0 8 = P.length)
    (hI : ∀ BA' L', BA'.size = sz → Ents BA' L' → Near L' P → I (h0.set arr BA')) (fuel : Nat) :
    ∀ {h : Heap} {BA : Block} {A : List Nat} {t : Nat}, (∀ B, h.set arr B = h0.set arr B) → BA.size = sz → h.blk base = some B0 → h.blk arr = some BA → Ents BA A →
    Items h arr D P → t < A.length → A.length < t + fuel → (A.set t item).Perm P → (∀ a ∈ A, a ∈ P) →
    wpI I (siftUpLoop base arr fuel t) (fun out h' => ∃ t' BA' L', out = .ok t' ∧ h' = h0.set arr BA' ∧ BA'.size = sz ∧ Ents BA' L' ∧ t' < L'.length ∧ (L'.set t' item).Perm P ∧ ∀ a ∈ L', a ∈ P) h := by
  induction fuel with
  | zero => intro h BA A t _ _ _ _ _ _ _ hf; omega
  | succ f ih =>
    intro h BA A t hset hsz h0b hb he hi ht hf hperm hmem
    have hsize := he.1
    have hlen : P.length = A.length := by rw [← hperm.length_eq]; simp
    unfold siftUpLoop
    refine wpI_rd h0b (by omega) ?_
    rw [hn, hlen]
    by_cases hl : 2 * t + 1 < A.length
    · rw [if_pos hl]
      refine wpI_rd h0b (by omega) ?_
      rw [hn, hlen]
      refine wpI_bind_of (rightIsLeast_I hb he (hi.mono hmem)) ?_ ?_
      · rintro right h' ⟨⟨c, hc, hr⟩, rfl⟩
        injection hc with hc; subst hc
        have hc2 : (if right = true then 2 * t + 2 else 2 * t + 1) < A.length := by
          split
          · rename_i e; exact hr e
          · exact hl
        have hne : t ≠ (if right = true then 2 * t + 2 else 2 * t + 1) := by split <;> omega
        have hf' : A.length < (if right = true then 2 * t + 2 else 2 * t + 1) + f := by split <;> omega
        generalize (if right = true then 2 * t + 2 else 2 * t + 1) = c at hc2 hne hf' ⊢
        refine wpI_rd hb (by omega) ?_
        rw [he.2 _ hc2]
        have hcm := hmem _ (mem_getD hc2)
        obtain ⟨-, hclt, -⟩ := hi _ hcm
        have hperm' : ((A.set t (A.getD c 0)).set c item).Perm P := (set_getD_perm ht hc2 hne).trans hperm
        have hmem' : ∀ a ∈ A.set t (A.getD c 0), a ∈ P := by
          intro a ha
          rcases mem_set ha with ha | ha
          · rw [ha]; exact hcm
          · exact hmem a ha
        have hn' : Near (A.set t (A.getD c 0)) P :=
          near_hole hperm' (hmem' ((A.set t (A.getD c 0)).getD c 0) (mem_getD (by rw [List.length_set]; exact hc2)))
        refine wpI_wr hb (by omega) ?_ ?_
        · rw [hset]
          exact hI _ _ hsz (he.set hclt) hn'
        · exact ih (h := h'.set arr (BA.wr (8 * t) 8 (A.getD c 0))) (BA := BA.wr (8 * t) 8 (A.getD c 0)) (A := A.set t (A.getD c 0)) (fun B => by rw [Heap.set_set]; exact hset B) hsz (by rw [Heap.set_ne _ _ _ _ hab.symm]; exact h0b) (Heap.set_same _ _ _) (he.set hclt) (hi.set _) (by simpa using hc2)
            (by simpa using hf') hperm' hmem'
      · rintro e h' ⟨⟨c, he, -⟩, -⟩; cases he
    · rw [if_neg hl]
      exact ⟨t, BA, A, rfl, by rw [← hset, set_self hb], hsz, he, ht, hperm, hmem⟩

theorem siftUp_I {base arr : Nat} (hab : arr ≠ base) {D : Nat → Bytes} {I : Heap → Prop} {h : Heap} {B0 BA : Block} {A : List Nat} (hI : ∀ BA' L', BA'.size = BA.size → Ents BA' L' → Near L' A → I (h.set arr BA'))
    (h0 : h.blk base = some B0) (hs0 : 24 ≤ B0.size) (ha : B0.rd 16 8 = arr) (hn : B0.rd 0 8 = A.length) (hb : h.blk arr = some BA) (he : Ents BA A) (hi : Items h arr D A)
    (hA : 0 < A.length) :
    wpI I (siftUp base 0) (fun out h' => out = .ok () ∧ ∃ BA' L', h' = h.set arr BA' ∧ BA'.size = BA.size ∧ Ents BA' L' ∧ L'.Perm A) h := by
  have hsize := he.1
  unfold siftUp
  refine wpI_rd h0 (by omega) ?_
  rw [ha]
  refine wpI_rd hb (by omega) ?_
  rw [he.2 0 hA]
  refine wpI_rd h0 (by omega) ?_
  rw [hn]
  have e0 : A.set 0 (A.getD 0 0) = A := by
    rw [List.getD_eq_getElem?_getD, List.getElem?_eq_getElem hA]; simp
  refine wpI_bind_of (siftUpLoop_I (item := A.getD 0 0) hab hs0 hn hI (A.length + 1) (fun _ => rfl) rfl h0 hb he hi hA (by omega) (by rw [e0]) (fun a h => h)) ?_ ?_
  · rintro t h' ⟨t', BA', L', ht, rfl, hs, hE, ht', hp, hm⟩
    injection ht with ht; subst ht
    obtain ⟨-, hlt, -⟩ := hi _ (mem_getD hA)
    have hs' := hE.1
    refine wpI_wr (Heap.set_same _ _ _) (by omega) ?_ ?_
    · rw [Heap.set_set]
      exact hI _ _ hs (hE.set hlt) (near_perm hp hA)
    · rw [Heap.set_set]
      refine wpI_mono (fun _ h => h) ?_ (siftDown_I (P := A) (D := D) (t := t) (h := h.set arr (BA'.wr (8 * t) 8 (A.getD 0 0))) ?_ (by rw [Heap.set_ne _ _ _ _ hab.symm]; exact h0) hs0 ha (Heap.set_same _ _ _) (hE.set hlt) (hi.set _) (by simpa using ht') hp)
      · rintro o h' ⟨rfl, BA2, L2, rfl, k1, k2, k3⟩
        exact ⟨rfl, BA2, L2, by rw [Heap.set_set], by rw [k1]; exact hs, k2, k3⟩
      · intro B2 L2 k1 k2 k3
        rw [Heap.set_set]
        exact hI _ _ (by rw [k1]; exact hs) k2 k3
  · rintro e h' ⟨t', BA', L', ht, -⟩; cases ht

/-- the blocks of the queue -/
def own (base arr cap : Nat) (L lk : List Nat) (x : Nat) : Prop := x = base ∨ (cap ≠ 0 ∧ x = arr) ∨ x ∈ L ∨ x ∈ lk

/-- as `RepX`, but the entries need be neither distinct nor in heap order, and nothing is said about the other blocks -/
structure Shape (h : Heap) (base arr cap : Nat) (L : List Nat) (D : Nat → Bytes) (lk : List Nat) : Prop where
  blt : base < W64
  b0 : ∃ B0, h.blk base = some B0 ∧ B0.size = 24 ∧ B0.rd 0 8 = L.length ∧ B0.rd 8 8 = cap ∧ B0.rd 16 8 = arr
  array : (cap = 0 ∧ (arr = 0 ∨ ∃ B, h.blk arr = some B) ∧ L = [] ∧ lk = []) ∨
    (cap = 32 * 2 ^ lk.length ∧ arr ≠ base ∧ arr ≠ 0 ∧ arr % 8 = 0 ∧ arr < W64 ∧ arr ∉ lk ∧ ∃ BA, h.blk arr = some BA ∧ 8 * cap ≤ BA.size ∧ L.length ≤ cap ∧ Ents BA L)
  items : Items h arr D L
  al : ∀ a ∈ L, a % 8 = 0 ∧ a ≠ 0 ∧ a ≠ base ∧ a ∉ lk
  lks : ∀ x ∈ lk, ∃ B, h.blk x = some B
  lknd : lk.Nodup
  lkb : base ∉ lk

/-- the blocks `G` are there and are not the queue's -/
def Keeps (G : Nat → Option Block) (h : Heap) (base arr cap : Nat) (L lk : List Nat) : Prop :=
  ∀ x B, G x = some B → h.blk x = some B ∧ ¬ own base arr cap L lk x

variable {h h' : Heap} {base arr cap : Nat} {A L : List Nat} {D : Nat → Bytes} {lk : List Nat} {G : Nat → Option Block} {ex : Prop}

theorem RepX.shape (r : RepX ex h base arr cap A D lk G) : Shape h base arr cap A D lk := by
  refine ⟨r.blt, r.b0, ?_, r.items, r.al, ?_, r.lknd, r.lkb⟩
  · rcases r.array with ⟨h1, h2, h3, h4⟩ | ⟨h1, h2, h3, h4, h5, h6, BA, hBA, hs, hE⟩
    · exact Or.inl ⟨h1, h2.2, h3, h4⟩
    · exact Or.inr ⟨h1, h2, h3, h4, h5, h6, BA, hBA, hs.1, hs.2.1, hE⟩
  · intro x hx
    obtain ⟨i, hi, rfl⟩ := List.getElem_of_mem hx
    obtain ⟨B, hB, -⟩ := r.lks i hi
    exact ⟨B, hB⟩

theorem RepX.keeps (r : RepX ex h base arr cap A D lk G) : Keeps G h base arr cap A lk := by
  intro x B hx
  have := r.frame x
  by_cases ho : x = base ∨ (cap ≠ 0 ∧ x = arr) ∨ x ∈ A ∨ x ∈ lk
  · rw [if_pos ho, hx] at this; cases this
  · rw [if_neg ho, hx] at this; exact ⟨this.symm, ho⟩

open Classical in
/-- distinct entries in heap order: a queue again -/
theorem Shape.rep (s : Shape h base arr cap L D lk) (hk : Keeps G h base arr cap L lk) (hn : L.Nodup) (hh : IsHeap (ltD D) L) :
    ∃ G', (∀ x B, G x = some B → G' x = some B) ∧ RepX False h base arr cap L D lk G' := by
  refine ⟨fun x => if x = base ∨ (cap ≠ 0 ∧ x = arr) ∨ x ∈ L ∨ x ∈ lk then none else h.blk x, ?_, s.blt, s.b0, ?_, s.items, s.al, hn, hh, ?_, s.lknd, s.lkb, fun x => by congr⟩
  · intro x B hx
    obtain ⟨h1, h2⟩ := hk x B hx
    show (if _ then _ else _) = _
    rw [if_neg (show ¬ (x = base ∨ (cap ≠ 0 ∧ x = arr) ∨ x ∈ L ∨ x ∈ lk) from h2)]; exact h1
  · rcases s.array with ⟨h1, h2, h3, h4⟩ | ⟨h1, h2, h3, h4, h5, h6, BA, hBA, hs, hl, hE⟩
    · exact Or.inl ⟨h1, ⟨False.elim, h2⟩, h3, h4⟩
    · exact Or.inr ⟨h1, h2, h3, h4, h5, h6, BA, hBA, ⟨hs, hl, False.elim⟩, hE⟩
  · intro i hi
    obtain ⟨B, hB⟩ := s.lks _ (List.getElem_mem hi)
    exact ⟨B, hB, False.elim⟩

/-- new contents with the same array -/
theorem Shape.update (s : Shape h base arr cap L D lk) (hc : cap ≠ 0) {L' : List Nat} {D' : Nat → Bytes}
    (hb : ∃ B0, h'.blk base = some B0 ∧ B0.size = 24 ∧ B0.rd 0 8 = L'.length ∧ B0.rd 8 8 = cap ∧ B0.rd 16 8 = arr)
    (ha : ∃ BA, h'.blk arr = some BA ∧ 8 * cap ≤ BA.size ∧ L'.length ≤ cap ∧ Ents BA L')
    (hi : Items h' arr D' L') (hal : ∀ a ∈ L', a % 8 = 0 ∧ a ≠ 0 ∧ a ≠ base ∧ a ∉ lk) (hl : ∀ x ∈ lk, h'.blk x = h.blk x) : Shape h' base arr cap L' D' lk := by
  obtain ⟨e1, e2, e3, e4, e5, e6, -⟩ := s.array.resolve_left (fun h => hc h.1)
  exact ⟨s.blt, hb, Or.inr ⟨e1, e2, e3, e4, e5, e6, ha⟩, hi, hal, fun x hx => by rw [hl x hx]; exact s.lks x hx, s.lknd, s.lkb⟩

/-- a change in other blocks only -/
theorem Shape.other (s : Shape h base arr cap L D lk) (ho : ∀ x, own base arr cap L lk x → h'.blk x = h.blk x) (hz : cap = 0 → arr = 0 ∨ ∃ B, h'.blk arr = some B) : Shape h' base arr cap L D lk := by
  refine ⟨s.blt, ?_, ?_, ?_, s.al, ?_, s.lknd, s.lkb⟩
  · obtain ⟨B0, h1, h2⟩ := s.b0
    exact ⟨B0, by rw [ho base (Or.inl rfl)]; exact h1, h2⟩
  · rcases s.array with ⟨h1, h2, h3, h4⟩ | ⟨h1, h2, h3, h4, h5, h6, BA, hBA, hs, hl, hE⟩
    · exact Or.inl ⟨h1, hz h1, h3, h4⟩
    · have hc : cap ≠ 0 := by have := Nat.two_pow_pos lk.length; omega
      exact Or.inr ⟨h1, h2, h3, h4, h5, h6, BA, by rw [ho arr (Or.inr (Or.inl ⟨hc, rfl⟩))]; exact hBA, hs, hl, hE⟩
  · intro a ha
    obtain ⟨h1, h2, B, h3, h4⟩ := s.items a ha
    exact ⟨h1, h2, B, by rw [ho a (Or.inr (Or.inr (Or.inl ha)))]; exact h3, h4⟩
  · intro x hx
    rw [ho x (Or.inr (Or.inr (Or.inr hx)))]; exact s.lks x hx

/-- a fresh block, written at will, beside the queue -/
theorem Shape.extra (s : Shape h base arr cap L D lk) {o n : Nat} (hf : Fresh h o n) (B : Block) : Shape (h.set o B) base arr cap L D lk := by
  have hne : ∀ x C, h.blk x = some C → x ≠ o := by
    intro x C hx e; rw [e, hf.none] at hx; cases hx
  refine s.other ?_ ?_
  · intro x hx
    refine Heap.set_ne _ _ _ _ ?_
    rcases hx with rfl | ⟨hc, rfl⟩ | hx | hx
    · obtain ⟨B0, h1, -⟩ := s.b0; exact hne _ _ h1
    · rcases s.array with ⟨h1, -⟩ | ⟨-, -, -, -, -, -, BA, hBA, -⟩
      · exact absurd h1 hc
      · exact hne _ _ hBA
    · obtain ⟨-, -, B, h3, -⟩ := s.items x hx; exact hne _ _ h3
    · obtain ⟨B, h3⟩ := s.lks x hx; exact hne _ _ h3
  · intro hc
    rcases s.array with ⟨-, h2, -⟩ | ⟨h1, -⟩
    · exact h2.imp id fun ⟨_, hB⟩ => live_set hB
    · have := Nat.two_pow_pos lk.length; omega

theorem Keeps.extra (k : Keeps G h base arr cap L lk) {o n : Nat} (hf : Fresh h o n) (B : Block) : Keeps G (h.set o B) base arr cap L lk := by
  intro x C hx
  obtain ⟨h1, h2⟩ := k x C hx
  refine ⟨?_, h2⟩
  rw [Heap.set_ne _ _ _ _ (fun e => by rw [e, hf.none] at h1; cases h1)]; exact h1

theorem copyLoop_I {old new : Nat} {I : Heap → Prop} {B0 : Block} {h0 : Heap} {sz : Nat} (hs0 : 24 ≤ B0.size) (hn : B0.rd 0 8 = A.length) (hnb : new ≠ base) (hno : new ≠ old)
    (hI : ∀ BN', I (h0.set new BN')) (fuel : Nat) : ∀ {h : Heap} {BN : Block} {x : Nat}, (∀ B, h.set new B = h0.set new B) → h.blk base = some B0 → (0 < A.length → ∃ BA, h.blk old = some BA ∧ Ents BA A) →
    h.blk new = some BN → BN.size = sz → 8 * A.length ≤ sz → x ≤ A.length → A.length < x + fuel →
    wpI I (copyLoop base old new fuel x) (fun out h' => out = .ok () ∧ ∃ BN', h' = h0.set new BN' ∧ BN'.size = sz) h := by
  induction fuel with
  | zero => intro h BN x _ _ _ _ _ _ _ hf; omega
  | succ f ih =>
    intro h BN x hset h0' ho hN hsz hs hxl hf
    unfold copyLoop
    refine wpI_rd h0' (by omega) ?_
    rw [hn]
    by_cases hlt : x < A.length
    · rw [if_pos hlt]
      obtain ⟨BA, hBA, he⟩ := ho (by omega)
      have := he.1
      refine wpI_rd hBA (by omega) ?_
      rw [he.2 x hlt]
      refine wpI_wr hN (by omega) (by rw [hset]; exact hI _) ?_
      exact ih (h := h.set new (BN.wr (8 * x) 8 (A.getD x 0))) (BN := BN.wr (8 * x) 8 (A.getD x 0)) (x := x + 1) (fun B => by rw [Heap.set_set]; exact hset B) (by rw [Heap.set_ne _ _ _ _ hnb.symm]; exact h0')
        (fun _ => ⟨BA, by rw [Heap.set_ne _ _ _ _ hno.symm]; exact hBA, he⟩) (Heap.set_same _ _ _) hsz hs (by omega) (by omega)
    · rw [if_neg hlt]
      exact ⟨rfl, BN, by rw [← hset, set_self hN], hsz⟩

theorem wpI_and {α : Type} {I : Heap → Prop} {p : HProg α} {Q Q' : Out α → Heap → Prop} : ∀ {h}, wpI I p Q h → Verif.wp p Q' h → wpI I p (fun o h => Q o h ∧ Q' o h) h := by
  induction p with
  | ret a => exact fun h h' => ⟨h, h'⟩
  | err e => exact fun h h' => ⟨h, h'⟩
  | ub => exact fun h _ => h
  | step op k ih =>
    intro h hw hv
    cases op <;> simp only [wpI, Verif.wp] at hw hv ⊢
    case alloc n => exact ⟨hw.1, fun o d hf => ⟨(hw.2.1 o d hf).1, ih _ (hw.2.1 o d hf).2 (hv.2.1 o d hf)⟩, ih _ hw.2.2 hv.2.2⟩
    case getBase => exact ih _ hw hv
    case setBase => exact ⟨hw.1, hw.2.1, ih _ hw.2.2 hv.2⟩
    case free => obtain ⟨b, h1, hi, h2⟩ := hw; obtain ⟨b', h1', h2'⟩ := hv; cases h1.symm.trans h1'; exact ⟨b, h1, hi, ih _ h2 h2'⟩
    case bsize => obtain ⟨b, h1, h2⟩ := hw; obtain ⟨b', h1', h2'⟩ := hv; cases h1.symm.trans h1'; exact ⟨b, h1, ih _ h2 h2'⟩
    case rd | rdB => obtain ⟨b, h1, h2, h3⟩ := hw; obtain ⟨b', h1', h2', h3'⟩ := hv; cases h1.symm.trans h1'; exact ⟨b, h1, h2, ih _ h3 h3'⟩
    all_goals (obtain ⟨b, h1, h2, hi, h3⟩ := hw; obtain ⟨b', h1', h2', h3'⟩ := hv; cases h1.symm.trans h1'; exact ⟨b, h1, h2, hi, ih _ h3 h3'⟩)

/-- between the two stores of PriorityQueue.cc 78-79: the new array with the old capacity -/
theorem Shape.between (s : Shape h base arr cap A D lk) (k : Keeps G h base arr cap A lk) {B0 : Block} (h0 : h.blk base = some B0) {new n : Nat} {BN : Block}
    (hf : Fresh h new (8 * n)) (hs : BN.size = 8 * n) (hE : Ents BN A) (hcn : cap ≤ n) :
    Shape ((h.set new BN).set base (B0.wr 16 8 new)) base new cap A D lk ∧ Keeps G ((h.set new BN).set base (B0.wr 16 8 new)) base new cap A lk := by
  obtain ⟨B0', h0', hs0, hb1, hb2, hb3⟩ := s.b0
  rw [h0] at h0'; cases h0'
  have hlt := hf.lt
  have hne : ∀ x B, h.blk x = some B → x ≠ new := by
    intro x B hx e; rw [e, hf.none] at hx; cases hx
  have hnb : new ≠ base := fun e => hne base B0 h0 e.symm
  have hother : ∀ x, x ≠ base → x ≠ new → ((h.set new BN).set base (B0.wr 16 8 new)).blk x = h.blk x := by
    intro x h1 h2; rw [Heap.set_ne _ _ _ _ h1, Heap.set_ne _ _ _ _ h2]
  have hnew : ((h.set new BN).set base (B0.wr 16 8 new)).blk new = some BN := by rw [Heap.set_ne _ _ _ _ hnb, Heap.set_same]
  have hnl : new ∉ lk := fun hm => by obtain ⟨B, hB⟩ := s.lks new hm; exact hne new B hB rfl
  refine ⟨⟨s.blt, ⟨_, Heap.set_same _ _ _, hs0, ?_, ?_, ?_⟩, ?_, ?_, s.al, ?_, s.lknd, s.lkb⟩, ?_⟩
  · rw [Block.rd_wr_disj _ _ _ _ _ _ (by omega)]; exact hb1
  · rw [Block.rd_wr_disj _ _ _ _ _ _ (by omega)]; exact hb2
  · exact Block.rd_wr_same8 _ _ _ (by omega)
  · rcases s.array with ⟨h1, h2, h3, h4⟩ | ⟨h1, h2, h3, h4, h5, h6, BA, hBA, hs1, hl, hE1⟩
    · exact Or.inl ⟨h1, Or.inr ⟨BN, hnew⟩, h3, h4⟩
    · exact Or.inr ⟨h1, hnb, hf.pos, hf.align, by omega, hnl, BN, hnew, by omega, hl, hE⟩
  · intro a ha
    obtain ⟨h1, h2, B, hB, hd⟩ := s.items a ha
    exact ⟨hne a B hB, h2, B, by rw [hother a (s.al a ha).2.2.1 (hne a B hB)]; exact hB, hd⟩
  · intro x hx
    obtain ⟨B, hB⟩ := s.lks x hx
    exact ⟨B, by rw [hother x (fun e => s.lkb (e ▸ hx)) (hne x B hB)]; exact hB⟩
  · intro x B hx
    obtain ⟨k1, k2⟩ := k x B hx
    refine ⟨by rw [hother x (fun e => k2 (Or.inl e)) (hne x B k1)]; exact k1, ?_⟩
    rintro (e | ⟨-, e⟩ | e | e)
    · exact k2 (Or.inl e)
    · exact hne x B k1 e
    · exact k2 (Or.inr (Or.inr (Or.inl e)))
    · exact k2 (Or.inr (Or.inr (Or.inr e)))

theorem growArray_I {I : Heap → Prop} (hk : HeapOk h) (r : RepX False h base arr cap A D lk G)
    (hI : ∀ h' arr' cap' lk', Shape h' base arr' cap' A D lk' → Keeps G h' base arr' cap' A lk' → I h') :
    wpI I (growArray base) (fun out h' => (out = .err .noMem ∧ h' = h) ∨
      (out = .ok () ∧ ∃ arr' cap' lk', RepX False h' base arr' cap' A D lk' G ∧ A.length < cap')) h := by
  suffices hw : wpI I (growArray base) (fun _ _ => True) h from wpI_mono (fun _ h => h) (fun _ _ h => h.2) (wpI_and hw (growArray_spec hk r))
  obtain ⟨B0, h0, hs0, hb1, hb2, hb3⟩ := r.b0
  have hA : ∀ a ∈ A, a < W64 := fun a ha => (r.items a ha).2.1
  have grow : ∀ n, n = 32 * 2 ^ (if cap = 0 then 0 else lk.length + 1) → n * 8 ≤ maxAlloc → A.length < n → cap ≤ n → ∀ new d, Fresh h new (n * 8) →
      I (h.set new ⟨n * 8, d⟩) ∧ wpI I ((H.rd64 base 16).bind fun old => if new ≠ old then
          (H.rd64 base 0).bind fun m => (copyLoop base old new (m + 1) 0).bind fun _ => (H.wr64 base 16 new).bind fun _ => H.wr64 base 8 n
        else Prog.ret ())
        (fun _ _ => True)
        (h.set new ⟨n * 8, d⟩) := by
    intro n hn hmax hlt hcn new d hf
    have hnb : new ≠ base := by
      intro e; have := hf.none; rw [e, h0] at this; cases this
    have hna : new ≠ arr := by
      rcases r.array with ⟨-, h2, -⟩ | ⟨-, -, -, -, -, -, BA, hBA, -⟩
      · rcases h2.2 with h2 | ⟨B, hB⟩
        · rw [h2]; exact hf.pos
        · intro e; have := hf.none; rw [e, hB] at this; cases this
      · intro e; have := hf.none; rw [e, hBA] at this; cases this
    have hIn : ∀ B, I (h.set new B) := fun B => hI _ _ _ _ (r.shape.extra hf B) (r.keeps.extra hf B)
    have ho : 0 < A.length → ∃ BA, (h.set new ⟨n * 8, d⟩).blk arr = some BA ∧ Ents BA A := by
      intro hpos
      rcases r.array with ⟨-, -, h3, -⟩ | ⟨-, -, -, -, -, -, BA, hBA, -, hE⟩
      · rw [h3] at hpos; simp at hpos
      · exact ⟨BA, by rw [Heap.set_ne _ _ _ _ hna.symm]; exact hBA, hE⟩
    refine ⟨hIn _, ?_⟩
    refine wpI_rd (B := B0) (by rw [Heap.set_ne _ _ _ _ hnb.symm]; exact h0) (by omega) ?_
    rw [hb3, if_pos hna]
    refine wpI_rd (B := B0) (by rw [Heap.set_ne _ _ _ _ hnb.symm]; exact h0) (by omega) ?_
    rw [hb1]
    refine wpI_bind_of (wpI_and
      (copyLoop_I (B0 := B0) (A := A) (h0 := h) (sz := n * 8) (by omega) hb1 hnb hna hIn (A.length + 1) (h := h.set new ⟨n * 8, d⟩) (fun B => by rw [Heap.set_set]) (by rw [Heap.set_ne _ _ _ _ hnb.symm]; exact h0)
        ho (Heap.set_same _ _ _) rfl (by omega) (by omega) (by omega))
      (copyLoop_spec (B0 := B0) (A := A) (by omega) hb1 hnb hna hA (A.length + 1) (by rw [Heap.set_ne _ _ _ _ hnb.symm]; exact h0) ho
        (Heap.set_same _ _ _) (by show _ ≤ n * 8; omega) (by intro i hi; omega) (by omega) (by omega))) ?_ ?_
    · rintro _ h' ⟨-, -, BN, rfl, hs, hE⟩
      simp only [Heap.set_set]
      have hs' : BN.size = 8 * n := by rw [hs]; exact Nat.mul_comm _ _
      have hf' : Fresh h new (8 * n) := by rw [Nat.mul_comm]; exact hf
      refine wpI_wr (B := B0) (by rw [Heap.set_ne _ _ _ _ hnb.symm]; exact h0) (by omega) ?_ ?_
      · obtain ⟨k1, k2⟩ := Shape.between r.shape r.keeps h0 hf' hs' hE hcn
        exact hI _ _ _ _ k1 k2
      · refine ⟨_, Heap.set_same _ _ _, by show _ ≤ B0.size; omega, ?_, trivial⟩
        have := swap_array r h0 hf' hn hs' hE (by omega)
        exact hI _ _ _ _ this.shape this.keeps
    · rintro e h' ⟨⟨he, -⟩, -⟩; cases he
  unfold growArray pickArray
  simp only [Prog.bind_def, Prog.bind_assoc, Prog.pure_def]
  refine wpI_rd h0 (by omega) ?_
  rw [hb2]
  by_cases hc : cap = 0
  · rw [if_pos hc]
    simp only [Prog.bind_assoc, Prog.ret_bind]
    have hA0 : A = [] := by
      rcases r.array with ⟨-, -, h3, -⟩ | ⟨h1, -⟩
      · exact h3
      · rw [hc] at h1; have := Nat.two_pow_pos lk.length; omega
    refine wpI_alloc (by decide) ?_ trivial
    intro o d hf
    exact grow 32 (by simp [hc]) (by decide) (by rw [hA0]; decide) (by omega) o d hf
  · rw [if_neg hc]
    simp only [Prog.bind_assoc]
    refine wpI_rd h0 (by omega) ?_
    rw [hb1]
    obtain ⟨e1, e2, -, -, -, -, BA, hBA, e5, hE⟩ := r.array.resolve_left (fun h => hc h.1)
    by_cases hcn : cap = A.length
    · rw [if_pos hcn]
      simp only [Prog.bind_assoc, Prog.ret_bind]
      refine wpI_alloc (r.cap_small hk hcn) ?_ trivial
      intro o d hf
      refine grow (cap * 2) ?_ (r.cap_small hk hcn) (by omega) (by omega) o d hf
      rw [if_neg hc, Nat.pow_succ, e1]; omega
    · rw [if_neg hcn]
      simp only [Prog.bind_assoc, Prog.ret_bind]
      refine wpI_rd h0 (by omega) ?_
      refine wpI_rd h0 (by omega) ?_
      rw [if_neg (by simp)]
      exact trivial

theorem push_I {I : Heap → Prop} (hk : HeapOk h) (r : RepX False h base arr cap A D lk G) {data : Bytes} (hd : data.length ≤ maxAlloc)
    (hI : ∀ h' arr' cap' lk', Shape h' base arr' cap' A D lk' → Keeps G h' base arr' cap' A lk' → I h')
    (hI2 : ∀ h' arr' cap' lk' item L', item ∉ A → Shape h' base arr' cap' L' (fun x => if x = item then data else D x) lk' → Keeps G h' base arr' cap' L' lk' → Near L' (A ++ [item]) → I h') :
    wpI I (push base data) (fun _ _ => True) h := by
  unfold push
  refine wpI_bind_of (growArray_I hk r hI) ?_ ?_
  rotate_left
  · exact fun _ _ _ => trivial
  rintro _ h1 (⟨he, -⟩ | ⟨-, arr1, cap1, lk1, r1, hroom⟩)
  · cases he
  have hc : cap1 ≠ 0 := by omega
  obtain ⟨B0, h0, hs0, hb1, hb2, hb3⟩ := r1.b0
  obtain ⟨e1, e2, e3, e4, e5, e6, BA, hBA, e7, hE⟩ := r1.array.resolve_left (fun h => hc h.1)
  refine wpI_alloc hd ?_ trivial
  intro item d hf
  refine ⟨hI _ _ _ _ (r1.shape.extra hf _) (r1.keeps.extra hf _), ?_⟩
  have hne : ∀ x B, h1.blk x = some B → x ≠ item := by
    intro x B hx e; rw [e, hf.none] at hx; cases hx
  have hib : base ≠ item := hne _ _ h0
  have hia : arr1 ≠ item := hne _ _ hBA
  have hiA : item ∉ A := by
    intro hm; obtain ⟨-, -, B, hB, -⟩ := r1.items _ hm; exact hne _ _ hB rfl
  have hiL : item ∉ lk1 := by
    intro hm
    obtain ⟨B, hB⟩ := r1.shape.lks _ hm
    exact hne _ _ hB rfl
  have hilt := hf.lt
  refine wpI_wrB (Heap.set_same _ _ _) (by show _ ≤ data.length; omega) ?_ ?_
  · rw [Heap.set_set]
    exact hI _ _ _ _ (r1.shape.extra hf _) (r1.keeps.extra hf _)
  rw [Heap.set_set]
  generalize hIB : Block.wrB ⟨data.length, d⟩ 0 data = IB
  have hIBs : IB.size = data.length := by rw [← hIB]; rfl
  have hIBb : IB.bytes = data := by
    unfold Block.bytes; rw [hIBs, ← hIB]; exact Block.rdB_wrB_same' _ _ _ _ rfl
  refine wpI_rd (B := B0) (by rw [Heap.set_ne _ _ _ _ hib]; exact h0) (by omega) ?_
  refine wpI_rd (B := B0) (by rw [Heap.set_ne _ _ _ _ hib]; exact h0) (by omega) ?_
  rw [hb3, hb1]
  have hlen : A.length + 1 < W64 := by
    have h3 := B0.rd8_lt 8
    rw [hb2] at h3
    omega
  generalize hBA1 : BA.wr (8 * A.length) 8 item = BA1
  have hBA1s : BA1.size = BA.size := by rw [← hBA1]; rfl
  have hE1 : Ents BA1 (A ++ [item]) := by
    have h2 : Ents BA1 ((A ++ [0]).set A.length item) := by
      rw [← hBA1]
      refine ⟨by simp; omega, ?_⟩
      intro i hi
      simp only [List.length_set, List.length_append, List.length_singleton] at hi
      rw [getD_set]
      by_cases e : i = A.length
      · subst e; simp only [true_and, List.length_append, List.length_singleton, Nat.lt_succ_self, if_true]
        exact Block.rd_wr_same8 _ _ _ (by omega)
      · simp only [e, false_and, if_false]
        rw [Block.rd_wr_disj _ _ _ _ _ _ (by omega), hE.2 i (by omega)]
        simp only [List.getD_eq_getElem?_getD, List.getElem?_append_left (show i < A.length by omega)]
    have e : List.set (A ++ [0]) A.length item = A ++ [item] := by rw [List.set_append_right _ _ (Nat.le_refl _)]; simp
    rwa [e] at h2
  have hE0 : Ents BA1 A := by
    have := hE1.take A.length
    rwa [List.take_left' rfl] at this
  have hlt : ∀ a ∈ A, a ≠ item := fun a ha e => hiA (e ▸ ha)
  have hlkne : ∀ x ∈ lk1, x ≠ base ∧ x ≠ arr1 ∧ x ≠ item := fun x hx => ⟨fun e => r1.lkb (e ▸ hx), fun e => e6 (e ▸ hx), fun e => hiL (e ▸ hx)⟩
  refine wpI_wr (B := BA) (by rw [Heap.set_ne _ _ _ _ hia]; exact hBA) (by omega) ?_ ?_
  · rw [hBA1]
    refine hI _ arr1 cap1 lk1 (r1.shape.update hc ⟨B0, ?_, hs0, hb1, hb2, hb3⟩ ⟨BA1, Heap.set_same _ _ _, by omega, by omega, hE0⟩ ?_ r1.al ?_) ?_
    · rw [Heap.set_ne _ _ _ _ e2.symm, Heap.set_ne _ _ _ _ hib]; exact h0
    · intro a ha
      obtain ⟨k1, k2, B, hB, hd⟩ := r1.items a ha
      exact ⟨k1, k2, B, by rw [Heap.set_ne _ _ _ _ k1, Heap.set_ne _ _ _ _ (hlt a ha)]; exact hB, hd⟩
    · intro x hx
      rw [Heap.set_ne _ _ _ _ (hlkne x hx).2.1, Heap.set_ne _ _ _ _ (hlkne x hx).2.2]
    · intro x B hx
      obtain ⟨k1, k2⟩ := r1.keeps x B hx
      refine ⟨?_, k2⟩
      rw [Heap.set_ne _ _ _ _ (fun e => k2 (Or.inr (Or.inl ⟨hc, e⟩))), Heap.set_ne _ _ _ _ (hne x B k1)]; exact k1
  rw [hBA1]
  refine wpI_rd (B := B0) (by rw [Heap.set_ne _ _ _ _ e2.symm, Heap.set_ne _ _ _ _ hib]; exact h0) (by omega) ?_
  rw [hb1]
  generalize hB1 : B0.wr 0 8 (A.length + 1) = B1
  have hb1' : B1.rd 0 8 = A.length + 1 ∧ B1.rd 8 8 = cap1 ∧ B1.rd 16 8 = arr1 ∧ B1.size = 24 := by
    rw [← hB1]
    refine ⟨Block.rd_wr_same8 _ _ _ hlen, ?_, ?_, hs0⟩
    · rw [Block.rd_wr_disj _ _ _ _ _ _ (by omega)]; exact hb2
    · rw [Block.rd_wr_disj _ _ _ _ _ _ (by omega)]; exact hb3
  have hI0 : Items (((h1.set item IB).set arr1 BA1).set base B1) arr1 (fun x => if x = item then data else D x) (A ++ [item]) := by
    intro a ha
    rcases List.mem_append.1 ha with ha | ha
    · obtain ⟨k1, k2, B, hB, hd⟩ := r1.items a ha
      refine ⟨k1, k2, B, ?_, by simp only [if_neg (hlt a ha)]; exact hd⟩
      rw [Heap.set_ne _ _ _ _ (r1.al a ha).2.2.1, Heap.set_ne _ _ _ _ k1, Heap.set_ne _ _ _ _ (hlt a ha)]; exact hB
    · rw [List.mem_singleton] at ha
      subst ha
      refine ⟨hia.symm, by omega, IB, ?_, by simp only [if_true]; exact hIBb⟩
      rw [Heap.set_ne _ _ _ _ hib.symm, Heap.set_ne _ _ _ _ hia.symm, Heap.set_same]
  have hal : ∀ a ∈ A ++ [item], a % 8 = 0 ∧ a ≠ 0 ∧ a ≠ base ∧ a ∉ lk1 := by
    intro a ha
    rcases List.mem_append.1 ha with ha | ha
    · exact r1.al a ha
    · rw [List.mem_singleton] at ha; subst ha
      exact ⟨hf.align, hf.pos, hib.symm, hiL⟩
  have final : ∀ BA' L', BA'.size = BA1.size → Ents BA' L' → Near L' (A ++ [item]) → I ((((h1.set item IB).set arr1 BA1).set base B1).set arr1 BA') := by
    intro BA' L' k1 k2 k3
    have hl : L'.length = A.length + 1 := by rw [k3.length]; simp
    refine hI2 _ arr1 cap1 lk1 item L' hiA (r1.shape.update hc ⟨B1, ?_, hb1'.2.2.2, by rw [hb1'.1, hl], hb1'.2.1, hb1'.2.2.1⟩ ⟨BA', Heap.set_same _ _ _, by omega, by omega, k2⟩ ?_ ?_ ?_) ?_ k3
    · rw [Heap.set_ne _ _ _ _ e2.symm, Heap.set_same]
    · exact (hI0.set _).mono fun a ha => k3.mem ha
    · exact fun a ha => hal a (k3.mem ha)
    · intro x hx
      obtain ⟨n1, n2, n3⟩ := hlkne x hx
      rw [Heap.set_ne _ _ _ _ n2, Heap.set_ne _ _ _ _ n1, Heap.set_ne _ _ _ _ n2, Heap.set_ne _ _ _ _ n3]
    · intro x B hx
      obtain ⟨q1, q2⟩ := r1.keeps x B hx
      have n1 : x ≠ base := fun e => q2 (Or.inl e)
      have n2 : x ≠ arr1 := fun e => q2 (Or.inr (Or.inl ⟨hc, e⟩))
      have n3 := hne x B q1
      refine ⟨by rw [Heap.set_ne _ _ _ _ n2, Heap.set_ne _ _ _ _ n1, Heap.set_ne _ _ _ _ n2, Heap.set_ne _ _ _ _ n3]; exact q1, ?_⟩
      rintro (e | ⟨-, e⟩ | e | e)
      · exact n1 e
      · exact n2 e
      · rcases List.mem_append.1 (k3.mem e) with e | e
        · exact q2 (Or.inr (Or.inr (Or.inl e)))
        · exact n3 (List.mem_singleton.1 e)
      · exact q2 (Or.inr (Or.inr (Or.inr e)))
  refine wpI_wr (B := B0) (by rw [Heap.set_ne _ _ _ _ e2.symm, Heap.set_ne _ _ _ _ hib]; exact h0) (by omega) ?_ ?_
  · rw [hB1]
    have := final BA1 (A ++ [item]) rfl hE1 (near_perm (.refl _) (by simp))
    rwa [set_self (by rw [Heap.set_ne _ _ _ _ e2, Heap.set_same])] at this
  rw [hB1]
  refine wpI_rd (Heap.set_same _ _ _) (by omega) ?_
  rw [hb1'.1, Nat.add_sub_cancel]
  refine wpI_mono (fun _ h => h) (fun _ _ _ => trivial) (siftDown_I (D := fun x => if x = item then data else D x) (A := A ++ [item]) (P := A ++ [item]) (t := A.length) final (Heap.set_same _ _ _) (by omega) hb1'.2.2.1
    (by rw [Heap.set_ne _ _ _ _ e2, Heap.set_same]) hE1 hI0 (by simp) (.refl _))

theorem Keeps.del (k : Keeps G h base arr cap L lk) {o : Nat} (ho : G o = none) : Keeps G (h.del o) base arr cap L lk := by
  intro x B hx
  obtain ⟨h1, h2⟩ := k x B hx
  exact ⟨by rw [Heap.del_ne _ _ _ (fun e => by rw [e, ho] at hx; cases hx)]; exact h1, h2⟩

theorem RepX.foreign (r : RepX ex h base arr cap A D lk G) {a : Nat} (ha : a ∈ A) : G a = none := by
  rw [r.frame a, if_pos (Or.inr (Or.inr (Or.inl ha)))]

/-- what the entries may be when a process dies in pop -/
def PopCut (A : List Nat) (D : Nat → Bytes) (L : List Nat) : Prop :=
  (2 ≤ A.length ∧ Near L A) ∨ ∃ o A1, A.Perm (o :: A1) ∧ (∀ a ∈ A, ltD D a o = false) ∧ ((2 ≤ A.length ∧ Near L A1) ∨ (L.Perm A1 ∧ L.Nodup ∧ IsHeap (ltD D) L))

theorem pop_I {I : Heap → Prop} (r : RepX False h base arr cap A D lk G)
    (hI : ∀ h' L', Shape h' base arr cap L' D lk → Keeps G h' base arr cap L' lk → PopCut A D L' → I h') :
    wpI I (pop base) (fun _ _ => True) h := by
  obtain ⟨B0, h0, hs0, hb1, hb2, hb3⟩ := r.b0
  unfold pop
  refine wpI_rd h0 (by omega) ?_
  rw [hb1]
  by_cases hA0 : A.length = 0
  · rw [if_pos hA0]
    exact trivial
  rw [if_neg hA0]
  have hc : cap ≠ 0 := by
    intro hc
    rcases r.array with ⟨-, -, h, -⟩ | ⟨h, -⟩
    · rw [h] at hA0; simp at hA0
    · have := Nat.two_pow_pos lk.length; omega
  obtain ⟨e1, e2, e3, e4, e5, e6, BA, hBA, e7, hE⟩ := r.array.resolve_left (fun h => hc h.1)
  have hE1 := hE.1
  have hom : A.getD 0 0 ∈ A := mem_getD (by omega)
  have hmin : ∀ a ∈ A, ltD D a (A.getD 0 0) = false := by
    intro a ha
    obtain ⟨i, hi, rfl⟩ := List.getElem_of_mem ha
    have := heap_min (ltD_ord D) r.heap i hi
    rwa [List.getD_eq_getElem?_getD, List.getElem?_eq_getElem hi] at this
  have hr0 := hE.2 0 (by omega)
  have ho : A.getD 0 0 = A.getD 0 0 := rfl
  generalize A.getD 0 0 = o at hom hmin hr0 ho
  obtain ⟨hoa, -, OB, hOB, hOD⟩ := r.items o hom
  obtain ⟨-, -, hob, hol⟩ := r.al o hom
  have hG := r.foreign hom
  have hlkne : ∀ x ∈ lk, x ≠ base ∧ x ≠ arr ∧ x ≠ o := fun x hx => ⟨fun e => r.lkb (e ▸ hx), fun e => e6 (e ▸ hx), fun e => hol (e ▸ hx)⟩
  -- the state with a new base object and a new array
  have keep : ∀ B1 BA1 L', (∀ a ∈ L', a ∈ A) → Keeps G ((h.set arr BA1).set base B1) base arr cap L' lk := by
    intro B1 BA1 L' hm x B hx
    obtain ⟨q1, q2⟩ := r.keeps x B hx
    refine ⟨?_, ?_⟩
    · rw [Heap.set_ne _ _ _ _ (fun e => q2 (Or.inl e)), Heap.set_ne _ _ _ _ (fun e => q2 (Or.inr (Or.inl ⟨hc, e⟩)))]; exact q1
    · rintro (e | e | e | e)
      · exact q2 (Or.inl e)
      · exact q2 (Or.inr (Or.inl e))
      · exact q2 (Or.inr (Or.inr (Or.inl (hm x e))))
      · exact q2 (Or.inr (Or.inr (Or.inr e)))
  have items : ∀ B1 BA1 L', (∀ a ∈ L', a ∈ A) → Items ((h.set arr BA1).set base B1) arr D L' := by
    intro B1 BA1 L' hm a ha
    obtain ⟨k1, k2, B, hB, hd⟩ := r.items a (hm a ha)
    exact ⟨k1, k2, B, by rw [Heap.set_ne _ _ _ _ (r.al a (hm a ha)).2.2.1, Heap.set_ne _ _ _ _ k1]; exact hB, hd⟩
  have shape : ∀ B1 BA1 L', (∀ a ∈ L', a ∈ A) → L'.length ≤ A.length → B1.size = 24 → B1.rd 0 8 = L'.length → B1.rd 8 8 = cap → B1.rd 16 8 = arr → BA1.size = BA.size → Ents BA1 L' →
      Shape ((h.set arr BA1).set base B1) base arr cap L' D lk := by
    intro B1 BA1 L' hm hl k1 k2 k3 k4 k5 k6
    refine r.shape.update hc ⟨B1, Heap.set_same _ _ _, k1, k2, k3, k4⟩ ⟨BA1, by rw [Heap.set_ne _ _ _ _ e2, Heap.set_same], by omega, by omega, k6⟩ (items _ _ _ hm) (fun a ha => r.al a (hm a ha)) ?_
    intro x hx
    rw [Heap.set_ne _ _ _ _ (hlkne x hx).1, Heap.set_ne _ _ _ _ (hlkne x hx).2.1]
  -- the same after the item has been freed
  have shapeDel : ∀ B1 BA1 L', (∀ a ∈ L', a ∈ A) → o ∉ L' → L'.length ≤ A.length → B1.size = 24 → B1.rd 0 8 = L'.length → B1.rd 8 8 = cap → B1.rd 16 8 = arr → BA1.size = BA.size → Ents BA1 L' →
      Shape (((h.set arr BA1).set base B1).del o) base arr cap L' D lk := by
    intro B1 BA1 L' hm hoL hl k1 k2 k3 k4 k5 k6
    refine (shape B1 BA1 L' hm hl k1 k2 k3 k4 k5 k6).other ?_ (fun h => absurd h hc)
    intro x hx
    refine Heap.del_ne _ _ _ ?_
    rintro rfl
    rcases hx with e | ⟨-, e⟩ | e | e
    exacts [hob e, hoa e, hoL e, hol e]
  have take : ∀ (h2 : Heap), h2.blk o = some OB → I (h2.del o) → wpI I (takeItem o) (fun _ _ => True) h2 := by
    intro h2 hb hi
    unfold takeItem
    exact wpI_bsize hb (wpI_rdB hb (by omega) (wpI_free hb hi trivial))
  have hself : h.set arr BA = h := set_self hBA
  by_cases hA1 : A.length = 1
  · rw [if_pos hA1]
    have hA : A = [o] := by
      match A, hA1, hom with
      | [a], _, hm => rw [List.mem_singleton] at hm; rw [hm]
    refine wpI_rd h0 (by omega) ?_
    rw [hb3]
    refine wpI_rd hBA (by omega) ?_
    have hr0' : BA.rd 0 8 = o := hr0
    rw [hr0']
    have cut : PopCut A D [] := Or.inr ⟨o, [], by rw [hA], hmin, Or.inr ⟨.refl _, .nil, fun i _ hi => by simp at hi⟩⟩
    have hb1' : (B0.wr 0 8 0).rd 0 8 = 0 ∧ (B0.wr 0 8 0).rd 8 8 = cap ∧ (B0.wr 0 8 0).rd 16 8 = arr ∧ (B0.wr 0 8 0).size = 24 := by
      refine ⟨Block.rd_wr_same8 _ _ _ (by decide), ?_, ?_, hs0⟩
      · rw [Block.rd_wr_disj _ _ _ _ _ _ (by omega)]; exact hb2
      · rw [Block.rd_wr_disj _ _ _ _ _ _ (by omega)]; exact hb3
    have k0 : ∀ a ∈ ([] : List Nat), a ∈ A := by intro a ha; cases ha
    have s1 := shape (B0.wr 0 8 0) BA [] k0 (by simp) hb1'.2.2.2 hb1'.1 hb1'.2.1 hb1'.2.2.1 rfl (by simp [Ents])
    have s2 := shapeDel (B0.wr 0 8 0) BA [] k0 (by simp) (by simp) hb1'.2.2.2 hb1'.1 hb1'.2.1 hb1'.2.2.1 rfl (by simp [Ents])
    have s3 := keep (B0.wr 0 8 0) BA [] k0
    rw [hself] at s1 s2 s3
    refine wpI_wr h0 (by omega) (hI _ _ s1 s3 cut) ?_
    exact take _ (by rw [Heap.set_ne _ _ _ _ hob]; exact hOB) (hI _ _ s2 (s3.del hG) cut)
  · rw [if_neg hA1]
    have h2 : 2 ≤ A.length := by omega
    obtain ⟨q1, q2⟩ := replace_perm h2
    refine wpI_rd h0 (by omega) ?_
    rw [hb3]
    refine wpI_rd hBA (by omega) ?_
    have hr0' : BA.rd 0 8 = o := hr0
    rw [hr0']
    refine wpI_rd h0 (by omega) ?_
    rw [hb1]
    refine wpI_rd hBA (by omega) ?_
    rw [hE.2 _ (by omega)]
    have hlm : A.getD (A.length - 1) 0 ∈ A := mem_getD (by omega)
    have ho2 : A.getD 0 0 = o := by rw [← hE.2 0 (by omega)]; exact hr0
    rw [ho2] at q1
    have hEs := hE.set (t := 0) (r.items _ hlm).2.1
    have hEl := hEs.take (A.length - 1)
    have hmS : ∀ a ∈ A.set 0 (A.getD (A.length - 1) 0), a ∈ A := by
      intro a ha
      rcases mem_set ha with ha | ha
      · rw [ha]; exact hlm
      · exact ha
    have hnS : Near (A.set 0 (A.getD (A.length - 1) 0)) A := ⟨A, 0, _, .refl _, hlm, rfl⟩
    refine wpI_wr hBA (by omega) ?_ ?_
    · have s1 := shape B0 (BA.wr (8 * 0) 8 (A.getD (A.length - 1) 0)) (A.set 0 (A.getD (A.length - 1) 0)) hmS (by simp) hs0 (by rw [hb1]; simp) hb2 hb3 rfl hEs
      have s2 := keep B0 (BA.wr (8 * 0) 8 (A.getD (A.length - 1) 0)) (A.set 0 (A.getD (A.length - 1) 0)) hmS
      rw [set_self (h := h.set arr _) (x := base) (by rw [Heap.set_ne _ _ _ _ e2.symm]; exact h0)] at s1 s2
      exact hI _ _ s1 s2 (Or.inl ⟨h2, hnS⟩)
    generalize hA1' : (A.set 0 (A.getD (A.length - 1) 0)).take (A.length - 1) = A1 at q1 q2 hEl
    have hl1 : A1.length = A.length - 1 := by have := q1.length_eq; simp at this; omega
    refine wpI_rd (B := B0) (by rw [Heap.set_ne _ _ _ _ e2.symm]; exact h0) (by omega) ?_
    rw [hb1]
    generalize hlast : A.getD (A.length - 1) 0 = last at hlm hEl hA1'
    rw [← hl1]
    have hlW : A1.length < W64 := by have := B0.rd8_lt 0; omega
    generalize hBA1 : BA.wr 0 8 last = BA1
    generalize hB1 : B0.wr 0 8 A1.length = B1
    have hBA1s : BA1.size = BA.size := by rw [← hBA1]; rfl
    have hb1' : B1.rd 0 8 = A1.length ∧ B1.rd 8 8 = cap ∧ B1.rd 16 8 = arr ∧ B1.size = 24 := by
      rw [← hB1]
      refine ⟨Block.rd_wr_same8 _ _ _ hlW, ?_, ?_, hs0⟩
      · rw [Block.rd_wr_disj _ _ _ _ _ _ (by omega)]; exact hb2
      · rw [Block.rd_wr_disj _ _ _ _ _ _ (by omega)]; exact hb3
    have hE2 : Ents BA1 A1 := by
      rw [← hBA1]; exact hEl
    have hmA : ∀ a ∈ A1, a ∈ A := fun a ha => q1.mem_iff.2 (List.mem_cons_of_mem _ ha)
    have hnd1 : (o :: A1).Nodup := q1.nodup_iff.1 r.nodup
    have hoA1 : o ∉ A1 := (List.nodup_cons.1 hnd1).1
    have final : ∀ BA' L', BA'.size = BA1.size → Ents BA' L' → Near L' A1 → I (((h.set arr BA1).set base B1).set arr BA') := by
      intro BA' L' k1 k2 k3
      have hm : ∀ a ∈ L', a ∈ A := fun a ha => hmA a (k3.mem ha)
      have hcomm : ((h.set arr BA1).set base B1).set arr BA' = (h.set arr BA').set base B1 := by
        rw [set_swap _ _ _ e2.symm, Heap.set_set]
      rw [hcomm]
      exact hI _ L' (shape _ _ _ hm (by rw [k3.length]; omega) hb1'.2.2.2 (by rw [hb1'.1, k3.length]) hb1'.2.1 hb1'.2.2.1 (by omega) k2) (keep _ _ _ hm) (Or.inr ⟨o, A1, q1, hmin, Or.inl ⟨h2, k3⟩⟩)
    refine wpI_wr (B := B0) (by rw [Heap.set_ne _ _ _ _ e2.symm]; exact h0) (by omega) ?_ ?_
    · rw [hB1]
      have := final BA1 A1 rfl hE2 (near_perm (.refl _) (by omega))
      rwa [set_self (by rw [Heap.set_ne _ _ _ _ e2, Heap.set_same])] at this
    rw [hB1]
    have hIA := items B1 BA1 A1 hmA
    refine wpI_bind_of (wpI_and (siftUp_I (D := D) (A := A1) e2 final (Heap.set_same _ _ _) (by omega) hb1'.2.2.1 hb1'.1 (by rw [Heap.set_ne _ _ _ _ e2, Heap.set_same]) hE2 hIA (by omega))
      (siftUp_spec (D := D) (A := A1) e2 (Heap.set_same _ _ _) (by omega) hb1'.2.2.1 hb1'.1 (by rw [Heap.set_ne _ _ _ _ e2, Heap.set_same]) hE2 hIA (by omega) ?_)) ?_ ?_
    · intro i hi0 hi hp
      rw [hl1] at hi
      rw [q2 i hi0 hi, q2 _ (by omega) (by omega)]
      exact r.heap i hi0 (by omega)
    · rintro _ h' ⟨-, -, BA', A', rfl, hs', hE', hh', hp'⟩
      have hmA' : ∀ a ∈ A', a ∈ A := fun a ha => hmA a (hp'.mem_iff.1 ha)
      have hoA' : o ∉ A' := fun hm => hoA1 (hp'.mem_iff.1 hm)
      have hcomm : ((h.set arr BA1).set base B1).set arr BA' = (h.set arr BA').set base B1 := by
        rw [set_swap _ _ _ e2.symm, Heap.set_set]
      rw [hcomm]
      refine take _ (by rw [Heap.set_ne _ _ _ _ hob, Heap.set_ne _ _ _ _ hoa]; exact hOB) ?_
      exact hI _ A' (shapeDel _ _ _ hmA' hoA' (by rw [hp'.length_eq]; omega) hb1'.2.2.2 (by rw [hb1'.1, hp'.length_eq]) hb1'.2.1 hb1'.2.2.1 (by omega) hE') ((keep _ _ _ hmA').del hG)
        (Or.inr ⟨o, A1, q1, hmin, Or.inr ⟨hp', hp'.nodup_iff.2 (List.nodup_cons.1 hnd1).2, hh'⟩⟩)
    · rintro e h' ⟨⟨he, -⟩, -⟩; cases he

theorem clearLoop_I {I : Heap → Prop} {BA : Block} (hE : Ents BA A) (n : Nat) : ∀ {h : Heap}, h.blk arr = some BA ∨ n = 0 → n ≤ A.length →
    (∀ a ∈ A.take n, a ≠ arr ∧ ∃ B, h.blk a = some B) → A.Nodup → (∀ h', (∀ x, x ∉ A → h'.blk x = h.blk x) → I h') →
    wpI I (clearLoop arr n) (fun _ _ => True) h := by
  induction n with
  | zero => intro h _ _ _ _ _; exact trivial
  | succ n ih =>
    intro h hb hn hi hnd hI
    replace hb := hb.resolve_right (by omega)
    have hE1 := hE.1
    unfold clearLoop
    refine wpI_rd hb (by omega) ?_
    rw [hE.2 n (by omega)]
    have ht : A.take (n + 1) = A.take n ++ [A.getD n 0] := by
      rw [List.take_add_one, List.getD_eq_getElem?_getD, List.getElem?_eq_getElem (by omega)]; rfl
    have hnot : A.getD n 0 ∉ A.take n := by
      have : (A.take (n + 1)).Nodup := hnd.sublist (List.take_sublist _ _)
      rw [ht, List.nodup_append] at this
      intro hm
      exact this.2.2 _ hm _ (by simp) rfl
    obtain ⟨hne, B, hB⟩ := hi (A.getD n 0) (by rw [ht]; simp)
    have hdel : ∀ x, x ∉ A → (h.del (A.getD n 0)).blk x = h.blk x := fun x hx => Heap.del_ne _ _ _ (fun e => hx (e ▸ mem_getD (by omega)))
    refine wpI_free hB (hI _ hdel) ?_
    refine ih (h := h.del (A.getD n 0)) (Or.inl (by rw [Heap.del_ne _ _ _ hne.symm]; exact hb)) (by omega) ?_ hnd (fun h' hh => hI h' fun x hx => by rw [hh x hx, hdel x hx])
    intro a ha
    obtain ⟨k1, B', hB'⟩ := hi a (by rw [ht]; exact List.mem_append_left _ ha)
    exact ⟨k1, B', by rw [Heap.del_ne _ _ _ (show a ≠ A.getD n 0 from fun e => hnot (e ▸ ha))]; exact hB'⟩

theorem clear_I {I : Heap → Prop} (r : RepX False h base arr cap A D lk G)
    (hI : ∀ h', Shape h' base arr cap [] D lk → Keeps G h' base arr cap [] lk → I h') :
    wpI I (clear base) (fun _ _ => True) h := by
  obtain ⟨B0, h0, hs0, hb1, hb2, hb3⟩ := r.b0
  unfold clear
  refine wpI_rd h0 (by omega) ?_
  refine wpI_rd h0 (by omega) ?_
  rw [hb1, hb3]
  have hb1' : (B0.wr 0 8 0).rd 0 8 = 0 ∧ (B0.wr 0 8 0).rd 8 8 = cap ∧ (B0.wr 0 8 0).rd 16 8 = arr ∧ (B0.wr 0 8 0).size = 24 := by
    refine ⟨Block.rd_wr_same8 _ _ _ (by decide), ?_, ?_, hs0⟩
    · rw [Block.rd_wr_disj _ _ _ _ _ _ (by omega)]; exact hb2
    · rw [Block.rd_wr_disj _ _ _ _ _ _ (by omega)]; exact hb3
  have hnb : base ∉ A := fun hm => (r.al _ hm).2.2.1 rfl
  have state : ∀ h', (∀ x, x ∉ A → h'.blk x = (h.set base (B0.wr 0 8 0)).blk x) → I h' := by
    intro h' hh
    have hbase : h'.blk base = some (B0.wr 0 8 0) := by rw [hh base hnb, Heap.set_same]
    have hlk : ∀ x ∈ lk, h'.blk x = h.blk x := fun x hx => by
      rw [hh x (fun e => (r.al x e).2.2.2 hx), Heap.set_ne _ _ _ _ (show x ≠ base from fun e => r.lkb (e ▸ hx))]
    refine hI h' ⟨r.blt, ⟨_, hbase, hb1'.2.2.2, hb1'.1, hb1'.2.1, hb1'.2.2.1⟩, ?_, (fun a ha => by cases ha), (fun a ha => by cases ha), (fun x hx => by rw [hlk x hx]; exact r.shape.lks x hx), r.lknd, r.lkb⟩ ?_
    · rcases r.shape.array with ⟨h1, h2, h3, h4⟩ | ⟨h1, h2, h3, h4, h5, h6, BA, hBA, hs, hl, hE⟩
      · refine Or.inl ⟨h1, h2.imp id ?_, rfl, h4⟩
        rintro ⟨B, hB⟩
        rw [hh arr (by rw [h3]; simp)]
        exact live_set hB
      · exact Or.inr ⟨h1, h2, h3, h4, h5, h6, BA, by rw [hh arr (fun e => (r.items arr e).1 rfl), Heap.set_ne _ _ _ _ h2]; exact hBA, hs, Nat.zero_le _, by simp [Ents]⟩
    · intro x B hx
      obtain ⟨q1, q2⟩ := r.keeps x B hx
      refine ⟨?_, ?_⟩
      · rw [hh x (fun e => q2 (Or.inr (Or.inr (Or.inl e)))), Heap.set_ne _ _ _ _ (fun e => q2 (Or.inl e))]; exact q1
      · rintro (e | e | e | e)
        · exact q2 (Or.inl e)
        · exact q2 (Or.inr (Or.inl e))
        · cases e
        · exact q2 (Or.inr (Or.inr (Or.inr e)))
  refine wpI_wr h0 (by omega) (state _ fun _ _ => rfl) ?_
  by_cases hc : cap = 0
  · obtain ⟨e1, e2, rfl, rfl⟩ : cap = 0 ∧ (arr = 0 ∨ ∃ B, h.blk arr = some B) ∧ A = [] ∧ lk = [] := by
      rcases r.shape.array with h | ⟨h, -⟩
      · exact h
      · have := Nat.two_pow_pos lk.length; omega
    exact trivial
  · obtain ⟨e1, e2, e3, e4, e5, e6, BA, hBA, e7, hE⟩ := r.array.resolve_left (fun h => hc h.1)
    refine clearLoop_I (A := A) hE A.length (h := h.set base (B0.wr 0 8 0)) (Or.inl (by rw [Heap.set_ne _ _ _ _ e2]; exact hBA)) (Nat.le_refl _) ?_ r.nodup state
    intro a ha
    rw [List.take_length] at ha
    obtain ⟨k1, -, B, hB, -⟩ := r.items a ha
    exact ⟨k1, B, by rw [Heap.set_ne _ _ _ _ (r.al a ha).2.2.1]; exact hB⟩

/-- size on a damaged queue -/
theorem Shape.size_spec (s : Shape h base arr cap L D lk) : wp (size base) (fun out h' => out = .ok L.length ∧ h' = h) h := by
  obtain ⟨B0, h0, hs0, hb1, hb2, hb3⟩ := s.b0
  exact ⟨B0, h0, by omega, by rw [hb1]; exact ⟨rfl, rfl⟩⟩

/-- the first pop on a damaged queue: it returns the item of one of the entries -/
theorem Shape.pop_spec (s : Shape h base arr cap L D lk) (k : Keeps G h base arr cap L lk) (h0l : 0 < L.length) :
    wp (pop base) (fun out h' => (∃ a ∈ L, out = .ok (D a)) ∧ ∀ x B, G x = some B → h'.blk x = some B) h := by
  obtain ⟨B0, h0, hs0, hb1, hb2, hb3⟩ := s.b0
  unfold pop
  refine wp_rd h0 (by omega) ?_
  rw [hb1, if_neg (by omega)]
  have hc : cap ≠ 0 := by
    intro hc
    rcases s.array with ⟨-, -, h, -⟩ | ⟨h, -⟩
    · rw [h] at h0l; simp at h0l
    · have := Nat.two_pow_pos lk.length; omega
  obtain ⟨e1, e2, e3, e4, e5, e6, BA, hBA, e7, e8, hE⟩ := s.array.resolve_left (fun h => hc h.1)
  have hE1 := hE.1
  have hom : L.getD 0 0 ∈ L := mem_getD h0l
  have hr0 : BA.rd 0 8 = L.getD 0 0 := hE.2 0 (by omega)
  generalize L.getD 0 0 = o at hom hr0
  obtain ⟨hoa, -, OB, hOB, hOD⟩ := s.items o hom
  obtain ⟨-, -, hob, hol⟩ := s.al o hom
  have gone : ∀ h2, (∀ x, x ≠ base → x ≠ arr → h2.blk x = h.blk x) → wp (takeItem o) (fun out h' => (∃ a ∈ L, out = .ok (D a)) ∧ ∀ x B, G x = some B → h'.blk x = some B) h2 := by
    intro h2 hh
    refine wp_mono ?_ (takeItem_spec (o := o) (B := OB) (by rw [hh o hob hoa]; exact hOB))
    rintro out h' ⟨rfl, rfl⟩
    refine ⟨⟨o, hom, by rw [hOD]⟩, ?_⟩
    intro x B hx
    obtain ⟨q1, q2⟩ := k x B hx
    rw [Heap.del_ne _ _ _ (show x ≠ o from fun e => q2 (Or.inr (Or.inr (Or.inl (e ▸ hom))))), hh x (fun e => q2 (Or.inl e)) (fun e => q2 (Or.inr (Or.inl ⟨hc, e⟩)))]
    exact q1
  by_cases hA1 : L.length = 1
  · rw [if_pos hA1]
    refine wp_rd h0 (by omega) ?_
    rw [hb3]
    refine wp_rd hBA (by omega) ?_
    rw [hr0]
    refine wp_wr h0 (by omega) ?_
    exact gone _ fun x h1 _ => Heap.set_ne _ _ _ _ h1
  · rw [if_neg hA1]
    have h2 : 2 ≤ L.length := by omega
    obtain ⟨q1, q2⟩ := replace_perm h2
    refine wp_rd h0 (by omega) ?_
    rw [hb3]
    refine wp_rd hBA (by omega) ?_
    rw [hr0]
    refine wp_rd h0 (by omega) ?_
    rw [hb1]
    refine wp_rd hBA (by omega) ?_
    rw [hE.2 _ (by omega)]
    have hlm : L.getD (L.length - 1) 0 ∈ L := mem_getD (by omega)
    have hEs := hE.set (t := 0) (s.items _ hlm).2.1
    have hEl := hEs.take (L.length - 1)
    have hmS : ∀ a ∈ (L.set 0 (L.getD (L.length - 1) 0)).take (L.length - 1), a ∈ L := fun a ha => q1.mem_iff.2 (List.mem_cons_of_mem _ ha)
    have hl1 : ((L.set 0 (L.getD (L.length - 1) 0)).take (L.length - 1)).length = L.length - 1 := by simp
    generalize (L.set 0 (L.getD (L.length - 1) 0)).take (L.length - 1) = A1 at hEl hmS hl1
    refine wp_wr hBA (by omega) ?_
    refine wp_rd (B := B0) (by rw [Heap.set_ne _ _ _ _ e2.symm]; exact h0) (by omega) ?_
    rw [hb1]
    refine wp_wr (B := B0) (by rw [Heap.set_ne _ _ _ _ e2.symm]; exact h0) (by omega) ?_
    generalize L.getD (L.length - 1) 0 = last at hEl hlm hEs ⊢
    rw [← hl1]
    have hlW : A1.length < W64 := by have := B0.rd8_lt 0; omega
    generalize hBA1 : BA.wr 0 8 last = BA1
    generalize hB1 : B0.wr 0 8 A1.length = B1
    have hb1' : B1.rd 0 8 = A1.length ∧ B1.rd 8 8 = cap ∧ B1.rd 16 8 = arr ∧ B1.size = 24 := by
      rw [← hB1]
      refine ⟨Block.rd_wr_same8 _ _ _ hlW, ?_, ?_, hs0⟩
      · rw [Block.rd_wr_disj _ _ _ _ _ _ (by omega)]; exact hb2
      · rw [Block.rd_wr_disj _ _ _ _ _ _ (by omega)]; exact hb3
    have hE2 : Ents BA1 A1 := by
      rw [← hBA1]; exact hEl
    have hIA : Items ((h.set arr BA1).set base B1) arr D A1 := by
      intro a ha
      obtain ⟨k1, k2, B, hB, hd⟩ := s.items a (hmS a ha)
      exact ⟨k1, k2, B, by rw [Heap.set_ne _ _ _ _ (s.al a (hmS a ha)).2.2.1, Heap.set_ne _ _ _ _ k1]; exact hB, hd⟩
    refine wp_bind_of (siftUp_I (I := fun _ => True) (D := D) (A := A1) e2 (fun _ _ _ _ _ => trivial) (Heap.set_same _ _ _) (by omega) hb1'.2.2.1 hb1'.1 (by rw [Heap.set_ne _ _ _ _ e2, Heap.set_same]) hE2 hIA (by omega)).wp ?_ ?_
    · rintro _ h' ⟨-, BA', A', rfl, -⟩
      refine gone _ fun x h1 h2 => ?_
      rw [Heap.set_ne _ _ _ _ h2, Heap.set_ne _ _ _ _ h1, Heap.set_ne _ _ _ _ h2]
    · rintro e h' ⟨he, -⟩; cases he

end Verif.PrioQueue
