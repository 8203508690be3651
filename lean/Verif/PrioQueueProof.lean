import Verif.PrioHeap
import Verif.HeapOk
/-
wp-specifications of the methods of PriorityQueue.
-/
namespace Verif.PrioQueue
open Verif

theorem memcmp_spec : ∀ (x y : Bytes) (n : Nat), n = (if x.length < y.length then x.length else y.length) →
    (if memcmp (x.take n) (y.take n) < 0 then true else if memcmp (x.take n) (y.take n) > 0 then false else decide (x.length < y.length)) = decide (x < y) := by
  intro x
  induction x with
  | nil =>
    intro y n hn
    cases y with
    | nil => simp at hn; subst hn; rfl
    | cons b y => simp at hn; subst hn; rfl
  | cons a x ih =>
    intro y n hn
    cases y with
    | nil => simp at hn; subst hn; rfl
    | cons b y =>
      have hn' : n = (if x.length < y.length then x.length else y.length) + 1 := by
        rw [hn]; simp only [List.length_cons]; split <;> split <;> omega
      subst hn'
      simp only [List.take_succ_cons, memcmp, List.length_cons]
      by_cases h1 : a < b
      · rw [if_pos h1]
        have : a :: x < b :: y := List.cons_lt_cons_iff.2 (Or.inl h1)
        simp [this]
      · rw [if_neg h1]
        by_cases h2 : b < a
        · rw [if_pos h2]
          have : ¬ a :: x < b :: y := by
            rw [List.cons_lt_cons_iff]
            rintro (h | ⟨h, -⟩)
            · exact h1 h
            · rw [h] at h2; exact absurd h2 (UInt8.lt_irrefl _)
          simp [this]
        · rw [if_neg h2]
          have hab : a = b := by
            have h3 := UInt8.not_lt.1 h1
            have h4 := UInt8.not_lt.1 h2
            exact UInt8.le_antisymm h4 h3
          subst hab
          have e := ih y _ rfl
          have e2 : (a :: x < a :: y) ↔ x < y := by
            rw [List.cons_lt_cons_iff]
            constructor
            · rintro (h | ⟨-, h⟩)
              · exact absurd h h1
              · exact h
            · exact fun h => Or.inr ⟨rfl, h⟩
          simp only [e2]
          rw [← e]
          simp only [Nat.add_lt_add_iff_right]

/-- the bytes of a block -/
def _root_.Verif.Block.bytes (B : Block) : Bytes := B.rdB 0 B.size

theorem rdB_take (B : Block) (n : Nat) (h : n ≤ B.size) : B.rdB 0 n = B.bytes.take n := by
  have := B.rdB_append 0 n (B.size - n)
  rw [show n + (B.size - n) = B.size by omega] at this
  unfold Block.bytes
  rw [this, List.take_left' (B.rdB_length 0 n)]

theorem less_spec {h : Heap} {a b : Nat} {A B : Block} (ha : h.blk a = some A) (hb : h.blk b = some B) :
    wp (less a b) (fun out h' => out = .ok (decide (A.bytes < B.bytes)) ∧ h' = h) h := by
  unfold less
  refine wp_bsize ha ?_
  refine wp_bsize hb ?_
  have h1 : (if A.size < B.size then A.size else B.size) ≤ A.size := by split <;> omega
  have h2 : (if A.size < B.size then A.size else B.size) ≤ B.size := by split <;> omega
  refine wp_rdB ha (by omega) ?_
  refine wp_rdB hb (by omega) ?_
  refine ⟨?_, rfl⟩
  rw [rdB_take A _ h1, rdB_take B _ h2]
  have eA : A.bytes.length = A.size := A.rdB_length _ _
  have eB : B.bytes.length = B.size := B.rdB_length _ _
  have := memcmp_spec A.bytes B.bytes (if A.size < B.size then A.size else B.size) (by rw [eA, eB])
  rw [eA, eB] at this
  rw [this]

/-- order of the items behind two offsets -/
def ltD (D : Nat → Bytes) (a b : Nat) : Bool := decide (D a < D b)

theorem ltD_ord (D : Nat → Bytes) : Ord (ltD D) := by
  constructor
  · intro a b h
    simp only [ltD, decide_eq_true_eq, decide_eq_false_iff_not] at h ⊢
    exact List.not_lt.2 (List.le_of_lt h)
  · intro a b c h1 h2
    simp only [ltD, decide_eq_false_iff_not, List.not_lt] at h1 h2 ⊢
    exact List.le_trans h1 h2

/-- the first entries of an array block -/
def Ents (B : Block) (A : List Nat) : Prop := 8 * A.length ≤ B.size ∧ ∀ i, i < A.length → B.rd (8 * i) 8 = A.getD i 0

theorem Ents.set {B : Block} {A : List Nat} (h : Ents B A) {t x : Nat} (hx : x < W64) : Ents (B.wr (8 * t) 8 x) (A.set t x) := by
  refine ⟨by simpa using h.1, ?_⟩
  intro i hi
  rw [List.length_set] at hi
  rw [getD_set]
  by_cases e : i = t
  · subst e
    simp only [hi, and_self, if_true]
    exact Block.rd_wr_same8 _ _ _ hx
  · simp only [e, false_and, if_false]
    rw [Block.rd_wr_disj _ _ _ _ _ _ (by omega)]
    exact h.2 i hi

theorem Ents.take {B : Block} {A : List Nat} (h : Ents B A) (n : Nat) : Ents B (A.take n) := by
  refine ⟨by have := h.1; simp only [List.length_take]; omega, ?_⟩
  intro i hi
  simp only [List.length_take] at hi
  rw [h.2 i (by omega), List.getD_eq_getElem?_getD, List.getD_eq_getElem?_getD, List.getElem?_take_of_lt (by omega)]

/-- the offsets `A` are live blocks with the contents `D`, none of them `arr` -/
def Items (h : Heap) (arr : Nat) (D : Nat → Bytes) (A : List Nat) : Prop :=
  ∀ a ∈ A, a ≠ arr ∧ a < W64 ∧ ∃ B, h.blk a = some B ∧ B.bytes = D a

theorem Items.set {h : Heap} {arr : Nat} {D : Nat → Bytes} {A : List Nat} (hi : Items h arr D A) (B : Block) : Items (h.set arr B) arr D A := by
  intro a ha
  obtain ⟨h1, h2, h3⟩ := hi a ha
  exact ⟨h1, h2, by rw [Heap.set_ne _ _ _ _ h1]; exact h3⟩

theorem Items.mono {h : Heap} {arr : Nat} {D : Nat → Bytes} {A A' : List Nat} (hi : Items h arr D A) (hs : ∀ a ∈ A', a ∈ A) : Items h arr D A' :=
  fun a ha => hi a (hs a ha)

theorem mem_getD {A : List Nat} {i : Nat} (h : i < A.length) : A.getD i 0 ∈ A := by
  rw [List.getD_eq_getElem?_getD, List.getElem?_eq_getElem h]; exact List.getElem_mem h

theorem mem_set {A : List Nat} {t x a : Nat} (h : a ∈ A.set t x) : a = x ∨ a ∈ A := (List.mem_or_eq_of_mem_set h).symm

theorem siftDownLoop_spec {arr item : Nat} {D : Nat → Bytes} (fuel : Nat) : ∀ {h : Heap} {BA : Block} {A : List Nat} {t : Nat},
    h.blk arr = some BA → Ents BA A → Items h arr D (item :: A) → t < A.length → t < fuel →
    wp (siftDownLoop arr 0 item fuel t) (fun out h' => out = .ok () ∧ ∃ BA', h' = h.set arr BA' ∧ BA'.size = BA.size ∧
      Ents BA' (sdL (ltD D) item fuel A t)) h := by
  induction fuel with
  | zero => intro h BA A t _ _ _ _ hf; omega
  | succ f ih =>
    intro h BA A t hb he hi ht hf
    obtain ⟨-, hitem, IB, hIB, eI⟩ := hi item (by simp)
    have fin : wp (H.wr64 arr (8 * t) item) (fun out h' => out = .ok () ∧ ∃ BA', h' = h.set arr BA' ∧ BA'.size = BA.size ∧ Ents BA' (A.set t item)) h :=
      ⟨BA, hb, by have := he.1; omega, rfl, _, rfl, rfl, he.set hitem⟩
    unfold siftDownLoop
    simp only [sdL]
    by_cases h0 : 0 < t
    · rw [if_pos h0, if_pos h0]
      have hp : (t - 1) / 2 < A.length := by omega
      refine wp_rd hb (by have := he.1; omega) ?_
      rw [he.2 _ hp]
      have hpm := mem_getD hp
      obtain ⟨-, hplt, PB, hPB, eP⟩ := hi (A.getD ((t - 1) / 2) 0) (List.mem_cons_of_mem _ hpm)
      refine wp_bind_of (less_spec hIB hPB) ?_ ?_
      · rintro c h' ⟨hc, rfl⟩
        injection hc with hc
        rw [eI, eP] at hc
        have hc' : c = ltD D item (A.getD ((t - 1) / 2) 0) := hc
        rw [← hc']
        cases c with
        | true =>
          simp only [if_true]
          refine wp_rd hb (by have := he.1; omega) ?_
          rw [he.2 _ hp]
          refine wp_wr hb (by have := he.1; omega) ?_
          refine wp_mono ?_ (ih (Heap.set_same _ _ _) (he.set hplt) ((hi.set _).mono ?_) (by simpa using hp) (by omega))
          · rintro o h'' ⟨rfl, BA', rfl, hs, hE⟩
            exact ⟨rfl, BA', by rw [Heap.set_set], hs, hE⟩
          · intro a ha
            simp only [List.mem_cons] at ha ⊢
            rcases ha with ha | ha
            · exact Or.inl ha
            · rcases mem_set ha with ha | ha
              · right; rw [ha]; exact hpm
              · exact Or.inr ha
        | false => simp only [Bool.false_eq_true, if_false]; exact fin
      · rintro e h' ⟨he, -⟩; cases he
    · rw [if_neg h0, if_neg h0]
      exact fin

theorem siftDown_spec {base arr : Nat} {D : Nat → Bytes} {h : Heap} {B0 BA : Block} {A : List Nat} {t : Nat} (h0 : h.blk base = some B0)
    (hs0 : 24 ≤ B0.size) (ha : B0.rd 16 8 = arr) (hb : h.blk arr = some BA) (he : Ents BA A) (hi : Items h arr D A) (ht : t < A.length) :
    wp (siftDown base 0 t) (fun out h' => out = .ok () ∧ ∃ BA', h' = h.set arr BA' ∧ BA'.size = BA.size ∧
      Ents BA' (sdL (ltD D) (A.getD t 0) (t + 1) A t)) h := by
  unfold siftDown
  refine wp_rd h0 (by omega) ?_
  rw [ha]
  refine wp_rd hb (by have := he.1; omega) ?_
  rw [he.2 t ht]
  refine siftDownLoop_spec _ hb he (hi.mono ?_) ht (by omega)
  intro a ha
  simp only [List.mem_cons] at ha
  rcases ha with rfl | ha
  · exact mem_getD ht
  · exact ha

theorem siftUpLoop_spec {base arr : Nat} (hab : arr ≠ base) {D : Nat → Bytes} {B0 : Block} (hs0 : 24 ≤ B0.size) (fuel : Nat) :
    ∀ {h : Heap} {BA : Block} {A : List Nat} {t : Nat}, h.blk base = some B0 → B0.rd 0 8 = A.length → h.blk arr = some BA → Ents BA A →
    Items h arr D A → t < A.length → A.length < t + fuel →
    wp (siftUpLoop base arr fuel t) (fun out h' => out = .ok (suL (ltD D) fuel A t).2 ∧ ∃ BA', h' = h.set arr BA' ∧ BA'.size = BA.size ∧
      Ents BA' (suL (ltD D) fuel A t).1 ∧ ∀ a ∈ (suL (ltD D) fuel A t).1, a ∈ A) h := by
  induction fuel with
  | zero => intro h BA A t _ _ _ _ _ _ hf; omega
  | succ f ih =>
    intro h BA A t h0 hn hb he hi ht hf
    have hsz := he.1
    unfold siftUpLoop
    simp only [suL]
    refine wp_rd h0 (by omega) ?_
    rw [hn]
    by_cases hl : 2 * t + 1 < A.length
    · rw [if_pos hl, if_pos hl]
      refine wp_rd h0 (by omega) ?_
      rw [hn]
      refine wp_bind_of (R := fun out h' => out = .ok (decide (child (ltD D) A t = 2 * t + 2)) ∧ h' = h) ?_ ?_ ?_
      · unfold rightIsLeast
        by_cases hr : 2 * t + 2 < A.length
        · rw [if_pos hr]
          refine wp_rd hb (by omega) ?_
          refine wp_rd hb (by omega) ?_
          rw [he.2 _ hl, he.2 _ hr]
          obtain ⟨-, -, LB, hLB, eL⟩ := hi _ (mem_getD hl)
          obtain ⟨-, -, RB, hRB, eR⟩ := hi _ (mem_getD hr)
          refine wp_bind_of (less_spec hLB hRB) ?_ ?_
          · rintro c h' ⟨hc, rfl⟩
            injection hc with hc
            refine ⟨?_, rfl⟩
            rw [eL, eR] at hc
            have hc' : c = ltD D (A.getD (2 * t + 1) 0) (A.getD (2 * t + 2) 0) := hc
            unfold child
            rw [← hc']
            cases c <;> simp [hr]
          · rintro e h' ⟨he, -⟩; cases he
        · rw [if_neg hr]
          refine ⟨?_, rfl⟩
          have : child (ltD D) A t = 2 * t + 1 := by unfold child; rw [if_neg (fun h => hr h.1)]
          rw [this]; simp
      · rintro right h' ⟨hr, rfl⟩
        injection hr with hr
        obtain ⟨hc1, hc2⟩ := child_cases (lt := ltD D) A t hl
        have e : (if right then 2 * t + 2 else 2 * t + 1) = child (ltD D) A t := by
          rw [hr]
          rcases hc1 with h | h
          · rw [h]; simp
          · rw [h]; simp
        rw [e]
        refine wp_rd hb (by omega) ?_
        rw [he.2 _ hc2]
        obtain ⟨-, hclt, -⟩ := hi _ (mem_getD hc2)
        refine wp_wr hb (by omega) ?_
        refine wp_mono ?_ (ih (by rw [Heap.set_ne _ _ _ _ hab.symm]; exact h0) (by simpa using hn) (Heap.set_same _ _ _) (he.set hclt) ((hi.set _).mono ?_)
          (by simpa using hc2) (by simp only [List.length_set]; omega))
        · rintro o h'' ⟨rfl, BA', rfl, hs, hE, hm⟩
          refine ⟨rfl, BA', by rw [Heap.set_set], hs, hE, ?_⟩
          intro a ha
          rcases mem_set (hm a ha) with ha | ha
          · rw [ha]; exact mem_getD hc2
          · exact ha
        · intro a ha
          rcases mem_set ha with ha | ha
          · rw [ha]; exact mem_getD hc2
          · exact ha
      · rintro e h' ⟨he, -⟩; cases he
    · rw [if_neg hl, if_neg hl]
      refine ⟨rfl, BA, ?_, rfl, he, fun a ha => ha⟩
      have : h.set arr BA = h := by
        cases h with
        | mk blk base =>
          simp only [Heap.set, Heap.mk.injEq, and_true]
          funext x
          split
          · rename_i e; subst e; exact hb.symm
          · rfl
      exact this.symm

theorem siftUp_spec {base arr : Nat} (hab : arr ≠ base) {D : Nat → Bytes} {h : Heap} {B0 BA : Block} {A : List Nat} (h0 : h.blk base = some B0)
    (hs0 : 24 ≤ B0.size) (ha : B0.rd 16 8 = arr) (hn : B0.rd 0 8 = A.length) (hb : h.blk arr = some BA) (he : Ents BA A) (hi : Items h arr D A)
    (hA : 0 < A.length) (hh : ∀ i, 0 < i → i < A.length → (i - 1) / 2 ≠ 0 → ltD D (A.getD i 0) (A.getD ((i - 1) / 2) 0) = false) :
    wp (siftUp base 0) (fun out h' => out = .ok () ∧ ∃ BA' A', h' = h.set arr BA' ∧ BA'.size = BA.size ∧ Ents BA' A' ∧ IsHeap (ltD D) A' ∧ A'.Perm A) h := by
  obtain ⟨s1, s2, -, -⟩ := suL_spec (ltD_ord D) (A.length + 1) A 0 hA (by omega) (fun i hi0 hi _ h => hh i hi0 hi h) (fun h => by omega)
  have s3 := suL_length (lt := ltD D) (A.length + 1) A 0
  have s4 := sift_heap (ltD_ord D) hA hh
  obtain ⟨-, hlt0, -⟩ := hi _ (mem_getD hA)
  have hsz := he.1
  unfold siftUp
  refine wp_rd h0 (by omega) ?_
  rw [ha]
  refine wp_rd hb (by omega) ?_
  rw [he.2 0 hA]
  refine wp_rd h0 (by omega) ?_
  rw [hn]
  refine wp_bind_of (siftUpLoop_spec hab hs0 _ h0 hn hb he hi hA (by omega)) ?_ ?_
  · rintro t h' ⟨ht, BA', rfl, hs, hE, hm⟩
    injection ht with ht
    subst ht
    simp only at s4
    generalize suL (ltD D) (A.length + 1) A 0 = r at s1 s2 s3 s4 hE hm
    refine wp_wr (Heap.set_same _ _ _) (by omega) ?_
    rw [Heap.set_set]
    refine wp_mono ?_ (siftDown_spec (D := D) (A := r.1.set r.2 (A.getD 0 0)) (t := r.2) (h := h.set arr (BA'.wr (8 * r.2) 8 (A.getD 0 0))) (by rw [Heap.set_ne _ _ _ _ hab.symm]; exact h0) hs0 ha (Heap.set_same _ _ _) (hE.set hlt0)
      ((hi.set _).mono ?_) (by simp only [List.length_set]; omega))
    · rintro o h'' ⟨rfl, BA'', rfl, hs', hE'⟩
      have e : (r.1.set r.2 (A.getD 0 0)).getD r.2 0 = A.getD 0 0 := by rw [getD_set]; simp only [true_and]; rw [if_pos (by omega)]
      rw [e] at hE'
      exact ⟨rfl, BA'', _, by rw [Heap.set_set], by simpa [hs] using hs', hE', s4⟩
    · intro a ha
      rcases mem_set ha with ha | ha
      · rw [ha]; exact mem_getD hA
      · exact hm a ha
  · rintro e h' ⟨he, -⟩; cases he

end Verif.PrioQueue
