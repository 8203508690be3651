import Verif.CostSem
import Verif.PropsPrioQueue
/-
C64: what the methods of PriorityQueue cost (README, "Time complexity", PriorityQueue).
-/
namespace Verif

namespace PrioQueue

theorem less_cost (a b : Nat) (c : Cost) : ∀ {h : Heap} {A B : Block}, h.blk a = some A → h.blk b = some B →
    cwp (less a b) (fun _ c' h' => h' = h ∧ c.Upto c' 0 0 4 (2 * min A.size B.size)) c h := by
  intro h A B ha hb
  unfold less
  refine cwp_bsize ha ?_
  refine cwp_bsize hb ?_
  have h1 : (if A.size < B.size then A.size else B.size) = min A.size B.size := by split <;> omega
  rw [h1]
  refine cwp_rdB ha (by omega) ?_
  refine cwp_rdB hb (by omega) ?_
  refine cwp_ret ⟨rfl, ?_⟩
  constructor <;> simp
  omega

theorem log2_half {t : Nat} (h : 0 < t) : ((t - 1) / 2 + 1).log2 + 1 ≤ (t + 1).log2 := by
  have e : (t - 1) / 2 + 1 = (t + 1) / 2 := by omega
  rw [e, Nat.log2_def (t + 1), if_pos (by omega)]

theorem siftDownLoop_cost {arr item M : Nat} {D : Nat → Bytes} (fuel : Nat) : ∀ {h : Heap} {BA : Block} {A : List Nat} {t : Nat} {c : Cost},
    h.blk arr = some BA → Ents BA A → Items h arr D (item :: A) → (D item).length ≤ M → t < A.length → t < fuel →
    cwp (siftDownLoop arr 0 item fuel t) (fun _ c' _ => c.Upto c' 0 0 (7 * (t + 1).log2 + 1) (2 * M * (t + 1).log2)) c h := by
  induction fuel with
  | zero => intro h BA A t c _ _ _ _ _ hf; omega
  | succ f ih =>
    intro h BA A t c hb he hi hM ht hf
    obtain ⟨-, hitem, IB, hIB, eI⟩ := hi item (by simp)
    have hsI : IB.size = (D item).length := by rw [← eI]; exact (IB.rdB_length _ _).symm
    unfold siftDownLoop
    by_cases h0 : 0 < t
    · rw [if_pos h0]
      have hp : (t - 1) / 2 < A.length := by omega
      refine cwp_rd hb (by have := he.1; omega) ?_
      rw [he.2 _ hp]
      have hpm := mem_getD hp
      obtain ⟨-, hplt, PB, hPB, eP⟩ := hi (A.getD ((t - 1) / 2) 0) (List.mem_cons_of_mem _ hpm)
      have hlog := log2_half h0
      obtain ⟨m, hm⟩ : ∃ m, (t + 1).log2 = m + 1 := ⟨(t + 1).log2 - 1, by omega⟩
      have hmul : 2 * M * (m + 1) = 2 * M * m + 2 * M := Nat.mul_succ _ _
      refine cwp_bind_of (less_cost item _ _ hIB hPB) ?_ ?_
      · rintro x c1 h' ⟨rfl, u⟩
        have u1 := u.allocs
        have u2 := u.frees
        have u3 := u.acc
        have u4 := u.bytes
        simp at u1 u2 u3 u4
        cases x with
        | true =>
          simp only [if_true]
          refine cwp_rd hb (by have := he.1; omega) ?_
          rw [he.2 _ hp]
          refine cwp_wr hb (by have := he.1; omega) ?_
          refine cwp_mono ?_ (ih (Heap.set_same _ _ _) (he.set hplt) ((hi.set _).mono ?_) hM (by simpa using hp) (by omega))
          · rintro o c2 h'' v
            have v1 := v.allocs
            have v2 := v.frees
            have v3 := v.acc
            have v4 := v.bytes
            simp at v1 v2 v3 v4
            have : 2 * M * ((t - 1) / 2 + 1).log2 ≤ 2 * M * m := Nat.mul_le_mul_left _ (by omega)
            rw [hm]
            constructor <;> omega
          · intro a ha
            simp only [List.mem_cons] at ha ⊢
            rcases ha with ha | ha
            · exact Or.inl ha
            · rcases mem_set ha with ha | ha
              · right; rw [ha]; exact hpm
              · exact Or.inr ha
        | false =>
          simp only [Bool.false_eq_true, if_false]
          refine ⟨BA, hb, by have := he.1; omega, _, _, rfl, ?_⟩
          rw [hm]
          constructor <;> simp [hcost] <;> omega
      · rintro e c1 h' ⟨rfl, u⟩
        have u1 := u.allocs
        have u2 := u.frees
        have u3 := u.acc
        have u4 := u.bytes
        simp at u1 u2 u3 u4
        rw [hm]
        constructor <;> omega
    · rw [if_neg h0]
      refine ⟨BA, hb, by have := he.1; omega, _, _, rfl, ?_⟩
      constructor <;> simp [hcost]

theorem siftDown_cost {base arr M : Nat} {D : Nat → Bytes} {h : Heap} {B0 BA : Block} {A : List Nat} {t : Nat} {c : Cost} (h0 : h.blk base = some B0)
    (hs0 : 24 ≤ B0.size) (ha : B0.rd 16 8 = arr) (hb : h.blk arr = some BA) (he : Ents BA A) (hi : Items h arr D A) (hM : (D (A.getD t 0)).length ≤ M) (ht : t < A.length) :
    cwp (siftDown base 0 t) (fun _ c' _ => c.Upto c' 0 0 (7 * (t + 1).log2 + 3) (2 * M * (t + 1).log2)) c h := by
  unfold siftDown
  refine cwp_rd h0 (by omega) ?_
  rw [ha]
  refine cwp_rd hb (by have := he.1; omega) ?_
  rw [he.2 t ht]
  refine cwp_mono ?_ (siftDownLoop_cost _ hb he (hi.mono ?_) hM ht (by omega))
  · rintro o c2 h'' v
    have v1 := v.allocs
    have v2 := v.frees
    have v3 := v.acc
    have v4 := v.bytes
    simp at v1 v2 v3 v4
    constructor <;> omega
  · intro a ha
    simp only [List.mem_cons] at ha
    rcases ha with rfl | ha
    · exact mem_getD ht
    · exact ha

theorem siftUpLoop_cost {base arr M : Nat} (hab : arr ≠ base) {D : Nat → Bytes} {B0 : Block} (hs0 : 24 ≤ B0.size) (fuel : Nat) :
    ∀ {h : Heap} {BA : Block} {A : List Nat} {t : Nat} {c : Cost}, h.blk base = some B0 → B0.rd 0 8 = A.length → h.blk arr = some BA → Ents BA A →
    Items h arr D A → (∀ a ∈ A, (D a).length ≤ M) → t < A.length → A.length < t + fuel →
    cwp (siftUpLoop base arr fuel t) (fun _ c' _ => ∃ m, m + (t + 1).log2 ≤ A.length.log2 ∧ c.Upto c' 0 0 (10 * m + 1) (2 * M * m)) c h := by
  induction fuel with
  | zero => intro h BA A t c _ _ _ _ _ _ _ hf; omega
  | succ f ih =>
    intro h BA A t c h0 hn hb he hi hM ht hf
    have hsz := he.1
    have hmono : ∀ {a b : Nat}, a ≠ 0 → a ≤ b → a.log2 ≤ b.log2 := by
      intro a b ha hab
      rw [Nat.le_log2 (by omega)]
      exact Nat.le_trans (Nat.log2_self_le ha) hab
    unfold siftUpLoop
    refine cwp_rd h0 (by omega) ?_
    rw [hn]
    by_cases hl : 2 * t + 1 < A.length
    · rw [if_pos hl]
      refine cwp_rd h0 (by omega) ?_
      rw [hn]
      refine cwp_bind_of (R := fun out c' h' => (∃ r : Bool, out = .ok r ∧ (r = true → 2 * t + 2 < A.length)) ∧ h' = h ∧ c.Upto c' 0 0 8 (2 * M)) ?_ ?_ ?_
      · unfold rightIsLeast
        by_cases hr : 2 * t + 2 < A.length
        · rw [if_pos hr]
          refine cwp_rd hb (by omega) ?_
          refine cwp_rd hb (by omega) ?_
          rw [he.2 _ hl, he.2 _ hr]
          obtain ⟨-, -, LB, hLB, eL⟩ := hi _ (mem_getD hl)
          obtain ⟨-, -, RB, hRB, eR⟩ := hi _ (mem_getD hr)
          have hsL : LB.size = (D (A.getD (2 * t + 1) 0)).length := by rw [← eL]; exact (LB.rdB_length _ _).symm
          have := hM _ (mem_getD hl)
          refine cwp_bind_of (cwp_and (less_spec hLB hRB) (less_cost _ _ _ hLB hRB)) ?_ ?_
          · rintro x c1 h' ⟨-, rfl, u⟩
            have u1 := u.allocs
            have u2 := u.frees
            have u3 := u.acc
            have u4 := u.bytes
            simp at u1 u2 u3 u4
            refine cwp_ret ⟨⟨_, rfl, fun _ => hr⟩, rfl, ?_⟩
            constructor <;> omega
          · rintro e c1 h' ⟨⟨h1, -⟩, -⟩; cases h1
        · rw [if_neg hr]
          refine cwp_ret ⟨⟨_, rfl, by simp⟩, rfl, ?_⟩
          constructor <;> simp <;> omega
      · rintro right c1 h' ⟨⟨r, hr, hr2⟩, rfl, u⟩
        cases hr
        have u1 := u.allocs
        have u2 := u.frees
        have u3 := u.acc
        have u4 := u.bytes
        generalize hj : (if right then 2 * t + 2 else 2 * t + 1) = j
        have hj1 : j < A.length := by
          rw [← hj]; cases right with
          | true => exact hr2 rfl
          | false => exact hl
        have hj2 : t + 1 = (j + 1) / 2 ∧ t < j := by rw [← hj]; split <;> omega
        refine cwp_rd hb (by omega) ?_
        rw [he.2 _ hj1]
        obtain ⟨-, hclt, -⟩ := hi _ (mem_getD hj1)
        refine cwp_wr hb (by omega) ?_
        have hmem : ∀ a ∈ A.set t (A.getD j 0), a ∈ A := by
          intro a ha
          rcases mem_set ha with ha | ha
          · rw [ha]; exact mem_getD hj1
          · exact ha
        refine cwp_mono ?_ (ih (by rw [Heap.set_ne _ _ _ _ hab.symm]; exact h0) (by simpa using hn) (Heap.set_same _ _ _) (he.set hclt) ((hi.set _).mono hmem)
          (fun a ha => hM a (hmem a ha)) (by simpa using hj1) (by simp only [List.length_set]; omega))
        rintro o c2 h'' ⟨m, hm, v⟩
        have v1 := v.allocs
        have v2 := v.frees
        have v3 := v.acc
        have v4 := v.bytes
        simp at v1 v2 v3 v4 hm
        have hlog : (j + 1).log2 = (t + 1).log2 + 1 := by
          rw [Nat.log2_def (j + 1), if_pos (by omega), hj2.1]
        have hmul : 2 * M * (m + 1) = 2 * M * m + 2 * M := Nat.mul_succ _ _
        refine ⟨m + 1, by omega, ?_⟩
        constructor <;> omega
      · rintro e c1 h' ⟨⟨r, hr, -⟩, -⟩; cases hr
    · rw [if_neg hl]
      refine cwp_ret ⟨0, by have := hmono (a := t + 1) (b := A.length) (by omega) (by omega); omega, ?_⟩
      constructor <;> simp

theorem siftUp_cost {base arr M : Nat} (hab : arr ≠ base) {D : Nat → Bytes} {h : Heap} {B0 BA : Block} {A : List Nat} {c : Cost} (h0 : h.blk base = some B0)
    (hs0 : 24 ≤ B0.size) (ha : B0.rd 16 8 = arr) (hn : B0.rd 0 8 = A.length) (hb : h.blk arr = some BA) (he : Ents BA A) (hi : Items h arr D A)
    (hM : ∀ a ∈ A, (D a).length ≤ M) (hA : 0 < A.length) (hh : ∀ i, 0 < i → i < A.length → (i - 1) / 2 ≠ 0 → ltD D (A.getD i 0) (A.getD ((i - 1) / 2) 0) = false) :
    cwp (siftUp base 0) (fun _ c' _ => c.Upto c' 0 0 (17 * A.length.log2 + 8) (4 * M * A.length.log2)) c h := by
  obtain ⟨s1, s2, -, -⟩ := suL_spec (ltD_ord D) (A.length + 1) A 0 hA (by omega) (fun i hi0 hi _ h => hh i hi0 hi h) (fun h => by omega)
  have s3 := suL_length (lt := ltD D) (A.length + 1) A 0
  obtain ⟨-, hlt0, -⟩ := hi _ (mem_getD hA)
  have hsz := he.1
  unfold siftUp
  refine cwp_rd h0 (by omega) ?_
  rw [ha]
  refine cwp_rd hb (by omega) ?_
  rw [he.2 0 hA]
  refine cwp_rd h0 (by omega) ?_
  rw [hn]
  refine cwp_bind_of (cwp_and (siftUpLoop_spec hab hs0 _ h0 hn hb he hi hA (by omega)) (siftUpLoop_cost hab hs0 _ h0 hn hb he hi hM hA (by omega))) ?_ ?_
  · rintro t c1 h' ⟨⟨ht, BA', rfl, hs, hE, hm⟩, m, hm1, u⟩
    injection ht with ht
    subst ht
    generalize suL (ltD D) (A.length + 1) A 0 = r at s1 s2 s3 hE hm
    refine cwp_wr (Heap.set_same _ _ _) (by omega) ?_
    rw [Heap.set_set]
    have hmem : ∀ a ∈ r.1.set r.2 (A.getD 0 0), a ∈ A := by
      intro a ha
      rcases mem_set ha with ha | ha
      · rw [ha]; exact mem_getD hA
      · exact hm a ha
    have hr2 : r.2 < r.1.length := by omega
    refine cwp_mono ?_ (siftDown_cost (M := M) (D := D) (A := r.1.set r.2 (A.getD 0 0)) (t := r.2) (h := h.set arr (BA'.wr (8 * r.2) 8 (A.getD 0 0)))
      (by rw [Heap.set_ne _ _ _ _ hab.symm]; exact h0) hs0 ha (Heap.set_same _ _ _) (hE.set hlt0)
      ((hi.set _).mono hmem) (hM _ (hmem _ (mem_getD (by simpa using hr2)))) (by simp only [List.length_set]; omega))
    rintro o c2 h'' v
    have u1 := u.allocs
    have u2 := u.frees
    have u3 := u.acc
    have u4 := u.bytes
    have v1 := v.allocs
    have v2 := v.frees
    have v3 := v.acc
    have v4 := v.bytes
    simp at u1 u2 u3 u4 v1 v2 v3 v4
    have hl : (r.2 + 1).log2 ≤ A.length.log2 := by
      rw [Nat.le_log2 (by omega)]
      exact Nat.le_trans (Nat.log2_self_le (by omega)) (by omega)
    have hl1 : m ≤ A.length.log2 := by omega
    have e1 : 2 * M * (r.2 + 1).log2 ≤ 2 * M * A.length.log2 := Nat.mul_le_mul_left _ hl
    have e2 : 2 * M * m ≤ 2 * M * A.length.log2 := Nat.mul_le_mul_left _ hl1
    have e3 : 4 * M * A.length.log2 = 2 * M * A.length.log2 + 2 * M * A.length.log2 := by
      rw [← Nat.add_mul]; congr 1; omega
    constructor <;> omega
  · rintro e c1 h' ⟨⟨h1, -⟩, -⟩; cases h1

theorem copyLoop_every (base old new : Nat) (fuel : Nat) : ∀ x, HEvery (copyLoop base old new fuel x) {} fun _ c => ({} : Cost).Upto c 0 0 (3 * fuel) 0 := by
  induction fuel with
  | zero => exact fun _ => trivial
  | succ f ih =>
    intro x n hn
    show Every hresp hcost (if x < n then _ else _) _ _
    split
    · intro v hv u hu
      refine (ih (x + 1)).from.mono ?_
      rintro o c ⟨e, rfl, v⟩
      have v1 := v.allocs
      have v2 := v.frees
      have v3 := v.acc
      have v4 := v.bytes
      simp at v1 v2 v3 v4
      constructor <;> simp [hcost] <;> omega
    · constructor <;> simp [hcost] <;> omega

variable {h : Heap} {base arr cap : Nat} {A : List Nat} {D : Nat → Bytes} {lk : List Nat} {G : Nat → Option Block} {c : Cost}

/-- when push replaces the array: README "when it expands beyond a power of two" -/
def Full (n : Nat) : Prop := n = 0 ∨ ∃ k, n = 32 * 2 ^ k

theorem growArray_cost (hk : HeapOk h) (r : Rep h base arr cap A D lk G) :
    cwp (growArray base) (fun out c' _ => (out = .ok () ∧ c.Upto c' 0 0 4 0) ∨ (Full A.length ∧ c.Upto c' 1 0 (3 * A.length + 9) 0)) c h := by
  obtain ⟨B0, h0, hs0, hb1, hb2, hb3⟩ := r.b0
  have hA : ∀ a ∈ A, a < W64 := fun a ha => (r.items a ha).2.1
  have grow : ∀ n, n * 8 ≤ maxAlloc → A.length < n → Full A.length → ∀ new d, Fresh h new (n * 8) → ∀ c1 : Cost, c.Upto c1 1 0 2 0 →
      cwp ((H.rd64 base 16).bind fun old => if new ≠ old then
          (H.rd64 base 0).bind fun m => (copyLoop base old new (m + 1) 0).bind fun _ => (H.wr64 base 16 new).bind fun _ => H.wr64 base 8 n
        else Prog.ret ())
        (fun out c' _ => (out = .ok () ∧ c.Upto c' 0 0 4 0) ∨ (Full A.length ∧ c.Upto c' 1 0 (3 * A.length + 9) 0)) c1 (h.set new ⟨n * 8, d⟩) := by
    intro n hmax hlt hfull new d hf c1 u
    have u1 := u.allocs
    have u2 := u.frees
    have u3 := u.acc
    have u4 := u.bytes
    have hnb : new ≠ base := by
      intro e; have := hf.none; rw [e, h0] at this; cases this
    have hna : new ≠ arr := by
      rcases r.array with ⟨-, h2, -⟩ | ⟨-, -, -, -, -, -, BA, hBA, -⟩
      · rw [h2.1 trivial]; exact hf.pos
      · intro e; have := hf.none; rw [e, hBA] at this; cases this
    refine cwp_rd (B := B0) (by rw [Heap.set_ne _ _ _ _ hnb.symm]; exact h0) (by omega) ?_
    rw [hb3, if_pos hna]
    refine cwp_rd (B := B0) (by rw [Heap.set_ne _ _ _ _ hnb.symm]; exact h0) (by omega) ?_
    rw [hb1]
    refine cwp_then (copyLoop_spec (B0 := B0) (A := A) (by omega) hb1 hnb hna hA (A.length + 1) (by rw [Heap.set_ne _ _ _ _ hnb.symm]; exact h0) ?_
      (Heap.set_same _ _ _) (by show _ ≤ n * 8; omega) (by intro i hi; omega) (by omega) (by omega)) (copyLoop_every base arr new (A.length + 1) 0) ?_ ?_
    · intro hpos
      rcases r.array with ⟨-, -, h3, -⟩ | ⟨-, -, -, -, -, -, BA, hBA, -, hE⟩
      · rw [h3] at hpos; simp at hpos
      · exact ⟨BA, by rw [Heap.set_ne _ _ _ _ hna.symm]; exact hBA, hE⟩
    · rintro _ e h' ⟨-, BN, rfl, hs, hE⟩ v
      have v1 := v.allocs
      have v2 := v.frees
      have v3 := v.acc
      have v4 := v.bytes
      simp at v1 v2 v3 v4
      simp only [Heap.set_set]
      refine cwp_wr (B := B0) (by rw [Heap.set_ne _ _ _ _ hnb.symm]; exact h0) (by omega) ?_
      refine ⟨_, Heap.set_same _ _ _, by show _ ≤ B0.size; omega, _, _, rfl, ?_⟩
      refine Or.inr ⟨hfull, ?_⟩
      constructor <;> simp [hcost] <;> omega
    · rintro e _ h' ⟨he, -⟩; cases he
  unfold growArray pickArray
  simp only [Prog.bind_def, Prog.bind_assoc, Prog.pure_def]
  refine cwp_rd h0 (by omega) ?_
  rw [hb2]
  by_cases hc : cap = 0
  · rw [if_pos hc]
    simp only [Prog.bind_assoc, Prog.ret_bind]
    have hA0 : A = [] := by
      rcases r.array with ⟨-, -, h3, -⟩ | ⟨h1, -⟩
      · exact h3
      · rw [hc] at h1; have := Nat.two_pow_pos lk.length; omega
    have hfull : Full A.length := Or.inl (by rw [hA0]; rfl)
    refine cwp_alloc (by decide) ?_ (Or.inr ⟨hfull, ?_⟩)
    · intro o d hf
      exact grow 32 (by decide) (by rw [hA0]; decide) hfull o d hf _ (by constructor <;> simp)
    · constructor <;> simp
  · rw [if_neg hc]
    simp only [Prog.bind_assoc, Prog.ret_bind]
    refine cwp_rd h0 (by omega) ?_
    rw [hb1]
    obtain ⟨e1, e2, -, -, -, -, BA, hBA, e5, hE⟩ : (cap = 32 * 2 ^ lk.length ∧ arr ≠ base ∧ arr ≠ 0 ∧ arr % 8 = 0 ∧ arr < W64 ∧ arr ∉ lk ∧ ∃ BA, h.blk arr = some BA ∧ (8 * cap ≤ BA.size ∧ A.length ≤ cap ∧ (True → BA.size = 8 * cap)) ∧ Ents BA A) :=
      r.array.resolve_left (fun h => hc h.1)
    by_cases hcn : cap = A.length
    · rw [if_pos hcn]
      simp only [Prog.bind_assoc, Prog.ret_bind]
      have hfull : Full A.length := Or.inr ⟨lk.length, by omega⟩
      refine cwp_alloc (r.cap_small hk hcn) ?_ (Or.inr ⟨hfull, ?_⟩)
      · intro o d hf
        exact grow (cap * 2) (r.cap_small hk hcn) (by omega) hfull o d hf _ (by constructor <;> simp)
      · constructor <;> simp
        omega
    · rw [if_neg hcn]
      simp only [Prog.bind_assoc, Prog.ret_bind]
      refine cwp_rd h0 (by omega) ?_
      refine cwp_rd h0 (by omega) ?_
      rw [if_neg (by simp)]
      refine cwp_ret (Or.inl ⟨rfl, ?_⟩)
      constructor <;> simp

/-- what a push costs on a queue of `n` items -/
structure PushCost (n : Nat) (d : Bytes) (c c' : Cost) : Prop where
  frees : c'.frees = c.frees
  allocs : c.allocs + 1 ≤ c'.allocs ∧ c'.allocs ≤ c.allocs + 2
  acc : c'.acc ≤ c.acc + 3 * n + 7 * (n + 1).log2 + 20
  bytes : c'.bytes ≤ c.bytes + d.length + 2 * d.length * (n + 1).log2
  plain : ¬ Full n → c'.allocs = c.allocs + 1 ∧ c'.acc ≤ c.acc + 7 * (n + 1).log2 + 20

theorem push_cost (hk : HeapOk h) (r : Rep h base arr cap A D lk G) {data : Bytes} (hd : data.length ≤ maxAlloc) :
    cwp (push base data) (fun _ c' _ => PushCost A.length data c c') c h := by
  unfold push
  refine cwp_bind_of (cwp_and (growArray_spec hk r) (growArray_cost (c := c) hk r)) ?_ ?_
  rotate_left
  · rintro e c1 h' ⟨-, ⟨h1, -⟩ | ⟨hf, u⟩⟩
    · cases h1
    · have u1 := u.allocs
      have u2 := u.frees
      have u3 := u.acc
      have u4 := u.bytes
      exact ⟨by omega, by omega, by omega, by omega, fun h => absurd hf h⟩
  rintro _ c1 h1 ⟨⟨he, -⟩ | ⟨-, arr1, cap1, lk1, r1, hroom⟩, hu⟩
  · cases he
  have hu : ∃ k x, (k = 0 ∧ x = 0 ∨ Full A.length ∧ k = 1 ∧ x = 3 * A.length) ∧ c1.allocs = c.allocs + k ∧ c1.frees = c.frees ∧ c1.acc ≤ c.acc + x + 9 ∧ c1.bytes ≤ c.bytes := by
    rcases hu with ⟨-, u⟩ | ⟨hf, u⟩
    · have u1 := u.allocs
      have u2 := u.frees
      have u3 := u.acc
      have u4 := u.bytes
      exact ⟨0, 0, Or.inl ⟨rfl, rfl⟩, by omega, by omega, by omega, by omega⟩
    · have u1 := u.allocs
      have u2 := u.frees
      have u3 := u.acc
      have u4 := u.bytes
      exact ⟨1, 3 * A.length, Or.inr ⟨hf, rfl, rfl⟩, by omega, by omega, by omega, by omega⟩
  obtain ⟨k, x, hkx, u1, u2, u3, u4⟩ := hu
  have fin : ∀ {c2 : Cost} {y z : Nat}, c1.Upto c2 1 0 (7 * (A.length + 1).log2 + 11) (data.length + 2 * data.length * (A.length + 1).log2) → PushCost A.length data c c2 := by
    intro c2 y z v
    have v1 := v.allocs
    have v2 := v.frees
    have v3 := v.acc
    have v4 := v.bytes
    rcases hkx with ⟨rfl, rfl⟩ | ⟨hf, rfl, rfl⟩
    · exact ⟨by omega, by omega, by omega, by omega, fun _ => ⟨by omega, by omega⟩⟩
    · exact ⟨by omega, by omega, by omega, by omega, fun h => absurd hf h⟩
  have hc : cap1 ≠ 0 := by omega
  obtain ⟨B0, h0, hs0, hb1, hb2, hb3⟩ := r1.b0
  obtain ⟨e1, e2, e3, e4, e5, e6, BA, hBA, e7, hE⟩ := r1.array.resolve_left (fun h => hc h.1)
  refine cwp_alloc hd ?_ (fin (y := 0) (z := 0) (by constructor <;> simp))
  intro item d hf
  have hne : ∀ x B, h1.blk x = some B → x ≠ item := by
    intro x B hx e; rw [e, hf.none] at hx; cases hx
  have hib : base ≠ item := hne _ _ h0
  have hia : arr1 ≠ item := hne _ _ hBA
  have hiA : item ∉ A := by
    intro hm; obtain ⟨-, -, B, hB, -⟩ := r1.items _ hm; exact hne _ _ hB rfl
  have hilt := hf.lt
  refine cwp_wrB (Heap.set_same _ _ _) (by show _ ≤ data.length; omega) ?_
  rw [Heap.set_set]
  generalize hIB : Block.wrB ⟨data.length, d⟩ 0 data = IB
  have hIBs : IB.size = data.length := by rw [← hIB]; rfl
  have hIBb : IB.bytes = data := by
    unfold Block.bytes; rw [hIBs, ← hIB]; exact Block.rdB_wrB_same' _ _ _ _ rfl
  refine cwp_rd (B := B0) (by rw [Heap.set_ne _ _ _ _ hib]; exact h0) (by omega) ?_
  refine cwp_rd (B := B0) (by rw [Heap.set_ne _ _ _ _ hib]; exact h0) (by omega) ?_
  rw [hb3, hb1]
  refine cwp_wr (B := BA) (by rw [Heap.set_ne _ _ _ _ hia]; exact hBA) (by omega) ?_
  refine cwp_rd (B := B0) (by rw [Heap.set_ne _ _ _ _ e2.symm, Heap.set_ne _ _ _ _ hib]; exact h0) (by omega) ?_
  rw [hb1]
  refine cwp_wr (B := B0) (by rw [Heap.set_ne _ _ _ _ e2.symm, Heap.set_ne _ _ _ _ hib]; exact h0) (by omega) ?_
  refine cwp_rd (Heap.set_same _ _ _) (by show _ ≤ B0.size; omega) ?_
  have hlen : A.length + 1 < W64 := by
    have h2 := hE.1
    have h3 := B0.rd8_lt 8
    rw [hb2] at h3
    omega
  rw [Block.rd_wr_same8 _ _ _ hlen, Nat.add_sub_cancel]
  generalize hBA1 : BA.wr (8 * A.length) 8 item = BA1
  generalize hB1 : B0.wr 0 8 (A.length + 1) = B1
  have hE1 : Ents BA1 (A ++ [item]) := by
    have h2 : Ents BA1 ((A ++ [0]).set A.length item) := by
      rw [← hBA1]
      refine ⟨by simp; omega, ?_⟩
      intro i hi
      simp only [List.length_set, List.length_append, List.length_singleton] at hi
      rw [getD_set]
      by_cases e : i = A.length
      · subst e; simp only [true_and, List.length_append, List.length_singleton, Nat.lt_succ_self, if_true]
        exact Block.rd_wr_same8 _ _ _ (by omega)
      · simp only [e, false_and, if_false]
        rw [Block.rd_wr_disj _ _ _ _ _ _ (by omega), hE.2 i (by omega)]
        simp only [List.getD_eq_getElem?_getD, List.getElem?_append_left (show i < A.length by omega)]
    have e : List.set (A ++ [0]) A.length item = A ++ [item] := by rw [List.set_append_right _ _ (Nat.le_refl _)]; simp
    rwa [e] at h2
  let D' : Nat → Bytes := fun x => if x = item then data else D x
  have hlt : ∀ a ∈ A, a ≠ item := fun a ha e => hiA (e ▸ ha)
  have hI : Items (((h1.set item IB).set arr1 BA1).set base B1) arr1 D' (A ++ [item]) := by
    intro a ha
    rcases List.mem_append.1 ha with ha | ha
    · obtain ⟨k1, k2, B, hB, hd⟩ := r1.items a ha
      refine ⟨k1, k2, B, ?_, by simp only [D', if_neg (hlt a ha)]; exact hd⟩
      rw [Heap.set_ne _ _ _ _ (r1.al a ha).2.2.1, Heap.set_ne _ _ _ _ k1, Heap.set_ne _ _ _ _ (hlt a ha)]; exact hB
    · rw [List.mem_singleton] at ha
      subst ha
      refine ⟨hia.symm, by omega, IB, ?_, by simp only [D', if_true]; exact hIBb⟩
      rw [Heap.set_ne _ _ _ _ hib.symm, Heap.set_ne _ _ _ _ hia.symm, Heap.set_same]
  have hb1' : B1.rd 16 8 = arr1 ∧ B1.size = 24 := by
    rw [← hB1]
    refine ⟨?_, hs0⟩
    rw [Block.rd_wr_disj _ _ _ _ _ _ (by omega)]; exact hb3
  refine cwp_mono ?_ (siftDown_cost (M := data.length) (D := D') (A := A ++ [item]) (t := A.length) (Heap.set_same _ _ _) (by omega) hb1'.1
    (by rw [Heap.set_ne _ _ _ _ e2, Heap.set_same]) hE1 hI (by rw [getD_append_right]; simp [D']) (by simp))
  rintro o c2 h' v
  have v1 := v.allocs
  have v2 := v.frees
  have v3 := v.acc
  have v4 := v.bytes
  simp at v1 v2 v3 v4
  refine fin (y := 0) (z := 0) ?_
  constructor <;> omega

theorem takeItem_every (o : Nat) : HEvery (takeItem o) {} fun out e => ∃ d, out = .ok d ∧ ({} : Cost).Upto e 0 1 2 d.length := by
  intro n hn d hd u _
  refine ⟨d, rfl, ?_⟩
  constructor <;> simp [hcost]
  exact Nat.le_of_eq hd.symm

/-- what a pop that returns `d` costs on a queue of `n` items no longer than `M` -/
structure PopCost (n M : Nat) (d : Bytes) (c c' : Cost) : Prop where
  frees : c'.frees = c.frees + 1
  allocs : c'.allocs = c.allocs
  acc : c'.acc ≤ c.acc + 17 * n.log2 + 20
  bytes : c'.bytes ≤ c.bytes + d.length + 4 * M * n.log2

theorem pop_cost (r : Rep h base arr cap A D lk G) {M : Nat} (hM : ∀ a ∈ A, (D a).length ≤ M) :
    cwp (pop base) (fun out c' _ => (out = .err .outOfRange ∧ c' = c + { acc := 1 }) ∨ ∃ d, out = .ok d ∧ PopCost A.length M d c c') c h := by
  obtain ⟨B0, h0, hs0, hb1, hb2, hb3⟩ := r.b0
  unfold pop
  refine cwp_rd h0 (by omega) ?_
  rw [hb1]
  by_cases hA0 : A.length = 0
  · rw [if_pos hA0]
    exact cwp_err (Or.inl ⟨rfl, rfl⟩)
  rw [if_neg hA0]
  have hc : cap ≠ 0 := by
    intro hc
    rcases r.array with ⟨-, -, h, -⟩ | ⟨h, -⟩
    · rw [h] at hA0; simp at hA0
    · have := Nat.two_pow_pos lk.length; omega
  obtain ⟨e1, e2, e3, e4, e5, e6, BA, hBA, e7, hE⟩ := r.array.resolve_left (fun h => hc h.1)
  have hE1 := hE.1
  have hom : A.getD 0 0 ∈ A := mem_getD (by omega)
  have hr0 := hE.2 0 (by omega)
  generalize A.getD 0 0 = o at hom hr0
  obtain ⟨hoa, -, OB, hOB, hOD⟩ := r.items o hom
  obtain ⟨-, -, hob, -⟩ := r.al o hom
  by_cases hA1 : A.length = 1
  · rw [if_pos hA1]
    refine cwp_rd h0 (by omega) ?_
    rw [hb3]
    refine cwp_rd hBA (by omega) ?_
    have hr0' : BA.rd 0 8 = o := hr0
    rw [hr0']
    refine cwp_wr h0 (by omega) ?_
    refine cwp_mono ?_ (cwp_of (takeItem_spec (h := h.set base _) (by rw [Heap.set_ne _ _ _ _ hob]; exact hOB)) (takeItem_every o).from)
    rintro out c1 h' ⟨⟨rfl, rfl⟩, e, rfl, d, hd, v⟩
    cases hd
    have v1 := v.allocs
    have v2 := v.frees
    have v3 := v.acc
    have v4 := v.bytes
    simp at v1 v2 v3 v4
    exact Or.inr ⟨_, rfl, by simp; omega, by simp; omega, by simp; omega, by simp; omega⟩
  · rw [if_neg hA1]
    have h2 : 2 ≤ A.length := by omega
    obtain ⟨q1, q2⟩ := replace_perm h2
    refine cwp_rd h0 (by omega) ?_
    rw [hb3]
    refine cwp_rd hBA (by omega) ?_
    have hr0' : BA.rd 0 8 = o := hr0
    rw [hr0']
    refine cwp_rd h0 (by omega) ?_
    rw [hb1]
    refine cwp_rd hBA (by omega) ?_
    rw [hE.2 _ (by omega)]
    have hlm : A.getD (A.length - 1) 0 ∈ A := mem_getD (by omega)
    have ho : A.getD 0 0 = o := by rw [← hE.2 0 (by omega)]; exact hr0
    rw [ho] at q1
    have hEl := (hE.set (t := 0) (r.items _ hlm).2.1).take (A.length - 1)
    generalize hA1' : (A.set 0 (A.getD (A.length - 1) 0)).take (A.length - 1) = A1 at q1 q2 hEl
    have hl1 : A1.length = A.length - 1 := by have := q1.length_eq; simp at this; omega
    refine cwp_wr hBA (by omega) ?_
    refine cwp_rd (B := B0) (by rw [Heap.set_ne _ _ _ _ e2.symm]; exact h0) (by omega) ?_
    rw [hb1]
    refine cwp_wr (B := B0) (by rw [Heap.set_ne _ _ _ _ e2.symm]; exact h0) (by omega) ?_
    generalize hlast : A.getD (A.length - 1) 0 = last at hlm hEl hA1'
    rw [← hl1]
    have hlW : A1.length < W64 := by have := B0.rd8_lt 0; omega
    generalize hBA1 : BA.wr 0 8 last = BA1
    generalize hB1 : B0.wr 0 8 A1.length = B1
    have hb1' : B1.rd 0 8 = A1.length ∧ B1.rd 8 8 = cap ∧ B1.rd 16 8 = arr ∧ B1.size = 24 := by
      rw [← hB1]
      refine ⟨Block.rd_wr_same8 _ _ _ hlW, ?_, ?_, hs0⟩
      · rw [Block.rd_wr_disj _ _ _ _ _ _ (by omega)]; exact hb2
      · rw [Block.rd_wr_disj _ _ _ _ _ _ (by omega)]; exact hb3
    have hE2 : Ents BA1 A1 := by
      rw [← hBA1]; exact hEl
    have hmA : ∀ a ∈ A1, a ∈ A := fun a ha => q1.mem_iff.2 (List.mem_cons_of_mem _ ha)
    have hI : Items ((h.set arr BA1).set base B1) arr D A := by
      intro a ha
      obtain ⟨k1, k2, B, hB, hd⟩ := r.items a ha
      exact ⟨k1, k2, B, by rw [Heap.set_ne _ _ _ _ (r.al a ha).2.2.1, Heap.set_ne _ _ _ _ k1]; exact hB, hd⟩
    have hhp : ∀ i, 0 < i → i < A1.length → (i - 1) / 2 ≠ 0 → ltD D (A1.getD i 0) (A1.getD ((i - 1) / 2) 0) = false := by
      intro i hi0 hi hp
      rw [hl1] at hi
      rw [q2 i hi0 hi, q2 _ (by omega) (by omega)]
      exact r.heap i hi0 (by omega)
    have hmono : A1.length.log2 ≤ A.length.log2 := by
      rw [Nat.le_log2 (by omega)]
      exact Nat.le_trans (Nat.log2_self_le (by omega)) (by omega)
    refine cwp_bind_of (cwp_and (siftUp_spec (D := D) (A := A1) e2 (Heap.set_same _ _ _) (by omega) hb1'.2.2.1 hb1'.1 (by rw [Heap.set_ne _ _ _ _ e2, Heap.set_same]) hE2
      (hI.mono hmA) (by omega) hhp) (siftUp_cost (M := M) (D := D) (A := A1) e2 (Heap.set_same _ _ _) (by omega) hb1'.2.2.1 hb1'.1 (by rw [Heap.set_ne _ _ _ _ e2, Heap.set_same]) hE2
      (hI.mono hmA) (fun a ha => hM a (hmA a ha)) (by omega) hhp)) ?_ ?_
    · rintro _ c1 h' ⟨⟨-, BA', A', rfl, hs', hE', hh', hp'⟩, u⟩
      have u1 := u.allocs
      have u2 := u.frees
      have u3 := u.acc
      have u4 := u.bytes
      simp at u1 u2 u3 u4
      have e1 : 4 * M * A1.length.log2 ≤ 4 * M * A.length.log2 := Nat.mul_le_mul_left _ hmono
      refine cwp_mono ?_ (cwp_of (takeItem_spec (o := o) (B := OB) (by rw [Heap.set_ne _ _ _ _ hoa, Heap.set_ne _ _ _ _ hob, Heap.set_ne _ _ _ _ hoa]; exact hOB)) (takeItem_every o).from)
      rintro out c2 h' ⟨⟨rfl, rfl⟩, e, rfl, d, hd, v⟩
      cases hd
      have v1 := v.allocs
      have v2 := v.frees
      have v3 := v.acc
      have v4 := v.bytes
      simp at v1 v2 v3 v4
      exact Or.inr ⟨_, rfl, by simp; omega, by simp; omega, by simp; omega, by simp; omega⟩
    · rintro e c1 h' ⟨⟨he, -⟩, -⟩; cases he

theorem clearLoop_every (arr n : Nat) : HEvery (clearLoop arr n) {} fun _ e => ({} : Cost).Upto e 0 n n 0 := by
  induction n with
  | zero => constructor <;> simp
  | succ n ih =>
    intro o _ u _
    refine ih.from.mono ?_
    rintro _ c ⟨e, rfl, v⟩
    have v1 := v.allocs
    have v2 := v.frees
    have v3 := v.acc
    have v4 := v.bytes
    simp at v1 v2 v3 v4
    constructor <;> simp [hcost] <;> omega

theorem clear_cost (r : Rep h base arr cap A D lk G) : cwp (clear base) (fun _ c' _ => c.Upto c' 0 A.length (A.length + 3) 0) c h := by
  obtain ⟨B0, h0, hs0, hb1, hb2, hb3⟩ := r.b0
  have fin : ∀ (e : Cost), ({} : Cost).Upto e 0 A.length A.length 0 →
      c.Upto (c + { acc := 1 } + { acc := 1 } + { acc := 1 } + e) 0 A.length (A.length + 3) 0 := by
    intro e v
    have v1 := v.allocs
    have v2 := v.frees
    have v3 := v.acc
    have v4 := v.bytes
    simp at v1 v2 v3 v4
    constructor <;> simp <;> omega
  have main : wp (clearLoop arr A.length) (fun _ _ => True) (h.set base (B0.wr 0 8 0)) := by
    by_cases hc : cap = 0
    · obtain ⟨e1, e2, rfl, rfl⟩ : cap = 0 ∧ arr = 0 ∧ A = [] ∧ lk = [] := by
        rcases r.array with ⟨h1, h2, h3⟩ | ⟨h, -⟩
        · exact ⟨h1, h2.1 trivial, h3⟩
        · have := Nat.two_pow_pos lk.length; omega
      exact trivial
    · obtain ⟨e1, e2, e3, e4, e5, e6, BA, hBA, e7, hE⟩ := r.array.resolve_left (fun h => hc h.1)
      refine wp_mono ?_ (clearLoop_spec (A := A) hE A.length (h := h.set base (B0.wr 0 8 0)) (Or.inl (by rw [Heap.set_ne _ _ _ _ e2]; exact hBA)) (Nat.le_refl _) ?_ r.nodup)
      · exact fun _ _ _ => trivial
      · intro a ha
        rw [List.take_length] at ha
        obtain ⟨k1, -, B, hB, -⟩ := r.items a ha
        exact ⟨k1, B, by rw [Heap.set_ne _ _ _ _ (r.al a ha).2.2.1]; exact hB⟩
  unfold clear
  refine cwp_rd h0 (by omega) ?_
  refine cwp_rd h0 (by omega) ?_
  refine cwp_wr h0 (by omega) ?_
  rw [hb1, hb3]
  refine cwp_mono ?_ (cwp_of main (clearLoop_every arr A.length).from)
  rintro _ c1 _ ⟨-, e, rfl, v⟩
  exact fin e v

end PrioQueue

namespace PQ
/-- README: push amortised 1 allocation + O(log n) comparisons, pop O(log n) comparisons + 1 free, clear n frees, size O(1); with the item that is copied and the items
that are compared.  `n` is the number of items before the call.  A push makes a second allocation, and copies the array of the n item pointers, only when n is 0, 32, 64, 128,
256, ...; it frees nothing (the README says that the old array is freed then; see C28). -/
def Bound (s : List Bytes) (op : Op) (r : Out Ret) (c : Cost) : Prop :=
  match op with
  | .push d => c.frees = 0 ∧ 1 ≤ c.allocs ∧ c.allocs ≤ 2 ∧
      c.acc ≤ 3 * s.length + 7 * (s.length + 1).log2 + 20 ∧ c.bytes ≤ d.length + 2 * d.length * (s.length + 1).log2 ∧
      (s.length ≠ 0 → (∀ k, s.length ≠ 32 * 2 ^ k) → c.allocs = 1 ∧ c.acc ≤ 7 * (s.length + 1).log2 + 20)
  | .pop => c.allocs = 0 ∧ ((r = .err .outOfRange ∧ c = { acc := 1 }) ∨
      ∃ d, r = .ok (.str d) ∧ c.frees = 1 ∧ c.acc ≤ 17 * s.length.log2 + 20 ∧ ∀ M, (∀ x ∈ s, x.length ≤ M) → c.bytes ≤ d.length + 4 * M * s.length.log2)
  | .clear => c.allocs = 0 ∧ c.frees = s.length ∧ c.acc ≤ s.length + 3 ∧ c.bytes = 0
  | .size => c = { acc := 1 }
end PQ

open PQ

/-- the longest item -/
theorem longest (s : List Bytes) : ∃ M, (∀ x ∈ s, x.length ≤ M) ∧ ∀ M', (∀ x ∈ s, x.length ≤ M') → M ≤ M' := by
  induction s with
  | nil => exact ⟨0, by simp, by simp⟩
  | cons a s ih =>
    obtain ⟨M, h1, h2⟩ := ih
    refine ⟨max a.length M, ?_, ?_⟩
    · intro x hx
      rcases List.mem_cons.1 hx with rfl | hx
      · omega
      · have := h1 x hx; omega
    · intro M' h
      have h3 := h a List.mem_cons_self
      have h4 := h2 M' fun x hx => h x (List.mem_cons_of_mem _ hx)
      omega

namespace PrioQueue

theorem call_cost {b : Nat} {G : Nat → Option Block} {s : List Bytes} {op : Op} {h : Heap} (hok : op.ok) (hi : Inv b G s h) :
    cwp (call b op) (fun r c _ => Bound s op r c) {} h := by
  obtain ⟨hk, arr, cap, A, D, lk, hp, r⟩ := hi
  have hl : s.length = A.length := by rw [hp.length_eq, List.length_map]
  cases op with
  | push d =>
    have fin : ∀ (r : Out Ret) (c : Cost), PushCost A.length d {} c → Bound s (.push d) r c := by
      intro r c u
      have u1 := u.frees
      have u2 := u.allocs
      have u3 := u.acc
      have u4 := u.bytes
      have u5 := u.plain
      simp only [Nat.zero_add] at u2 u3 u4 u5
      simp only [Bound, hl]
      refine ⟨u1, u2.1, u2.2, u3, u4, ?_⟩
      intro h1 h2
      exact u5 (by rintro (h | ⟨k, hk⟩); exacts [h1 h, h2 k hk])
    refine cwp_bind_of (push_cost hk r (data := d) (by simp only [Op.ok] at hok; omega)) ?_ ?_
    · intro _ c' h' u; exact cwp_ret (fin _ _ u)
    · intro _ c' h' u; exact fin _ _ u
  | pop =>
    obtain ⟨M, hM, hM'⟩ := longest s
    refine cwp_bind_of (pop_cost r (M := M) (fun a ha => hM _ (hp.mem_iff.2 (List.mem_map_of_mem ha)))) ?_ ?_
    · rintro d c' h' (⟨h1, -⟩ | ⟨d', h1, u⟩)
      · cases h1
      · cases h1
        refine cwp_ret ⟨by rw [u.allocs], Or.inr ⟨d, rfl, by rw [u.frees], ?_, ?_⟩⟩
        · have := u.acc; simp only [Nat.zero_add] at this; rw [hl]; exact this
        · intro M1 h1
          have := u.bytes
          simp only [Nat.zero_add] at this
          rw [hl]
          have h3 : 4 * M * A.length.log2 ≤ 4 * M1 * A.length.log2 := Nat.mul_le_mul_right _ (Nat.mul_le_mul_left _ (hM' M1 h1))
          omega
    · rintro e c' h' (⟨h1, h2⟩ | ⟨d', h1, u⟩)
      · cases h1
        subst h2
        exact ⟨rfl, Or.inl ⟨rfl, rfl⟩⟩
      · cases h1
  | clear =>
    have fin : ∀ (r : Out Ret) (c : Cost), ({} : Cost).Upto c 0 A.length (A.length + 3) 0 → Bound s .clear r c := by
      intro r c u
      have u1 := u.allocs
      have u2 := u.frees
      have u3 := u.acc
      have u4 := u.bytes
      simp only [Nat.zero_add] at u1 u2 u3 u4
      simp only [Bound, hl]
      exact ⟨u1, u2, u3, by omega⟩
    refine cwp_bind_of (clear_cost r) ?_ ?_
    · intro _ c' h' u; exact cwp_ret (fin _ _ u)
    · intro _ c' h' u; exact fin _ _ u
  | size =>
    obtain ⟨B0, h0, hs0, -⟩ := r.b0
    unfold call size
    exact cwp_rd h0 (by omega) (cwp_ret rfl)

theorem cost_step (b : Nat) (G : Nat → Option Block) (s : List Bytes) (op : Op) (h : Heap) (hok : op.ok) (hi : Inv b G s h) :
    wp (counted (call b op)) (fun out h' => ∃ s', CSpec Spec Bound s op out s' ∧ Inv b G s' h') h :=
  cwp_step (cwp_and (step b G s op h hok hi) (call_cost hok hi))

end PrioQueue

/-- **C64.** In a pool with any history of SimpleAllocator calls (including crashes) and any sequence of calls of a newly created priority queue, every call costs no more
than `PQ.Bound` says: push one allocation and O(log n) accesses, except that the pushes onto 0, 32, 64, 128, ... items make a second allocation and O(n) accesses; pop O(log n)
accesses and one free; clear exactly n frees; size one access.  The results are those of C25. -/
theorem C64_prioqueue_cost {p0 p : Pool} {live lk : List (Nat × Nat)} {ex : Bool} (h : Hist p0 p live lk ex) {b : Nat} {p1 : Pool}
    (hc : run (compile PrioQueue.create) p = (.ok b, p1)) (ops : List Op) (hok : ∀ o ∈ ops, o.ok) :
    ∃ rs p2 s, run (compile (hist (fun o => counted (PrioQueue.call b o)) ops)) p1 = (.ok rs, p2) ∧ Trace (CSpec Spec Bound) [] ops rs s := by
  obtain ⟨hp, hs, hl⟩ := h.sim
  obtain ⟨out, p1', h1, hr, hq, hs1⟩ := sim_run (PrioQueue.create_spec hp) hs
  have he := Prod.mk.inj (hc.symm.trans hr)
  cases out with
  | err e => cases he.1
  | ok b' =>
    cases he.1
    cases he.2
    obtain ⟨rs, p2, s, h2, e1, e2, -⟩ :=
      hist_run (PrioQueue.cost_step b hp.blk) ops hok (s := []) (h := h1) (p := p1) ⟨hs1.heapOk, _, _, _, _, _, .refl _, hq⟩ hs1
    exact ⟨rs, p2, s, e1, e2⟩

/-- **C64, for every lawful allocator.** -/
theorem C64_prioqueue_cost_any_allocator (h : Heap) (hk : HeapOk h) (ops : List Op) (hok : ∀ o ∈ ops, o.ok) :
    wp (PrioQueue.create.bind fun b => hist (fun o => counted (PrioQueue.call b o)) ops)
      (fun out _ => out = .err .noMem ∨ ∃ rs s, out = .ok rs ∧ Trace (CSpec Spec Bound) [] ops rs s) h := by
  refine wp_bind_of (wp_heapOk hk (PrioQueue.create_spec h)) ?_ ?_
  · rintro b h' ⟨hq, hk'⟩
    refine wp_mono ?_ (hist_spec (PrioQueue.cost_step b h.blk) ops [] h' hok ⟨hk', _, _, _, _, _, .refl _, hq⟩)
    rintro out h'' ⟨rs, s', h1, h2, -⟩
    exact Or.inr ⟨rs, s', h1, h2⟩
  · rintro e h' ⟨⟨rfl, -⟩, -⟩
    exact Or.inl rfl

/-- a concrete run with its costs -/
example : (run (compile PrioQueue.create) (run Simple.init (newPool 0)).2).1 = .ok 344 ∧
    (run (compile (hist (fun o => counted (PrioQueue.call 344 o)) [.push [200], .push [1, 0, 2], .pop, .size, .pop, .pop, .push [3], .clear])) pqPool).1 =
      .ok [.ok (.ok .unit, { allocs := 2, acc := 16, bytes := 1 }), .ok (.ok .unit, { allocs := 1, acc := 21, bytes := 5 }),
        .ok (.ok (.str [1, 0, 2]), { frees := 1, acc := 18, bytes := 3 }), .ok (.ok (.num 1), { acc := 1 }), .ok (.ok (.str [200]), { frees := 1, acc := 6, bytes := 1 }),
        .ok (.err .outOfRange, { acc := 1 }), .ok (.ok .unit, { allocs := 1, acc := 14, bytes := 1 }), .ok (.ok .unit, { frees := 1, acc := 4 })] := by
  decide +kernel

end Verif
