import Verif.PyPrio
import Verif.PropsPython
/-
C67: the Python class PriorityQueue; priorities in front of the items; str items.
-/
namespace Verif.Py
open PQ (Spec)
variable {O : Type}

/-! ### Specification -/

/-- after a successful push of the bytes `d`, or one that failed for lack of memory -/
def Pushed (d : Bytes) (s : List Bytes) (r : Out (Res O)) (s' : List Bytes) : Prop :=
  (r = .ok (.obj .none) ∧ s'.Perm (d :: s)) ∨ (r = .err .noMem ∧ s'.Perm s)

/-- `PQSpec s op r s'`: on a queue of the byte strings `s`, in no particular order, the call `op` may have outcome `r` and leave `s'` -/
def PQSpec (s : List Bytes) (op : PQOp O) (r : Out (Res O)) (s' : List Bytes) : Prop :=
  match op with
  | .push (.bytes d) => Pushed d s r s'
  | .push (.str cs) => (∃ d, utf8 cs = some d ∧ Pushed d s r s') ∨ (utf8 cs = Option.none ∧ r = .ok (.raised .valueError) ∧ s'.Perm s)
  | .push _ => r = .ok (.raised .typeError) ∧ s'.Perm s
  | .pop => (s = [] ∧ r = .ok (.raised .indexError) ∧ s' = []) ∨ ∃ m, s.Perm (m :: s') ∧ (∀ x ∈ s, m ≤ x) ∧ r = .ok (.obj (.bytes m))
  | .len => r = .ok (.obj (.int s.length)) ∧ s'.Perm s

/-- items have at most 2^62 bytes -/
def PQOp.ok : PQOp O → Prop
  | .push (.bytes d) => d.length ≤ 2 ^ 62
  | .push (.str cs) => ∀ d, utf8 cs = some d → d.length ≤ 2 ^ 62
  | _ => True

/-- `PrioSpec s op r s'`: on a queue of pairs `s` of a priority and an item, in no particular order, the call `op` may have outcome `r` and leave `s'`.  A pop takes a pair with the least
priority, and among these the least item. -/
def PrioSpec (s : List (Nat × Bytes)) (op : PrioOp) (r : Out PrioRes) (s' : List (Nat × Bytes)) : Prop :=
  match op with
  | .push p d => (r = .ok .none ∧ s'.Perm ((p.toNat, d) :: s)) ∨ (r = .err .noMem ∧ s'.Perm s)
  | .pop => (s = [] ∧ r = .ok (.raised .indexError) ∧ s' = []) ∨
      ∃ p d, s.Perm ((p, d) :: s') ∧ (∀ x ∈ s, p < x.1 ∨ (p = x.1 ∧ d ≤ x.2)) ∧ r = .ok (.item p d)
  | .len => r = .ok (.int s.length) ∧ s'.Perm s

/-- items have at most 2^62 - 8 bytes -/
def PrioOp.ok : PrioOp → Prop
  | .push _ d => d.length + 8 ≤ 2 ^ 62
  | _ => True

/-! ### The order of encodings -/

/-- there is a first difference, and the byte there is smaller in `x` -/
def Before (x y : Bytes) : Prop := ∃ (p : Bytes) (a b : UInt8) (x' y' : Bytes), x = p ++ a :: x' ∧ y = p ++ b :: y' ∧ a.toNat < b.toNat

theorem Before.app {x y : Bytes} (h : Before x y) (u v : Bytes) : Before (x ++ u) (y ++ v) := by
  obtain ⟨p, a, b, x', y', rfl, rfl, h⟩ := h
  exact ⟨p, a, b, x' ++ u, y' ++ v, by simp, by simp, h⟩

theorem Before.pre {x y : Bytes} (h : Before x y) (u : Bytes) : Before (u ++ x) (u ++ y) := by
  obtain ⟨p, a, b, x', y', rfl, rfl, h⟩ := h
  exact ⟨u ++ p, a, b, x', y', by simp, by simp, h⟩

theorem Before.lt {x y : Bytes} (h : Before x y) : x < y := (C26_meaning x y).2 (Or.inl h)

theorem before_head {a b : UInt8} (h : a.toNat < b.toNat) (x y : Bytes) : Before (a :: x) (b :: y) := ⟨[], a, b, x, y, rfl, rfl, h⟩

theorem natBe_length (n : Nat) : ∀ p, (natBe n p).length = n := by
  induction n with
  | zero => intro p; rfl
  | succ n ih => intro p; simp [natBe, ih]

theorem natBe_before (n : Nat) : ∀ p q, p < q → q < 256 ^ n → Before (natBe n p) (natBe n q) := by
  induction n with
  | zero => intro p q h1 h2; simp at h2; omega
  | succ n ih =>
    intro p q h1 h2
    unfold natBe
    by_cases hd : p / 256 = q / 256
    · rw [hd]
      refine Before.pre (before_head ?_ [] []) _
      rw [UInt8.toNat_ofNat', UInt8.toNat_ofNat']
      omega
    · refine Before.app (ih _ _ (by omega) ?_) _ _
      rw [Nat.pow_succ] at h2
      omega

theorem beNat_snoc (d : Bytes) (x : UInt8) : beNat (d ++ [x]) = beNat d * 256 + x.toNat := by
  unfold beNat; rw [List.foldl_append]; rfl

theorem beNat_natBe (n : Nat) : ∀ p, p < 256 ^ n → beNat (natBe n p) = p := by
  induction n with
  | zero => intro p h; simp at h; subst h; rfl
  | succ n ih =>
    intro p h
    rw [Nat.pow_succ] at h
    unfold natBe
    rw [beNat_snoc, ih _ (by omega), UInt8.toNat_ofNat']
    omega

/-- the item that the program pushes -/
def enc (x : Nat × Bytes) : Bytes := packQ x.1 ++ x.2

theorem unpack_enc {x : Nat × Bytes} (h : x.1 < 2 ^ 64) : unpackQ (enc x) = x := by
  have hl : (packQ x.1).length = 8 := natBe_length 8 x.1
  unfold unpackQ enc
  rw [List.take_left' hl, List.drop_left' hl]
  exact Prod.ext (beNat_natBe 8 _ h) rfl

theorem append_le_append {u x y : Bytes} : u ++ x ≤ u ++ y ↔ x ≤ y := by
  induction u with
  | nil => rfl
  | cons a u ih =>
    rw [List.cons_append, List.cons_append]
    simp [List.cons_le_cons_iff, ih]

/-- **C67, the order of items with priorities.** Items with a smaller priority come first; with equal priorities, smaller items. -/
theorem C67_order {x y : Nat × Bytes} (hx : x.1 < 2 ^ 64) (hy : y.1 < 2 ^ 64) : enc x ≤ enc y ↔ x.1 < y.1 ∨ (x.1 = y.1 ∧ x.2 ≤ y.2) := by
  unfold enc packQ
  rcases Nat.lt_trichotomy x.1 y.1 with h | h | h
  · exact ⟨fun _ => Or.inl h, fun _ => List.le_of_lt ((natBe_before 8 _ _ h hy).app _ _).lt⟩
  · rw [h, append_le_append]
    exact ⟨fun h' => Or.inr ⟨rfl, h'⟩, fun h' => h'.elim (fun h' => absurd h' (Nat.lt_irrefl _)) (·.2)⟩
  · constructor
    · intro h'
      exact absurd ((natBe_before 8 _ _ h hx).app y.2 x.2).lt (List.not_lt.2 h')
    · rintro (h' | ⟨h', -⟩) <;> omega

/-! ### Order of UTF-8 -/

theorem before_cons {a b : Nat} (ha : a < 256) (hb : b < 256) {x y : Bytes} (h : a < b ∨ (a = b ∧ Before x y)) : Before (UInt8.ofNat a :: x) (UInt8.ofNat b :: y) := by
  rcases h with h | ⟨rfl, h⟩
  · exact before_head (by rw [UInt8.toNat_ofNat', UInt8.toNat_ofNat']; omega) _ _
  · exact h.pre [_]

theorem utf8Char_before {c d : Nat} {x y : Bytes} (h : c < d) (hd : d < 1114112) (hx : utf8Char c = some x) (hy : utf8Char d = some y) : Before x y := by
  unfold utf8Char at hx hy
  split at hx
  · injection hx with hx; subst hx
    repeat' split at hy
    all_goals first | (cases hy; done) | (injection hy with hy; subst hy; exact before_cons (by omega) (by omega) (Or.inl (by omega)))
  split at hx
  · injection hx with hx; subst hx
    split at hy
    · omega
    split at hy
    · injection hy with hy; subst hy
      refine before_cons (by omega) (by omega) ?_
      by_cases h1 : c / 64 = d / 64
      · exact Or.inr ⟨by omega, before_cons (by omega) (by omega) (Or.inl (by omega))⟩
      · exact Or.inl (by omega)
    repeat' split at hy
    all_goals first | (cases hy; done) | (injection hy with hy; subst hy; exact before_cons (by omega) (by omega) (Or.inl (by omega)))
  split at hx
  · cases hx
  split at hx
  · injection hx with hx; subst hx
    split at hy
    · omega
    split at hy
    · omega
    split at hy
    · cases hy
    split at hy
    · injection hy with hy; subst hy
      refine before_cons (by omega) (by omega) ?_
      by_cases h1 : c / 4096 = d / 4096
      · refine Or.inr ⟨by omega, before_cons (by omega) (by omega) ?_⟩
        by_cases h2 : c / 64 = d / 64
        · exact Or.inr ⟨by omega, before_cons (by omega) (by omega) (Or.inl (by omega))⟩
        · exact Or.inl (by omega)
      · exact Or.inl (by omega)
    · injection hy with hy; subst hy; exact before_cons (by omega) (by omega) (Or.inl (by omega))
  · injection hx with hx; subst hx
    split at hy
    · omega
    split at hy
    · omega
    split at hy
    · cases hy
    split at hy
    · omega
    · injection hy with hy; subst hy
      refine before_cons (by omega) (by omega) ?_
      by_cases h1 : c / 262144 = d / 262144
      · refine Or.inr ⟨by omega, before_cons (by omega) (by omega) ?_⟩
        by_cases h2 : c / 4096 = d / 4096
        · refine Or.inr ⟨by omega, before_cons (by omega) (by omega) ?_⟩
          by_cases h3 : c / 64 = d / 64
          · exact Or.inr ⟨by omega, before_cons (by omega) (by omega) (Or.inl (by omega))⟩
          · exact Or.inl (by omega)
        · exact Or.inl (by omega)
      · exact Or.inl (by omega)

theorem utf8_cons {c : Fin 1114112} {cs : List (Fin 1114112)} {d : Bytes} (h : utf8 (c :: cs) = some d) : ∃ x y, utf8Char c.val = some x ∧ utf8 cs = some y ∧ d = x ++ y := by
  unfold utf8 at h
  split at h
  · next x y h1 h2 => injection h with h; exact ⟨x, y, h1, h2, h.symm⟩
  · cases h

theorem utf8Char_ne {c : Nat} {x : Bytes} (h : utf8Char c = some x) : ∃ a y, x = a :: y := by
  unfold utf8Char at h
  repeat' split at h
  all_goals first | (cases h; done) | (injection h with h; subst h; exact ⟨_, _, rfl⟩)

theorem utf8_lt : ∀ (s t : List (Fin 1114112)) (x y : Bytes), utf8 s = some x → utf8 t = some y → s < t → x < y := by
  intro s
  induction s with
  | nil =>
    intro t x y hx hy h
    cases t with
    | nil => exact absurd h (List.lt_irrefl _)
    | cons c t =>
      obtain ⟨u, v, h1, h2, rfl⟩ := utf8_cons hy
      obtain ⟨a, w, rfl⟩ := utf8Char_ne h1
      injection hx with hx; subst hx
      exact List.nil_lt_cons _ _
  | cons c s ih =>
    intro t x y hx hy h
    cases t with
    | nil => exact absurd h (List.not_lt_nil _)
    | cons d t =>
      obtain ⟨u, v, h1, h2, rfl⟩ := utf8_cons hx
      obtain ⟨u', v', h1', h2', rfl⟩ := utf8_cons hy
      rw [List.cons_lt_cons_iff] at h
      rcases h with h | ⟨rfl, h⟩
      · exact ((utf8Char_before h d.isLt h1 h1').app _ _).lt
      · rw [h1] at h1'; injection h1' with h1'; subst h1'
        have := ih _ _ _ h2 h2' h
        rw [C26_meaning] at this ⊢
        rcases this with h | ⟨a, w, rfl⟩
        · exact Or.inl (Before.pre h u)
        · exact Or.inr ⟨a, w, by simp⟩

/-- **C67, str items.** Items pushed as str objects are ordered by their code points, since UTF-8 keeps this order; distinct str objects are distinct items. -/
theorem C67_str_order {s t : List (Fin 1114112)} {x y : Bytes} (hx : utf8 s = some x) (hy : utf8 t = some y) : x < y ↔ s < t := by
  constructor
  · intro h
    rcases Std.lt_trichotomy s t with h' | h' | h'
    · exact h'
    · subst h'; rw [hx] at hy; injection hy with hy; subst hy; exact absurd h (List.lt_irrefl _)
    · exact absurd (utf8_lt _ _ _ _ hy hx h') (fun h2 => List.lt_irrefl _ (List.lt_trans h h2))
  · exact utf8_lt _ _ _ _ hx hy

/-! ### The methods -/

theorem pqstep {b : Nat} {G : Nat → Option Block} (op : PQOp O) (s : List Bytes) (h : Heap) (hok : op.ok) (hi : PrioQueue.Inv b G s h) :
    wp (pqcall b op) (fun out h' => ∃ s', PQSpec s op out s' ∧ PrioQueue.Inv b G s' h') h := by
  have hpush : ∀ d : Bytes, d.length ≤ 2 ^ 62 → ∀ o : PQOp O, (∀ r s', Pushed d s r s' → PQSpec s o r s') →
      wp ((PrioQueue.call b (.push d)).bind fun _ => .ret (.obj .none)) (fun out h' => ∃ s', PQSpec s o out s' ∧ PrioQueue.Inv b G s' h') h := by
    intro d hd o hp
    refine wp_then (PrioQueue.step b G s (.push d) h hd hi) ?_ ?_
    · rintro a h' ⟨s', (⟨-, h1⟩ | ⟨h1, -⟩), h2⟩
      · exact ⟨_, rfl, s', hp _ _ (Or.inl ⟨rfl, h1⟩), h2⟩
      · cases h1
    · rintro x h' ⟨s', (⟨h1, -⟩ | ⟨h1, h3⟩), h2⟩
      · cases h1
      · injection h1 with h1; subst h1
        exact ⟨s', hp _ _ (Or.inr ⟨rfl, h3⟩), h2⟩
  cases op with
  | push v =>
    cases v with
    | bytes d => exact hpush d hok _ (fun _ _ h => h)
    | str cs =>
      simp only [pqcall, parseS]
      cases hu : utf8 cs with
      | none => exact ⟨s, Or.inr ⟨hu, rfl, .refl _⟩, hi⟩
      | some d => exact hpush d (hok d hu) _ (fun _ _ h => Or.inl ⟨d, hu, h⟩)
    | none => exact ⟨s, ⟨rfl, .refl _⟩, hi⟩
    | bool _ => exact ⟨s, ⟨rfl, .refl _⟩, hi⟩
    | int _ => exact ⟨s, ⟨rfl, .refl _⟩, hi⟩
    | float _ => exact ⟨s, ⟨rfl, .refl _⟩, hi⟩
    | other _ => exact ⟨s, ⟨rfl, .refl _⟩, hi⟩
  | pop =>
    refine wp_onRange (PrioQueue.step b G s .pop h trivial hi) ?_ ?_ ?_
    · rintro a h' ⟨s', (⟨-, h1, -⟩ | ⟨m, h1, h3, h4⟩), h2⟩
      · cases h1
      · injection h4 with h4; subst h4
        exact ⟨_, rfl, s', Or.inr ⟨m, h1, h3, rfl⟩, h2⟩
    · rintro h' ⟨s', (⟨h0, h1, h3⟩ | ⟨m, h1, h3, h4⟩), h2⟩
      · exact ⟨s', Or.inl ⟨h0, rfl, h3⟩, h2⟩
      · cases h4
    · rintro x h' hx ⟨s', (⟨h0, h1, h3⟩ | ⟨m, h1, h3, h4⟩), h2⟩
      · injection h1 with h1; exact absurd h1 hx
      · cases h4
  | len =>
    refine wp_then (PrioQueue.step b G s .size h trivial hi) ?_ ?_
    · rintro a h' ⟨s', ⟨h1, h3⟩, h2⟩
      injection h1 with h1; subst h1
      exact ⟨_, rfl, s', ⟨rfl, h3⟩, h2⟩
    · rintro x h' ⟨s', ⟨h1, h3⟩, h2⟩
      cases h1

/-- the heap holds a queue of the pairs `s` -/
def PrioHolds (b : Nat) (G : Nat → Option Block) (s : List (Nat × Bytes)) (h : Heap) : Prop := (∀ x ∈ s, x.1 < 2 ^ 64) ∧ PrioQueue.Inv b G (s.map enc) h

theorem Inv.perm {b : Nat} {G : Nat → Option Block} {s t : List Bytes} {h : Heap} (hp : t.Perm s) (hi : PrioQueue.Inv b G s h) : PrioQueue.Inv b G t h := by
  obtain ⟨hk, arr, cap, A, D, lk, h1, r⟩ := hi
  exact ⟨hk, arr, cap, A, D, lk, hp.trans h1, r⟩

theorem priostep {b : Nat} {G : Nat → Option Block} (op : PrioOp) (s : List (Nat × Bytes)) (h : Heap) (hok : op.ok) (hi : PrioHolds b G s h) :
    wp (prioCall O b op) (fun out h' => ∃ s', PrioSpec s op out s' ∧ PrioHolds b G s' h') h := by
  obtain ⟨hs, hi⟩ := hi
  cases op with
  | push p d =>
    refine wp_bind_of (pqstep (.push (.bytes (packQ p.toNat ++ d) : Obj O)) _ h ?_ hi) ?_ ?_
    · simp only [PQOp.ok, List.length_append, packQ, natBe_length]
      simp only [PrioOp.ok] at hok
      omega
    · rintro a h' ⟨s', (⟨h1, h3⟩ | ⟨h1, -⟩), h2⟩
      · injection h1 with h1; subst h1
        refine ⟨(p.toNat, d) :: s, Or.inl ⟨rfl, .refl _⟩, ?_, Inv.perm h3.symm h2⟩
        intro x hx
        rcases List.mem_cons.1 hx with rfl | hx
        · exact p.isLt
        · exact hs x hx
      · cases h1
    · rintro x h' ⟨s', (⟨h1, -⟩ | ⟨h1, h3⟩), h2⟩
      · cases h1
      · injection h1 with h1; subst h1
        exact ⟨s, Or.inr ⟨rfl, .refl _⟩, hs, Inv.perm h3.symm h2⟩
  | pop =>
    refine wp_bind_of (pqstep (.pop : PQOp O) _ h trivial hi) ?_ ?_
    · rintro a h' ⟨s', (⟨h0, h1, h3⟩ | ⟨m, h1, h3, h4⟩), h2⟩
      · injection h1 with h1; subst h1 h3
        rw [List.map_eq_nil_iff] at h0; subst h0
        exact ⟨[], Or.inl ⟨rfl, rfl, rfl⟩, hs, h2⟩
      · injection h4 with h4; subst h4
        obtain ⟨x, hx, rfl⟩ := List.mem_map.1 (h1.mem_iff.2 (List.mem_cons_self ..))
        have hp := List.perm_cons_erase hx
        have hx64 := hs x hx
        refine ⟨s.erase x, Or.inr ⟨x.1, x.2, hp, ?_, ?_⟩, ?_, ?_⟩
        · intro y hy
          exact (C67_order hx64 (hs y hy)).1 (h3 _ (List.mem_map.2 ⟨y, hy, rfl⟩))
        · show Out.ok (PrioRes.item _ _) = _
          rw [unpack_enc hx64]
        · intro y hy
          exact hs y (List.mem_of_mem_erase hy)
        · refine Inv.perm ?_ h2
          have := (hp.map enc).symm.trans h1
          exact (List.perm_cons _).1 this
    · rintro x h' ⟨s', (⟨h0, h1, h3⟩ | ⟨m, h1, h3, h4⟩), h2⟩
      · cases h1
      · cases h4
  | len =>
    refine wp_bind_of (pqstep (.len : PQOp O) _ h trivial hi) ?_ ?_
    · rintro a h' ⟨s', ⟨h1, h3⟩, h2⟩
      injection h1 with h1; subst h1
      refine ⟨s, ⟨?_, .refl _⟩, hs, Inv.perm h3.symm h2⟩
      rw [List.length_map]; rfl
    · rintro x h' ⟨s', ⟨h1, h3⟩, h2⟩
      cases h1

end Verif.Py

namespace Verif
open Py

/-- **C67, the Python class.** In a pool with any history, a new Python PriorityQueue answers every sequence of calls as a multiset of byte strings; no call touches the bytes of the
blocks that other clients hold. -/
theorem C67_python_prioqueue {O : Type} {p0 p : Pool} {live lk : List (Nat × Nat)} {ex : Bool} (h : Hist p0 p live lk ex) :
    (∃ p1, run (compile PrioQueue.create) p = (.err .noMem, p1)) ∨
    ∃ b p1, run (compile PrioQueue.create) p = (.ok b, p1) ∧ ∀ ops : List (PQOp O), (∀ o ∈ ops, o.ok) →
      ∃ rs p2 s, run (compile (hist (pqcall b) ops)) p1 = (.ok rs, p2) ∧ Trace PQSpec [] ops rs s ∧
        ∀ o n, (o, n) ∈ live → ∀ i, i < n → p2.mem (o + i) = p.mem (o + i) := by
  obtain ⟨hp, hs, hl⟩ := h.sim
  obtain ⟨out, p1, h1, hr, hq, hs1⟩ := sim_run (PrioQueue.create_spec hp) hs
  cases out with
  | err e =>
    obtain ⟨rfl, -⟩ := hq
    exact Or.inl ⟨p1, hr⟩
  | ok b =>
    refine Or.inr ⟨b, p1, hr, ?_⟩
    intro ops hok
    obtain ⟨rs, p2, s, h2, e1, e2, ⟨-, _, _, _, _, _, -, r⟩, hs2⟩ :=
      hist_run (fun s o h => pqstep o s h) ops hok (s := []) (h := h1) (p := p1) ⟨hs1.heapOk, _, _, _, _, _, .refl _, hq⟩ hs1
    refine ⟨rs, p2, s, e1, e2, ?_⟩
    intro o n hm i hi
    obtain ⟨B, hB, rfl, hd⟩ := hl o n hm
    have hfr := r.frame o
    rw [hB] at hfr
    split at hfr
    · cases hfr
    · obtain ⟨L2, hS2, hh2⟩ := hs2
      rw [(hh2.blk o B hfr.symm).2.2 i hi, hd i]

/-- **C67.** A Python program that prepends struct.pack(">Q", priority) to the items it pushes and strips it from the items it pops has a queue of (priority, item) pairs whose pop
removes a pair with the least priority. -/
theorem C67_priorities (O : Type) {p0 p : Pool} {live lk : List (Nat × Nat)} {ex : Bool} (h : Hist p0 p live lk ex) :
    (∃ p1, run (compile PrioQueue.create) p = (.err .noMem, p1)) ∨
    ∃ b p1, run (compile PrioQueue.create) p = (.ok b, p1) ∧ ∀ ops : List PrioOp, (∀ o ∈ ops, o.ok) →
      ∃ rs p2 s, run (compile (hist (prioCall O b) ops)) p1 = (.ok rs, p2) ∧ Trace PrioSpec [] ops rs s := by
  obtain ⟨hp, hs, hl⟩ := h.sim
  obtain ⟨out, p1, h1, hr, hq, hs1⟩ := sim_run (PrioQueue.create_spec hp) hs
  cases out with
  | err e =>
    obtain ⟨rfl, -⟩ := hq
    exact Or.inl ⟨p1, hr⟩
  | ok b =>
    refine Or.inr ⟨b, p1, hr, ?_⟩
    intro ops hok
    obtain ⟨rs, p2, s, h2, e1, e2, -, -⟩ :=
      hist_run (fun s o h => priostep (O := O) o s h) ops hok (s := []) (h := h1) (p := p1) ⟨by simp, ⟨hs1.heapOk, _, _, _, _, _, .refl _, hq⟩⟩ hs1
    exact ⟨rs, p2, s, e1, e2⟩

/-- a concrete run: priorities that differ in the last byte only and in the first, equal priorities, an empty item -/
example : (run (compile (hist (prioCall Unit 344)
      [.push 256 [1], .push 255 [9], .push 18446744073709551615 [], .push 256 [0, 7], .len, .pop, .pop, .pop, .pop, .pop])) pqPool).1 =
    .ok [.ok .none, .ok .none, .ok .none, .ok .none, .ok (.int 4), .ok (.item 255 [9]), .ok (.item 256 [0, 7]), .ok (.item 256 [1]), .ok (.item 18446744073709551615 []),
      .ok (.raised .indexError)] := by
  decide +kernel

/-- a string with characters of 1 to 4 bytes, and a lone surrogate -/
example : utf8 [65, 0xE9, 0x20AC, 0x1F600] = some [65, 0xC3, 0xA9, 0xE2, 0x82, 0xAC, 0xF0, 0x9F, 0x98, 0x80] ∧ utf8 [0xD800] = none := by decide +kernel

/-- **C67, the README is wrong about the items.** README.md 160: "the Python module only accepts and returns bytes objects".  It accepts str objects, which come back as bytes. -/
theorem C67_accepts_str (cs : List (Fin 1114112)) (d : Bytes) (hd : utf8 cs = some d) (b : Nat) :
    pqcall (O := Unit) b (.push (.str cs)) = pqcall b (.push (.bytes d)) := by
  simp only [pqcall, parseS, hd]

end Verif
