import Verif.PropsQueueCrash
import Verif.ReadOnly
/-
C60: Queue::verify (/repo/src/Queue.cc 194-240).  It accepts exactly the consistent queues, changes nothing, and what it accepts is consistent.
-/
namespace Verif
namespace Queue
open Deque

variable {α : Type} {h : Heap} {base : Nat} {G : Nat → Option Block} {dc dt : Nat} {L : List (Nat × Bytes)}

/-- the verify loop along a chain of next links: it reports an error, or the prev links mirror the next links -/
theorem verifyLoop_fwd (hb0 : base ≠ 0) (hbn : IsNode h base (base + 32)) (hnx : fld h base 8 (base + 32) = 0) (L2 : List (Nat × Bytes)) :
    ∀ (x fuel count b : Nat) (pv : Nat → Nat), (∀ q ∈ L2, sz h q.1 = some (16 + q.2.length) ∧ IsNode h base q.1 ∧ q.1 ≠ 0 ∧ q.1 ≠ base + 16 ∧ q.1 ≠ base + 32) →
    Links (fld h base 8) pv (x :: (L2.map (·.1) ++ [base + 32])) → L2.length + 2 ≤ fuel →
    wp (verifyLoop base fuel (fld h base 8 x) x count b)
      (fun out h' => h' = h ∧ ((out = .err .runtimeError ∧ ¬ Links (fld h base 8) (fld h base 0) (x :: (L2.map (·.1) ++ [base + 32]))) ∨ (Links (fld h base 8) (fld h base 0) (x :: (L2.map (·.1) ++ [base + 32])) ∧
        out = .ok (base + 32, (count + L2.length + 1) % W64, (b % W64 + total L2) % W64)))) h := by
  induction L2 with
  | nil =>
    intro x fuel count b pv hn hl hf
    obtain ⟨fuel, rfl⟩ : ∃ f, fuel = f + 2 := ⟨fuel - 2, by simp only [List.length_nil] at hf; omega⟩
    have e : fld h base 8 x = base + 32 := hl.1
    rw [e]
    unfold verifyLoop
    rw [if_neg (by omega)]
    simp only [ne_eq, not_true_eq_false, and_false, if_false, Prog.bind_def, Prog.pure_def, Prog.ret_bind]
    refine wp_rdF 0 (Or.inl rfl) hbn ?_
    by_cases hp : fld h base 0 (base + 32) = x
    · rw [if_neg (by simp [hp])]
      refine wp_rdF 8 (Or.inr rfl) hbn ?_
      rw [hnx]
      unfold verifyLoop
      rw [if_pos rfl]
      refine ⟨rfl, Or.inr ⟨⟨e, hp, trivial⟩, ?_⟩⟩
      simp [total]
    · rw [if_pos hp]
      exact ⟨rfl, Or.inl ⟨rfl, fun hc => hp hc.2.1⟩⟩
  | cons p L2 ih =>
    intro x fuel count b pv hn hl hf
    obtain ⟨n, d⟩ := p
    obtain ⟨fuel, rfl⟩ : ∃ f, fuel = f + 1 := ⟨fuel - 1, by simp only [List.length_cons] at hf; omega⟩
    obtain ⟨h1, h2, h3, h4, h5⟩ := hn (n, d) (by simp)
    simp only at h1 h2 h3 h4 h5
    have hl' : Links (fld h base 8) pv (x :: n :: (L2.map (·.1) ++ [base + 32])) := hl
    have e : fld h base 8 x = n := hl'.1
    rw [e]
    unfold verifyLoop
    rw [if_neg h3, if_pos ⟨h4, h5⟩]
    simp only [Prog.bind_def, Prog.bind_assoc, Prog.pure_def, Prog.ret_bind]
    refine wp_bsizeS h1 ?_
    refine wp_rdF 0 (Or.inl rfl) h2 ?_
    by_cases hp : fld h base 0 n = x
    · rw [if_neg (by simp [hp])]
      refine wp_rdF 8 (Or.inr rfl) h2 ?_
      have := ih n fuel ((count + 1) % W64) ((b + (16 + d.length + (W64 - 16)) % W64) % W64) pv (fun q hq => hn q (List.mem_cons_of_mem _ hq)) hl'.2.2
        (by simp only [List.length_cons] at hf; omega)
      refine wp_mono ?_ this
      rintro out h' ⟨rfl, ⟨hc, hc2⟩ | ⟨hc, rfl⟩⟩
      · exact ⟨rfl, Or.inl ⟨hc, fun h => hc2 h.2.2⟩⟩
      · refine ⟨rfl, Or.inr ⟨⟨e, hp, hc⟩, ?_⟩⟩
        congr 2
        simp only [total, List.map_cons, List.sum_cons, List.length_cons, Prod.mk.injEq]
        constructor <;> omega
    · rw [if_pos hp]
      exact ⟨rfl, Or.inl ⟨rfl, fun hc => hp hc.2.1⟩⟩

/-- verify along the chain of next links -/
theorem verify_fwd (hb0 : base ≠ 0) (hbsz : sz h base = some 48) (hfp : fld h base 0 (base + 16) = 0) (hnx : fld h base 8 (base + 32) = 0) {pv : Nat → Nat}
    (hfn : IsNode h base (base + 16)) (hbn : IsNode h base (base + 32))
    (hn : ∀ q ∈ L, sz h q.1 = some (16 + q.2.length) ∧ IsNode h base q.1 ∧ q.1 ≠ 0 ∧ q.1 ≠ base + 16 ∧ q.1 ≠ base + 32)
    (hl : Links (fld h base 8) pv (seq base L)) {fuel : Nat} (hf : L.length + 3 ≤ fuel) :
    wp (verify fuel base) (fun out h' => h' = h ∧
      ((out = .err .runtimeError ∧ ¬ (Links (fld h base 8) (fld h base 0) (seq base L) ∧ bfld h base 0 = L.length % W64 ∧ bfld h base 8 = total L % W64)) ∨
       (out = .ok () ∧ Links (fld h base 8) (fld h base 0) (seq base L) ∧ bfld h base 0 = L.length % W64 ∧ bfld h base 8 = total L % W64))) h := by
  obtain ⟨fuel, rfl⟩ : ∃ f, fuel = f + 1 := ⟨fuel - 1, by omega⟩
  unfold verify verifyLoop
  rw [if_neg (by omega)]
  simp only [ne_eq, not_true_eq_false, false_and, if_false, Prog.bind_def, Prog.bind_assoc,
    Prog.pure_def, Prog.ret_bind]
  refine wp_rdF 0 (Or.inl rfl) hfn ?_
  rw [hfp]
  simp only [not_true_eq_false, if_false, Prog.bind_assoc]
  refine wp_rdF 8 (Or.inr rfl) hfn ?_
  refine wp_bind_of (verifyLoop_fwd hb0 hbn hnx L (base + 16) fuel ((W64 - 2 + 1) % W64) ((0 + 0) % W64) pv hn hl (by omega)) ?_ ?_
  · rintro ⟨a, b, c⟩ h' ⟨rfl, ⟨he, -⟩ | ⟨hl2, he⟩⟩
    · cases he
    simp only [Out.ok.injEq, Prod.mk.injEq] at he
    obtain ⟨rfl, hb, hc⟩ := he
    simp only [ne_eq, not_true_eq_false, if_false]
    refine wp_rdC hbsz (by omega) ?_
    by_cases e1 : b = bfld h' base 0
    · rw [if_neg (by simp [e1])]
      refine wp_rdC hbsz (by omega) ?_
      by_cases e2 : c = bfld h' base 8
      · rw [if_neg (by simp [e2])]
        exact ⟨rfl, Or.inr ⟨rfl, hl2, by omega, by omega⟩⟩
      · rw [if_pos e2]
        exact ⟨rfl, Or.inl ⟨rfl, fun hx => e2 (by have := hx.2.2; omega)⟩⟩
    · rw [if_pos e1]
      exact ⟨rfl, Or.inl ⟨rfl, fun hx => e1 (by have := hx.2.1; omega)⟩⟩
  · rintro e h' ⟨rfl, ⟨he, hx⟩ | ⟨-, he⟩⟩
    · injection he with he
      subst he
      exact ⟨rfl, Or.inl ⟨rfl, fun hc => hx hc.1⟩⟩
    · cases he

theorem verifyLoop_ro : ∀ (fuel cur prev c b : Nat), HRo (verifyLoop base fuel cur prev c b)
  | 0, _, _, _, _ => HRo.ub
  | fuel + 1, cur, prev, c, b => by
    have hk : ∀ nb, HRo ((rdPrev base cur).bind fun p => if p ≠ prev then .err .runtimeError else (rdNext base cur).bind fun nx => verifyLoop base fuel nx cur ((c + 1) % W64) ((b + nb) % W64)) :=
      fun nb => HRo.bind HRo.rd fun _ => HRo.ite HRo.err (HRo.bind HRo.rd fun _ => verifyLoop_ro fuel _ _ _ _)
    unfold verifyLoop
    by_cases h1 : cur = 0
    · rw [if_pos h1]; exact HRo.ret
    · rw [if_neg h1]
      by_cases h2 : cur ≠ base + 16 ∧ cur ≠ base + 32
      · rw [if_pos h2]
        simp only [Prog.bind_def, Prog.pure_def]
        refine HRo.bind (HRo.bind HRo.bsize fun _ => HRo.ret) fun nb => ?_
        exact hk nb
      · rw [if_neg h2]
        exact hk 0

theorem verify_ro (fuel : Nat) : HRo (verify fuel base) := by
  unfold verify
  refine HRo.bind (verifyLoop_ro _ _ _ _ _) ?_
  rintro ⟨a, b, c⟩
  exact HRo.ite HRo.err (HRo.bind HRo.rd fun _ => HRo.ite HRo.err (HRo.bind HRo.rd fun _ => HRo.ite HRo.err HRo.ret))

/-- a program that only loads leaves the pool as it is -/
theorem HRo.run_same {α : Type} {p : HProg α} (hp : HRo p) : ∀ s : Pool, (run (compile p) s).2 = s := by
  induction p with
  | ret | err | ub => intro s; rfl
  | step op k ih =>
    intro s
    cases op with
    | rd b o n =>
      simp only [compile, run, forceN_eq]
      split
      · exact ih _ (hp _) s
      · rfl
    | rdB b o n =>
      simp only [compile, run, forceB_eq]
      split
      · exact ih _ (hp _) s
      · rfl
    | bsize b =>
      simp only [compile, Simple.blockSize, R.rd64, R.rd, Prog.step_bind, Prog.ret_bind, run, forceN_eq]
      split
      · exact ih _ (hp _) s
      · rfl
    | getBase =>
      simp only [compile, Simple.getBase, R.rd64, R.rd, Prog.step_bind, Prog.ret_bind, run, forceN_eq]
      split
      · exact ih _ (hp _) s
      · rfl
    | _ => exact hp.elim

/-- verify on a queue whose counters are off by `dc`, `dt` -/
theorem verifyD_spec (r : RepD h base L G dc dt) {fuel : Nat} (hf : L.length + 3 ≤ fuel) :
    wp (verify fuel base) (fun out h' => h' = h ∧ ((out = .ok () ∧ dc % W64 = 0 ∧ dt % W64 = 0) ∨ (out = .err .runtimeError ∧ ¬ (dc % W64 = 0 ∧ dt % W64 = 0)))) h := by
  have hn : ∀ q ∈ L, sz h q.1 = some (16 + q.2.length) ∧ IsNode h base q.1 ∧ q.1 ≠ 0 ∧ q.1 ≠ base + 16 ∧ q.1 ≠ base + 32 := by
    intro q hq
    have h1 := r.node q hq
    exact ⟨h1.1, r.isNode_node (List.mem_map_of_mem hq), h1.2.2.1, h1.2.2.2.2.1, h1.2.2.2.2.2.1⟩
  refine wp_mono ?_ (verify_fwd r.bpos r.bsz r.fprev r.bnext (r.isNode_base (Or.inl rfl)) (r.isNode_base (Or.inr rfl)) hn r.links hf)
  have h1 := r.cnt
  have h2 := r.tot
  rintro out h' ⟨rfl, ⟨ho, hx⟩ | ⟨ho, -, h3, h4⟩⟩
  · refine ⟨rfl, Or.inr ⟨ho, fun hc => hx ⟨r.links, by omega, by omega⟩⟩⟩
  · exact ⟨rfl, Or.inl ⟨ho, by omega, by omega⟩⟩

/-- chains that mirror each other -/
theorem same_back {pv nx nx' : Nat → Nat} {f : Nat} (A : List Nat) : ∀ {B : List Nat} {z : Nat}, Links nx pv (f :: (A ++ [z])) → Links nx' pv (f :: (B ++ [z])) →
    f ∉ A → f ∉ B → A = B := by
  induction A using List.reverseRecOn with
  | nil =>
    intro B z hA hB h1 h2
    rcases List.eq_nil_or_concat B with rfl | ⟨B, b, rfl⟩
    · rfl
    · exfalso
      have e1 : pv z = f := hA.2.1
      rw [show f :: ((B.concat b) ++ [z]) = (f :: B) ++ b :: [z] by simp, Links.append_iff] at hB
      have e2 : pv z = b := hB.2.2.1
      exact h2 (by rw [← e1, e2]; simp)
  | append_singleton A a ih =>
    intro B z hA hB h1 h2
    rw [show f :: ((A ++ [a]) ++ [z]) = (f :: A) ++ a :: [z] by simp, Links.append_iff] at hA
    have e1 : pv z = a := hA.2.2.1
    rcases List.eq_nil_or_concat B with rfl | ⟨B, b, rfl⟩
    · exfalso
      have e2 : pv z = f := hB.2.1
      exact h1 (by rw [← e2, e1]; simp)
    · rw [show f :: ((B.concat b) ++ [z]) = (f :: B) ++ b :: [z] by simp, Links.append_iff] at hB
      have e2 : pv z = b := hB.2.2.1
      have e3 : a = b := e1.symm.trans e2
      subst e3
      rw [ih hA.1 hB.1 (fun hc => h1 (by simp [hc])) (fun hc => h2 (by simp [hc]))]
      simp

/-- verify on a queue left between the two link stores -/
theorem verify_split {Ln Lo : List (Nat × Bytes)} (hs : Split h base Ln Lo) {fuel : Nat} (hf : Ln.length + 3 ≤ fuel) :
    wp (verify fuel base) (fun out h' => h' = h ∧ out = .err .runtimeError) h := by
  obtain ⟨pv, hl⟩ := hs.fwd
  obtain ⟨nx, hb⟩ := hs.bwd
  obtain ⟨B, hB, hBs⟩ : ∃ B, h.blk base = some B ∧ B.size = 48 := by
    have := hs.bsz
    unfold sz at this
    cases e : h.blk base with
    | none => rw [e] at this; cases this
    | some B => rw [e] at this; exact ⟨B, rfl, by simpa using this⟩
  have hfn : IsNode h base (base + 16) := ⟨B, by rw [loc_front]; exact hB, by rw [loc_front]; simp only; omega⟩
  have hbn : IsNode h base (base + 32) := ⟨B, by rw [loc_back]; exact hB, by rw [loc_back]; simp only; omega⟩
  have hn : ∀ q ∈ Ln, sz h q.1 = some (16 + q.2.length) ∧ IsNode h base q.1 ∧ q.1 ≠ 0 ∧ q.1 ≠ base + 16 ∧ q.1 ≠ base + 32 := by
    intro q hq
    have h1 := hs.nodes q (Or.inl hq)
    refine ⟨h1.1, ?_, h1.2.1, h1.2.2.2⟩
    have h2 := h1.1
    unfold sz at h2
    cases e : h.blk q.1 with
    | none => rw [e] at h2; cases h2
    | some B =>
      rw [e] at h2
      have h3 : B.size = 16 + q.2.length := by simpa using h2
      exact ⟨B, by rw [loc_node h1.2.2.2.1 h1.2.2.2.2]; exact e, by rw [loc_node h1.2.2.2.1 h1.2.2.2.2]; simp only; omega⟩
  refine wp_mono ?_ (verify_fwd hs.bpos hs.bsz hs.fprev hs.bnext hfn hbn hn hl hf)
  rintro out h' ⟨rfl, ⟨ho, -⟩ | ⟨-, h3, -⟩⟩
  · exact ⟨rfl, ho⟩
  · exfalso
    have e : Ln.map (·.1) = Lo.map (·.1) := by
      refine same_back _ h3 hb ?_ ?_
      · rw [List.mem_map]
        rintro ⟨q, hq, e⟩
        exact (hs.nodes q (Or.inl hq)).2.2.2.1 e
      · rw [List.mem_map]
        rintro ⟨q, hq, e⟩
        exact (hs.nodes q (Or.inr hq)).2.2.2.1 e
    have := congrArg List.length e
    rw [List.length_map, List.length_map] at this
    exact hs.len this

/-! ### verify on arbitrary bytes -/

theorem compile_bind {α β : Type} (p : HProg α) (f : α → HProg β) : compile (p.bind f) = (compile p).bind fun a => compile (f a) := by
  induction p with
  | ret | err | ub => rfl
  | step op k ih =>
    cases op with
    | rd | wr | rdB | wrB =>
      simp only [Prog.step_bind, compile, ih]
    | alloc | free | bsize | getBase | setBase =>
      simp only [Prog.step_bind, compile, ih, Prog.bind_assoc]

/-- 8-byte word of the pool -/
def word (p : Pool) (a : Nat) : Nat := leRd p.mem a 8

theorem run_rd {α : Type} {a n : Nat} {k : Nat → RProg α} {p : Pool} {r : α} {p' : Pool} (h : run (.step (.rd a n) k) p = (.ok r, p')) :
    p.inb a n ∧ run (k (leRd p.mem a n)) p = (.ok r, p') := by
  simp only [run, forceN_eq] at h
  split at h
  · rename_i hc; exact ⟨hc, h⟩
  · cases h

/-- bytes of data of a node, as verify computes them: nothing for the two sentinels, block size minus the node's header for the others -/
def dataBytes (p : Pool) (base x : Nat) : Nat := if x ≠ base + 16 ∧ x ≠ base + 32 then (word p (x - 8) + (2 ^ 64 - 16)) % 2 ^ 64 else 0

theorem loop_sound {p p' : Pool} {base : Nat} : ∀ (fuel cur prev count b : Nat) {α : Type} {K : Nat × Nat × Nat → RProg α} {r : α}, count < W64 → b < W64 → (cur < W64 ∨ cur = base + 16) →
    run ((compile (verifyLoop base fuel cur prev count b)).bind K) p = (.ok r, p') →
    ∃ xs : List Nat, (∀ x ∈ xs, x ≠ 0) ∧ (∀ x ∈ xs.getLast?, word p (x + 8) = 0) ∧ (xs = [] → cur = 0) ∧ (∀ x ∈ xs.head?, x = cur ∧ word p x = prev) ∧
      Links (fun x => word p (x + 8)) (word p) xs ∧
      run (K (xs.getLast?.getD prev, (count + xs.length) % W64, (b + (xs.map (dataBytes p base)).sum) % W64)) p = (.ok r, p')
  | 0, cur, prev, count, b, α, K, r, hc, hb, hcur, h => by
    cases h
  | fuel + 1, cur, prev, count, b, α, K, r, hc, hb, hcur, h => by
    unfold verifyLoop at h
    by_cases h1 : cur = 0
    · rw [if_pos h1] at h
      refine ⟨[], by simp, by simp, fun _ => h1, by simp, trivial, ?_⟩
      simp only [List.getLast?_nil, Option.getD_none, List.length_nil, List.map_nil, List.sum_nil, Nat.add_zero]
      rw [Nat.mod_eq_of_lt hc, Nat.mod_eq_of_lt hb]
      exact h
    · rw [if_neg h1] at h
      -- the common part after the block size
      have main : ∀ nb, nb = dataBytes p base cur →
          run ((compile ((rdPrev base cur).bind fun q => if q ≠ prev then .err .runtimeError else (rdNext base cur).bind fun nx => verifyLoop base fuel nx cur ((count + 1) % W64) ((b + nb) % W64))).bind K) p
            = (.ok r, p') →
          ∃ xs : List Nat, (∀ x ∈ xs, x ≠ 0) ∧ (∀ x ∈ xs.getLast?, word p (x + 8) = 0) ∧ (xs = [] → cur = 0) ∧ (∀ x ∈ xs.head?, x = cur ∧ word p x = prev) ∧
            Links (fun x => word p (x + 8)) (word p) xs ∧
            run (K (xs.getLast?.getD prev, (count + xs.length) % W64, (b + (xs.map (dataBytes p base)).sum) % W64)) p = (.ok r, p') := by
        intro nb hnb h
        have hloc := loc_addr base cur
        simp only [rdPrev, rdNext, H.rd64, H.rd, Prog.step_bind, Prog.ret_bind, compile] at h
        obtain ⟨-, h⟩ := run_rd h
        rw [show (loc base cur).1 + ((loc base cur).2 + 0) = cur by omega] at h
        by_cases h2 : leRd p.mem cur 8 = prev
        · rw [if_neg (by simp [h2])] at h
          simp only [compile, Prog.step_bind] at h
          obtain ⟨-, h⟩ := run_rd h
          rw [show (loc base cur).1 + ((loc base cur).2 + 8) = cur + 8 by omega] at h
          obtain ⟨xs, e1, e2, e3, e4, e5, e6⟩ := loop_sound fuel (leRd p.mem (cur + 8) 8) cur _ _ (Nat.mod_lt _ (by decide)) (Nat.mod_lt _ (by decide)) (Or.inl (leRd_lt8 _ _)) h
          refine ⟨cur :: xs, ?_, ?_, by simp, ?_, ?_, ?_⟩
          · intro x hx
            rcases List.mem_cons.1 hx with rfl | hx
            · exact h1
            · exact e1 x hx
          · intro x hx
            cases xs with
            | nil =>
              obtain rfl : cur = x := by simpa using hx
              exact e3 rfl
            | cons y ys => exact e2 x (by simpa using hx)
          · intro x hx
            obtain rfl : cur = x := by simpa using hx
            exact ⟨rfl, h2⟩
          · cases xs with
            | nil => trivial
            | cons y ys =>
              have := e4 y (by simp)
              exact ⟨this.1.symm, this.2, e5⟩
          · have g1 : (cur :: xs).getLast?.getD prev = xs.getLast?.getD cur := by
              cases xs with
              | nil => rfl
              | cons y ys => simp [List.getLast?_cons]
            have g2 : (count + (cur :: xs).length) % W64 = ((count + 1) % W64 + xs.length) % W64 := by
              rw [List.length_cons]; omega
            have g3 : (b + ((cur :: xs).map (dataBytes p base)).sum) % W64 = ((b + nb) % W64 + (xs.map (dataBytes p base)).sum) % W64 := by
              rw [List.map_cons, List.sum_cons, ← hnb]; omega
            rw [g1, g2, g3]
            exact e6
        · rw [if_pos h2] at h
          cases h
      by_cases h2 : cur ≠ base + 16 ∧ cur ≠ base + 32
      · rw [if_pos h2] at h
        simp only [Prog.bind_def, Prog.pure_def, H.bsize, Prog.step_bind, Prog.ret_bind, compile, Simple.blockSize, R.rd64, R.rd] at h
        obtain ⟨hin, h⟩ := run_rd h
        refine main _ ?_ h
        have hsz : p.size < W64 := leRd_lt8 _ _
        have hin1 := hin.1
        unfold dataBytes word
        rw [if_pos h2]
        have : Simple.sub64 cur 24 + 16 = cur - 8 := by
          unfold Simple.sub64 at hin1 ⊢
          omega
        rw [this]
        rfl
      · rw [if_neg h2] at h
        refine main 0 ?_ h
        unfold dataBytes
        rw [if_neg h2]

/-- a chain that ends is free of repetitions -/
theorem chain_nodup {nx pv : Nat → Nat} : ∀ {xs : List Nat}, Links nx pv xs → (∀ x ∈ xs, x ≠ 0) → (∀ x ∈ xs.getLast?, nx x = 0) → xs.Nodup := by
  -- chains from the same start are equal
  have uniq : ∀ {xs ys : List Nat}, Links nx pv xs → Links nx pv ys → (∀ x ∈ xs, x ≠ 0) → (∀ x ∈ ys, x ≠ 0) → (∀ x ∈ xs.getLast?, nx x = 0) → (∀ x ∈ ys.getLast?, nx x = 0) →
      xs ≠ [] → xs.head? = ys.head? → xs = ys := by
    intro xs
    induction xs with
    | nil => intro ys _ _ _ _ _ _ h; exact absurd rfl h
    | cons x xs ih =>
      intro ys h1 h2 h3 h4 h5 h6 _ h7
      cases ys with
      | nil => cases h7
      | cons y ys =>
        obtain rfl : x = y := by simpa using h7
        congr 1
        cases xs with
        | nil =>
          cases ys with
          | nil => rfl
          | cons y ys =>
            have e1 : nx x = 0 := h5 x (by simp)
            have e2 : nx x = y := h2.1
            exact absurd (e2.symm.trans e1) (h4 y (by simp))
        | cons z xs =>
          cases ys with
          | nil =>
            have e1 : nx x = 0 := h6 x (by simp)
            have e2 : nx x = z := h1.1
            exact absurd (e2.symm.trans e1) (h3 z (by simp))
          | cons y ys =>
            exact ih h1.2.2 h2.2.2 (fun a ha => h3 a (List.mem_cons_of_mem _ ha)) (fun a ha => h4 a (List.mem_cons_of_mem _ ha)) (fun a ha => h5 a (by simpa using ha))
              (fun a ha => h6 a (by simpa using ha)) (by simp) (by have e1 : nx x = z := h1.1; have e2 : nx x = y := h2.1; simp [← e1, ← e2])
  intro xs
  induction xs with
  | nil => intro _ _ _; exact List.nodup_nil
  | cons x xs ih =>
    intro h1 h2 h3
    have hl : Links nx pv xs := by
      cases xs with
      | nil => trivial
      | cons y ys => exact h1.2.2
    have h3' : ∀ a ∈ xs.getLast?, nx a = 0 := by
      intro a ha
      cases xs with
      | nil => cases ha
      | cons y ys => exact h3 a (by simpa using ha)
    refine List.nodup_cons.2 ⟨?_, ih hl (fun a ha => h2 a (List.mem_cons_of_mem _ ha)) h3'⟩
    intro hm
    obtain ⟨l1, l2, rfl⟩ := List.append_of_mem hm
    rw [Links.append_iff] at hl
    have h4 : ∀ a ∈ (x :: l2).getLast?, nx a = 0 := by
      intro a ha
      refine h3' a ?_
      rw [List.getLast?_append]
      rw [show (x :: l2).getLast? = some a from ha]
      rfl
    have := uniq h1 hl.2 h2 (fun a ha => h2 a (by simp only [List.mem_cons, List.mem_append] at ha ⊢; tauto)) h3 h4 (by simp) rfl
    have := congrArg List.length this
    simp at this
    omega

end Queue

open Deque Queue

/-- **C60, soundness on any bytes.** If verify() returns normally on a pool with any contents whatever, then it has changed nothing and the queue is consistent: there are distinct nodes, none of them a sentinel, such that the next
links lead from the front sentinel through them to the back sentinel and end there, the prev links are exactly the reverse, the stored count is their number, and the stored byte total is that of their blocks without the headers. -/
theorem C60_verify_sound {p p' : Pool} {b fuel : Nat} (hr : run (compile (Queue.verify fuel b)) p = (.ok (), p')) :
    p' = p ∧ ∃ xs : List Nat, xs.Nodup ∧ (∀ x ∈ xs, x ≠ 0 ∧ x ≠ b + 16 ∧ x ≠ b + 32) ∧
      Links (fun x => word p (x + 8)) (word p) ((b + 16) :: (xs ++ [b + 32])) ∧ word p (b + 16) = 0 ∧ word p (b + 32 + 8) = 0 ∧
      word p b = xs.length % 2 ^ 64 ∧ word p (b + 8) = ((xs.map fun x => (word p (x - 8) + (2 ^ 64 - 16)) % 2 ^ 64).sum) % 2 ^ 64 := by
  refine ⟨?_, ?_⟩
  · have := Queue.HRo.run_same (Queue.verify_ro (base := b) fuel) p
    rw [hr] at this
    exact this
  have hv : compile (Queue.verify fuel b) = (compile (verifyLoop b fuel (b + 16) 0 (W64 - 2) 0)).bind fun x => compile (if x.1 ≠ b + 32 then .err .runtimeError
      else (H.rd64 b 0).bind fun c => if x.2.1 ≠ c then .err .runtimeError else (H.rd64 b 8).bind fun t => if x.2.2 ≠ t then .err .runtimeError else .ret ()) := by
    unfold Queue.verify
    exact compile_bind _ _
  rw [hv] at hr
  obtain ⟨ys, e1, e2, e3, e4, e5, e6⟩ := loop_sound fuel (b + 16) 0 (W64 - 2) 0 (by decide) (by decide) (Or.inr rfl) hr
  cases ys with
  | nil => exact absurd (e3 rfl) (by omega)
  | cons y ys =>
    obtain ⟨rfl, hy⟩ := e4 y (by simp)
    have hnd := chain_nodup e5 e1 e2
    simp only at e6
    by_cases h1 : ((b + 16) :: ys).getLast?.getD 0 = b + 32
    · rw [if_neg (by simp [h1])] at e6
      -- the last node is the back sentinel
      rcases List.eq_nil_or_concat ys with rfl | ⟨xs, z, rfl⟩
      · simp at h1
      · have hz : z = b + 32 := by
          rw [List.concat_eq_append, ← List.cons_append, List.getLast?_append] at h1
          simpa using h1
        subst hz
        rw [List.concat_eq_append] at *
        refine ⟨xs, ?_, ?_, e5, hy, ?_, ?_⟩
        · exact (List.nodup_append.1 (List.nodup_cons.1 hnd).2).1
        · intro x hx
          refine ⟨e1 x (by simp [hx]), ?_, ?_⟩
          · rintro rfl
            exact (List.nodup_cons.1 hnd).1 (by simp [hx])
          · rintro rfl
            exact (List.nodup_append.1 (List.nodup_cons.1 hnd).2).2.2 _ hx _ (by simp) rfl
        · exact e2 (b + 32) (by rw [← List.cons_append, List.getLast?_append]; simp)
        · simp only [H.rd64, H.rd, Prog.step_bind, Prog.ret_bind, compile] at e6
          obtain ⟨-, e6⟩ := Queue.run_rd e6
          have hcount : (W64 - 2 + ((b + 16) :: (xs ++ [b + 32])).length) % W64 = xs.length % 2 ^ 64 := by
            rw [List.length_cons, List.length_append]
            simp only [List.length_cons, List.length_nil]
            omega
          rw [hcount] at e6
          by_cases h2 : xs.length % 2 ^ 64 = leRd p.mem (b + 0) 8
          · rw [if_neg (fun hc => hc h2)] at e6
            simp only [compile] at e6
            obtain ⟨-, e6⟩ := Queue.run_rd e6
            refine ⟨h2.symm, ?_⟩
            have hsum : (0 + (((b + 16) :: (xs ++ [b + 32])).map (dataBytes p b)).sum) % W64 = ((xs.map fun x => (word p (x - 8) + (2 ^ 64 - 16)) % 2 ^ 64).sum) % 2 ^ 64 := by
              have g1 : ∀ l : List Nat, (∀ x ∈ l, x ≠ b + 16 ∧ x ≠ b + 32) → l.map (dataBytes p b) = l.map fun x => (word p (x - 8) + (2 ^ 64 - 16)) % 2 ^ 64 := by
                intro l hl
                refine List.map_congr_left fun x hx => ?_
                unfold dataBytes
                rw [if_pos (hl x hx)]
              rw [List.map_cons, List.sum_cons, List.map_append, List.sum_append, List.map_cons, List.map_nil, List.sum_cons, List.sum_nil, g1 xs]
              · have g2 : dataBytes p b (b + 16) = 0 := by unfold dataBytes; rw [if_neg (by omega)]
                have g3 : dataBytes p b (b + 32) = 0 := by unfold dataBytes; rw [if_neg (by omega)]
                rw [g2, g3, Nat.zero_add, Nat.zero_add, Nat.add_zero, Nat.add_zero]
                rfl
              · intro x hx
                constructor
                · rintro rfl
                  exact (List.nodup_cons.1 hnd).1 (by simp [hx])
                · rintro rfl
                  exact (List.nodup_append.1 (List.nodup_cons.1 hnd).2).2.2 _ hx _ (by simp) rfl
            rw [hsum] at e6
            by_cases h3 : ((xs.map fun x => (word p (x - 8) + (2 ^ 64 - 16)) % 2 ^ 64).sum) % 2 ^ 64 = leRd p.mem (b + 8) 8
            · exact h3.symm
            · rw [if_pos h3] at e6
              cases e6
          · rw [if_pos h2] at e6
            cases e6
    · rw [if_pos h1] at e6
      cases e6

/-- **C60, completeness.** After any history of calls on a new queue in a pool with any history, verify() returns normally and changes nothing.  (`fuel` bounds the loop of verify.) -/
theorem C60_verify_accepts {p0 p : Pool} {live lk : List (Nat × Nat)} {ex : Bool} (h : Hist p0 p live lk ex) {b : Nat} {p1 : Pool} (hc : run (compile Queue.create) p = (.ok b, p1))
    (ops : List Op) (hok : ∀ o ∈ ops, o.ok) : ∃ rs p2 s, run (compile (hist (Queue.call b) ops)) p1 = (.ok rs, p2) ∧ Trace Spec [] ops rs s ∧
      ∀ fuel, s.length + 3 ≤ fuel → run (compile (Queue.verify fuel b)) p2 = (.ok (), p2) := by
  obtain ⟨hp, hs, hl⟩ := h.sim
  obtain ⟨out, q1, h1, hr, ⟨-, hq⟩, hs1⟩ := sim_run (Queue.create_spec hp) hs
  rw [hc] at hr
  obtain ⟨ho, rfl⟩ := Prod.mk.inj hr
  cases out with
  | err e => cases ho
  | ok b' =>
    injection ho with ho
    subst ho
    obtain ⟨rs, p2, s, h2, e1, e2, ⟨-, L, rfl, r⟩, hs2⟩ :=
      hist_run (Queue.step b hp.blk) ops hok (s := []) (h := h1) (p := p1) ⟨hs1.heapOk, [], rfl, hq⟩ hs1
    refine ⟨rs, p2, _, e1, e2, fun fuel hf => ?_⟩
    obtain ⟨out, p3, h3, g1, ⟨-, g2⟩, -⟩ := sim_run (Queue.verifyD_spec r (fuel := fuel) (by rw [List.length_map] at hf; exact hf)) hs2
    have g3 := Queue.HRo.run_same (Queue.verify_ro (base := b) fuel) p2
    rw [g1] at g3
    rcases g2 with ⟨rfl, -⟩ | ⟨-, g2⟩
    · rw [g1, show p3 = p2 from g3]; rfl
    · exact absurd ⟨rfl, rfl⟩ g2

theorem _root_.Verif.Queue.InvD.exact {b : Nat} {G : Nat → Option Block} {dc dt : Nat} {s : List Bytes} {h : Heap} (hi : Queue.InvD b G dc dt s h) (h1 : dc % W64 = 0) (h2 : dt % W64 = 0) : Queue.Inv b G s h := by
  obtain ⟨hk, L, rfl, r⟩ := hi
  have c1 := r.cnt
  have c2 := r.tot
  exact ⟨hk, L, rfl, { r with cnt := by omega, tot := by omega }⟩

/-- **C60 with crashes (what verify() is good for after C23).** A process dies at any point of any call on a queue, and the next lock holder runs repair.  Then verify() changes nothing and EITHER returns normally, and the queue holds
exactly the old contents or exactly those after the call, and every further history of calls is answered as by a deque with these contents, size() and bytes() included; OR it throws runtime_error. -/
theorem C60_verify_after_crash {b : Nat} {G : Nat → Option Block} {dc dt : Nat} {s : List Bytes} {h : Heap} {p : Pool} (hi : Queue.InvD b G dc dt s h) (hs : Sim h p) (op : Op) (hok : op.ok) (c fuel : Nat)
    (hf : s.length + 4 ≤ fuel) :
    ∃ p1, run Simple.repair (crashAt c (compile (Queue.call b op)) p) = (.ok (), p1) ∧
      ((run (compile (Queue.verify fuel b)) p1 = (.ok (), p1) ∧
          ∃ s', (s' = s ∨ s' = after s op) ∧ ∀ ops : List Op, (∀ o ∈ ops, o.ok) → ∃ rs p2 s2, run (compile (hist (Queue.call b) ops)) p1 = (.ok rs, p2) ∧ Trace Spec s' ops rs s2) ∨
       run (compile (Queue.verify fuel b)) p1 = (.err .runtimeError, p1)) := by
  have hlen : (after s op).length ≤ s.length + 1 := by
    cases op with
    | push f d => cases f <;> simp [after]
    | pop f => cases f <;> simp [after] <;> omega
    | _ => simp [after] <;> omega
  obtain ⟨p1, h1, hr, hs1, hcase⟩ := C23_crash_partial hi hs op hok c
  refine ⟨p1, hr, ?_⟩
  have hsame : ∀ {out p3}, run (compile (Queue.verify fuel b)) p1 = (out, p3) → run (compile (Queue.verify fuel b)) p1 = (out, p1) := by
    intro out p3 g1
    have g3 := Queue.HRo.run_same (Queue.verify_ro (base := b) fuel) p1
    rw [g1] at g3
    rw [g1, show p3 = p1 from g3]
  rcases hcase with ⟨s', G', dc', dt', lost, e1, -, -, -, hi', -⟩ | ⟨Ln, Lo, e1, e2, hsp, -⟩
  · have hlen' : s'.length ≤ s.length + 1 := by
      rcases e1 with rfl | rfl
      · omega
      · exact hlen
    obtain ⟨hk, L, rfl, r⟩ := id hi'
    obtain ⟨out, p3, h3, g1, ⟨-, g2⟩, -⟩ := sim_run (Queue.verifyD_spec r (fuel := fuel) (by rw [List.length_map] at hlen'; omega)) hs1
    rcases g2 with ⟨rfl, g2, g3⟩ | ⟨rfl, -⟩
    · refine Or.inl ⟨hsame g1, _, e1, fun ops hops => ?_⟩
      obtain ⟨rs, p2, s2, h2, e5, e6, -, -⟩ := hist_run (Queue.step b G') ops hops (s := L.map (·.2)) (h := h1) (p := p1) (hi'.exact g2 g3) hs1
      exact ⟨rs, p2, s2, e5, e6⟩
    · exact Or.inr (hsame g1)
  · have : Ln.length = (after s op).length := by rw [← e1, List.length_map]
    obtain ⟨out, p3, h3, g1, ⟨-, rfl⟩, -⟩ := sim_run (Queue.verify_split hsp (fuel := fuel) (by omega)) hs1
    exact Or.inr (hsame g1)

/-- verify() accepts a queue with three items -/
example : (run (compile (Queue.verify 10 344)) (run (compile (hist (Queue.call 344) [.pushBack [97], .pushFront [98, 99], .pushBack []])) qPool).2).1 = .ok () := by decide +kernel

/-- and reports the queue of `C23_false`; both outcomes of `C60_verify_after_crash` occur -/
example : (run (compile (Queue.verify 10 344)) (run Simple.repair (crashAt 28 (compile (Queue.call 344 (.pushBack [98]))) (run (compile (hist (Queue.call 344) [.pushBack [97]])) qPool).2)).2).1 = .err .runtimeError := by
  decide +kernel
example : (run (compile (Queue.verify 10 344)) (run Simple.repair (crashAt 5 (compile (Queue.call 344 (.pushBack [98]))) (run (compile (hist (Queue.call 344) [.pushBack [97]])) qPool).2)).2).1 = .ok () := by
  decide +kernel

end Verif
