import Verif.CostRaw
import Verif.PropsSimple
/-
C72, SimpleAllocator: what allocate, free and repair cost.
-/
namespace Verif.Simple
open Verif

/-- the cost of reading a word and going on -/
theorem every_rd {α : Type} {a n : Nat} {k : Nat → RProg α} {c : Cost} {P : Out α → Cost → Prop} (h : ∀ v, REvery (k v) (c + { acc := 1 }) P) : REvery ((R.rd a n).bind k) c P := fun v _ => h v
theorem every_wr {α : Type} {a n v : Nat} {k : Unit → RProg α} {c : Cost} {P : Out α → Cost → Prop} (h : REvery (k ()) (c + { acc := 1 }) P) : REvery ((R.wr a n v).bind k) c P := fun _ _ => h

theorem account_every (co size : Nat) : REvery (account co size) {} fun _ e => ({} : Cost).RUp e 5 0 := by
  unfold account
  intro _ _ _ _ _ _ _ _ _ _
  constructor <;> simp [rcost]

theorem link_every (co cl size : Nat) : REvery (link co cl size) {} fun _ e => ({} : Cost).RUp e 13 0 := by
  have acc : ∀ c : Cost, c.acc ≤ 8 → c.truncs = 0 → REvery ((account co size).bind fun _ => .ret (co + 24)) c fun _ e => ({} : Cost).RUp e 13 0 := by
    intro c h1 h2
    refine every_then (account_every co size) ?_ ?_
    · rintro a e ⟨u1, u2⟩
      simp at u1 u2
      constructor <;> simp <;> omega
    · rintro a e ⟨u1, u2⟩
      simp at u1 u2
      constructor <;> simp <;> omega
  unfold link
  simp only [Prog.bind_def]
  refine every_wr ?_
  by_cases h : cl = 0
  · rw [if_pos h]
    refine every_rd fun _ => every_wr (every_wr (every_wr (every_rd fun _ => every_wr (acc _ ?_ ?_)))) <;> simp
  · rw [if_neg h]
    refine every_rd fun tl => ?_
    split
    · refine every_wr (every_rd fun _ => every_wr (every_rd fun _ => every_wr (every_wr (acc _ ?_ ?_)))) <;> simp
    · refine every_rd fun _ => every_wr (every_wr (every_wr (every_wr (acc _ ?_ ?_)))) <;> simp

theorem allocFirst_every (size : Nat) : REvery (allocFirst size) {} fun _ e => ({} : Cost).RUp e 14 1 := by
  have rest : ∀ c : Cost, c.acc ≤ 4 → c.truncs ≤ 1 → REvery (do
      R.wr64 320 0
      R.wr64 328 0
      R.wr64 336 size
      R.wr64 304 320
      R.wr64 312 320
      let ba ← R.rd64 288
      R.wr64 288 (ba + size)
      let bs ← R.rd64 336
      let bc ← R.rd64 296
      R.wr64 296 (bc + (eff bs + 24))
      (pure 344 : RProg Nat)) c fun _ e => ({} : Cost).RUp e 14 1 := by
    intro c h1 h2
    refine every_wr (every_wr (every_wr (every_wr (every_wr (every_rd fun _ => every_wr (every_rd fun _ => every_rd fun _ => every_wr ?_))))))
    constructor <;> simp <;> omega
  unfold allocFirst
  simp only [Prog.bind_def]
  refine every_rd fun sz => ?_
  by_cases h : sub64 sz 320 < needed size
  · rw [if_pos h]
    refine every_then (expand_every _) ?_ ?_
    · rintro a e ⟨u1, u2⟩
      simp at u1 u2
      refine rest _ ?_ ?_ <;> simp <;> omega
    · rintro a e ⟨u1, u2⟩
      simp at u1 u2
      constructor <;> simp <;> omega
  · rw [if_neg h]
    refine rest _ ?_ ?_ <;> simp

/-- the search visits every block at most once -/
theorem search_cost {s : Pool} {need : Nat} : ∀ (fuel : Nat) (M : Blocks) (co cs cl : Nat) (c : Cost), FLk s.mem M 0 →
    rcev (search need fuel (hdOr M 0) co cs cl) (fun _ c' _ => c.RUp c' (3 * M.length) 0) c s := by
  intro fuel
  induction fuel with
  | zero => intro M co cs cl c _; exact trivial
  | succ fuel ih =>
    intro M co cs cl c hf
    unfold search
    cases M with
    | nil =>
      rw [if_pos (show hdOr [] 0 = 0 ∨ need = cs from Or.inl rfl)]
      exact Cost.RUp.refl c
    | cons b t =>
      split
      · exact Cost.RUp.refl c
      · obtain ⟨h1, h2, h3⟩ := hf
        simp only [Prog.bind_def]
        refine rcev_rd ?_
        rw [show leRd s.mem (hdOr (b :: t) 0 + 8) 8 = hdOr t 0 from h1]
        refine rcev_rd ?_
        have tail : ∀ (hi : Nat) (c2 : Cost), c.RUp c2 3 0 → rcev (if need ≤ sub64 (sub64 (sub64 hi (hdOr (b :: t) 0)) (eff (leRd s.mem (hdOr (b :: t) 0 + 16) 8))) 24 ∧
            (cs < need ∨ sub64 (sub64 (sub64 hi (hdOr (b :: t) 0)) (eff (leRd s.mem (hdOr (b :: t) 0 + 16) 8))) 24 < cs) then
              search need fuel (hdOr t 0) (hdOr (b :: t) 0 + 24 + eff (leRd s.mem (hdOr (b :: t) 0 + 16) 8)) (sub64 (sub64 (sub64 hi (hdOr (b :: t) 0)) (eff (leRd s.mem (hdOr (b :: t) 0 + 16) 8))) 24) (hdOr (b :: t) 0)
            else search need fuel (hdOr t 0) co cs cl) (fun _ c' _ => c.RUp c' (3 * (b :: t).length) 0) c2 s := by
          intro hi c2 u
          have fin : ∀ x : Cost, c2.RUp x (3 * t.length) 0 → c.RUp x (3 * (b :: t).length) 0 := fun x v =>
            (u.trans v).mono (by simp only [List.length_cons]; omega) (Nat.le_refl _)
          split
          · exact rcev_mono (fun _ x _ v => fin x v) (ih t _ _ _ c2 h3)
          · exact rcev_mono (fun _ x _ v => fin x v) (ih t _ _ _ c2 h3)
        by_cases hn : hdOr t 0 ≠ 0
        · rw [if_pos hn]
          refine tail _ _ ?_
          constructor <;> simp
        · rw [if_neg hn]
          refine rcev_rd (tail _ _ ?_)
          constructor <;> simp

attribute [local irreducible] rcev in
theorem allocMore_cost {s : Pool} {L : Blocks} (h : SInv s L) (size : Nat) (c : Cost) :
    rcev (allocMore size) (fun _ c' _ => c.RUp c' (3 * L.length + 23) 1) c s := by
  unfold allocMore
  simp only [Prog.bind_def]
  refine rcev_rd (rcev_rd ?_)
  rw [show leRd s.mem 304 8 = hdOr L 0 from h.head]
  refine rcev_bind ?_ ?_ (search_cost _ L _ _ _ _ h.fl)
  · rintro ⟨co, cs, cl⟩ c1 s1 ⟨u1, u2⟩
    simp at u1 u2
    simp only []
    split
    · refine rcev_rd (rcev_rd (rcev_bind ?_ ?_ (rcev_from (expand_every _))))
      · rintro _ _ s2 ⟨e, rfl, v1, v2⟩
        refine rcev_rd (rcev_rd (rcev_rd (rcev_mono ?_ (rcev_from (link_every _ _ _)))))
        rintro _ _ s3 ⟨e', rfl, w1, w2⟩
        simp at v1 v2 w1 w2
        constructor <;> simp <;> omega
      · rintro _ _ s2 ⟨e, rfl, v1, v2⟩
        simp at v1 v2
        constructor <;> simp <;> omega
    · refine rcev_mono ?_ (rcev_from (link_every _ _ _))
      rintro _ _ s3 ⟨e', rfl, w1, w2⟩
      simp at w1 w2
      constructor <;> simp <;> omega
  · rintro _ c1 s1 ⟨u1, u2⟩
    simp at u1 u2
    constructor <;> omega

attribute [local irreducible] rcev in
theorem alloc_cost {s : Pool} {L : Blocks} (h : SInv s L) (size : Nat) :
    rcev (alloc size) (fun _ c _ => c.acc ≤ 3 * L.length + 25 ∧ c.truncs ≤ 1) {} s := by
  unfold alloc
  simp only [Prog.bind_def]
  refine rcev_rd ?_
  have more : ∀ c : Cost, c.acc ≤ 2 → c.truncs = 0 → rcev (allocMore size) (fun _ c _ => c.acc ≤ 3 * L.length + 25 ∧ c.truncs ≤ 1) c s := by
    intro c h1 h2
    refine rcev_mono ?_ (allocMore_cost h size c)
    rintro _ c' _ ⟨u1, u2⟩
    constructor <;> omega
  split
  · refine rcev_rd ?_
    split
    · refine rcev_mono ?_ (rcev_from (allocFirst_every size))
      rintro _ _ s3 ⟨e', rfl, w1, w2⟩
      simp at w1 w2
      constructor <;> simp <;> omega
    · refine more _ ?_ ?_ <;> simp
  · refine more _ ?_ ?_ <;> simp

theorem free_every (o : Nat) : REvery (free o) {} fun _ e => e.acc ≤ 13 ∧ e.truncs = 0 := by
  have tail : ∀ (nx b : Nat) (c : Cost), c.acc ≤ 11 → c.truncs = 0 → REvery (if nx ≠ 0 then do
      let pv ← R.rd64 b
      R.wr64 nx pv
    else do
      let pv ← R.rd64 b
      R.wr64 312 pv) c fun _ e => e.acc ≤ 13 ∧ e.truncs = 0 := by
    intro nx b c h1 h2
    split
    · intro _ _ _ _; constructor <;> simp [rcost] <;> omega
    · intro _ _ _ _; constructor <;> simp [rcost] <;> omega
  unfold free
  simp only [Prog.bind_def]
  refine every_rd fun sz => ?_
  split
  · constructor <;> simp
  · refine every_rd fun _ => every_rd fun _ => every_wr (every_rd fun _ => every_rd fun _ => every_wr (every_rd fun pv => ?_))
    by_cases h : pv ≠ 0
    · rw [if_pos h]
      refine every_rd fun _ => every_wr (every_rd fun _ => tail _ _ _ ?_ ?_) <;> simp
    · rw [if_neg h]
      refine every_rd fun _ => every_wr (every_rd fun _ => tail _ _ _ ?_ ?_) <;> simp

/-- repair visits every block once -/
theorem repairLoop_cost {L : Blocks} {p : Pool} : ∀ (fuel : Nat) {q : Pool} {A T : Blocks} (pv ba bc : Nat) (c : Cost), L = A ++ T → RMid L p q →
    rcev (repairLoop fuel (hdOr T 0) pv ba bc) (fun _ c' _ => c.RUp c' (3 * T.length) 0) c q := by
  intro fuel
  induction fuel with
  | zero => intro q A T pv ba bc c _ _; exact trivial
  | succ fuel ih =>
    intro q A T pv ba bc c hL hm
    unfold repairLoop
    cases T with
    | nil =>
      rw [if_pos (show hdOr [] 0 = 0 from rfl)]
      exact Cost.RUp.refl c
    | cons b T =>
      have hbm : b ∈ L := by rw [hL]; simp
      have h0 := hm.1.ch.mem hbm
      rw [show hdOr (b :: T) 0 = b.1 from rfl, if_neg (by omega)]
      simp only [Prog.bind_def]
      have hm1 : RMid L p (put q b.1 pv) := hm.put (by omega) (by omega) (by omega) (Or.inr ⟨b, hbm, rfl⟩)
      refine rcev_wr ?_
      refine rcev_rd (rcev_rd ?_)
      have e8 : w (put q b.1 pv).mem (b.1 + 8) = hdOr T 0 := by
        have := hm1.1.fl
        rw [hL, FLk.append_iff] at this
        exact this.2.1
      rw [show leRd (leWr q.mem b.1 8 pv) (b.1 + 8) 8 = hdOr T 0 from e8]
      refine rcev_mono ?_ (ih (q := put q b.1 pv) (A := A ++ [b]) (T := T) _ _ _ _ (by rw [hL]; simp) hm1)
      rintro _ c' _ ⟨u1, u2⟩
      simp at u1 u2
      constructor
      · simp only [List.length_cons]; omega
      · omega

attribute [local irreducible] rcev in
theorem repair_cost {p : Pool} {L : Blocks} (h : CInv p L) : rcev repair (fun _ c _ => c.acc ≤ 3 * L.length + 5 ∧ c.truncs = 0) {} p := by
  unfold repair
  simp only [Prog.bind_def]
  refine rcev_rd (rcev_rd ?_)
  rw [show leRd p.mem 304 8 = hdOr L 0 from h.head]
  refine rcev_bind ?_ ?_ (repairLoop_cost (A := []) (T := L) _ _ _ _ _ (by simp) (⟨h, Keep.refl _ _, rfl, rfl⟩ : RMid L p p))
  · rintro ⟨a, b, d⟩ c1 s1 ⟨u1, u2⟩
    simp at u1 u2
    simp only []
    refine rcev_wr (rcev_wr (rcev_last ?_))
    constructor <;> simp <;> omega
  · rintro _ c1 s1 ⟨u1, u2⟩
    simp at u1 u2
    constructor <;> omega
end Verif.Simple

namespace Verif
open Simple (Geo SInv CInv alloc free repair init)

/-- the number of blocks on the list -/
theorem Hist.blocks {p0 p : Pool} {live lk : List (Nat × Nat)} (h : Hist p0 p live lk true) : ∃ L, SInv p L ∧ L.length = live.length + lk.length := by
  obtain ⟨L, lk', h1, h2, h3⟩ := h.inv
  have := h2.length_eq
  rw [List.length_map, List.length_append, h3 rfl] at this
  exact ⟨L, h1, this⟩

/-- the run of a method, and the same run with counters -/
theorem counts {α : Type} {p : RProg α} {s s' : Pool} {r : Out α} {c : Cost} (h : run (rcounted p) s = (.ok (r, c), s')) : run p s = (r.toRes, s') := by
  have := rtally_run p {} s
  unfold rcounted at h
  rw [h] at this
  exact this.symm

section
attribute [local irreducible] run rcev rwp crashAt Simple.alloc Simple.free Simple.repair rcounted Prog.tally

/-- **C72, SimpleAllocator::allocate.** After any history of calls without crashes, allocate makes at most 3 accesses for every allocated block, 25 more, and one call of ftruncate, whether it succeeds or
throws.  `lk` are blocks whose free had no effect (C07). -/
theorem C72_simple_allocate {p0 p : Pool} {live lk : List (Nat × Nat)} (h : Hist p0 p live lk true) {n : Nat} (hn : n + p.size + 8192 < 2 ^ 64) :
    ∃ r c p', run (rcounted (alloc n)) p = (.ok (r, c), p') ∧ run (alloc n) p = (r.toRes, p') ∧ c.acc ≤ 3 * (live.length + lk.length) + 25 ∧ c.truncs ≤ 1 := by
  obtain ⟨L, hS, hl⟩ := h.blocks
  obtain ⟨r, c, p', h1, -, h2, h3⟩ := rcev_run' (Simple.alloc_spec (size := n) hS (by omega)) (Simple.alloc_cost hS n)
  exact ⟨r, c, p', h1, counts h1, by rw [← hl]; exact h2, h3⟩

/-- **C72, SimpleAllocator::free.** After any history, also with crashes, free makes at most 13 accesses, whatever the number of blocks. -/
theorem C72_simple_free {p0 p : Pool} {live lk : List (Nat × Nat)} {ex : Bool} (h : Hist p0 p live lk ex) {o n : Nat} (hm : (o, n) ∈ live) :
    ∃ c p', run (rcounted (free o)) p = (.ok (.ok (), c), p') ∧ run (free o) p = (.ok (), p') ∧ c.acc ≤ 13 ∧ c.truncs = 0 := by
  obtain ⟨L, lk', hS, hp, -⟩ := h.inv
  obtain ⟨A, B, b, s, rfl, rfl, rfl⟩ : ∃ A B b s, L = A ++ (b, s) :: B ∧ o = b + 24 ∧ n = s := by
    have : (o, n) ∈ L.map usr := hp.symm.subset (List.mem_append_left _ hm)
    obtain ⟨⟨b, s⟩, h1, h2⟩ := List.mem_map.1 this
    obtain ⟨A, B, rfl⟩ := List.append_of_mem h1
    obtain ⟨e1, e2⟩ := Prod.mk.inj h2
    exact ⟨A, B, b, s, rfl, e1.symm, e2.symm⟩
  obtain ⟨r, c, p', h1, ⟨rfl, -⟩, h2, h3⟩ := rcev_run' (Simple.free_spec hS) (rcev_every (Simple.free_every (b + 24)))
  exact ⟨c, p', h1, counts h1, h2, h3⟩

/-- **C72, SimpleAllocator::repair.** When a process dies inside allocate, repairing the pool takes at most 3 accesses for every allocated block and 8 more. -/
theorem C72_simple_repair {p0 p : Pool} {live lk : List (Nat × Nat)} (h : Hist p0 p live lk true) {n : Nat} (hn : n + p.size + 8192 < 2 ^ 64) (k : Nat) :
    ∃ c p', run (rcounted repair) (crashAt k (alloc n) p) = (.ok (.ok (), c), p') ∧ c.acc ≤ 3 * (live.length + lk.length) + 8 ∧ c.truncs = 0 := by
  obtain ⟨L, hS, hl⟩ := h.blocks
  obtain ⟨L', hc, -, hL⟩ := rwp_crash (Simple.alloc_spec (size := n) hS (by omega)) k
  have hlen : L'.length ≤ L.length + 1 := by
    rcases hL with rfl | ⟨j, co, rfl⟩
    · omega
    · rw [(insAt_perm L j (co, n)).length_eq]; simp
  obtain ⟨r, c, p', h1, ⟨rfl, -⟩, h2, h3⟩ := rcev_run' (Simple.repair_spec hc) (Simple.repair_cost hc)
  exact ⟨c, p', h1, by omega, h3⟩

end

/-- a concrete history: two live blocks, and what the next allocate and a free cost -/
example : ∃ p live, Hist (newPool 0) p live [] true ∧ live.length = 2 ∧ (run (rcounted (alloc 50)) p).1 = .ok (.ok 696, { acc := 21 }) ∧
    (run (rcounted (free 344)) p).1 = .ok (.ok (), { acc := 13 }) := by
  have h0 : Hist (newPool 0) (run init (newPool 0)).2 [] [] true :=
    .start (newPool_geo 0) (by decide +kernel) (run_eta (by decide +kernel))
  have h1 := h0.alloc (n := 100) (o := 344) (by decide +kernel) (run_eta (by decide +kernel))
  have h2 := h1.alloc (n := 200) (o := 472) (by decide +kernel) (run_eta (by decide +kernel))
  exact ⟨_, _, h2, rfl, by decide +kernel, by decide +kernel⟩
end Verif
