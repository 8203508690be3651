import Verif.PropsLogCrash
import Verif.PropsSimple
/-
C76: a process that dies while it sets up an allocator in a new pool.
-/
namespace Verif
open Simple

/-- what the next process does after another has died in the constructor: the constructor, SimpleAllocator.cc 10-30, and the repair when it first takes the lock (213-222), which is in the constructor if the pool is not yet marked as initialized and
in the first call otherwise -/
def Simple.reopen : RProg Unit := do
  let i ← R.rd64 8
  if i ≠ 0 then repair else do
    repair
    init

/-- any number of processes have died setting up an allocator in the pool `p0`, one after another, each after any number of accesses -/
inductive Simple.Dead (p0 : Pool) : Pool → Prop
  | first (c : Nat) : Dead p0 (crashAt c init p0)
  | again {p} (c : Nat) : Dead p0 p → Dead p0 (crashAt c reopen p)

/-- a new pool: the file has just been created (Pool.cc 26-60), all bytes but the size are zero; the words in question are those of the allocator's header -/
structure Simple.Fresh (p : Pool) : Prop where
  geo : Geo p
  init : leRd p.mem 8 8 = 0
  base : leRd p.mem 280 8 = 0
  head : leRd p.mem 304 8 = 0

namespace Simple

theorem leRd_zero {f : Nat → UInt8} : ∀ {a n : Nat}, leRd f a n = 0 → ∀ i, a ≤ i → i < a + n → f i = 0
  | a, 0, _, i, h1, h2 => by omega
  | a, n + 1, h, i, h1, h2 => by
    simp only [leRd] at h
    by_cases e : i = a
    · subst e
      have : (f i).toNat = 0 := by omega
      exact UInt8.toNat_inj.1 this
    · exact leRd_zero (a := a + 1) (n := n) (by omega) i (by omega) (by omega)

theorem leWr_zero {f : Nat → UInt8} {a : Nat} (h : leRd f a 8 = 0) : leWr f a 8 0 = f := by
  funext i
  unfold leWr
  split
  · rename_i hi
    rw [leRd_zero h i hi.1 hi.2]
    simp
  · rfl

/-- what the constructor leaves -/
def booted (p0 : Pool) : Pool := { p0 with mem := leWr (leWr (leWr (leWr p0.mem 8 8 1) 312 8 0) 288 8 0) 296 8 320 }

/-- where the processes have died: only the header's words can differ from the new pool, and each is as before or as in the end -/
structure Part (p0 p : Pool) : Prop where
  eq : p = { p0 with mem := p.mem }
  out : ∀ i, i < 8 ∨ (16 ≤ i ∧ i < 288) ∨ (304 ≤ i ∧ i < 312) ∨ 320 ≤ i → p.mem i = p0.mem i
  flag : (∀ i, 8 ≤ i → i < 16 → p.mem i = p0.mem i) ∨ ∀ i, 8 ≤ i → i < 16 → p.mem i = leWr p0.mem 8 8 1 i

theorem Part.refl (p0 : Pool) : Part p0 p0 := ⟨rfl, fun _ _ => rfl, Or.inl fun _ _ _ => rfl⟩

theorem Part.wr {p0 p : Pool} {a v : Nat} (h : Part p0 p) (ha : a = 288 ∨ a = 296 ∨ a = 312) : Part p0 { p with mem := leWr p.mem a 8 v } := by
  refine ⟨?_, ?_, ?_⟩
  · rw [h.eq]
  · intro i hi
    show leWr p.mem a 8 v i = _
    rw [leWr_out _ _ _ _ _ (by omega)]
    exact h.out i hi
  · refine h.flag.imp (fun h i h1 h2 => ?_) (fun h i h1 h2 => ?_) <;> (show leWr p.mem a 8 v i = _; rw [leWr_out _ _ _ _ _ (by omega)]; exact h i h1 h2)

theorem Part.zero {p0 p : Pool} {a : Nat} (h : Part p0 p) (ha : a = 280 ∨ a = 304) (hz : leRd p0.mem a 8 = 0) : { p with mem := leWr p.mem a 8 0 } = p := by
  have : leRd p.mem a 8 = 0 := by
    rw [← hz]
    exact leRd_congr _ _ _ _ fun i h1 h2 => h.out i (by omega)
  rw [leWr_zero this]

theorem Part.set {p0 p : Pool} (h : Part p0 p) : Part p0 { p with mem := leWr p.mem 8 8 1 } := by
  refine ⟨?_, ?_, ?_⟩
  · rw [h.eq]
  · intro i hi
    show leWr p.mem 8 8 1 i = _
    rw [leWr_out _ _ _ _ _ (by omega)]
    exact h.out i hi
  · refine Or.inr fun i h1 h2 => ?_
    show leWr p.mem 8 8 1 i = _
    unfold leWr
    rw [if_pos (by omega), if_pos (by omega)]

theorem Part.inb {p0 p : Pool} (h : Part p0 p) (hg : Geo p0) {a : Nat} (ha : a + 8 ≤ 320) : p.inb a 8 := by
  have e1 : p.fsize = p0.fsize := by rw [h.eq]
  have e2 : p.size = p0.size := leRd_congr _ _ _ _ fun i h1 h2 => h.out i (by omega)
  have := hg.min
  have := hg.le
  exact ⟨by omega, by omega⟩

theorem Part.done {p0 p : Pool} (h : Part p0 p) (hf : ∀ i, 8 ≤ i → i < 16 → p.mem i = leWr p0.mem 8 8 1 i) (h1 : ∀ i, 312 ≤ i → i < 320 → p.mem i = leWr p0.mem 312 8 0 i)
    (h2 : ∀ i, 288 ≤ i → i < 296 → p.mem i = leWr p0.mem 288 8 0 i) (h3 : ∀ i, 296 ≤ i → i < 304 → p.mem i = leWr p0.mem 296 8 320 i) : p = booted p0 := by
  rw [h.eq]
  unfold booted
  congr 1
  funext i
  by_cases a1 : 296 ≤ i ∧ i < 304
  · rw [h3 i a1.1 a1.2]
    unfold leWr
    rw [if_pos (by omega), if_pos (by omega)]
  rw [leWr_out _ 296 _ _ _ (by omega)]
  by_cases a2 : 288 ≤ i ∧ i < 296
  · rw [h2 i a2.1 a2.2]
    unfold leWr
    rw [if_pos (by omega), if_pos (by omega)]
  rw [leWr_out _ 288 _ _ _ (by omega)]
  by_cases a3 : 312 ≤ i ∧ i < 320
  · rw [h1 i a3.1 a3.2]
    unfold leWr
    rw [if_pos (by omega), if_pos (by omega)]
  rw [leWr_out _ 312 _ _ _ (by omega)]
  by_cases a4 : 8 ≤ i ∧ i < 16
  · exact hf i a4.1 a4.2
  rw [leWr_out _ 8 _ _ _ (by omega)]
  exact h.out i (by omega)


theorem Part.size {p0 p : Pool} (h : Part p0 p) : leRd p.mem 0 8 = p0.size := leRd_congr _ _ _ _ fun i h1 h2 => h.out i (by omega)

theorem part_repair {p0 p : Pool} (hF : Fresh p0) (h : Part p0 p) :
    rwp repair (fun out p' => out = .ok () ∧ p' = { p with mem := leWr (leWr (leWr p.mem 312 8 0) 288 8 0) 296 8 320 }) (Part p0) p := by
  have hb : ∀ {q : Pool}, Part p0 q → ∀ a, a + 8 ≤ 320 → q.inb a 8 := fun h a ha => h.inb hF.geo ha
  have e1 : leRd p.mem 0 8 = p0.size - 1 + 1 := by rw [h.size]; have := hF.geo.min; omega
  have e2 : leRd p.mem 304 8 = 0 := by
    rw [← hF.head]
    exact leRd_congr _ _ _ _ fun i h1 h2 => h.out i (by omega)
  refine ⟨h, hb h 0 (by omega), h, hb h 304 (by omega), ?_⟩
  rw [e1, e2]
  exact ⟨h, hb h 312 (by omega), h.wr (by omega), hb (h.wr (by omega)) 288 (by omega), (h.wr (by omega)).wr (by omega), hb ((h.wr (by omega)).wr (by omega)) 296 (by omega),
    ((h.wr (by omega)).wr (by omega)).wr (by omega), rfl, rfl⟩

theorem part_init {p0 p : Pool} (hF : Fresh p0) (h : Part p0 p) (hz : ∀ i, 8 ≤ i → i < 16 → p.mem i = p0.mem i) : rwp init (fun out p' => out = .ok () ∧ p' = booted p0) (Part p0) p := by
  have hb : ∀ {q : Pool}, Part p0 q → ∀ a, a + 8 ≤ 320 → q.inb a 8 := fun h a ha => h.inb hF.geo ha
  have e1 : leRd p.mem 8 8 = 0 := by
    rw [← hF.init]
    exact leRd_congr _ _ _ _ fun i h1 h2 => hz i h1 (by omega)
  refine ⟨h, hb h 8 (by omega), ?_⟩
  rw [e1]
  have h1 := h.set
  refine ⟨h, hb h 8 (by omega), h1, hb h1 280 (by omega), ?_⟩
  rw [h1.zero (Or.inl rfl) hF.base]
  refine ⟨h1, hb h1 304 (by omega), ?_⟩
  rw [h1.zero (Or.inr rfl) hF.head]
  have h2 := h1.wr (a := 312) (v := 0) (by omega)
  have h3 := h2.wr (a := 288) (v := 0) (by omega)
  have h4 := h3.wr (a := 296) (v := 320) (by omega)
  refine ⟨h1, hb h1 312 (by omega), h2, hb h2 288 (by omega), h3, hb h3 296 (by omega), h4, rfl, h4.done ?_ ?_ ?_ ?_⟩ <;> intro i a1 a2 <;> simp only [leWr]
  · rw [if_neg (by omega), if_neg (by omega), if_neg (by omega)]
    rw [if_pos (by omega), if_pos (by omega)]
  · rw [if_neg (by omega), if_neg (by omega), if_pos (by omega), if_pos (by omega)]
  · rw [if_neg (by omega), if_pos (by omega), if_pos (by omega)]
  · rw [if_pos (by omega), if_pos (by omega)]

theorem part_reopen0 {p0 p : Pool} (hF : Fresh p0) (h : Part p0 p) (hz : ∀ i, 8 ≤ i → i < 16 → p.mem i = p0.mem i) : rwp reopen (fun out p' => out = .ok () ∧ p' = booted p0) (Part p0) p := by
  refine ⟨h, h.inb hF.geo (by omega), ?_⟩
  have e1 : leRd p.mem 8 8 = 0 := by
    rw [← hF.init]
    exact leRd_congr _ _ _ _ fun i h1 h2 => hz i h1 (by omega)
  rw [e1]
  show rwp (repair.bind fun _ => init) _ _ p
  refine rwp_bind_of (part_repair hF h) (fun _ h => h) ?_ ?_
  · rintro _ _ ⟨-, rfl⟩
    refine part_init hF (((h.wr (by omega)).wr (by omega)).wr (by omega)) ?_
    intro i h1 h2
    simp only [leWr]
    rw [if_neg (by omega), if_neg (by omega), if_neg (by omega)]
    exact hz i h1 h2
  · rintro _ _ ⟨h, -⟩; cases h

theorem part_reopen1 {p0 p : Pool} (hF : Fresh p0) (h : Part p0 p) (hs : ∀ i, 8 ≤ i → i < 16 → p.mem i = leWr p0.mem 8 8 1 i) : rwp reopen (fun out p' => out = .ok () ∧ p' = booted p0) (Part p0) p := by
  refine ⟨h, h.inb hF.geo (by omega), ?_⟩
  have e1 : leRd p.mem 8 8 = 1 := by
    rw [leRd_congr _ (leWr p0.mem 8 8 1) _ _ fun i h1 h2 => hs i h1 (by omega), leRd_leWr_same]
  rw [e1]
  refine rwp_mono ?_ (fun _ h => h) (part_repair hF h)
  rintro out _ ⟨rfl, rfl⟩
  refine ⟨rfl, (((h.wr (by omega)).wr (by omega)).wr (by omega)).done ?_ ?_ ?_ ?_⟩ <;> intro i a1 a2 <;> simp only [leWr]
  · rw [if_neg (by omega), if_neg (by omega), if_neg (by omega)]
    rw [hs i a1 a2]; rfl
  · rw [if_neg (by omega), if_neg (by omega), if_pos (by omega), if_pos (by omega)]
  · rw [if_neg (by omega), if_pos (by omega), if_pos (by omega)]
  · rw [if_pos (by omega), if_pos (by omega)]

theorem part_reopen {p0 p : Pool} (hF : Fresh p0) (h : Part p0 p) : rwp reopen (fun out p' => out = .ok () ∧ p' = booted p0) (Part p0) p :=
  h.flag.elim (part_reopen0 hF h) (part_reopen1 hF h)

end Simple

/-- **C76, SimpleAllocator.** Any number of processes die while they set up a SimpleAllocator in a new pool, each at any point of the constructor or of the repair.  The next process ends up with exactly the pool that an undisturbed
constructor leaves, byte for byte; everything said about histories that start with the constructor (`Hist`) therefore holds from there on. -/
theorem C76_simple {p0 p : Pool} (hF : Simple.Fresh p0) (hd : Simple.Dead p0 p) : ∃ p', run Simple.reopen p = (.ok (), p') ∧ run Simple.init p0 = (.ok (), p') ∧ Hist p0 p' [] [] true := by
  have hp : Simple.Part p0 p := by
    induction hd with
    | first c => exact rwp_crash (Simple.part_init hF (.refl p0) fun _ _ _ => rfl) c
    | again c _ ih => exact rwp_crash (Simple.part_reopen hF ih) c
  obtain ⟨o1, a1, rfl, a2⟩ := rwp_run (Simple.part_reopen hF hp)
  obtain ⟨o2, b1, rfl, b2⟩ := rwp_run (Simple.part_init hF (.refl p0) fun _ _ _ => rfl)
  have a3 : run Simple.reopen p = (.ok (), Simple.booted p0) := Prod.ext a1 a2
  have b3 : run Simple.init p0 = (.ok (), Simple.booted p0) := Prod.ext b1 b2
  exact ⟨_, a3, b3, .start hF.geo hF.init b3⟩

/-- the hypotheses are met by a new pool in which two processes die -/
example : Simple.Fresh (newPool 0) ∧ Simple.Dead (newPool 0) (crashAt 5 Simple.reopen (crashAt 3 Simple.init (newPool 0))) ∧ leRd (crashAt 5 Simple.reopen (crashAt 3 Simple.init (newPool 0))).mem 8 8 = 1 :=
  ⟨⟨newPool_geo 0, by decide +kernel, by decide +kernel, by decide +kernel⟩, .again 5 (.first 3), by decide +kernel⟩

/-- **C76 is false of LogarithmicAllocator.** A process dies in the constructor after it has marked the pool as initialized and created the first four free blocks.  The next process finds the mark and goes on; its repair, when it takes the lock, walks the rest of the
pool, which is all zeros, as blocks of order 0, writes to what it takes for their lists, one of which is part of the lock (address 272), and fails its own assertion (LogarithmicAllocator.cc 292); so will every process after it. -/
theorem C76_log_false : ∃ c, leRd (crashAt c Logarithmic.init (newPool (2 ^ 30))).mem 8 8 = 1 ∧ (run Logarithmic.repair (crashAt c Logarithmic.init (newPool (2 ^ 30)))).1 = .ub ∧
    leRd (run Logarithmic.repair (crashAt c Logarithmic.init (newPool (2 ^ 30)))).2.mem 272 8 = 1536 := by
  refine ⟨150, ?_, ?_, ?_⟩ <;> decide +kernel

end Verif
