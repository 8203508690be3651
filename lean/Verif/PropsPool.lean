import Verif.SimpleRepair
/-
C01-C03: Pool::expand and the temporary-mapping accessors (/repo/src/Pool.{hh,cc}).
-/
namespace Verif
open Simple (Geo w)

/-- a pool just created by the Pool constructor, Pool.cc 63-80: one zeroed page, size word 4096 -/
def newPool (maxSize : Nat) : Pool :=
  { mem := fun i => if i = 1 then 16 else 0, fsize := 4096, maxSize := maxSize, lim := 1099511627776 }

theorem newPool_size (m : Nat) : (newPool m).size = 4096 := by
  show leRd (fun i => if i = 1 then 16 else 0) 0 8 = 4096
  decide +kernel
theorem newPool_geo (m : Nat) : Geo (newPool m) :=
  ⟨by rw [newPool_size]; exact Nat.le_refl _, by rw [newPool_size], by rw [newPool_size]; exact Nat.le_refl _,
    by rw [newPool_size]; decide, by simp [newPool]⟩

/-- closed form of a complete run of `expand` -/
theorem run_expand (p : Pool) (hg : Geo p) (n : Nat) :
    run (expand n) p =
      if p.maxSize ≠ 0 ∧ roundPage n > p.maxSize then (.err .noMem, p)
      else if roundPage n ≤ p.size then (.ok (), p)
      else if roundPage n ≤ p.lim then
        (.ok (), { p.trunc (roundPage n) with mem := leWr (p.trunc (roundPage n)).mem 0 8 (roundPage n) })
      else (.err .noMem, p) := by
  have hmin := hg.min
  have hin : p.inb 0 8 := hg.inb (by omega)
  unfold expand R.maxSize R.rd64 R.rd R.trunc R.wr64 R.wr
  simp only [Prog.bind_def, Prog.step_bind, Prog.ret_bind, run]
  split
  · rfl
  · simp only [run, if_pos hin, forceN_eq]
    rw [show leRd p.mem 0 8 = p.size from rfl]
    split
    · rfl
    · rename_i hgt
      simp only [run]
      split
      · rename_i hl
        have hs : (p.trunc (roundPage n)).size = p.size := by
          refine leRd_congr _ _ _ _ ?_
          intro i h1 h2
          have := hg.le
          show (if _ then _ else _) = _
          rw [if_pos (by omega)]
        have hin2 : (p.trunc (roundPage n)).inb 0 8 := by
          refine ⟨by rw [hs]; omega, ?_⟩
          show _ ≤ roundPage n; omega
        simp only [Bool.true_eq_false, if_false, run, if_pos hin2, forceN_eq]
      · simp only [if_true, run]

/-- **C01.** `expand(n)` either throws and changes nothing, or returns with a pool that is at least as large as
before, at least `n` (unless rounding `n` up overflows 64 bits), a multiple of the page size, in which
every old byte other than the size field is unchanged and every byte past the end of the old file is zero. -/
theorem C01_expand (p : Pool) (hg : Geo p) (n : Nat) :
    ((run (expand n) p).1 = .ok () ∧
      (n + 4095 < 2 ^ 64 → n ≤ (run (expand n) p).2.size) ∧
      (run (expand n) p).2.size % 4096 = 0 ∧
      p.size ≤ (run (expand n) p).2.size ∧
      (run (expand n) p).2.size ≤ (run (expand n) p).2.fsize ∧
      (∀ i, 8 ≤ i → i < p.size → (run (expand n) p).2.mem i = p.mem i) ∧
      (p.size < (run (expand n) p).2.size → ∀ i, p.fsize ≤ i → (run (expand n) p).2.mem i = 0)) ∨
    (∃ e, run (expand n) p = (.err e, p)) := by
  obtain ⟨o, h1, h2⟩ := rwp_run (Simple.expand_spec hg n)
  rcases h2 with ⟨rfl, hG, hsz, -⟩ | ⟨rfl, h3, -⟩
  · left
    refine ⟨h1, ?_, hG.geo.page, hG.sz, hG.geo.le, hG.mem, ?_⟩
    · intro hn; have := (Simple.roundPage_le (n := n) (by omega)).1; omega
    · have hmin := hg.min
      have hfl := hg.le
      intro hgt i hi
      rw [run_expand p hg] at hgt ⊢
      split at hgt
      · simp at hgt
      · rename_i c1
        rw [if_neg c1]
        split at hgt
        · simp at hgt
        · rename_i c2
          rw [if_neg c2]
          split at hgt
          · rename_i c3
            rw [if_pos c3]
            show leWr _ 0 8 _ i = 0
            rw [leWr_out _ _ _ _ _ (by omega)]
            show (if _ then _ else _) = _
            rw [if_neg (by omega)]
          · simp at hgt
  · right
    exact ⟨.noMem, Prod.ext h1 h3⟩

/-- the hypothesis of C01 is met by a new pool, and expansion of it really happens -/
example : Geo (newPool 0) ∧ (run (expand 5000) (newPool 0)).1 = .ok () ∧ (run (expand 5000) (newPool 0)).2.size = 8192 :=
  ⟨newPool_geo 0, by decide +kernel, by decide +kernel⟩

/-- a sequence of expands (exceptions are caught and ignored) -/
def expands (p : Pool) (ns : List Nat) : Pool := ns.foldl (fun q n => (run (expand n) q).2) p

theorem expand_after (p : Pool) (hg : Geo p) (n : Nat) :
    Geo (run (expand n) p).2 ∧ (run (expand n) p).2.maxSize = p.maxSize ∧
    (p.maxSize ≠ 0 → p.size ≤ p.maxSize → (run (expand n) p).2.size ≤ p.maxSize) := by
  obtain ⟨o, h1, h2⟩ := rwp_run (Simple.expand_spec hg n)
  rcases h2 with ⟨rfl, hG, hsz, h3⟩ | ⟨rfl, h3, -⟩
  · exact ⟨hG.geo, hG.mx, by intro a b; omega⟩
  · rw [h3]; exact ⟨hg, rfl, fun _ h => h⟩

/-- **C02 (limit).** A pool that starts within this opener's nonzero `max_size` never exceeds it, whatever expands are tried. -/
theorem C02_max_size_respected (p : Pool) (hg : Geo p) (hm : p.maxSize ≠ 0) (hs : p.size ≤ p.maxSize) (ns : List Nat) :
    (expands p ns).size ≤ p.maxSize := by
  suffices h : ∀ q : Pool, Geo q → q.maxSize = p.maxSize → q.size ≤ p.maxSize → (expands q ns).size ≤ p.maxSize from
    h p hg rfl hs
  induction ns with
  | nil => intro q _ _ h; exact h
  | cons n ns ih =>
    intro q hq he hle
    obtain ⟨a, b, c⟩ := expand_after q hq n
    exact ih _ a (b.trans he) (by rw [he] at c; exact c hm hle)

example : Geo (newPool 8192) ∧ (newPool 8192).size ≤ (newPool 8192).maxSize ∧
    (expands (newPool 8192) [5000, 9000]).size = 8192 :=
  ⟨newPool_geo _, by decide +kernel, by decide +kernel⟩

/-- **C02 (no-op), true part.** If the pool does not exceed this opener's `max_size`, an expand to a size already
reached does nothing and does not throw. Missing: pools larger than this opener's `max_size` (`C02_noop_false`). -/
theorem C02_noop_partial (p : Pool) (hg : Geo p) (n : Nat) (hn : n ≤ p.size) (hm : p.maxSize = 0 ∨ p.size ≤ p.maxSize) :
    run (expand n) p = (.ok (), p) := by
  have hr : roundPage n ≤ p.size := by
    have := hg.page; have := hg.max
    unfold roundPage; omega
  rw [run_expand p hg, if_neg (by omega), if_pos hr]

example : Geo (newPool 0) ∧ 1000 ≤ (newPool 0).size := ⟨newPool_geo 0, by decide +kernel⟩

/-- **C02 is false as documented.** Pool.hh: "If the given size is smaller than the pool's size, does nothing."  Another
process (opened without a limit) has grown the pool to 16384; an opener with max_size 8192 asks for 10000 bytes, which are
already there, and gets an exception. -/
theorem C02_noop_false : ∃ p : Pool, ∃ n, Geo p ∧ n ≤ p.size ∧ run (expand n) p ≠ (.ok (), p) ∧
    p = { (run (expand 16384) (newPool 0)).2 with maxSize := 8192 } := by
  refine ⟨_, 10000, ?_, ?_, ?_, rfl⟩
  · have := (expand_after (newPool 0) (newPool_geo 0) 16384).1
    exact ⟨this.le, this.page, this.min, this.max, this.lim⟩
  · decide +kernel
  · intro h
    have h' := congrArg Prod.fst h
    revert h'
    decide +kernel

/-- sizes within a page of 2^64 wrap to 0: expand returns normally without providing the space -/
theorem C02_wrap_false : ∃ n, n < 2 ^ 64 ∧ (run (expand n) (newPool 0)).1 = .ok () ∧ (run (expand n) (newPool 0)).2.size < n :=
  ⟨18446744073709551615, by decide, by decide +kernel, by decide +kernel⟩

/-! ### temporary mappings -/

/-- the address computation shared by map_and_read_atomic, map_and_write_atomic (Pool.hh 98-133) and map_and_call
(Pool.cc 135-149): the page containing `offset` is computed, but the mapping starts at file offset 0, so the
access goes to `offset_within_page` of the file.  `none`: the access is past the mapped pages. -/
def mapAddr (offset size : Nat) : Option Nat :=
  let pageOffset := offset / 4096 * 4096
  let within := offset - pageOffset
  let pages := if within + size > 4096 then 2 else 1
  let fileOffset := 0
  if within + size ≤ pages * 4096 then some (fileOffset + within) else none

/-- Pool::map_and_read_atomic<uint64_t>, Pool.hh 98-114 -/
def mapRead (offset : Nat) : RProg Nat :=
  match mapAddr offset 8 with
  | some a => R.rd64 a
  | none => .ub

/-- Pool::map_and_write_atomic<uint64_t>, Pool.hh 116-131 -/
def mapWrite (offset v : Nat) : RProg Unit :=
  match mapAddr offset 8 with
  | some a => R.wr64 a v
  | none => .ub

/-- Pool::map_and_call with a callback that copies `bs` in, Pool.cc 135-149 -/
def mapCallCopy (offset : Nat) (bs : Bytes) : RProg Unit :=
  match mapAddr offset bs.length with
  | some a => R.wrB a bs
  | none => .ub

theorem mapAddr_low {o n : Nat} (ho : o < 4096) (hn : o + n ≤ 8192) : mapAddr o n = some o := by
  unfold mapAddr
  have : o / 4096 * 4096 = 0 := by omega
  simp only [this, Nat.sub_zero, Nat.zero_add]
  by_cases h : o + n > 4096
  · rw [if_pos h, if_pos (by omega)]
  · rw [if_neg h, if_pos (by omega)]

/-- **C03, true part.** For offsets in the first page the accessors address the offset they are given (and nothing else).
Missing: every offset from 4096 on (`C03_false`). -/
theorem C03_partial (p : Pool) (o v : Nat) (bs : Bytes) (ho : o < 4096) (hb : o + 8 ≤ p.size) (hf : p.size ≤ p.fsize)
    (hlen : o + bs.length ≤ 8192) (hbs : o + bs.length ≤ p.size) :
    run (mapRead o) p = (.ok (leRd p.mem o 8), p) ∧
    run (mapWrite o v) p = (.ok (), { p with mem := leWr p.mem o 8 v }) ∧
    run (mapCallCopy o bs) p = (.ok (), { p with mem := bsWr p.mem o bs }) := by
  have hin : p.inb o 8 := ⟨hb, by omega⟩
  have hin2 : p.inb o bs.length := ⟨hbs, by omega⟩
  unfold mapRead mapWrite mapCallCopy
  rw [mapAddr_low ho (by omega), mapAddr_low ho hlen]
  refine ⟨?_, ?_, ?_⟩
  · simp [R.rd64, R.rd, run, hin]
  · simp [R.wr64, R.wr, run, hin]
  · simp [R.wrB, run, hin2]

example : (24 : Nat) < 4096 ∧ 24 + 8 ≤ (newPool 0).size ∧ (newPool 0).size ≤ (newPool 0).fsize := by decide +kernel

/-- **C03 is false** from the second page on: a write to offset 4096+k changes byte k of the pool instead (here the
pool's own size field), and a read of 4096 does not return what is stored there. -/
theorem C03_false :
    (∃ p : Pool, Geo p ∧ 4096 + 8 ≤ p.size ∧ (run (mapRead 4096) p).1 ≠ .ok (leRd p.mem 4096 8)) ∧
    (∃ p : Pool, Geo p ∧ 4096 + 8 ≤ p.size ∧ (run (mapWrite 4096 7) p).1 = .ok () ∧ (run (mapWrite 4096 7) p).2.size ≠ p.size ∧
      leRd (run (mapWrite 4096 7) p).2.mem 4096 8 = leRd p.mem 4096 8 ∧ leRd p.mem 4096 8 ≠ 7) := by
  have hg := (expand_after (newPool 0) (newPool_geo 0) 8192).1
  exact ⟨⟨_, hg, by decide +kernel, by decide +kernel⟩, ⟨_, hg, by decide +kernel, by decide +kernel, by decide +kernel,
    by decide +kernel, by decide +kernel⟩⟩

end Verif
