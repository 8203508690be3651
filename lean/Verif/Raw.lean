import Verif.Prog
/-
The raw pool and programs over it.

`Pool` is the shared memory object (/repo/src/Pool.{hh,cc}): its bytes, the size of the file,
this opener's `max_size` (0 = unlimited) and the largest size the OS lets ftruncate set.
`size` is the word at offset 0 (Pool.hh Data::size, Pool.cc 131-133).

Simplification: the process' mapping (`pool_size`) is taken to be the size word. Allocator
methods run after `lock()`, which calls `check_size_and_remap` (SimpleAllocator.cc 201-210), so the two
agree (proved in `View.lean`).  Views of different processes are modelled separately for AtomicVector.expand, which takes no lock.
-/
namespace Verif

structure Pool where
  mem : Nat → UInt8
  fsize : Nat
  maxSize : Nat
  lim : Nat

namespace Pool
/-- Pool::size, Pool.cc 131-133 -/
def size (p : Pool) : Nat := leRd p.mem 0 8
/-- is `[a, a+n)` mapped? -/
def inb (p : Pool) (a n : Nat) : Prop := a + n ≤ p.size ∧ a + n ≤ p.fsize
instance (p : Pool) (a n : Nat) : Decidable (p.inb a n) := by unfold inb; infer_instance
/-- ftruncate: bytes beyond the smaller of the old and new size read as zero -/
def trunc (p : Pool) (n : Nat) : Pool :=
  { p with mem := fun i => if i < p.fsize ∧ i < n then p.mem i else 0, fsize := n }
end Pool

inductive ROp
  | rd (a n : Nat)
  | wr (a n v : Nat)
  | rdB (a n : Nat)
  | wrB (a : Nat) (bs : Bytes)
  | trunc (n : Nat)        -- ftruncate; responds whether it succeeded
  | maxSize

abbrev RRe : ROp → Type
  | .rd .. => Nat
  | .wr .. => Unit
  | .rdB .. => Bytes
  | .wrB .. => Unit
  | .trunc _ => Bool
  | .maxSize => Nat

abbrev RProg (α : Type) := Prog ROp RRe α

namespace R
def rd (a n : Nat) : RProg Nat := .step (.rd a n) .ret
def wr (a n v : Nat) : RProg Unit := .step (.wr a n v) .ret
abbrev rd64 (a : Nat) : RProg Nat := rd a 8
abbrev wr64 (a v : Nat) : RProg Unit := wr a 8 v
def rdB (a n : Nat) : RProg Bytes := .step (.rdB a n) .ret
def wrB (a : Nat) (bs : Bytes) : RProg Unit := .step (.wrB a bs) .ret
def trunc (n : Nat) : RProg Bool := .step (.trunc n) .ret
def maxSize : RProg Nat := .step .maxSize .ret
end R

variable {α β : Type}

/-- Result of a raw run: an outcome, or undefined behaviour (touching unmapped memory, or a loop
that exhausted its fuel). -/
inductive Res (α : Type)
  | ok (a : α)
  | err (e : Err)
  | ub
  deriving DecidableEq, Repr

/-- Run a raw program to the end. -/
def run : RProg α → Pool → Res α × Pool
  | .ret a, s => (.ok a, s)
  | .err e, s => (.err e, s)
  | .ub, s => (.ub, s)
  | .step (.rd a n) k, s =>
      if s.inb a n then forceN (leRd s.mem a n) fun v => run (k v) s else (.ub, s)
  | .step (.wr a n v) k, s =>
      if s.inb a n then forceN v fun v => run (k ()) { s with mem := leWr s.mem a n v } else (.ub, s)
  | .step (.rdB a n) k, s =>
      if s.inb a n then forceB (bsRd s.mem a n) fun v => run (k v) s else (.ub, s)
  | .step (.wrB a bs) k, s =>
      if s.inb a bs.length then run (k ()) { s with mem := bsWr s.mem a bs } else (.ub, s)
  | .step (.trunc n) k, s =>
      if n ≤ s.lim then run (k true) (s.trunc n) else run (k false) s
  | .step .maxSize k, s => run (k s.maxSize) s

/-- The pool when the process dies after at most `c` accesses of the program. -/
def crashAt : Nat → RProg α → Pool → Pool
  | 0, _, s => s
  | _ + 1, .ret _, s => s
  | _ + 1, .err _, s => s
  | _ + 1, .ub, s => s
  | c + 1, .step (.rd a n) k, s => crashAt c (k (leRd s.mem a n)) s
  | c + 1, .step (.wr a n v) k, s => crashAt c (k ()) { s with mem := leWr s.mem a n v }
  | c + 1, .step (.rdB a n) k, s => crashAt c (k (bsRd s.mem a n)) s
  | c + 1, .step (.wrB a bs) k, s => crashAt c (k ()) { s with mem := bsWr s.mem a bs }
  | c + 1, .step (.trunc n) k, s =>
      if n ≤ s.lim then crashAt c (k true) (s.trunc n) else crashAt c (k false) s
  | c + 1, .step .maxSize k, s => crashAt c (k s.maxSize) s

/-- Weakest precondition of a raw program: it finishes without undefined behaviour in `Q`, and `I`
holds at every crash point. -/
def rwp : RProg α → (Out α → Pool → Prop) → (Pool → Prop) → Pool → Prop
  | .ret a, Q, I, s => I s ∧ Q (.ok a) s
  | .err e, Q, I, s => I s ∧ Q (.err e) s
  | .ub, _, _, _ => False
  | .step (.rd a n) k, Q, I, s => I s ∧ s.inb a n ∧ rwp (k (leRd s.mem a n)) Q I s
  | .step (.wr a n v) k, Q, I, s => I s ∧ s.inb a n ∧ rwp (k ()) Q I { s with mem := leWr s.mem a n v }
  | .step (.rdB a n) k, Q, I, s => I s ∧ s.inb a n ∧ rwp (k (bsRd s.mem a n)) Q I s
  | .step (.wrB a bs) k, Q, I, s =>
      I s ∧ s.inb a bs.length ∧ rwp (k ()) Q I { s with mem := bsWr s.mem a bs }
  | .step (.trunc n) k, Q, I, s =>
      I s ∧ (n ≤ s.lim → rwp (k true) Q I (s.trunc n)) ∧ (¬ n ≤ s.lim → rwp (k false) Q I s)
  | .step .maxSize k, Q, I, s => I s ∧ rwp (k s.maxSize) Q I s

/-- embed outcomes in results -/
def Out.toRes : Out α → Res α
  | .ok a => .ok a
  | .err e => .err e

/-- soundness of `rwp` for complete runs -/
theorem rwp_run {p : RProg α} {Q : Out α → Pool → Prop} {I : Pool → Prop} :
    ∀ {s}, rwp p Q I s → ∃ o, (run p s).1 = Out.toRes o ∧ Q o (run p s).2 := by
  induction p with
  | ret a => exact fun h => ⟨.ok a, rfl, h.2⟩
  | err e => exact fun h => ⟨.err e, rfl, h.2⟩
  | ub => exact fun h => h.elim
  | step op k ih =>
    intro s h
    cases op with
    | rd a n | wr a n v | rdB a n | wrB a bs =>
      simp only [rwp] at h
      simp only [run, if_pos h.2.1, forceN_eq, forceB_eq]
      exact ih _ h.2.2
    | trunc n =>
      simp only [rwp] at h
      simp only [run]
      split
      · rename_i hc; exact ih _ (h.2.1 hc)
      · rename_i hc; exact ih _ (h.2.2 hc)
    | maxSize => exact ih _ h.2

theorem rwp_inv {p : RProg α} {Q : Out α → Pool → Prop} {I : Pool → Prop} {s : Pool}
    (h : rwp p Q I s) : I s := by
  cases p with
  | ret a => exact h.1
  | err e => exact h.1
  | ub => exact h.elim
  | step op k => cases op <;> exact h.1

/-- soundness of `rwp` for crash points -/
theorem rwp_crash {p : RProg α} {Q : Out α → Pool → Prop} {I : Pool → Prop} :
    ∀ {s}, rwp p Q I s → ∀ c, I (crashAt c p s) := by
  induction p with
  | ret a => intro s h c; cases c <;> exact h.1
  | err e => intro s h c; cases c <;> exact h.1
  | ub => exact fun h => h.elim
  | step op k ih =>
    intro s h c
    cases c with
    | zero => exact rwp_inv h
    | succ c =>
      cases op with
      | rd a n | wr a n v | rdB a n | wrB a bs => exact ih _ h.2.2 c
      | trunc n =>
        simp only [crashAt]
        split
        · rename_i hc; exact ih _ (h.2.1 hc) c
        · rename_i hc; exact ih _ (h.2.2 hc) c
      | maxSize => exact ih _ h.2 c

theorem rwp_mono {p : RProg α} {Q Q' : Out α → Pool → Prop} {I I' : Pool → Prop}
    (hQ : ∀ o s, Q o s → Q' o s) (hI : ∀ s, I s → I' s) : ∀ {s}, rwp p Q I s → rwp p Q' I' s := by
  induction p with
  | ret a => exact fun h => ⟨hI _ h.1, hQ _ _ h.2⟩
  | err e => exact fun h => ⟨hI _ h.1, hQ _ _ h.2⟩
  | ub => exact fun h => h.elim
  | step op k ih =>
    intro s h
    cases op with
    | rd a n | wr a n v | rdB a n | wrB a bs => exact ⟨hI _ h.1, h.2.1, ih _ h.2.2⟩
    | trunc n => exact ⟨hI _ h.1, fun hc => ih _ (h.2.1 hc), fun hc => ih _ (h.2.2 hc)⟩
    | maxSize => exact ⟨hI _ h.1, ih _ h.2⟩

/-- the crash condition holds at the end as well -/
theorem rwp_post {p : RProg α} {Q : Out α → Pool → Prop} {I : Pool → Prop} :
    ∀ {s}, rwp p Q I s → rwp p (fun o s => Q o s ∧ I s) I s := by
  induction p with
  | ret a => exact fun h => ⟨h.1, h.2, h.1⟩
  | err e => exact fun h => ⟨h.1, h.2, h.1⟩
  | ub => exact fun h => h.elim
  | step op k ih =>
    intro s h
    cases op with
    | rd a n | wr a n v | rdB a n | wrB a bs => exact ⟨h.1, h.2.1, ih _ h.2.2⟩
    | trunc n => exact ⟨h.1, fun hc => ih _ (h.2.1 hc), fun hc => ih _ (h.2.2 hc)⟩
    | maxSize => exact ⟨h.1, ih _ h.2⟩

def rwpK (f : α → RProg β) (Q : Out β → Pool → Prop) (I : Pool → Prop) : Out α → Pool → Prop
  | .ok a, s => rwp (f a) Q I s
  | .err e, s => Q (.err e) s

theorem rwp_bind {p : RProg α} {f : α → RProg β} {Q : Out β → Pool → Prop} {I : Pool → Prop} :
    ∀ {s : Pool}, rwp p (rwpK f Q I) I s → rwp (p.bind f) Q I s := by
  induction p with
  | ret a => exact fun h => h.2
  | err e => exact fun h => h
  | ub => exact fun h => h
  | step op k ih =>
    intro s h
    cases op with
    | rd a n | wr a n v | rdB a n | wrB a bs => exact ⟨h.1, h.2.1, ih _ h.2.2⟩
    | trunc n => exact ⟨h.1, fun hc => ih _ (h.2.1 hc), fun hc => ih _ (h.2.2 hc)⟩
    | maxSize => exact ⟨h.1, ih _ h.2⟩

theorem rwp_bind_of {p : RProg α} {f : α → RProg β} {Q : Out β → Pool → Prop} {I : Pool → Prop}
    {s : Pool} {T : Out α → Pool → Prop} {J : Pool → Prop} (hp : rwp p T J s) (hJ : ∀ s, J s → I s)
    (hk : ∀ a s', T (.ok a) s' → rwp (f a) Q I s') (he : ∀ e s', T (.err e) s' → Q (.err e) s') :
    rwp (p.bind f) Q I s := by
  apply rwp_bind
  refine rwp_mono ?_ hJ hp
  intro o s' h
  cases o with
  | ok a => exact hk a s' h
  | err e => exact he e s' h

section rules
variable {Q : Out α → Pool → Prop} {I : Pool → Prop} {s : Pool} {a n : Nat}
theorem rwp_rd {k : Nat → RProg α} (hI : I s) (hb : s.inb a n) (hk : rwp (k (leRd s.mem a n)) Q I s) :
    rwp ((R.rd a n).bind k) Q I s := ⟨hI, hb, hk⟩
theorem rwp_wr {v : Nat} {k : Unit → RProg α} (hI : I s) (hb : s.inb a n)
    (hk : rwp (k ()) Q I { s with mem := leWr s.mem a n v }) :
    rwp ((R.wr a n v).bind k) Q I s := ⟨hI, hb, hk⟩
theorem rwp_trunc {k : Bool → RProg α} (hI : I s) (h1 : n ≤ s.lim → rwp (k true) Q I (s.trunc n))
    (h2 : ¬ n ≤ s.lim → rwp (k false) Q I s) : rwp ((R.trunc n).bind k) Q I s := ⟨hI, h1, h2⟩
theorem rwp_maxSize {k : Nat → RProg α} (hI : I s) (hk : rwp (k s.maxSize) Q I s) :
    rwp (R.maxSize.bind k) Q I s := ⟨hI, hk⟩
end rules

/-- Pool::expand, Pool.cc 93-111 with PAGE_SIZE = 4096: the rounded size (`size_t` wraps),
the `max_size` check, the "already large enough" return, ftruncate, then the size word. -/
def roundPage (n : Nat) : Nat := (n + 4095) % W64 / 4096 * 4096

def expand (newSize : Nat) : RProg Unit := do
  let ns := roundPage newSize
  let mx ← R.maxSize
  if mx ≠ 0 ∧ ns > mx then .err .noMem
  else do
    let view ← R.rd64 0
    if ns ≤ view then pure ()
    else do
      let ok ← R.trunc ns
      if ok = false then .err .noMem
      else R.wr64 0 ns

end Verif
