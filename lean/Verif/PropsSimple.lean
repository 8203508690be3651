import Verif.PropsPool
/-
C04-C11: SimpleAllocator (/repo/src/SimpleAllocator.{hh,cc}).

A client history is a sequence of constructor / allocate / free / writes into live blocks / set_base_object_offset calls and of
processes dying inside allocate or free (followed by the repair that the next lock holder runs).  `live` is what the
client knows: the (offset, size) pairs returned by allocate and not yet freed.
-/
namespace Verif
open Simple

/-- round up to a multiple of 8 -/
abbrev up8 (n : Nat) : Nat := (n + 7) / 8 * 8

/-- Client histories of one pool.  `live`: blocks the client holds. `lk`: blocks it freed within 24 bytes of the end of
the pool (`free` ignores those calls, see C07). `ex`: no crash so far. -/
inductive Hist (p0 : Pool) : Pool → List (Nat × Nat) → List (Nat × Nat) → Bool → Prop
  | start {p} : Geo p0 → leRd p0.mem 8 8 = 0 → run init p0 = (.ok (), p) → Hist p0 p [] [] true
  | alloc {p live lk ex n o p'} : Hist p0 p live lk ex → n + p.size + 8192 < 2 ^ 64 → run (alloc n) p = (.ok o, p') →
      Hist p0 p' ((o, n) :: live) lk ex
  | allocFail {p live lk ex n e p'} : Hist p0 p live lk ex → n + p.size + 8192 < 2 ^ 64 → run (alloc n) p = (.err e, p') →
      Hist p0 p' live lk ex
  | free {p live lk ex o n r p'} : Hist p0 p live lk ex → (o, n) ∈ live → run (free o) p = (r, p') →
      Hist p0 p' (live.erase (o, n)) (if o + 24 ≤ p.size then lk else (o, n) :: lk) ex
  | write {p live lk ex o n i bs r p'} : Hist p0 p live lk ex → (o, n) ∈ live → i + bs.length ≤ n →
      run (R.wrB (o + i) bs) p = (r, p') → Hist p0 p' live lk ex
  | setBase {p live lk ex v r p'} : Hist p0 p live lk ex → run (setBase v) p = (r, p') → Hist p0 p' live lk ex
  | reopen {p live lk ex} (m : Nat) : Hist p0 p live lk ex → Hist p0 { p with maxSize := m } live lk ex
  | crashAlloc {p live lk ex n r p'} (c : Nat) : Hist p0 p live lk ex → n + p.size + 8192 < 2 ^ 64 →
      run repair (crashAt c (alloc n) p) = (r, p') → Hist p0 p' live [] false
  | crashFree {p live lk ex o n r p'} (c : Nat) : Hist p0 p live lk ex → (o, n) ∈ live →
      run repair (crashAt c (free o) p) = (r, p') → Hist p0 p' (live.erase (o, n)) [] false

/-! ### programs that throw only before their first store (for C10) -/

theorem run_bind {α β : Type} (c : RProg α) (f : α → RProg β) (s : Pool) :
    run (c.bind f) s = match run c s with
      | (.ok a, s') => run (f a) s'
      | (.err e, s') => (.err e, s')
      | (.ub, s') => (.ub, s') := by
  induction c generalizing s with
  | ret a => rfl
  | err e => rfl
  | ub => rfl
  | step op k ih =>
    cases op with
    | rd a n | wr a n v | rdB a n | wrB a bs =>
      simp only [Prog.step_bind, run]
      split
      · (try simp only [forceN_eq, forceB_eq]); exact ih _ _
      · rfl
    | trunc n =>
      simp only [Prog.step_bind, run]
      split <;> exact ih _ _
    | maxSize => exact ih _ _

theorem run_eta {α : Type} {c : RProg α} {s : Pool} {r : Res α} (h : (run c s).1 = r) : run c s = (r, (run c s).2) := Prod.ext h rfl

/-- throws only before the first store -/
def ErrClean {α : Type} (c : RProg α) : Prop := ∀ s e, (run c s).1 = .err e → (run c s).2 = s
/-- never stores -/
def Pure {α : Type} (c : RProg α) : Prop := ∀ s, (run c s).2 = s
/-- never throws -/
def NoErr {α : Type} (c : RProg α) : Prop := ∀ s e, (run c s).1 ≠ .err e

section
variable {α β : Type}
theorem ErrClean.pure_bind {c : RProg α} {f : α → RProg β} (hc : Pure c) (hf : ∀ a, ErrClean (f a)) : ErrClean (c.bind f) := by
  intro s e
  have h := hc s
  rw [run_bind]
  generalize run c s = r at h
  obtain ⟨r, s'⟩ := r
  cases r with
  | ok a => simp only at h; subst h; exact hf a _ e
  | err e' => intro _; exact h
  | ub => intro h; cases h
theorem ErrClean.bind_noErr {c : RProg α} {f : α → RProg β} (hc : ErrClean c) (hf : ∀ a, NoErr (f a)) : ErrClean (c.bind f) := by
  intro s e
  have h := hc s
  rw [run_bind]
  generalize run c s = r at h
  obtain ⟨r, s'⟩ := r
  cases r with
  | ok a => intro h; exact absurd h (hf a _ e)
  | err e' => intro _; exact h e' rfl
  | ub => intro h; cases h
theorem NoErr.bind {c : RProg α} {f : α → RProg β} (hc : NoErr c) (hf : ∀ a, NoErr (f a)) : NoErr (c.bind f) := by
  intro s e
  have h := hc s
  rw [run_bind]
  generalize run c s = r at h
  obtain ⟨r, s'⟩ := r
  cases r with
  | ok a => exact hf a _ e
  | err e' => exact absurd rfl (h e')
  | ub => intro h; cases h
theorem Pure.bind {c : RProg α} {f : α → RProg β} (hc : Pure c) (hf : ∀ a, Pure (f a)) : Pure (c.bind f) := by
  intro s
  have h := hc s
  rw [run_bind]
  generalize run c s = r at h
  obtain ⟨r, s'⟩ := r
  cases r with
  | ok a => exact (hf a _).trans h
  | err e' => exact h
  | ub => exact h
theorem ErrClean.use {c : RProg α} (hc : ErrClean c) {s s' : Pool} {e : Err} (h : run c s = (.err e, s')) : s' = s := by
  have := hc s e (by rw [h])
  rw [h] at this; exact this
theorem NoErr.clean {c : RProg α} (h : NoErr c) : ErrClean c := fun s e he => absurd he (h s e)
theorem Pure.clean {c : RProg α} (h : Pure c) : ErrClean c := fun s _ _ => h s
theorem NoErr.rd (a n : Nat) : NoErr (R.rd a n) := by
  intro s e; simp only [R.rd, run]; split <;> simp [run]
theorem Pure.rd (a n : Nat) : Pure (R.rd a n) := by
  intro s; simp only [R.rd, run]; split <;> simp [run]
theorem NoErr.wr (a n v : Nat) : NoErr (R.wr a n v) := by
  intro s e; simp only [R.wr, run]; split <;> simp [run]
theorem NoErr.ret (a : α) : NoErr (Prog.ret a : RProg α) := by intro s e; simp [run]
theorem Pure.ret (a : α) : Pure (Prog.ret a : RProg α) := by intro s; simp [run]
end

theorem search_pure (need : Nat) : ∀ fuel cur co cs cl, Pure (search need fuel cur co cs cl) := by
  intro fuel
  induction fuel with
  | zero => intro cur co cs cl s; rfl
  | succ fuel ih =>
    intro cur co cs cl
    unfold search
    split
    · exact Pure.ret _
    · refine (Pure.rd _ _).bind fun next => (Pure.rd _ _).bind fun bs => ?_
      by_cases hz : next ≠ 0
      · rw [if_pos hz]
        refine (Pure.ret _).bind fun hi => ?_
        simp only; split <;> exact ih _ _ _ _
      · rw [if_neg hz]
        refine (Pure.rd _ _).bind fun hi => ?_
        simp only; split <;> exact ih _ _ _ _

theorem expand_clean (n : Nat) : ErrClean (expand n) := by
  intro s e
  unfold expand R.maxSize R.rd64 R.rd R.trunc R.wr64 R.wr
  simp only [Prog.bind_def, Prog.step_bind, Prog.ret_bind, run]
  split
  · intro _; rfl
  · simp only [run]
    split
    · simp only [forceN_eq]
      split
      · intro h; cases h
      · simp only [run]
        split
        · simp only [Bool.true_eq_false, if_false, run, forceN_eq]
          split <;> (intro h; cases h)
        · simp only [if_true, run]; intro _; trivial
    · intro h; cases h

theorem account_noErr (co size : Nat) : NoErr (account co size) :=
  (NoErr.rd _ _).bind fun _ => (NoErr.wr _ _ _).bind fun _ => (NoErr.rd _ _).bind fun _ => (NoErr.rd _ _).bind fun _ =>
    NoErr.wr _ _ _

theorem link_noErr (co cl size : Nat) : NoErr (link co cl size) := by
  unfold link
  refine (NoErr.wr _ _ _).bind fun _ => ?_
  split
  · exact (NoErr.rd _ _).bind fun _ => (NoErr.wr _ _ _).bind fun _ => (NoErr.wr _ _ _).bind fun _ => (NoErr.wr _ _ _).bind fun _ =>
      (NoErr.rd _ _).bind fun _ => (NoErr.wr _ _ _).bind fun _ => (account_noErr _ _).bind fun _ => NoErr.ret _
  · refine (NoErr.rd _ _).bind fun tl => ?_
    split
    · exact (NoErr.wr _ _ _).bind fun _ => (NoErr.rd _ _).bind fun _ => (NoErr.wr _ _ _).bind fun _ => (NoErr.rd _ _).bind fun _ =>
        (NoErr.wr _ _ _).bind fun _ => (NoErr.wr _ _ _).bind fun _ => (account_noErr _ _).bind fun _ => NoErr.ret _
    · exact (NoErr.rd _ _).bind fun _ => (NoErr.wr _ _ _).bind fun _ => (NoErr.wr _ _ _).bind fun _ => (NoErr.wr _ _ _).bind fun _ =>
        (NoErr.wr _ _ _).bind fun _ => (account_noErr _ _).bind fun _ => NoErr.ret _

theorem allocMore_clean (n : Nat) : ErrClean (allocMore n) := by
  unfold allocMore
  refine ErrClean.pure_bind (Pure.rd _ _) fun fuel => ErrClean.pure_bind (Pure.rd _ _) fun hd =>
    ErrClean.pure_bind (search_pure _ _ _ _ _ _) fun r => ?_
  obtain ⟨co, cs, cl⟩ := r
  show ErrClean (if cs < needed n then _ else _)
  split
  · exact ErrClean.pure_bind (Pure.rd _ _) fun _ => ErrClean.pure_bind (Pure.rd _ _) fun _ =>
      (expand_clean _).bind_noErr fun _ => (NoErr.rd _ _).bind fun _ => (NoErr.rd _ _).bind fun _ =>
        (NoErr.rd _ _).bind fun _ => link_noErr _ _ _
  · exact (link_noErr _ _ _).clean

theorem allocFirst_clean (n : Nat) : ErrClean (allocFirst n) := by
  unfold allocFirst
  have tail : NoErr (do
      R.wr64 320 0
      R.wr64 328 0
      R.wr64 336 n
      R.wr64 304 320
      R.wr64 312 320
      let ba ← R.rd64 288
      R.wr64 288 (ba + n)
      let bs ← R.rd64 336
      let bc ← R.rd64 296
      R.wr64 296 (bc + (eff bs + 24))
      pure 344 : RProg Nat) :=
    (NoErr.wr _ _ _).bind fun _ => (NoErr.wr _ _ _).bind fun _ => (NoErr.wr _ _ _).bind fun _ => (NoErr.wr _ _ _).bind fun _ =>
    (NoErr.wr _ _ _).bind fun _ => (NoErr.rd _ _).bind fun _ => (NoErr.wr _ _ _).bind fun _ => (NoErr.rd _ _).bind fun _ =>
    (NoErr.rd _ _).bind fun _ => (NoErr.wr _ _ _).bind fun _ => NoErr.ret _
  refine ErrClean.pure_bind (Pure.rd _ _) fun sz => ?_
  by_cases hc : sub64 sz 320 < needed n
  · rw [if_pos hc]
    exact (expand_clean _).bind_noErr fun _ => tail
  · rw [if_neg hc]
    exact tail.clean

/-- **C10.** Whatever the pool contains and whatever the size (including sizes that wrap), if allocate throws then
nothing has changed: not a byte, not the file size. -/
theorem C10_failed_allocate_changes_nothing (p : Pool) (n : Nat) {e : Err} {p' : Pool}
    (h : run (alloc n) p = (.err e, p')) : p' = p := by
  have hc : ErrClean (alloc n) := by
    unfold alloc
    refine ErrClean.pure_bind (Pure.rd _ _) fun hd => ?_
    split
    · refine ErrClean.pure_bind (Pure.rd _ _) fun tl => ?_
      split
      · exact allocFirst_clean n
      · exact allocMore_clean n
    · exact allocMore_clean n
  exact hc.use h

/-- a failing allocation exists -/
example : (run (alloc 10000) (run init (newPool 8192)).2).1 = .err .noMem := by decide +kernel


/-! ### completed runs and crash points of the allocator operations -/

theorem alloc_run {p : Pool} {L : Blocks} (hS : SInv p L) {n : Nat} (hn : n + p.size + 8192 < 2 ^ 64) :
    ∃ out p', run (alloc n) p = (Out.toRes out, p') ∧ AllocPost L n p out p' := by
  obtain ⟨o, h1, h2⟩ := rwp_run (alloc_spec (size := n) hS (by omega))
  exact ⟨o, _, run_eta h1, h2⟩
theorem alloc_crash {p : Pool} {L : Blocks} (hS : SInv p L) {n : Nat} (hn : n + p.size + 8192 < 2 ^ 64) (c : Nat) :
    AllocMid L n p (crashAt c (alloc n) p) := rwp_crash (alloc_spec (size := n) hS (by omega)) c
theorem free_run {p : Pool} {A B : Blocks} {b s : Nat} (hS : SInv p (A ++ (b, s) :: B)) :
    ∃ p', run (free (b + 24)) p = (.ok (), p') ∧
        ((p.size < b + 48 ∧ p' = p) ∨
         (b + 48 ≤ p.size ∧ SInv p' (A ++ B) ∧ Keep (A ++ (b, s) :: B) p p' ∧ p'.size = p.size ∧ p'.fsize = p.fsize)) := by
  obtain ⟨o, h1, h2, h3⟩ := rwp_run (free_spec hS)
  exact ⟨_, run_eta (h1.trans (by rw [h2]; rfl)), h3⟩
theorem free_crash {p : Pool} {A B : Blocks} {b s : Nat} (hS : SInv p (A ++ (b, s) :: B)) (c : Nat) :
    (CInv (crashAt c (free (b + 24)) p) (A ++ (b, s) :: B) ∨ CInv (crashAt c (free (b + 24)) p) (A ++ B)) ∧
      Keep (A ++ (b, s) :: B) p (crashAt c (free (b + 24)) p) := rwp_crash (free_spec hS) c
theorem repair_run {p : Pool} {L : Blocks} (hC : CInv p L) :
    ∃ p', run repair p = (.ok (), p') ∧ SInv p' L ∧ Keep L p p' ∧ p'.size = p.size ∧ p'.fsize = p.fsize := by
  obtain ⟨o, h1, h2, h3⟩ := rwp_run (repair_spec hC)
  exact ⟨_, run_eta (h1.trans (by rw [h2]; rfl)), h3⟩
theorem repair_crash {p : Pool} {L : Blocks} (hC : CInv p L) (c : Nat) : RMid L p (crashAt c repair p) :=
  rwp_crash (repair_spec hC) c
theorem run_rd {p : Pool} {a : Nat} (h : p.inb a 8) : run (R.rd64 a) p = (.ok (leRd p.mem a 8), p) := by
  simp only [R.rd64, R.rd, run, if_pos h, forceN_eq]

section
attribute [local irreducible] run crashAt alloc free repair

/-- user view of a block: offset of its first byte, size -/
def usr (b : Nat × Nat) : Nat × Nat := (b.1 + 24, b.2)

theorem insAt_perm (L : Blocks) (k : Nat) (b : Nat × Nat) : (insAt L k b).Perm (b :: L) := by
  unfold insAt
  refine List.perm_middle.trans ?_
  rw [List.take_append_drop]

theorem _root_.Verif.Simple.SInv.maxSize {p : Pool} {L : Blocks} (h : SInv p L) (m : Nat) : SInv { p with maxSize := m } L :=
  ⟨⟨⟨h.geo.le, h.geo.page, h.geo.min, h.geo.max, h.geo.lim⟩, h.head, h.fl, h.ch⟩, h.tail, h.bl, h.ba, h.bc⟩

theorem size_bsWr {p : Pool} {a : Nat} {bs : Bytes} (h8 : 8 ≤ a) :
    Pool.size { p with mem := bsWr p.mem a bs } = p.size :=
  leRd_congr _ _ _ _ (fun i _ h2 => bsWr_out _ _ _ _ (by omega))

/-- a client write inside a block keeps the allocator consistent -/
theorem _root_.Verif.Simple.SInv.write {p : Pool} {L : Blocks} (h : SInv p L) {b : Nat × Nat} (hb : b ∈ L) {i : Nat} {bs : Bytes}
    (hi : i + bs.length ≤ b.2) : SInv { p with mem := bsWr p.mem (b.1 + 24 + i) bs } L := by
  have hbm := h.ch.mem hb
  have hef := eff_facts hbm.2.2.1
  have hw : ∀ a, a % 8 = 0 → (a + 8 ≤ b.1 + 24 ∨ b.1 + 24 + eff b.2 ≤ a) → w (bsWr p.mem (b.1 + 24 + i) bs) a = w p.mem a := by
    intro a _ ha
    refine leRd_congr _ _ _ _ (fun j h1 h2 => bsWr_out _ _ _ _ (by omega))
  have hwb : ∀ c ∈ L, ∀ f, f = 0 ∨ f = 8 ∨ f = 16 → w (bsWr p.mem (b.1 + 24 + i) bs) (c.1 + f) = w p.mem (c.1 + f) := by
    intro c hc f hf
    have h0 := h.ch.mem hc
    refine hw _ (by omega) ?_
    rcases h.ch.sep hb hc with e | e | e
    · subst e; omega
    · omega
    · omega
  have hs := size_bsWr (p := p) (a := b.1 + 24 + i) (bs := bs) (by omega)
  have hwl : ∀ a, a % 8 = 0 → a < 320 → w (bsWr p.mem (b.1 + 24 + i) bs) a = w p.mem a :=
    fun a h1 h2 => hw a h1 (by omega)
  refine ⟨⟨⟨?_, ?_, ?_, ?_, h.geo.lim⟩, ?_, ?_, ?_⟩, ?_, ?_, ?_, ?_⟩
  · rw [hs]; exact h.geo.le
  · rw [hs]; exact h.geo.page
  · rw [hs]; exact h.geo.min
  · rw [hs]; exact h.geo.max
  · exact (hwl _ (by decide) (by decide)).trans h.head
  · exact h.fl.congr (fun c hc => ⟨hwb c hc 8 (by omega), hwb c hc 16 (by omega)⟩)
  · rw [hs]; exact h.ch
  · exact (hwl _ (by decide) (by decide)).trans h.tail
  · exact h.bl.congr (fun c hc => by simpa using hwb c hc 0 (by omega))
  · exact (hwl _ (by decide) (by decide)).trans h.ba
  · exact (hwl _ (by decide) (by decide)).trans h.bc

theorem _root_.Verif.Simple.SInv.base {p : Pool} {L : Blocks} (h : SInv p L) (v : Nat) : SInv (put p 280 v) L := by
  have hlow : ∀ c ∈ L, 280 ≠ c.1 + 8 ∧ 280 ≠ c.1 + 16 := by
    intro c hc; have := h.ch.mem hc; omega
  refine ⟨h.toCInv.put (by decide) (by decide) (by decide) hlow, ?_, ?_, ?_, ?_⟩
  · rw [put_w (by decide) (by decide)]; exact h.tail
  · refine h.bl.congr ?_
    intro c hc
    have := h.ch.mem hc
    rw [put_w (by decide) (by omega), if_neg (by omega)]
  · rw [put_w (by decide) (by decide)]; exact h.ba
  · rw [put_w (by decide) (by decide)]; exact h.bc

theorem _root_.Verif.Simple.Keep.usr {L : Blocks} {p p' : Pool} (h : Keep L p p') {x : Nat × Nat} (hx : x ∈ L.map usr) {i : Nat} (hi : i < x.2) :
    p'.mem (x.1 + i) = p.mem (x.1 + i) := by
  obtain ⟨b, hb, rfl⟩ := List.mem_map.1 hx
  exact h.blk b hb i hi

theorem split_mem {L : Blocks} {x : Nat × Nat} (hx : x ∈ L.map usr) :
    ∃ A b s B, L = A ++ (b, s) :: B ∧ x = (b + 24, s) := by
  obtain ⟨⟨b, s⟩, hb, rfl⟩ := List.mem_map.1 hx
  obtain ⟨A, B, rfl⟩ := List.append_of_mem hb
  exact ⟨A, b, s, B, rfl, rfl⟩

theorem usr_middle (A B : Blocks) (b n : Nat) :
    ((A ++ (b, n) :: B).map usr).Perm ((b + 24, n) :: (A ++ B).map usr) :=
  (List.perm_middle (a := (b, n)) (l₁ := A) (l₂ := B)).map usr

/-- every history keeps the allocator consistent, and its list is exactly the client's blocks plus those whose `free` was
ignored (plus, after crashes, possibly others) -/
theorem Hist.inv {p0 p : Pool} {live lk : List (Nat × Nat)} {ex : Bool} (h : Hist p0 p live lk ex) :
    ∃ L lk', SInv p L ∧ (L.map usr).Perm (live ++ lk') ∧ (ex = true → lk' = lk) := by
  induction h with
  | start hg h8 hr =>
    obtain ⟨o, h1, h2⟩ := rwp_run (init_new_spec hg h8)
    rw [hr] at h2
    exact ⟨[], [], h2.2.1, List.Perm.refl _, fun _ => rfl⟩
  | @alloc p live lk ex n o p' h hn hr ih =>
    obtain ⟨L, lk', hS, hp, he⟩ := ih
    obtain ⟨out, p'', h1, h2⟩ := alloc_run (n := n) hS hn
    rw [hr] at h1
    injection h1 with h1 h1'
    subst h1'
    rcases h2 with ⟨k, co, hk, ho, hS', -⟩ | ⟨ho, -⟩
    · rw [ho] at h1
      injection h1 with h1
      subst h1
      refine ⟨_, lk', hS', ?_, he⟩
      refine ((insAt_perm L k (co, n)).map usr).trans ?_
      exact hp.cons _
    · rw [ho] at h1; cases h1
  | @allocFail p live lk ex n e p' h hn hr ih =>
    obtain ⟨L, lk', hS, hp, he⟩ := ih
    obtain ⟨out, p'', h1, h2⟩ := alloc_run (n := n) hS hn
    rw [hr] at h1
    injection h1 with h1 h1'
    subst h1'
    rcases h2 with ⟨k, co, hk, ho, hS', -⟩ | ⟨ho, hpp, -⟩
    · rw [ho] at h1; cases h1
    · rw [hpp]; exact ⟨L, lk', hS, hp, he⟩
  | @free p live lk ex o n r p' h hm hr ih =>
    obtain ⟨L, lk', hS, hp, he⟩ := ih
    have hx : (o, n) ∈ L.map usr := hp.mem_iff.2 (List.mem_append_left _ hm)
    obtain ⟨A, b, s, B, rfl, hx2⟩ := split_mem hx
    injection hx2 with e1 e2
    subst e1 e2
    obtain ⟨p'', h1, h2⟩ := free_run hS
    rw [hr] at h1
    injection h1 with h1 h1'
    subst h1'
    have hpe : (live ++ lk').Perm ((b + 24, n) :: (live.erase (b + 24, n) ++ lk')) :=
      ((List.perm_cons_erase hm).append_right lk')
    rcases h2 with ⟨hl, hpp⟩ | ⟨hl, hS', -⟩
    · rw [hpp]
      refine ⟨_, (b + 24, n) :: lk', hS, ?_, ?_⟩
      · exact (hp.trans hpe).trans List.perm_middle.symm
      · intro hex; rw [if_neg (by omega), he hex]
    · refine ⟨_, lk', hS', ?_, ?_⟩
      · exact ((usr_middle A B b n).symm.trans (hp.trans hpe)).cons_inv
      · intro hex; rw [if_pos (by omega)]; exact he hex
  | @write p live lk ex o n i bs r p' h hm hi hr ih =>
    obtain ⟨L, lk', hS, hp, he⟩ := ih
    have hx : (o, n) ∈ L.map usr := hp.mem_iff.2 (List.mem_append_left _ hm)
    obtain ⟨⟨b, s⟩, hb, hx2⟩ := List.mem_map.1 hx
    injection hx2 with e1 e2
    simp only at e1 e2
    subst e1 e2
    have hbm := hS.ch.mem hb
    have hef := eff_facts hbm.2.2.1
    simp only at hbm hef
    have hin : p.inb (b + 24 + i) bs.length := ⟨by omega, by have := hS.geo.le; omega⟩
    simp only [R.wrB, run, if_pos hin] at hr
    injection hr with _ hr
    subst hr
    exact ⟨L, lk', hS.write hb hi, hp, he⟩
  | @setBase p live lk ex v r p' h hr ih =>
    obtain ⟨L, lk', hS, hp, he⟩ := ih
    have hmin := hS.geo.min
    have hin : p.inb 280 8 := hS.geo.inb (by omega)
    simp only [Simple.setBase, R.wr64, R.wr, run, if_pos hin, forceN_eq] at hr
    injection hr with _ hr
    subst hr
    exact ⟨L, lk', hS.base v, hp, he⟩
  | reopen m h ih =>
    obtain ⟨L, lk', hS, hp, he⟩ := ih
    exact ⟨L, lk', hS.maxSize m, hp, he⟩
  | @crashAlloc p live lk ex n r p' c h hn hr ih =>
    obtain ⟨L, lk', hS, hp, he⟩ := ih
    obtain ⟨L', hC, hk, hL'⟩ := alloc_crash (n := n) hS hn c
    obtain ⟨p'', h1, h2⟩ := repair_run hC
    rw [hr] at h1
    injection h1 with h1 h1'
    subst h1'
    rcases hL' with rfl | ⟨k, co, rfl⟩
    · exact ⟨_, lk', h2.1, hp, by simp⟩
    · refine ⟨_, (co + 24, n) :: lk', h2.1, ?_, by simp⟩
      refine ((insAt_perm L k (co, n)).map usr).trans ?_
      exact (hp.cons _).trans List.perm_middle.symm
  | @crashFree p live lk ex o n r p' c h hm hr ih =>
    obtain ⟨L, lk', hS, hp, he⟩ := ih
    have hx : (o, n) ∈ L.map usr := hp.mem_iff.2 (List.mem_append_left _ hm)
    obtain ⟨A, b, s, B, rfl, hx2⟩ := split_mem hx
    injection hx2 with e1 e2
    subst e1 e2
    have hpe : (live ++ lk').Perm ((b + 24, n) :: (live.erase (b + 24, n) ++ lk')) :=
      ((List.perm_cons_erase hm).append_right lk')
    obtain ⟨hC, hk⟩ := free_crash hS c
    rcases hC with hC | hC
    · obtain ⟨p'', h1, h2⟩ := repair_run hC
      rw [hr] at h1
      injection h1 with h1 h1'
      subst h1'
      exact ⟨_, (b + 24, n) :: lk', h2.1, (hp.trans hpe).trans List.perm_middle.symm, by simp⟩
    · obtain ⟨p'', h1, h2⟩ := repair_run hC
      rw [hr] at h1
      injection h1 with h1 h1'
      subst h1'
      exact ⟨_, lk', h2.1, ((usr_middle A B b n).symm.trans (hp.trans hpe)).cons_inv, by simp⟩

section
variable {p0 p : Pool} {live lk : List (Nat × Nat)} {ex : Bool}

theorem Chain.pairwise {lo hi : Nat} {L : Blocks} (h : Chain lo L hi) :
    (L.map usr).Pairwise fun x y => x.1 + x.2 + 24 ≤ y.1 ∨ y.1 + y.2 + 24 ≤ x.1 := by
  induction L generalizing lo with
  | nil => simp
  | cons b t ih =>
    rw [List.map_cons, List.pairwise_cons]
    refine ⟨?_, ih h.2.2.2⟩
    intro y hy
    obtain ⟨c, hc, rfl⟩ := List.mem_map.1 hy
    left
    have h1 := (h.2.2.2.mem hc).1
    have := eff_facts h.2.2.1
    simp only [usr]; omega

/-- **C04.** In every history (with any number of crashes inside allocate/free), every live block is 8-aligned, lies after the
allocator's header and inside the pool, and live blocks are pairwise disjoint (at least 24 bytes apart). -/
theorem C04_live_blocks_disjoint (h : Hist p0 p live lk ex) :
    (∀ x ∈ live, 344 ≤ x.1 ∧ x.1 % 8 = 0 ∧ x.1 + x.2 ≤ p.size ∧ p.size ≤ p.fsize) ∧
    live.Pairwise (fun x y => x.1 + x.2 + 24 ≤ y.1 ∨ y.1 + y.2 + 24 ≤ x.1) := by
  obtain ⟨L, lk', hS, hp, -⟩ := h.inv
  constructor
  · intro x hx
    have hx' : x ∈ L.map usr := hp.mem_iff.2 (List.mem_append_left _ hx)
    obtain ⟨b, hb, rfl⟩ := List.mem_map.1 hx'
    have h1 := hS.ch.mem hb
    have := eff_facts h1.2.2.1
    simp only [usr]
    exact ⟨by omega, by omega, by omega, hS.geo.le⟩
  · have h2 := Chain.pairwise hS.ch
    have h3 := (hp.pairwise_iff (fun {a b} h => h.symm)).1 h2
    exact (List.pairwise_append.1 h3).1

/-- **C04 (no undefined behaviour).** In every history allocate, free of a live block, and repair after a crash run to an end
(they never touch memory outside the pool and their loops terminate). -/
theorem C04_no_ub (h : Hist p0 p live lk ex) :
    (∀ n, n + p.size + 8192 < 2 ^ 64 → (run (alloc n) p).1 ≠ .ub) ∧
    (∀ x ∈ live, (run (free x.1) p).1 = .ok ()) ∧
    (∀ n c, n + p.size + 8192 < 2 ^ 64 → (run repair (crashAt c (alloc n) p)).1 = .ok ()) ∧
    (∀ x ∈ live, ∀ c, (run repair (crashAt c (free x.1) p)).1 = .ok ()) := by
  obtain ⟨L, lk', hS, hp, -⟩ := h.inv
  refine ⟨?_, ?_, ?_, ?_⟩
  · intro n hn hu
    obtain ⟨out, p'', h1, h2⟩ := alloc_run (n := n) hS hn
    rw [h1] at hu
    cases out <;> cases hu
  · intro x hx
    have hx' : x ∈ L.map usr := hp.mem_iff.2 (List.mem_append_left _ hx)
    obtain ⟨A, b, s, B, rfl, rfl⟩ := split_mem hx'
    obtain ⟨p'', h1, h2⟩ := free_run hS
    rw [h1]
  · intro n c hn
    obtain ⟨L', hC, -⟩ := alloc_crash (n := n) hS hn c
    obtain ⟨p'', h1, h2⟩ := repair_run hC
    rw [h1]
  · intro x hx c
    have hx' : x ∈ L.map usr := hp.mem_iff.2 (List.mem_append_left _ hx)
    obtain ⟨A, b, s, B, rfl, rfl⟩ := split_mem hx'
    obtain ⟨hC, -⟩ := free_crash hS c
    rcases hC with hC | hC <;>
    · obtain ⟨p'', h1, h2⟩ := repair_run hC
      rw [h1]

/-- **C05.** allocate (successful or not), free, and crashes in them followed by repair leave every byte of every live block
unchanged (free: also the bytes of the freed block). -/
theorem C05_contents_untouched (h : Hist p0 p live lk ex) {x : Nat × Nat} (hx : x ∈ live) {i : Nat} (hi : i < x.2) :
    (∀ n, n + p.size + 8192 < 2 ^ 64 → (run (alloc n) p).2.mem (x.1 + i) = p.mem (x.1 + i)) ∧
    (∀ y ∈ live, (run (free y.1) p).2.mem (x.1 + i) = p.mem (x.1 + i)) ∧
    (∀ n c, n + p.size + 8192 < 2 ^ 64 → (run repair (crashAt c (alloc n) p)).2.mem (x.1 + i) = p.mem (x.1 + i)) ∧
    (∀ y ∈ live, y ≠ x → ∀ c, (run repair (crashAt c (free y.1) p)).2.mem (x.1 + i) = p.mem (x.1 + i)) := by
  obtain ⟨L, lk', hS, hp, -⟩ := h.inv
  have hx' : x ∈ L.map usr := hp.mem_iff.2 (List.mem_append_left _ hx)
  refine ⟨?_, ?_, ?_, ?_⟩
  · intro n hn
    obtain ⟨out, p'', h1, h2⟩ := alloc_run (n := n) hS hn
    rw [h1]
    rcases h2 with ⟨k, co, hk, ho, hS', hk', -⟩ | ⟨ho, hpp, -⟩
    · exact Keep.usr hk' hx' hi
    · rw [hpp]
  · intro y hy
    have hy' : y ∈ L.map usr := hp.mem_iff.2 (List.mem_append_left _ hy)
    obtain ⟨A, b, s, B, rfl, rfl⟩ := split_mem hy'
    obtain ⟨p'', h1, h2⟩ := free_run hS
    rw [h1]
    rcases h2 with ⟨hl, hpp⟩ | ⟨hl, hS', hk', -⟩
    · rw [hpp]
    · exact Keep.usr hk' hx' hi
  · intro n c hn
    obtain ⟨L', hC, hk, hL'⟩ := alloc_crash (n := n) hS hn c
    obtain ⟨p'', h1, h2⟩ := repair_run hC
    rw [h1]
    have hk2 : Keep L (crashAt c (alloc n) p) p'' := by
      refine h2.2.1.mono ?_
      intro b hb
      rcases hL' with rfl | ⟨k, co, rfl⟩
      · exact hb
      · exact (insAt_perm L k (co, n)).mem_iff.2 (List.mem_cons_of_mem _ hb)
    exact Keep.usr (hk.trans hk2) hx' hi
  · intro y hy hyx c
    have hy' : y ∈ L.map usr := hp.mem_iff.2 (List.mem_append_left _ hy)
    obtain ⟨A, b, s, B, rfl, rfl⟩ := split_mem hy'
    obtain ⟨hC, hk⟩ := free_crash hS c
    have hxAB : x ∈ (A ++ B).map usr := by
      have := (usr_middle A B b s).mem_iff.1 hx'
      rcases List.mem_cons.1 this with e | e
      · exact absurd e.symm hyx
      · exact e
    have hkAB : Keep (A ++ B) p (crashAt c (free (b + 24)) p) := hk.mono (fun _ h => mem_ins h)
    rcases hC with hC | hC
    · obtain ⟨p'', h1, h2⟩ := repair_run hC
      rw [h1]
      exact Keep.usr (hkAB.trans (h2.2.1.mono (fun _ h => mem_ins h))) hxAB hi
    · obtain ⟨p'', h1, h2⟩ := repair_run hC
      rw [h1]
      exact Keep.usr (hkAB.trans h2.2.1) hxAB hi

theorem sum_usr (L : Blocks) : (L.map usr).map (·.2) = L.map (·.2) := by
  rw [List.map_map]; rfl

/-- **C06.** `block_size` of a live block is the size it was allocated with; in crash-free histories `bytes_allocated` is the sum of
the sizes of the blocks not (effectively) freed and `bytes_free` is the pool size minus the header and, per block, its
size rounded up to 8 plus 24.  `lk` holds the frees that C07 shows to be ignored; it is empty if no freed block was
within 24 bytes of the end of the pool. -/
theorem C06_counters_exact (h : Hist p0 p live lk ex) :
    (∀ x ∈ live, run (blockSize x.1) p = (.ok x.2, p)) ∧
    (ex = true → run bytesAllocated p = (.ok ((live ++ lk).map (·.2)).sum, p)) ∧
    (ex = true → run bytesFree p = (.ok (p.size - (320 + ((live ++ lk).map fun x => up8 x.2 + 24).sum)), p)) := by
  obtain ⟨L, lk', hS, hp, he⟩ := h.inv
  have hmin := hS.geo.min
  have hmax := hS.geo.max
  have hin : ∀ a, a + 8 ≤ 4096 → p.inb a 8 := fun a ha => hS.geo.inb (by omega)
  refine ⟨?_, ?_, ?_⟩
  · intro x hx
    have hx' : x ∈ L.map usr := hp.mem_iff.2 (List.mem_append_left _ hx)
    obtain ⟨b, hb, rfl⟩ := List.mem_map.1 hx'
    have h1 := hS.ch.mem hb
    have hin2 : p.inb (b.1 + 24 - 24 + 16) 8 := hS.geo.inb (by omega)
    have hsb : sub64 (b.1 + 24) 24 = b.1 + 24 - 24 := sub64_eq (by omega) (by omega)
    simp only [blockSize, R.rd64, R.rd, usr, hsb, run, if_pos hin2, forceN_eq]
    have := FLk.mem (b := b) hS.fl hb
    unfold w at this
    rw [show b.1 + 24 - 24 + 16 = b.1 + 16 by omega, this]
  · intro hex
    simp only [bytesAllocated, R.rd64, R.rd, run, if_pos (hin 288 (by decide)), forceN_eq]
    rw [show leRd p.mem 288 8 = sumSz L from hS.ba, ← he hex]
    unfold sumSz
    rw [← sum_usr, (hp.map _).sum_nat]
  · intro hex
    simp only [bytesFree, R.rd64, R.rd, run, Prog.bind_def, Prog.step_bind, Prog.ret_bind, Prog.pure_def,
      if_pos (hin 296 (by decide)), if_pos (hin 0 (by decide)), forceN_eq]
    have hsum := hS.ch.sum_le
    rw [show leRd p.mem 296 8 = 320 + sumEff L from hS.bc, show leRd p.mem 0 8 = p.size from rfl,
      sub64_eq (by omega) (by omega), ← he hex]
    have : sumEff L = ((live ++ lk').map fun x => up8 x.2 + 24).sum := by
      unfold sumEff
      rw [← (hp.map _).sum_nat, List.map_map]
      congr 1
      refine List.map_congr_left ?_
      intro b hb
      have := eff_eq (hS.ch.mem hb).2.2.1
      simp only [Function.comp, usr, up8, this]
    rw [this]

/-! ### C07 -/

/-- **C07, true part.** Freeing a live block that does not start within 24 bytes of the end of the pool (in particular every block
of 17 bytes or more) lowers `bytes_allocated` by its size, and its space can be reused: allocating the same size again
does not grow the pool.  Missing: blocks of at most 16 bytes at the very end of the pool (`C07_false`). -/
theorem C07_free_releases_partial (h : Hist p0 p live lk true) {x : Nat × Nat} (hx : x ∈ live)
    (hend : x.1 + 24 ≤ p.size ∨ 17 ≤ x.2) :
    ∃ p', run (free x.1) p = (.ok (), p') ∧
      run bytesAllocated p' = (.ok (((live ++ lk).map (·.2)).sum - x.2), p') ∧
      p'.size = p.size ∧ (run (alloc x.2) p').2.size = p'.size ∧ ∃ o, (run (alloc x.2) p').1 = .ok o := by
  have hb0 := (C06_counters_exact h).2.1 rfl
  obtain ⟨L, lk', hS, hp, he⟩ := h.inv
  have hx' : x ∈ L.map usr := hp.mem_iff.2 (List.mem_append_left _ hx)
  obtain ⟨A, b, s, B, rfl, rfl⟩ := split_mem hx'
  obtain ⟨q, h1, h2⟩ := free_run hS
  have hm := hS.ch.mem (b := (b, s)) (by simp)
  have hef := eff_facts hm.2.2.1
  have hmin := hS.geo.min
  have hmax := hS.geo.max
  have hpage := hS.geo.page
  simp only at hm hef hend
  have hend' : b + 48 ≤ p.size := by omega
  rcases h2 with ⟨hl, hpp⟩ | ⟨hl, hS', hk', hs', hf'⟩
  · omega
  refine ⟨q, h1, ?_, hs', ?_⟩
  · have hin : q.inb 288 8 := hS'.geo.inb (by omega)
    have hin0 : p.inb 288 8 := hS.geo.inb (by omega)
    unfold bytesAllocated at hb0 ⊢
    rw [run_rd hin0] at hb0
    rw [run_rd hin, show leRd q.mem 288 8 = sumSz (A ++ B) from hS'.ba]
    rw [show leRd p.mem 288 8 = sumSz (A ++ (b, s) :: B) from hS.ba] at hb0
    have hb1 : sumSz (A ++ (b, s) :: B) = ((live ++ lk).map (·.2)).sum := by
      have := congrArg Prod.fst hb0
      simpa using this
    rw [← hb1]
    have e1 : sumSz (A ++ (b, s) :: B) - s = sumSz (A ++ B) := by
      rw [sumSz_append, sumSz_append, sumSz_cons]; omega
    simp only [e1]
  · obtain ⟨out', q', h3, h4⟩ := alloc_run (n := s) hS' (by omega)
    rw [h3]
    have hgap : needed s ≤ gapAt (A ++ B) q.size A.length := by
      unfold gapAt
      rw [List.drop_left, List.take_left, needed_eq (by omega)]
      have hc := Chain.append_iff.1 hS.ch
      have h5 := hc.2.1
      have h6 := hc.2.2.2.2
      simp only at h5 h6
      have h7 : b + 24 + eff s ≤ hdOr B q.size := by
        cases B with
        | nil => simp only [hdOr]; omega
        | cons c T => exact h6.1
      omega
    rcases h4 with ⟨k, co, hk, ho', hS'', hk'', hco, hcase⟩ | ⟨ho', hpp, hno, -⟩
    · rcases hcase with ⟨-, -, hsz⟩ | ⟨-, hno, -⟩
      · exact ⟨hsz, _, by rw [ho']; rfl⟩
      · have := hno A.length (by simp); omega
    · have := hno A.length (by simp); omega

/-- **C07 is false**: in a new pool allocate 3720 and then 8 bytes; the second block is at offset 4088, `free(4088)` returns without
doing anything: `bytes_allocated` still counts it, and freeing both leaves `bytes_allocated` at 8 instead of 0. -/
theorem C07_false : ∃ p p1 p2 p3 p4 : Pool,
    run init (newPool 0) = (.ok (), p) ∧ run (alloc 3720) p = (.ok 344, p1) ∧ run (alloc 8) p1 = (.ok 4088, p2) ∧
    run (free 4088) p2 = (.ok (), p3) ∧ run (free 344) p3 = (.ok (), p4) ∧
    (run bytesAllocated p2).1 = .ok 3728 ∧ (run bytesAllocated p3).1 = .ok 3728 ∧ (run bytesAllocated p4).1 = .ok 8 := by
  refine ⟨_, _, _, _, _, Prod.ext ?_ rfl, Prod.ext ?_ rfl, Prod.ext ?_ rfl, Prod.ext ?_ rfl, Prod.ext ?_ rfl, ?_, ?_, ?_⟩ <;>
    decide +kernel

/-! ### C08 -/

theorem Chain.find_gap {lo hi : Nat} {L : Blocks} (h : Chain lo L hi) {a e : Nat} (h1 : lo ≤ a) (hae : a < e) (h2 : e ≤ hi)
    (hd : ∀ b ∈ L, e ≤ b.1 ∨ b.1 + 24 + eff b.2 ≤ a) :
    ∃ k, k ≤ L.length ∧ endOr (L.take k) lo ≤ a ∧ e ≤ hdOr (L.drop k) hi := by
  induction L generalizing lo with
  | nil => exact ⟨0, Nat.le_refl _, h1, h2⟩
  | cons b t ih =>
    rcases hd b (by simp) with hb | hb
    · exact ⟨0, by simp, h1, hb⟩
    · obtain ⟨k, hk, h3, h4⟩ := ih h.2.2.2 hb (fun c hc => hd c (by simp [hc]))
      exact ⟨k + 1, by simpa using hk, h3, h4⟩

/-- **C08 (no unnecessary growth).** If somewhere in the pool there is room for the block and its 24-byte header that
overlaps no block (with its header), then allocate succeeds without changing the pool size. -/
theorem C08_no_growth_when_room (h : Hist p0 p live lk true) {n a : Nat} (hn : n + p.size + 8192 < 2 ^ 64)
    (ha : 320 ≤ a) (hb : a + (up8 n + 24) ≤ p.size)
    (hd : ∀ x ∈ live ++ lk, a + (up8 n + 24) ≤ x.1 - 24 ∨ x.1 + up8 x.2 ≤ a) :
    ∃ o, (run (alloc n) p).1 = .ok o ∧ (run (alloc n) p).2.size = p.size := by
  obtain ⟨L, lk', hS, hp, he⟩ := h.inv
  rw [he rfl] at hp
  have hne : needed n = up8 n + 24 := by rw [needed_eq (by omega), eff_eq (by omega)]
  obtain ⟨k, hk, h3, h4⟩ := Chain.find_gap hS.ch (a := a) (e := a + (up8 n + 24)) ha (by omega) hb (by
    intro b hbL
    have hm := hp.mem_iff.1 (List.mem_map_of_mem (f := usr) hbL)
    have := hd _ hm
    have h5 := eff_eq (hS.ch.mem hbL).2.2.1
    simp only [usr, up8] at this
    unfold up8
    rcases this with h | h
    · left; omega
    · right; omega)
  obtain ⟨out, p'', h1, h2⟩ := alloc_run (n := n) hS hn
  rw [h1]
  have hfit : needed n ≤ gapAt L p.size k := by unfold gapAt; omega
  rcases h2 with ⟨k', co, hk', ho', hS'', hk'', hco, hcase⟩ | ⟨ho', hpp, hno, -⟩
  · rcases hcase with ⟨-, -, hsz⟩ | ⟨-, hno, -⟩
    · exact ⟨_, by rw [ho']; rfl, hsz⟩
    · have := hno k hk; omega
  · have := hno k hk; omega

/-- **C08 (best fit, growth amount).** From a consistent state with blocks `L` (in address order): a successful allocate
puts the block right after the first `k` blocks; either the gap there is a smallest one that fits and the pool size is
unchanged, or no gap fits, the block goes after the last one and the pool becomes the smallest page multiple that holds it
(if it was not larger already). -/
theorem C08_best_fit {L : Blocks} (hS : SInv p L) {n : Nat} (hn : n + p.size + 8192 < 2 ^ 64) {o : Nat} {p' : Pool}
    (hr : run (alloc n) p = (.ok o, p')) :
    ∃ k, k ≤ L.length ∧ o = endOr (L.take k) 320 + 24 ∧ SInv p' (insAt L k (o - 24, n)) ∧
      ((p'.size = p.size ∧ up8 n + 24 ≤ gapAt L p.size k ∧
          ∀ i, i ≤ L.length → up8 n + 24 ≤ gapAt L p.size i → gapAt L p.size k ≤ gapAt L p.size i) ∨
       (k = L.length ∧ (∀ i, i ≤ L.length → gapAt L p.size i < up8 n + 24) ∧
          p.size < o + up8 n ∧ p'.size = (o + up8 n + 4095) / 4096 * 4096)) := by
  obtain ⟨out, p'', h1, h2⟩ := alloc_run (n := n) hS hn
  rw [hr] at h1
  injection h1 with h1 h1'
  subst h1'
  have hne : needed n = up8 n + 24 := by rw [needed_eq (by omega), eff_eq (by omega)]
  rcases h2 with ⟨k, co, hk, ho, hS', -, hco, hcase⟩ | ⟨ho, -⟩
  · rw [ho] at h1
    injection h1 with h1
    subst h1
    refine ⟨k, hk, by rw [hco], by simpa using hS', ?_⟩
    rw [hne] at hcase
    rcases hcase with ⟨hb, hf, hsz⟩ | ⟨hk2, hno, hsz⟩
    · exact Or.inl ⟨hsz, hf, hb.1 hf⟩
    · right
      have hmax := hS.geo.max
      have hend := hS.ch.end_le
      have hg := hno L.length (Nat.le_refl _)
      subst hk2
      simp only [gapAt, List.drop_length, hdOr] at hg
      rw [← hco] at hg
      have hle : co ≤ p.size := by rw [hco, List.take_length]; exact hend
      refine ⟨rfl, hno, by omega, ?_⟩
      rw [hsz]
      unfold roundPage
      have : up8 n ≤ n + 7 := by unfold up8; omega
      have hpg := hS.geo.page
      rw [Nat.mod_eq_of_lt (by omega)]
      omega
  · rw [ho] at h1; cases h1

/-! ### C09 -/

/-- **C09 (allocate).** Wherever a process dies inside allocate, repair succeeds and yields a consistent allocator holding
exactly the old blocks, or the old blocks and the new one; contents are kept; and if the repairing process dies too, the
state is again repairable to the same result. -/
theorem C09_crash_in_allocate {L : Blocks} (hS : SInv p L) {n : Nat} (hn : n + p.size + 8192 < 2 ^ 64) (c : Nat) :
    ∃ r L', run repair (crashAt c (alloc n) p) = (.ok (), r) ∧ SInv r L' ∧ Keep L p r ∧
      (L' = L ∨ ∃ k co, L' = insAt L k (co, n)) ∧
      ∀ c', ∃ r', run repair (crashAt c' repair (crashAt c (alloc n) p)) = (.ok (), r') ∧ SInv r' L' ∧ Keep L p r' := by
  obtain ⟨L', hC, hk, hL'⟩ := alloc_crash (n := n) hS hn c
  have hsub : ∀ b ∈ L, b ∈ L' := by
    intro b hb
    rcases hL' with rfl | ⟨k, co, rfl⟩
    · exact hb
    · exact (insAt_perm L k (co, n)).mem_iff.2 (List.mem_cons_of_mem _ hb)
  obtain ⟨r, h1, h2⟩ := repair_run hC
  refine ⟨r, L', h1, h2.1, hk.trans (h2.2.1.mono hsub), hL', ?_⟩
  intro c'
  obtain ⟨hC2, hk2, -⟩ := repair_crash hC c'
  obtain ⟨r', h1, h2⟩ := repair_run hC2
  exact ⟨r', h1, h2.1, hk.trans ((hk2.trans h2.2.1).mono hsub)⟩

/-- **C09 (free).** Likewise for free: the freed block is present or absent, all others are intact. -/
theorem C09_crash_in_free {A B : Blocks} {b s : Nat} (hS : SInv p (A ++ (b, s) :: B)) (c : Nat) :
    ∃ r L', run repair (crashAt c (free (b + 24)) p) = (.ok (), r) ∧ SInv r L' ∧ Keep L' p r ∧
      (L' = A ++ (b, s) :: B ∨ L' = A ++ B) ∧
      ∀ c', ∃ r', run repair (crashAt c' repair (crashAt c (free (b + 24)) p)) = (.ok (), r') ∧ SInv r' L' ∧ Keep L' p r' := by
  obtain ⟨hC, hk⟩ := free_crash hS c
  generalize crashAt c (free (b + 24)) p = q at *
  have key : ∀ L', CInv q L' → Keep L' p q → (L' = A ++ (b, s) :: B ∨ L' = A ++ B) →
      ∃ r L', run repair q = (.ok (), r) ∧ SInv r L' ∧ Keep L' p r ∧ (L' = A ++ (b, s) :: B ∨ L' = A ++ B) ∧
      ∀ c', ∃ r', run repair (crashAt c' repair q) = (.ok (), r') ∧ SInv r' L' ∧ Keep L' p r' := by
    intro L' hC hk hL'
    obtain ⟨r, h1, h2⟩ := repair_run hC
    refine ⟨r, L', h1, h2.1, hk.trans h2.2.1, hL', ?_⟩
    intro c'
    obtain ⟨hC2, hk2, -⟩ := repair_crash hC c'
    obtain ⟨r', h1, h2⟩ := repair_run hC2
    exact ⟨r', h1, h2.1, hk.trans (hk2.trans h2.2.1)⟩
  rcases hC with hC | hC
  · exact key _ hC hk (Or.inl rfl)
  · exact key _ hC (hk.mono (fun _ h => mem_ins h)) (Or.inr rfl)

/-! ### C11 -/

/-- **C11, true part.** For every size that does not come within `pool size + 8192` of 2^64, allocate either throws or
returns a block with at least `n` usable bytes inside the pool.  Missing: the remaining sizes (`C11_false`). -/
theorem C11_usable_bytes_partial (h : Hist p0 p live lk ex) {n : Nat} (hn : n + p.size + 8192 < 2 ^ 64) :
    (∃ e, (run (alloc n) p).1 = .err e) ∨
    ∃ o p', run (alloc n) p = (.ok o, p') ∧ o + n ≤ p'.size ∧ p'.size ≤ p'.fsize ∧
      ∀ x ∈ live, x.1 + x.2 ≤ o ∨ o + n ≤ x.1 := by
  have hu := (C04_no_ub h).1 n hn
  generalize hr : run (alloc n) p = r at hu
  obtain ⟨r, p'⟩ := r
  cases r with
  | ok o =>
    right
    have := C04_live_blocks_disjoint (h.alloc hn hr)
    have h1 := this.1 (o, n) (by simp)
    have h2 := (List.pairwise_cons.1 this.2).1
    refine ⟨o, p', rfl, h1.2.2.1, h1.2.2.2, ?_⟩
    intro x hx
    have := h2 x hx
    simp only at this
    omega
  | err e => exact Or.inl ⟨e, rfl⟩
  | ub => exact absurd rfl hu

/-- **C11 is false**: in a new pool `allocate(2^64 - 1)` returns offset 344 and consumes only a 24-byte header; the next
allocation returns the block right behind that header. -/
theorem C11_false : ∃ p p1 p2 : Pool,
    run init (newPool 0) = (.ok (), p) ∧ run (alloc (2 ^ 64 - 1)) p = (.ok 344, p1) ∧ p1.size = 4096 ∧
    run (alloc 100) p1 = (.ok 368, p2) := by
  refine ⟨_, _, _, Prod.ext ?_ rfl, Prod.ext ?_ rfl, ?_, Prod.ext ?_ rfl⟩ <;> decide +kernel

/-! ### a concrete history, showing that `Hist` is inhabited non-trivially -/

/-- allocate 100 and 200 bytes, free the first, die inside the next allocate, repair -/
example : ∃ p live lk ex, Hist (newPool 0) p live lk ex ∧ live = [(472, 200)] ∧ ex = false := by
  have h0 : Hist (newPool 0) (run init (newPool 0)).2 [] [] true :=
    .start (newPool_geo 0) (by decide +kernel) (run_eta (by decide +kernel))
  have h1 := h0.alloc (n := 100) (o := 344) (by decide +kernel) (run_eta (by decide +kernel))
  have h2 := h1.alloc (n := 200) (o := 472) (by decide +kernel) (run_eta (by decide +kernel))
  have h3 := h2.free (o := 344) (n := 100) (by simp) (run_eta (r := .ok ()) (by decide +kernel))
  have h4 := h3.crashAlloc (n := 50) (r := .ok ()) 9 (by decide +kernel) (run_eta (by decide +kernel))
  exact ⟨_, _, _, _, h4, by decide +kernel, rfl⟩

/-- and one where C08's hypotheses hold with live blocks around a hole -/
example : ∃ p live, Hist (newPool 0) p live [] true ∧ live.length = 2 := by
  have h0 : Hist (newPool 0) (run init (newPool 0)).2 [] [] true :=
    .start (newPool_geo 0) (by decide +kernel) (run_eta (by decide +kernel))
  have h1 := h0.alloc (n := 100) (o := 344) (by decide +kernel) (run_eta (by decide +kernel))
  have h2 := h1.alloc (n := 200) (o := 472) (by decide +kernel) (run_eta (by decide +kernel))
  exact ⟨_, _, h2, rfl⟩

end
end
end Verif
