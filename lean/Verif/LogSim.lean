import Verif.LogFixed
import Verif.PropsLogCrash
import Verif.Sim
/-
Running the data structures on a LogarithmicAllocator (the README's default allocator).

`lcompile` is `compile` (Sim.lean) with the LogarithmicAllocator's methods.  `lsim_run` shows that whatever is proved over every lawful
allocator holds of the pool's bytes, provided every request the method makes is one that the LogarithmicAllocator serves lawfully (`Good`).
-/
namespace Verif.Logarithmic
open Verif
open Verif.Simple (w w_wr w_lt Geo put put_w put_size rwp_r rwp_w Grow)

variable {α β : Type} {p p' : Pool} {T : Tiles} {live : List (Nat × Nat)} {C full : Prop} {h : Heap}

/-- allocate, reporting failure as a value -/
def tryAlloc (n : Nat) : RProg (Option Nat) :=
  ((alloc n).bind fun o => .ret (some o)).tryCatch fun _ => .ret none

/-- the raw program of a structure method over a LogarithmicAllocator (Allocator.hh 14-90 interface) -/
def lcompile : HProg α → RProg α
  | .ret a => .ret a
  | .err e => .err e
  | .ub => .ub
  | .step (.rd b o n) k => .step (.rd (b + o) n) fun v => lcompile (k v)
  | .step (.wr b o n v) k => .step (.wr (b + o) n v) fun u => lcompile (k u)
  | .step (.rdB b o n) k => .step (.rdB (b + o) n) fun v => lcompile (k v)
  | .step (.wrB b o bs) k => .step (.wrB (b + o) bs) fun u => lcompile (k u)
  | .step (.alloc n) k => (tryAlloc n).bind fun r => lcompile (k r)
  | .step (.free b) k => (free b).bind fun u => lcompile (k u)
  | .step (.bsize b) k => (blockSize b).bind fun v => lcompile (k v)
  | .step .getBase k => getBase.bind fun v => lcompile (k v)
  | .step (.setBase o) k => (setBase o).bind fun u => lcompile (k u)

/-- Requests the LogarithmicAllocator serves lawfully: at least one byte, and either a block of at most a page, or (`full`) a pool that
cannot grow, and less than 2^30 bytes. -/
def Good (full : Prop) (n : Nat) : Prop := 1 ≤ n ∧ (n ≤ 4088 ∨ (full ∧ n + 8 ≤ 2 ^ 30))

/-- every request a method makes satisfies `S`, whatever values (of the right width) its loads return -/
def Sized (S : Nat → Prop) : HProg α → Prop
  | .ret _ => True
  | .err _ => True
  | .ub => True
  | .step (.rd _ _ n) k => ∀ v, v < 256 ^ n → Sized S (k v)
  | .step (.wr _ _ _ _) k => Sized S (k ())
  | .step (.rdB _ _ n) k => ∀ v : Bytes, v.length = n → Sized S (k v)
  | .step (.wrB _ _ _) k => Sized S (k ())
  | .step (.alloc n) k => S n ∧ ∀ r, Sized S (k r)
  | .step (.free _) k => Sized S (k ())
  | .step (.bsize _) k => ∀ v, Sized S (k v)
  | .step .getBase k => ∀ v, Sized S (k v)
  | .step (.setBase _) k => Sized S (k ())

/-- the same from the heap `h`: only the values the loads really return -/
def sized (S : Nat → Prop) : HProg α → Heap → Prop
  | .ret _, _ => True
  | .err _, _ => True
  | .ub, _ => True
  | .step (.rd b o n) k, h => ∀ B, h.blk b = some B → sized S (k (B.rd o n)) h
  | .step (.wr b o n v) k, h => ∀ B, h.blk b = some B → sized S (k ()) (h.set b (B.wr o n v))
  | .step (.rdB b o n) k, h => ∀ B, h.blk b = some B → sized S (k (B.rdB o n)) h
  | .step (.wrB b o bs) k, h => ∀ B, h.blk b = some B → sized S (k ()) (h.set b (B.wrB o bs))
  | .step (.alloc n) k, h => S n ∧ (∀ o d, Fresh h o n → sized S (k (some o)) (h.set o ⟨n, d⟩)) ∧ sized S (k none) h
  | .step (.free b) k, h => sized S (k ()) (h.del b)
  | .step (.bsize b) k, h => ∀ B, h.blk b = some B → sized S (k B.size) h
  | .step .getBase k, h => sized S (k h.base) h
  | .step (.setBase o) k, h => sized S (k ()) { h with base := o }

theorem Sized.sized {S : Nat → Prop} {prog : HProg α} : Sized S prog → ∀ h, sized S prog h := by
  induction prog with
  | ret | err | ub => exact fun _ _ => trivial
  | step op k ih =>
    intro hs h
    cases op with
    | rd b o n => exact fun B _ => ih _ (hs _ (Block.rd_lt _ _ _)) _
    | wr b o n v => exact fun B _ => ih _ hs _
    | rdB b o n => exact fun B _ => ih _ (hs _ (Block.rdB_length _ _ _)) _
    | wrB b o bs => exact fun B _ => ih _ hs _
    | alloc n => exact ⟨hs.1, fun o d _ => ih _ (hs.2 _) _, ih _ (hs.2 _) _⟩
    | free b => exact ih _ hs _
    | bsize b => exact fun B _ => ih _ (hs _) _
    | getBase => exact ih _ (hs _) _
    | setBase o => exact ih _ hs _

theorem Sized.bind {S : Nat → Prop} {prog : HProg α} {K : α → HProg β} : Sized S prog → (∀ a, Sized S (K a)) → Sized S (prog.bind K) := by
  intro hs hK
  induction prog with
  | ret a => exact hK a
  | err | ub => trivial
  | step op k ih =>
    cases op with
    | rd b o n => exact fun v hv => ih _ (hs v hv)
    | wr b o n v => exact ih _ hs
    | rdB b o n => exact fun v hv => ih _ (hs v hv)
    | wrB b o bs => exact ih _ hs
    | alloc n => exact ⟨hs.1, fun r => ih _ (hs.2 r)⟩
    | free b => exact ih _ hs
    | bsize b => exact fun v => ih _ (hs v)
    | getBase => exact fun v => ih _ (hs v)
    | setBase o => exact ih _ hs

theorem Sized.tryCatch {S : Nat → Prop} {prog : HProg α} {K : Err → HProg α} : Sized S prog → (∀ a, Sized S (K a)) → Sized S (prog.tryCatch K) := by
  intro hs hK
  induction prog with
  | err e => exact hK e
  | ret | ub => trivial
  | step op k ih =>
    cases op with
    | rd b o n => exact fun v hv => ih _ (hs v hv)
    | wr b o n v => exact ih _ hs
    | rdB b o n => exact fun v hv => ih _ (hs v hv)
    | wrB b o bs => exact ih _ hs
    | alloc n => exact ⟨hs.1, fun r => ih _ (hs.2 r)⟩
    | free b => exact ih _ hs
    | bsize b => exact fun v => ih _ (hs v)
    | getBase => exact fun v => ih _ (hs v)
    | setBase o => exact ih _ hs

theorem Sized.mono {S S' : Nat → Prop} (hS : ∀ n, S n → S' n) {prog : HProg α} : Sized S prog → Sized S' prog := by
  intro hs
  induction prog with
  | ret | err | ub => trivial
  | step op k ih =>
    cases op with
    | rd b o n => exact fun v hv => ih _ (hs v hv)
    | wr b o n v => exact ih _ hs
    | rdB b o n => exact fun v hv => ih _ (hs v hv)
    | wrB b o bs => exact ih _ hs
    | alloc n => exact ⟨hS _ hs.1, fun r => ih _ (hs.2 r)⟩
    | free b => exact ih _ hs
    | bsize b => exact fun v => ih _ (hs v)
    | getBase => exact fun v => ih _ (hs v)
    | setBase o => exact ih _ hs

/-! ### the relation between the pool's bytes and the heap -/

structure LHolds (h : Heap) (p : Pool) (live : List (Nat × Nat)) : Prop where
  base : w p.mem 280 = h.base
  blk : ∀ x B, h.blk x = some B → (x, B.size) ∈ live ∧ ∀ i, i < B.size → p.mem (x + i) = B.data i

/-- the allocator is consistent and the pool's bytes show `h` (it may hold further blocks) -/
def LSim (C full : Prop) (h : Heap) (p : Pool) : Prop :=
  (full → Full p) ∧ ∃ T live, LiveInv C p T live ∧ LHolds h p live

theorem LiveInv.agree (hI : LiveInv C p T live) {o n : Nat} (hm : (o, n) ∈ live) {m : Nat → UInt8}
    (hout : ∀ i, i < o ∨ o + n ≤ i → m i = p.mem i) : LiveInv C { p with mem := m } T live := by
  have e : m = bsWr p.mem (o + 0) (bsRd m o n) := by
    funext i
    by_cases hi : i < o ∨ o + n ≤ i
    · rw [hout i hi, bsWr_out _ _ _ _ (by rw [bsRd_length]; omega)]
    · obtain ⟨j, rfl⟩ : ∃ j, i = o + j := ⟨i - o, by omega⟩
      rw [Nat.add_zero, bsWr_in _ _ _ _ (by rw [bsRd_length]; omega), bsRd_getElem]
  rw [e]
  exact hI.write hm (by rw [bsRd_length]; omega)

theorem LHolds.store (hI : LiveInv C p T live) (hh : LHolds h p live) (hf : full → Full p) {x : Nat} {B B' : Block} (hx : h.blk x = some B) (hsz : B'.size = B.size)
    {m : Nat → UInt8} (hout : ∀ i, i < x ∨ x + B.size ≤ i → m i = p.mem i) (hin : ∀ i, i < B.size → m (x + i) = B'.data i) :
    LSim C full (h.set x B') { p with mem := m } := by
  obtain ⟨hm, -⟩ := hh.blk x B hx
  have hb := hI.block hm
  simp only at hb
  have hsize : Pool.size { p with mem := m } = p.size := leRd_congr _ _ _ _ (fun i _ h2 => hout i (by omega))
  refine ⟨fun hc => ?_, T, live, hI.agree hm hout, ?_, ?_⟩
  · have := hf hc
    unfold Full at this ⊢
    rw [hsize]
    exact this
  · rw [Heap.set_base, ← hh.base]
    exact leRd_congr _ _ _ _ (fun i _ h2 => hout i (by omega))
  · intro y D hy
    rw [Heap.set_blk] at hy
    split at hy
    · rename_i e
      cases hy
      subst e
      exact ⟨by rw [hsz]; exact hm, fun i hi => hin i (by omega)⟩
    · rename_i e
      obtain ⟨h2, h3⟩ := hh.blk y D hy
      refine ⟨h2, fun i hi => (hout _ ?_).trans (h3 i hi)⟩
      have hb2 := hI.block h2
      have := hI.disj2 hm h2 (fun hc => e (congrArg Prod.fst hc).symm)
      simp only at hb2 this
      omega

theorem LHolds.keep {T' : Tiles} (hI : LiveInv C p T live) (hh : LHolds h p live) {c : Nat} (hc : 288 ≤ c) (hk : LKeep c T' p p') {live' : List (Nat × Nat)}
    (hT : ∀ x j n, (x + 8, n) ∈ live' → T x = some (j, .alloc n) → T' x = some (j, .alloc n)) :
    ∀ h' : Heap, h'.base = h.base → (∀ x B, h'.blk x = some B → h.blk x = some B ∧ (x, B.size) ∈ live') → LHolds h' p' live' := by
  intro h' hb hblk
  refine ⟨?_, ?_⟩
  · rw [hb, ← hh.base]; exact leRd_congr _ _ _ _ (fun i h1 h2 => hk.hdr i (by omega) (by omega))
  · intro x B hx
    obtain ⟨h1, h2⟩ := hblk x B hx
    obtain ⟨h3, h4⟩ := hh.blk x B h1
    refine ⟨h2, fun i hi => ?_⟩
    obtain ⟨y, j, rfl, ht, hj⟩ := hI.tile h3
    have hbk := hI.block h3
    simp only at hbk
    rw [hk.blk (hT y j _ h2 ht) (y + 8 + i) (by omega) (by omega)]
    exact h4 i hi

/-- a request that `alloc` serves lawfully in `p` -/
def Served (C : Prop) (p : Pool) (T : Tiles) (n : Nat) : Prop :=
  rwp (alloc n) (fun out p' => (∃ o T', out = .ok (o + 8) ∧ Got C p T n (orderForSize (n + 8)) p' T' o) ∨ (out = .err .noMem ∧ p' = p)) NoCrash p

theorem served_guard (hI : LiveInv C p T live) {n : Nat} (h1 : 1 ≤ n) (h3 : n + 8 ≤ 2 ^ 30) (hgd : Guard p T (orderForSize (n + 8))) : Served C p T n := by
  refine rwp_mono ?_ (fun _ h => h) (alloc_spec hI.rdy hI.cap h1 h3 (Or.inr hgd))
  rintro out p' (⟨o, T', a, b, -⟩ | ⟨a, b, -⟩)
  · exact Or.inl ⟨o, T', a, b⟩
  · exact Or.inr ⟨a, b⟩

theorem served_good (hI : LiveInv C p T live) (hf : full → Full p) {n : Nat} (hg : Good full n) : Served C p T n := by
  obtain ⟨h1, h2⟩ := hg
  have h3 : n + 8 ≤ 2 ^ 30 := by omega
  rcases h2 with h2 | ⟨h2, -⟩
  · refine served_guard hI h1 h3 ?_
    obtain ⟨F, hi⟩ := hI.rdy.inv
    have hpg := hi.geo.page
    obtain ⟨h4, h5, h6, h7⟩ := order_facts h1 h3
    have h8 : orderForSize (n + 8) ≤ 12 := (orderForSize_spec (n := n + 8) (by omega) (by omega)).2 12 (by omega)
    have : 2 ^ orderForSize (n + 8) ∣ 2 ^ 12 := Nat.pow_dvd_pow 2 h8
    exact Or.inl (Nat.mod_eq_zero_of_dvd (Nat.dvd_trans this (Nat.dvd_of_mod_eq_zero hpg)))
  · refine rwp_mono ?_ (fun _ h => h) (alloc_spec_full hI.rdy hI.cap (hf h2) h1 h3)
    rintro out p' (⟨o, T', a, b, -⟩ | ⟨a, b, -⟩)
    · exact Or.inl ⟨o, T', a, b⟩
    · exact Or.inr ⟨a, b⟩

theorem tryAlloc_served {n : Nat} (key : Served C p T n) :
    rwp (tryAlloc n) (fun out p' => (∃ o T', out = .ok (some (o + 8)) ∧ Got C p T n (orderForSize (n + 8)) p' T' o ∧ run (alloc n) p = (.ok (o + 8), p')) ∨
      (out = .ok none ∧ p' = p)) NoCrash p := by
  unfold tryAlloc
  apply rwp_tryCatch
  refine rwp_bind_of (rwp_of_run key) (fun _ h => h) ?_ ?_
  · rintro o p' ⟨(⟨o, T', a, b⟩ | ⟨a, b⟩), hr⟩
    · injection a with a
      subst a
      exact ⟨trivial, Or.inl ⟨_, T', rfl, b, hr⟩⟩
    · cases a
  · rintro e p' ⟨(⟨o, T', a, b⟩ | ⟨a, b⟩), hr⟩
    · cases a
    · exact ⟨trivial, Or.inr ⟨rfl, b⟩⟩

theorem tryAlloc_spec (hI : LiveInv C p T live) (hf : full → Full p) {n : Nat} (hg : Good full n) :
    rwp (tryAlloc n) (fun out p' => (∃ o T', out = .ok (some (o + 8)) ∧ Got C p T n (orderForSize (n + 8)) p' T' o) ∨ (out = .ok none ∧ p' = p)) NoCrash p := by
  refine rwp_mono ?_ (fun _ h => h) (tryAlloc_served (served_good hI hf hg))
  rintro out p' (⟨o, T', a, b, -⟩ | h)
  · exact Or.inl ⟨o, T', a, b⟩
  · exact Or.inr h

theorem LHolds.alloc (hI : LiveInv C p T live) (hh : LHolds h p live) (hf : full → Full p) {n o : Nat} {T' : Tiles} (h1n : 1 ≤ n) (h3 : n + 8 ≤ 2 ^ 30) (g : Got C p T n (orderForSize (n + 8)) p' T' o) :
    Fresh h (o + 8) n ∧ (full → Full p') ∧ LiveInv C p' T' ((o + 8, n) :: live) ∧ LHolds (h.set (o + 8) ⟨n, fun i => p'.mem (o + 8 + i)⟩) p' ((o + 8, n) :: live) := by
  have hI' := hI.got h1n h3 g
  have hm : (o + 8, n) ∈ (o + 8, n) :: live := by simp
  have hb := hI'.block hm
  obtain ⟨F', hi'⟩ := hI'.rdy.inv
  have hmax := hi'.cap
  simp only at hb
  have hnd := hI'.nodup
  have hne : ∀ y ∈ live, y.1 ≠ o + 8 := by
    intro y hy e
    have h4 := hI'.disj2 hm (List.mem_cons_of_mem _ hy) (fun hc => by subst hc; exact (List.nodup_cons.1 hnd).1 hy)
    have h5 := hI'.block (List.mem_cons_of_mem _ hy)
    simp only at h4 h5
    omega
  refine ⟨⟨?_, ?_, by omega, by omega, by omega, by omega⟩, fun hc => ?_, hI', ?_, ?_⟩
  · cases hbk : h.blk (o + 8) with
    | none => rfl
    | some B => exact absurd rfl (hne _ (hh.blk _ _ hbk).1)
  · intro x B hx
    obtain ⟨h1, -⟩ := hh.blk _ _ hx
    have h4 := hI'.disj2 hm (List.mem_cons_of_mem _ h1) (fun hc => hne _ h1 (congrArg Prod.fst hc).symm)
    have h5 := hI'.block (List.mem_cons_of_mem _ h1)
    simp only at h4 h5
    omega
  · have := hf hc
    have hle := g.le
    unfold Full at this ⊢
    rw [g.kp.mx, g.kp.lm]
    omega
  · rw [Heap.set_base, ← hh.base]; exact leRd_congr _ _ _ _ (fun i h1 h2 => g.kp.hdr i (by omega) (by omega))
  · intro x B hx
    rw [Heap.set_blk] at hx
    split at hx
    · rename_i e
      cases hx
      subst e
      exact ⟨hm, fun i _ => rfl⟩
    · have := (LHolds.keep hI hh (Nat.le_refl _) g.kp (live' := live) (fun _ _ _ _ h => h) h rfl (fun x B hx => ⟨hx, (hh.blk x B hx).1⟩)).blk x B hx
      exact ⟨List.mem_cons_of_mem _ this.1, this.2⟩

theorem LHolds.free (hI : LiveInv C p T live) (hh : LHolds h p live) (hf : full → Full p) {x j n : Nat} {T' : Tiles} (ht : T x = some (j, .alloc n)) (g : Freed C p T n j p' T' x) :
    LSim C full (h.del (x + 8)) p' := by
  have hI' := hI.freed ht g
  refine ⟨fun hc => ?_, T', _, hI', ?_⟩
  · have := hf hc
    unfold Full at this ⊢
    rw [g.kp.mx, g.kp.lm, g.sz]
    exact this
  · refine LHolds.keep hI hh (Nat.le_refl _) g.kp ?_ _ rfl ?_
    · intro y i m hy hty
      refine (g.al y i m).2 ⟨?_, hty⟩
      rintro rfl
      rw [ht] at hty
      have := (some_pair hty).2
      injection this with this
      subst this
      exact (List.Nodup.not_mem_erase hI.nodup) hy
    · intro y B hy
      rw [Heap.del_blk] at hy
      split at hy
      · cases hy
      · rename_i e
        exact ⟨hy, (List.mem_erase_of_ne (fun hc => e (congrArg Prod.fst hc))).2 (hh.blk y B hy).1⟩

attribute [local irreducible] Pool.size w tryAlloc free blockSize in
/-- **Simulation on the LogarithmicAllocator**, for complete runs. -/
theorem lsim {prog : HProg α} {Q : Out α → Heap → Prop} :
    ∀ {h : Heap} {p : Pool}, wp prog Q h → sized (Good full) prog h → LSim C full h p →
      rwp (lcompile prog) (fun out p' => ∃ h', Q out h' ∧ LSim C full h' p') NoCrash p := by
  induction prog with
  | ret a => exact fun hw _ hs => ⟨trivial, _, hw, hs⟩
  | err e => exact fun hw _ hs => ⟨trivial, _, hw, hs⟩
  | ub => exact fun hw _ _ => hw.elim
  | step op k ih =>
    intro h p hw ha hs
    obtain ⟨hf, T, live, hI, hh⟩ := hs
    obtain ⟨F, hi⟩ := hI.rdy.inv
    have hmin := hi.geo.min
    have hcap := hi.cap
    have bd : ∀ x B, h.blk x = some B → 1176 ≤ x ∧ x + B.size ≤ p.size := by
      intro x B hx
      have := hI.block (hh.blk x B hx).1
      simp only at this
      omega
    cases op with
    | rd b o n =>
      obtain ⟨B, hB, hn, hw⟩ := hw
      have := bd _ _ hB
      have hle := hi.geo.le
      refine ⟨trivial, ⟨by omega, by omega⟩, ?_⟩
      have e : leRd p.mem (b + o) n = B.rd o n :=
        leRd_shift _ _ _ _ _ (fun i hi => by
          rw [Nat.add_assoc _ o i]; exact (hh.blk _ _ hB).2 _ (by omega))
      rw [e]
      exact ih _ hw (ha B hB) ⟨hf, T, live, hI, hh⟩
    | rdB b o n =>
      obtain ⟨B, hB, hn, hw⟩ := hw
      have := bd _ _ hB
      have hle := hi.geo.le
      refine ⟨trivial, ⟨by omega, by omega⟩, ?_⟩
      have e : bsRd p.mem (b + o) n = B.rdB o n :=
        bsRd_shift _ _ _ _ _ (fun i hi => by
          rw [Nat.add_assoc _ o i]; exact (hh.blk _ _ hB).2 _ (by omega))
      rw [e]
      exact ih _ hw (ha B hB) ⟨hf, T, live, hI, hh⟩
    | wr b o n v =>
      obtain ⟨B, hB, hn, hw⟩ := hw
      have := bd _ _ hB
      have hle := hi.geo.le
      refine ⟨trivial, ⟨by omega, by omega⟩, ?_⟩
      refine ih _ hw (ha B hB) (hh.store (B' := B.wr o n v) hI hf hB rfl ?_ ?_)
      · intro i hi; exact leWr_out _ _ _ _ _ (by omega)
      · intro i hi
        show leWr _ _ _ _ _ = leWr _ _ _ _ _
        unfold leWr
        by_cases hr : o ≤ i ∧ i < o + n
        · rw [if_pos (by omega), if_pos hr]; congr 3; omega
        · rw [if_neg (by omega), if_neg hr]; exact (hh.blk _ _ hB).2 _ hi
    | wrB b o bs =>
      obtain ⟨B, hB, hn, hw⟩ := hw
      have := bd _ _ hB
      have hle := hi.geo.le
      refine ⟨trivial, ⟨by omega, by omega⟩, ?_⟩
      refine ih _ hw (ha B hB) (hh.store (B' := B.wrB o bs) hI hf hB rfl ?_ ?_)
      · intro i hi; exact bsWr_out _ _ _ _ (by omega)
      · intro i hi
        show bsWr _ _ _ _ = bsWr _ _ _ _
        unfold bsWr
        by_cases hr : o ≤ i ∧ i < o + bs.length
        · rw [if_pos (by omega), if_pos hr]; congr 1; omega
        · rw [if_neg (by omega), if_neg hr]; exact (hh.blk _ _ hB).2 _ hi
    | alloc n =>
      obtain ⟨hn, hw1, hw2⟩ := hw
      obtain ⟨hg, ha1, ha2⟩ := ha
      refine rwp_bind_of (tryAlloc_spec hI hf hg) (fun _ h => h) ?_ ?_
      · intro r p' hr
        rcases hr with ⟨o, T', ho, hp⟩ | ⟨ho, rfl⟩
        · injection ho with ho
          subst ho
          obtain ⟨hfr, hsim⟩ := hh.alloc hI hf hg.1 (by have := hg.2; omega) hp
          exact ih _ (hw1 _ _ hfr) (ha1 _ _ hfr) ⟨hsim.1, T', _, hsim.2⟩
        · injection ho with ho
          subst ho
          exact ih _ hw2 ha2 ⟨hf, T, live, hI, hh⟩
      · intro e p' hr
        rcases hr with ⟨o, T', ho, -⟩ | ⟨ho, -⟩ <;> cases ho
    | free b =>
      obtain ⟨B, hB, hw⟩ := hw
      obtain ⟨x, j, rfl, ht, -⟩ := hI.tile (hh.blk _ _ hB).1
      refine rwp_bind_of (free_spec hI.rdy ht) (fun _ _ => trivial) ?_ ?_
      · rintro u p' ⟨-, T', hfr⟩
        exact ih _ hw ha (hh.free hI hf ht hfr)
      · rintro e p' ⟨he, -⟩; cases he
    | bsize b =>
      obtain ⟨B, hB, hw⟩ := hw
      obtain ⟨x, j, rfl, ht, -⟩ := hI.tile (hh.blk _ _ hB).1
      have ht1 := hi.geom.tile ht
      have ht2 := hi.al ht
      have hr : rwp (blockSize (x + 8)) (fun out p' => out = .ok B.size ∧ p' = p) NoCrash p := by
        unfold blockSize
        have hsb : sub64 (x + 8) 8 = x := by show (x + 8 + (W64 - 8 % W64)) % W64 = x; omega
        rw [hsb]
        refine rwp_r trivial hi.geo (by omega) ⟨trivial, ?_, rfl⟩
        rw [ht2.1, size_mkAlloc (by omega)]
      refine rwp_bind_of hr (fun _ h => h) ?_ (by rintro e p' ⟨he, -⟩; cases he)
      rintro v p' ⟨hv, rfl⟩
      injection hv with hv
      subst hv
      exact ih _ hw (ha B hB) ⟨hf, T, live, hI, hh⟩
    | getBase =>
      refine ⟨trivial, hi.geo.inb (by omega), ?_⟩
      have e : leRd p.mem 280 8 = h.base := by have := hh.base; unfold w at this; exact this
      rw [e]
      exact ih _ hw ha ⟨hf, T, live, hI, hh⟩
    | setBase o =>
      refine ⟨trivial, hi.geo.inb (by omega), ?_⟩
      refine ih _ hw.2 ha ⟨?_, T, live, ⟨⟨⟨F, hi.put_hdr (a := 280) (by decide) (by decide) (by decide)⟩, hI.rdy.coal, hI.rdy.nh⟩, hI.mem, hI.lo, hI.nodup, ?_, ?_, hI.cap⟩, ?_, ?_⟩
      · intro hc
        have := hf hc
        have e : Pool.size (put p 280 o) = p.size := put_size (by decide)
        unfold Full at this ⊢
        show ((put p 280 o).maxSize ≠ 0 ∧ (put p 280 o).maxSize ≤ (put p 280 o).size) ∨ (put p 280 o).lim ≤ (put p 280 o).size
        rw [e]
        exact this
      · show w (put p 280 o).mem 288 = _
        rw [put_w (by decide) (by decide), if_neg (by decide)]; exact hI.ba
      · show w (put p 280 o).mem 296 = _
        rw [put_w (by decide) (by decide), if_neg (by decide)]; exact hI.bc
      · have := put_w (p := p) (a := 280) (b := 280) (v := o) (by decide) (by decide)
        rw [if_pos rfl, Nat.mod_eq_of_lt hw.1] at this
        exact this
      · intro x B hx
        obtain ⟨b2, b3⟩ := hh.blk x B hx
        have := (bd x B hx).1
        refine ⟨b2, fun i hi => ?_⟩
        exact (leWr_out _ _ _ _ _ (by omega)).trans (b3 i hi)

/-- a completed run of a compiled method -/
theorem lsim_run {prog : HProg α} {Q : Out α → Heap → Prop} {h : Heap} {p : Pool} (hw : wp prog Q h) (ha : sized (Good full) prog h) (hs : LSim C full h p) :
    ∃ out p' h', run (lcompile prog) p = (Out.toRes out, p') ∧ Q out h' ∧ LSim C full h' p' := by
  obtain ⟨out, h1, h', h2, h3⟩ := rwp_run (lsim hw ha hs)
  exact ⟨out, _, h', run_eta h1, h2, h3⟩

/-- the heap shown by a pool: all live blocks, as the client sees them -/
def lheapOf (p : Pool) (live : List (Nat × Nat)) : Heap where
  base := w p.mem 280
  blk := fun x => (live.find? fun b => b.1 = x).map fun b => ⟨b.2, fun i => p.mem (x + i)⟩

theorem lheapOf_holds (_ : LiveInv C p T live) : LHolds (lheapOf p live) p live := by
  refine ⟨rfl, ?_⟩
  intro x B hx
  simp only [lheapOf, Option.map_eq_some_iff] at hx
  obtain ⟨b, hb, rfl⟩ := hx
  have h1 := List.mem_of_find?_eq_some hb
  have h2 := List.find?_some hb
  simp only [decide_eq_true_eq] at h2
  subst h2
  exact ⟨h1, fun _ _ => rfl⟩

theorem lheapOf_sim (hI : LiveInv C p T live) (hf : full → Full p) : LSim C full (lheapOf p live) p := ⟨hf, T, live, hI, lheapOf_holds hI⟩

theorem lheapOf_mem (hI : LiveInv C p T live) {o n : Nat} (hm : (o, n) ∈ live) :
    ∃ B, (lheapOf p live).blk o = some B ∧ B.size = n ∧ ∀ i, B.data i = p.mem (o + i) := by
  have hf : live.find? (fun c => c.1 = o) = some (o, n) := by
    cases hfd : live.find? (fun c => c.1 = o) with
    | none =>
      have := List.find?_eq_none.1 hfd (o, n) hm
      simp at this
    | some c =>
      have h1 := List.mem_of_find?_eq_some hfd
      have h2 := List.find?_some hfd
      simp only [decide_eq_true_eq] at h2
      by_cases e : c = (o, n)
      · rw [e]
      · have h3 := hI.disj2 h1 hm e
        have h4 := hI.block h1
        have h5 := hI.block hm
        simp only at h3 h4 h5
        omega
  refine ⟨⟨n, fun i => p.mem (o + i)⟩, ?_, rfl, fun _ => rfl⟩
  simp only [lheapOf]
  rw [hf]; rfl

/-! ### what a method asks for, syntactically -/

variable {S : Nat → Prop}
theorem good_small {n : Nat} (h1 : 1 ≤ n) (h2 : n ≤ 4088) : Good full n := ⟨h1, Or.inl h2⟩
theorem Sized.rd {b o n : Nat} : Sized S (H.rd b o n) := fun _ _ => trivial
theorem Sized.wr {b o n v : Nat} : Sized S (H.wr b o n v) := trivial
theorem Sized.rdB {b o n : Nat} : Sized S (H.rdB b o n) := fun _ _ => trivial
theorem Sized.wrB {b o : Nat} {l : Bytes} : Sized S (H.wrB b o l) := trivial
theorem Sized.alloc {n : Nat} (h : S n) : Sized S (H.alloc n) := ⟨h, fun v => by cases v <;> trivial⟩
theorem Sized.free {b : Nat} : Sized S (H.free b) := trivial
theorem Sized.bsize {b : Nat} : Sized S (H.bsize b) := fun _ => trivial
theorem Sized.getBase : Sized S H.getBase := fun _ => trivial
theorem Sized.setBase {o : Nat} : Sized S (H.setBase o) := trivial
theorem Sized.ret {a : α} : Sized S (.ret a : HProg α) := trivial
theorem Sized.pure {a : α} : Sized S (pure a : HProg α) := trivial
theorem Sized.err {e : Err} : Sized S (.err e : HProg α) := trivial
theorem Sized.ub : Sized S (.ub : HProg α) := trivial
theorem Sized.dbind {p : HProg α} {f : α → HProg β} (hp : Sized S p) (hf : ∀ a, Sized S (f a)) : Sized S (p >>= f) := hp.bind hf
/-- a load, with the bound on its value -/
theorem Sized.rdK {b o n : Nat} {f : Nat → HProg β} (hf : ∀ v, v < 256 ^ n → Sized S (f v)) : Sized S ((H.rd b o n).bind f) := hf

syntax "szd" ("[" term,* "]")? : tactic
macro_rules
  | `(tactic| szd) => `(tactic| szd [])
  | `(tactic| szd [$ts,*]) => `(tactic| repeat' first
      | intro _
      $[| with_reducible apply $ts]*
      | with_reducible first | exact Sized.rd | exact Sized.wr | exact Sized.rdB | exact Sized.wrB | exact Sized.free | exact Sized.bsize | exact Sized.getBase
      | with_reducible first | exact Sized.ret | exact Sized.pure | exact Sized.err | exact Sized.ub
      | with_reducible refine Sized.alloc ?_
      | assumption
      | (refine good_small ?_ ?_ <;> omega)
      | with_reducible apply Sized.dbind
      | with_reducible apply Sized.bind
      | with_reducible apply Sized.tryCatch
      | split)

attribute [irreducible] Sized

end Verif.Logarithmic
