import Verif.CostHash
/-
HashTable: what a process that dies in a call leaves behind.  Every store of insert, erase and incr goes to the item count, the slot of the key, the blocks
this slot refers to, or a block the call allocated; so whatever the call was doing, all other slots are as they were.
-/
namespace Verif
open HT

section pal
variable {α β : Type}

/-- `pal I p Q h`: if `p` makes an access outside a block, nothing; otherwise `I` holds after every modification of the heap and `Q` in the end -/
def pal (I : Heap → Prop) : HProg α → (Out α → Heap → Prop) → Heap → Prop
  | .ret a, Q, h => Q (.ok a) h
  | .err e, Q, h => Q (.err e) h
  | .ub, _, _ => True
  | .step (.rd b o n) k, Q, h => ∀ blk, h.blk b = some blk → pal I (k (blk.rd o n)) Q h
  | .step (.wr b o n v) k, Q, h => ∀ blk, h.blk b = some blk → I (h.set b (blk.wr o n v)) ∧ pal I (k ()) Q (h.set b (blk.wr o n v))
  | .step (.rdB b o n) k, Q, h => ∀ blk, h.blk b = some blk → pal I (k (blk.rdB o n)) Q h
  | .step (.wrB b o bs) k, Q, h => ∀ blk, h.blk b = some blk → I (h.set b (blk.wrB o bs)) ∧ pal I (k ()) Q (h.set b (blk.wrB o bs))
  | .step (.alloc n) k, Q, h => (∀ o d, Fresh h o n → I (h.set o ⟨n, d⟩) ∧ pal I (k (some o)) Q (h.set o ⟨n, d⟩)) ∧ pal I (k none) Q h
  | .step (.free b) k, Q, h => ∀ blk, h.blk b = some blk → I (h.del b) ∧ pal I (k ()) Q (h.del b)
  | .step (.bsize b) k, Q, h => ∀ blk, h.blk b = some blk → pal I (k blk.size) Q h
  | .step .getBase k, Q, h => pal I (k h.base) Q h
  | .step (.setBase o) k, Q, h => I { h with base := o } ∧ pal I (k ()) Q { h with base := o }

theorem pal.always {I : Heap → Prop} {p : HProg α} {Q Q' : Out α → Heap → Prop} : ∀ {h}, I h → wp p Q h → pal I p Q' h → Verif.always p I h := by
  induction p with
  | ret a => exact fun h _ _ => h
  | err e => exact fun h _ _ => h
  | ub => exact fun _ h _ => h
  | step op k ih =>
    intro h hI hw hp
    cases op <;> simp only [wp, pal, Verif.always] at hw hp ⊢ <;> refine ⟨hI, ?_⟩
    case alloc n => exact ⟨hw.1, fun o d hf => ih _ (hp.1 o d hf).1 (hw.2.1 o d hf) (hp.1 o d hf).2, ih _ hI hw.2.2 hp.2⟩
    case getBase => exact ih _ hI hw hp
    case setBase => exact ⟨hw.1, ih _ hp.1 hw.2 hp.2⟩
    case free => obtain ⟨b, h1, h2⟩ := hw; exact ⟨b, h1, ih _ (hp b h1).1 h2 (hp b h1).2⟩
    case bsize => obtain ⟨b, h1, h2⟩ := hw; exact ⟨b, h1, ih _ hI h2 (hp b h1)⟩
    case rd | rdB => obtain ⟨b, h1, h2, h3⟩ := hw; exact ⟨b, h1, h2, ih _ hI h3 (hp b h1)⟩
    case wr | wrB => obtain ⟨b, h1, h2, h3⟩ := hw; exact ⟨b, h1, h2, ih _ (hp b h1).1 h3 (hp b h1).2⟩

theorem pal_bind_of {I : Heap → Prop} {p : HProg α} {f : α → HProg β} {Q : Out β → Heap → Prop} {R : Out α → Heap → Prop} :
    ∀ {h}, pal I p R h → (∀ a h', R (.ok a) h' → pal I (f a) Q h') → (∀ e h', R (.err e) h' → Q (.err e) h') → pal I (p.bind f) Q h := by
  induction p with
  | ret a => exact fun hp hk _ => hk _ _ hp
  | err e => exact fun hp _ he => he _ _ hp
  | ub => exact fun _ _ _ => trivial
  | step op k ih =>
    intro h hp hk he
    cases op <;> simp only [pal, Prog.step_bind] at hp ⊢
    case alloc n => exact ⟨fun o d hf => ⟨(hp.1 o d hf).1, ih _ (hp.1 o d hf).2 hk he⟩, ih _ hp.2 hk he⟩
    case getBase => exact ih _ hp hk he
    case setBase => exact ⟨hp.1, ih _ hp.2 hk he⟩
    case rd | rdB | bsize => exact fun b hb => ih _ (hp b hb) hk he
    case wr | wrB | free => exact fun b hb => ⟨(hp b hb).1, ih _ (hp b hb).2 hk he⟩

theorem pal_mono {I : Heap → Prop} {p : HProg α} {Q R : Out α → Heap → Prop} {h : Heap} (hp : pal I p R h) (hQ : ∀ o h', R o h' → Q o h') : pal I p Q h := by
  have hb : ∀ p : HProg α, p.bind (fun a => .ret a) = p := by
    intro p
    induction p with
    | ret | err | ub => rfl
    | step op k ih => simp only [Prog.step_bind, ih]
  rw [← hb p]
  exact pal_bind_of hp (fun a h' hr => hQ _ _ hr) (fun e h' hr => hQ _ _ hr)

/-- a program that only loads -/
theorem pal_ro {I : Heap → Prop} {p : HProg α} : ∀ {h}, HRo p → pal I p (fun _ h' => h' = h) h := by
  induction p with
  | ret a => exact fun _ => rfl
  | err e => exact fun _ => rfl
  | ub => exact fun _ => trivial
  | step op k ih =>
    intro h hr
    cases op with
    | rd | rdB | bsize => exact fun b hb => ih _ (hr _)
    | getBase => exact ih _ (hr _)
    | _ => exact hr.elim

theorem pal_ro_wp {I : Heap → Prop} {p : HProg α} {R : Out α → Heap → Prop} : ∀ {h}, HRo p → wp p R h → pal I p R h := by
  induction p with
  | ret a => exact fun _ h => h
  | err e => exact fun _ h => h
  | ub => exact fun _ _ => trivial
  | step op k ih =>
    intro h hr hw
    cases op with
    | rd =>
      intro b hb
      obtain ⟨b', h1, h2, h3⟩ := hw
      rw [hb] at h1; cases h1
      exact ih _ (hr _) h3
    | rdB =>
      intro b hb
      obtain ⟨b', h1, h2, h3⟩ := hw
      rw [hb] at h1; cases h1
      exact ih _ (hr _) h3
    | bsize =>
      intro b hb
      obtain ⟨b', h1, h2⟩ := hw
      rw [hb] at h1; cases h1
      exact ih _ (hr _) h2
    | getBase => exact ih _ (hr _) hw
    | _ => exact hr.elim

variable {I : Heap → Prop} {Q : Out α → Heap → Prop} {h : Heap} {b o n : Nat} {B : Block}

theorem pal_rd {k : Nat → HProg α} (hb : h.blk b = some B) (hk : pal I (k (B.rd o n)) Q h) : pal I ((H.rd b o n).bind k) Q h := by
  intro C hC
  rw [hb] at hC; cases hC
  exact hk
theorem pal_wr {v : Nat} {k : Unit → HProg α} (hb : h.blk b = some B) (hi : I (h.set b (B.wr o n v))) (hk : pal I (k ()) Q (h.set b (B.wr o n v))) :
    pal I ((H.wr b o n v).bind k) Q h := by
  intro C hC
  rw [hb] at hC; cases hC
  exact ⟨hi, hk⟩
theorem pal_wrB {bs : Bytes} {k : Unit → HProg α} (hb : h.blk b = some B) (hi : I (h.set b (B.wrB o bs))) (hk : pal I (k ()) Q (h.set b (B.wrB o bs))) :
    pal I ((H.wrB b o bs).bind k) Q h := by
  intro C hC
  rw [hb] at hC; cases hC
  exact ⟨hi, hk⟩
theorem pal_free {k : Unit → HProg α} (hi : I (h.del b)) (hk : pal I (k ()) Q (h.del b)) : pal I ((H.free b).bind k) Q h := fun _ _ => ⟨hi, hk⟩
theorem pal_alloc {k : Nat → HProg α} (hk : ∀ o d, Fresh h o n → I (h.set o ⟨n, d⟩) ∧ pal I (k o) Q (h.set o ⟨n, d⟩)) (he : Q (.err .noMem) h) :
    pal I ((H.alloc n).bind k) Q h := ⟨hk, he⟩
end pal

namespace HashTable
attribute [local irreducible] Block.rd Block.rdB

theorem ro_checkOk {hash : Bytes → Nat} {base : Nat} (c : Option Check) : HRo (checkOk hash base c) := by
  cases c with
  | none => trivial
  | some c => exact executeCheck_ro c

/-- `h` differs from `h0` at most in the item count, slot `d`, the blocks `f` and blocks that are not in use in `h0` -/
structure Near (h0 : Heap) (base slots bits d : Nat) (f : List Nat) (h : Heap) : Prop where
  b0 : ∃ B, h.blk base = some B ∧ B.size = 24 ∧ B.rd 0 8 = bits ∧ B.rd 8 8 = slots
  bs : ∃ BS BS', h0.blk slots = some BS ∧ h.blk slots = some BS' ∧ BS'.size = BS.size ∧
    ∀ j, j ≠ d → BS'.rd (16 * j) 8 = BS.rd (16 * j) 8 ∧ BS'.rd (16 * j + 8) 8 = BS.rd (16 * j + 8) 8
  ne : base ≠ slots
  oth : ∀ x, x ≠ base → x ≠ slots → x ∉ f → h0.blk x ≠ none → h.blk x = h0.blk x
  fin : ∃ L : List Nat, ∀ x, x ≠ base → x ≠ slots → (x ∈ f ∨ h0.blk x = none) → x ∉ L → h.blk x = none

/-- the blocks that the call may write and free -/
structure Mine (h0 : Heap) (base slots : Nat) (f : List Nat) (x : Nat) : Prop where
  nb : x ≠ base
  ns : x ≠ slots
  mem : x ∈ f ∨ h0.blk x = none

section near
variable {h0 : Heap} {base slots bits d : Nat} {f : List Nat}

theorem Near.set {h : Heap} (n : Near h0 base slots bits d f h) {x : Nat} (hx : Mine h0 base slots f x) (B : Block) : Near h0 base slots bits d f (h.set x B) := by
  obtain ⟨B0, h1, h2⟩ := n.b0
  obtain ⟨BS, BS', h3, h4, h5⟩ := n.bs
  obtain ⟨L, hL⟩ := n.fin
  refine ⟨⟨B0, by rw [Heap.set_ne _ _ _ _ hx.nb.symm]; exact h1, h2⟩, ⟨BS, BS', h3, by rw [Heap.set_ne _ _ _ _ hx.ns.symm]; exact h4, h5⟩, n.ne, ?_, ⟨x :: L, ?_⟩⟩
  · intro y y1 y2 y3 y4
    rw [Heap.set_ne]
    · exact n.oth y y1 y2 y3 y4
    · rintro rfl
      rcases hx.mem with h | h
      · exact y3 h
      · exact y4 h
  · intro y y1 y2 y3 y4
    rw [List.mem_cons, not_or] at y4
    rw [Heap.set_ne _ _ _ _ y4.1]
    exact hL y y1 y2 y3 y4.2

theorem Near.del {h : Heap} (n : Near h0 base slots bits d f h) {x : Nat} (hx : Mine h0 base slots f x) : Near h0 base slots bits d f (h.del x) := by
  obtain ⟨B0, h1, h2⟩ := n.b0
  obtain ⟨BS, BS', h3, h4, h5⟩ := n.bs
  obtain ⟨L, hL⟩ := n.fin
  refine ⟨⟨B0, by rw [Heap.del_ne _ _ _ hx.nb.symm]; exact h1, h2⟩, ⟨BS, BS', h3, by rw [Heap.del_ne _ _ _ hx.ns.symm]; exact h4, h5⟩, n.ne, ?_, ⟨L, ?_⟩⟩
  · intro y y1 y2 y3 y4
    rw [Heap.del_ne]
    · exact n.oth y y1 y2 y3 y4
    · rintro rfl
      rcases hx.mem with h | h
      · exact y3 h
      · exact y4 h
  · intro y y1 y2 y3 y4
    by_cases e : y = x
    · subst e; exact Heap.del_same _ _
    · rw [Heap.del_ne _ _ _ e]
      exact hL y y1 y2 y3 y4

theorem Near.count {h : Heap} (n : Near h0 base slots bits d f h) {B : Block} (hB : h.blk base = some B) (v : Nat) : Near h0 base slots bits d f (h.set base (B.wr 16 8 v)) := by
  obtain ⟨B0, h1, h2, h2', h2''⟩ := n.b0
  rw [hB] at h1; cases h1
  obtain ⟨BS, BS', h3, h4, h5⟩ := n.bs
  obtain ⟨L, hL⟩ := n.fin
  refine ⟨⟨_, Heap.set_same _ _ _, by rw [Block.size_wr]; exact h2, ?_, ?_⟩, ⟨BS, BS', h3, by rw [Heap.set_ne _ _ _ _ n.ne.symm]; exact h4, h5⟩, n.ne, ?_, ⟨L, ?_⟩⟩
  · rw [Block.rd_wr_ne _ (by omega)]; exact h2'
  · rw [Block.rd_wr_ne _ (by omega)]; exact h2''
  · intro y y1 y2 y3 y4
    rw [Heap.set_ne _ _ _ _ y1]; exact n.oth y y1 y2 y3 y4
  · intro y y1 y2 y3 y4
    rw [Heap.set_ne _ _ _ _ y1]; exact hL y y1 y2 y3 y4

theorem Near.slot {h : Heap} (n : Near h0 base slots bits d f h) {B : Block} (hB : h.blk slots = some B) {o : Nat} (ho : o = 16 * d ∨ o = 16 * d + 8) (v : Nat) :
    Near h0 base slots bits d f (h.set slots (B.wr o 8 v)) := by
  obtain ⟨B0, h1, h2⟩ := n.b0
  obtain ⟨BS, BS', h3, h4, h5, h6⟩ := n.bs
  rw [hB] at h4; cases h4
  obtain ⟨L, hL⟩ := n.fin
  refine ⟨⟨B0, by rw [Heap.set_ne _ _ _ _ n.ne]; exact h1, h2⟩, ⟨BS, _, h3, Heap.set_same _ _ _, by rw [Block.size_wr]; exact h5, ?_⟩, n.ne, ?_, ⟨L, ?_⟩⟩
  · intro j hj
    rw [Block.rd_wr_ne _ (by omega), Block.rd_wr_ne _ (by omega)]
    exact h6 j hj
  · intro y y1 y2 y3 y4
    rw [Heap.set_ne _ _ _ _ y2]; exact n.oth y y1 y2 y3 y4
  · intro y y1 y2 y3 y4
    rw [Heap.set_ne _ _ _ _ y2]; exact hL y y1 y2 y3 y4

/-- what the allocator returns is ours -/
theorem Near.fresh {h : Heap} (n : Near h0 base slots bits d f h) {x : Nat} (hx : h.blk x = none) : Mine h0 base slots f x := by
  obtain ⟨B0, h1, h2⟩ := n.b0
  obtain ⟨BS, BS', h3, h4, h5⟩ := n.bs
  have nb : x ≠ base := by rintro rfl; rw [h1] at hx; cases hx
  have ns : x ≠ slots := by rintro rfl; rw [h4] at hx; cases hx
  refine ⟨nb, ns, ?_⟩
  by_cases hf : x ∈ f
  · exact Or.inl hf
  · right
    cases hb : h0.blk x with
    | none => rfl
    | some B =>
      rw [n.oth x nb ns hf (by rw [hb]; simp), hb] at hx
      cases hx

/-- a program all of whose stores are allowed, from every heap -/
def Pl {α : Type} (h0 : Heap) (base slots bits d : Nat) (f : List Nat) (p : HProg α) : Prop :=
  ∀ h, Near h0 base slots bits d f h → pal (Near h0 base slots bits d f) p (fun _ _ => True) h

variable {α : Type}

theorem Pl.ret {a : α} : Pl h0 base slots bits d f (.ret a : HProg α) := fun _ _ => trivial
theorem Pl.rd {b o n : Nat} {k : Nat → HProg α} (hk : ∀ v, Pl h0 base slots bits d f (k v)) : Pl h0 base slots bits d f ((H.rd b o n).bind k) :=
  fun h hn _ _ => hk _ h hn
theorem Pl.wr {b o n v : Nat} {k : Unit → HProg α} (hb : Mine h0 base slots f b) (hk : Pl h0 base slots bits d f (k ())) : Pl h0 base slots bits d f ((H.wr b o n v).bind k) :=
  fun _ hn _ _ => ⟨hn.set hb _, hk _ (hn.set hb _)⟩
theorem Pl.wrB {b o : Nat} {bs : Bytes} {k : Unit → HProg α} (hb : Mine h0 base slots f b) (hk : Pl h0 base slots bits d f (k ())) : Pl h0 base slots bits d f ((H.wrB b o bs).bind k) :=
  fun _ hn _ _ => ⟨hn.set hb _, hk _ (hn.set hb _)⟩
theorem Pl.free {b : Nat} {k : Unit → HProg α} (hb : Mine h0 base slots f b) (hk : Pl h0 base slots bits d f (k ())) : Pl h0 base slots bits d f ((H.free b).bind k) :=
  fun _ hn _ _ => ⟨hn.del hb, hk _ (hn.del hb)⟩
theorem Pl.alloc {n : Nat} {k : Nat → HProg α} (hk : ∀ o, Mine h0 base slots f o → Pl h0 base slots bits d f (k o)) : Pl h0 base slots bits d f ((H.alloc n).bind k) :=
  fun _ hn => pal_alloc (fun o _ hf => ⟨hn.set (hn.fresh hf.none) _, hk o (hn.fresh hf.none) _ (hn.set (hn.fresh hf.none) _)⟩) trivial
theorem Pl.slot {o v : Nat} {k : Unit → HProg α} (ho : o = 16 * d ∨ o = 16 * d + 8) (hk : Pl h0 base slots bits d f (k ())) : Pl h0 base slots bits d f ((H.wr64 slots o v).bind k) :=
  fun _ hn _ hB => ⟨hn.slot hB ho _, hk _ (hn.slot hB ho _)⟩
theorem Pl.count {v : Nat} {k : Unit → HProg α} (hk : Pl h0 base slots bits d f (k ())) : Pl h0 base slots bits d f ((H.wr64 base 16 v).bind k) :=
  fun _ hn _ hB => ⟨hn.count hB _, hk _ (hn.count hB _)⟩
theorem Pl.bump {k : Unit → HProg α} (hk : Pl h0 base slots bits d f (k ())) : Pl h0 base slots bits d f ((bumpCount base).bind k) := by
  unfold bumpCount
  rw [Prog.bind_def, Prog.bind_assoc]
  exact Pl.rd fun v => Pl.count hk
theorem Pl.drop {k : Unit → HProg α} (hk : Pl h0 base slots bits d f (k ())) : Pl h0 base slots bits d f ((dropCount base).bind k) := by
  unfold dropCount
  rw [Prog.bind_def, Prog.bind_assoc]
  exact Pl.rd fun v => Pl.count hk
end near

section walk
variable {h : Heap} {base slots bits cnt : Nat} {bk : Nat → Bk} {lk : List Nat} {G : Nat → Option Block} {hash : Bytes → Nat} {k v : Bytes} {dm : Nat → Prop} {R : Type}

theorem Near.refl (r : RepD dm h base slots bits cnt bk lk G) (d : Nat) : Near h base slots bits d (bk d).foot h := by
  obtain ⟨B0, h0, hs0, hb1, hb2, -⟩ := r.b0
  obtain ⟨BS, hS, -⟩ := r.bs
  exact ⟨⟨B0, h0, hs0, hb1, hb2⟩, ⟨BS, BS, hS, hS, rfl, fun _ _ => ⟨rfl, rfl⟩⟩, r.sl.2.2, fun _ _ _ _ _ => rfl,
    ⟨(bk d).foot, fun x _ _ h1 h2 => h1.resolve_left h2⟩⟩

theorem RepD.mine (r : RepD dm h base slots bits cnt bk lk G) {d x : Nat} (hx : x ∈ (bk d).foot) : Mine h base slots (bk d).foot x :=
  ⟨((r.ok d).off x hx).2.1, ((r.ok d).off x hx).2.2, Or.inl hx⟩

open scoped Classical in
/-- a heap that differs from that of a table as `Near` says holds the table with slot `d` damaged -/
theorem RepD.damage (r : RepD dm h base slots bits cnt bk lk G) {d : Nat} {h' : Heap} (n : Near h base slots bits d (bk d).foot h') :
    ∃ cnt' lk', cnt' < W64 ∧ RepD (fun i => dm i ∨ i = d) h' base slots bits cnt' (fun j => if j = d then ⟨true, []⟩ else bk j) lk' G := by
  obtain ⟨B0, h0, hs0, hb1, hb2⟩ := n.b0
  obtain ⟨BS, BS', hS, hS', hsz, hw⟩ := n.bs
  obtain ⟨L, hL⟩ := n.fin
  obtain ⟨BS0, k1, k2, k3⟩ := r.bs
  rw [hS] at k1; cases k1
  have hlt : B0.rd 16 8 < W64 := Block.rd8_lt _ _
  have hsame : ∀ j, j ≠ d → ∀ x ∈ (bk j).foot, h'.blk x = h.blk x := by
    intro j hj x hx
    exact n.oth x ((r.ok j).off x hx).2.1 ((r.ok j).off x hx).2.2 (fun hx' => r.disj j d hj x hx hx') (r.foot_live hx)
  refine ⟨B0.rd 16 8, lk ++ L.filter (fun x => decide (x ≠ base ∧ x ≠ slots ∧ (x ∈ (bk d).foot ∨ h.blk x = none))), hlt, r.blt, r.b31,
    ⟨B0, h0, hs0, hb1, hb2, (Nat.mod_eq_of_lt hlt).symm⟩, ⟨BS', hS', by rw [hsz, k2], ?_⟩, r.sl, ?_, ?_, ?_, ?_, ?_⟩
  · intro i hi hd
    rw [not_or] at hd
    rw [if_neg hd.2]
    exact (k3 i hi hd.1).congr (hw i hd.2).1 (hw i hd.2).2
  · intro i hi
    split
    · rfl
    · exact r.out i hi
  · intro i hi
    split
    · rfl
    · rename_i e; exact r.dead i (hi.resolve_right e)
  · intro i
    split
    · exact ⟨by simp, by simp, by simp [Bk.foot], by simp [Bk.foot]⟩
    · rename_i e; exact (r.ok i).congr (hsame i e)
  · intro i j hij x hx hy
    split at hx
    · simp [Bk.foot] at hx
    split at hy
    · simp [Bk.foot] at hy
    exact r.disj i j hij x hx hy
  · intro x
    rw [r.frame x]
    by_cases hb : x = base ∨ x = slots
    · rw [if_pos (hb.imp_right Or.inl), if_pos (hb.imp_right Or.inl)]
    rw [not_or] at hb
    by_cases hj : ∃ j, j ≠ d ∧ x ∈ (bk j).foot
    · obtain ⟨j, hj, hx⟩ := hj
      rw [if_pos (Or.inr (Or.inr (Or.inl ⟨j, hx⟩))), if_pos (Or.inr (Or.inr (Or.inl ⟨j, by rw [if_neg hj]; exact hx⟩)))]
    have hno : ¬ ∃ i, x ∈ (if i = d then (⟨true, []⟩ : Bk) else bk i).foot := by
      rintro ⟨i, hi⟩
      split at hi
      · simp [Bk.foot] at hi
      · rename_i e; exact hj ⟨i, e, hi⟩
    by_cases hl : x ∈ lk
    · rw [if_pos (Or.inr (Or.inr (Or.inr hl))), if_pos (Or.inr (Or.inr (Or.inr (List.mem_append.2 (Or.inl hl)))))]
    by_cases hm : x ∈ (bk d).foot ∨ h.blk x = none
    · have e1 : (if x = base ∨ x = slots ∨ (∃ i, x ∈ (bk i).foot) ∨ x ∈ lk then none else h.blk x) = none := by
        split
        · rfl
        · rename_i hc
          rcases hm with hm | hm
          · exact absurd (Or.inr (Or.inr (Or.inl ⟨d, hm⟩))) hc
          · exact hm
      rw [e1]
      split
      · rfl
      · rename_i hc
        refine (hL x hb.1 hb.2 hm (fun hx => hc (Or.inr (Or.inr (Or.inr (List.mem_append.2 (Or.inr (List.mem_filter.2 ⟨hx, ?_⟩)))))))).symm
        simpa using ⟨hb.1, hb.2, hm⟩
    · rw [not_or] at hm
      rw [if_neg, if_neg]
      · exact (n.oth x hb.1 hb.2 hm.1 hm.2).symm
      · rintro (h1 | h1 | h1 | h1)
        · exact hb.1 h1
        · exact hb.2 h1
        · exact hno h1
        · rcases List.mem_append.1 h1 with h1 | h1
          · exact hl h1
          · have := (List.mem_filter.1 h1).2
            simp only [decide_eq_true_eq] at this
            rcases this.2.2 with h2 | h2
            · exact hm.1 h2
            · exact hm.2 h2
      · rintro (h1 | h1 | ⟨i, h1⟩ | h1)
        · exact hb.1 h1
        · exact hb.2 h1
        · by_cases e : i = d
          · subst e; exact hm.1 h1
          · exact hj ⟨i, e, h1⟩
        · exact hl h1

/-- the pairs outside slot `d` -/
def without (hash : Bytes → Nat) (bits d : Nat) (m : Pairs) : Pairs := m.filter fun e => decide (hash e.1 % 2 ^ bits ≠ d)

theorem RepD.tableD_damage {m : Pairs} {d : Nat} {h' : Heap} (r : RepD dm h base slots bits cnt bk lk G) (hp : ∀ i, (bk i).pairs = m.filter (fun e => decide (hash e.1 % 2 ^ bits = i)))
    (hn : (keys m).Nodup) (n : Near h base slots bits d (bk d).foot h') :
    ∃ off' lk', TableD (fun i => dm i ∨ i = d) off' hash base slots bits G (without hash bits d m) lk' h' := by
  obtain ⟨c, lk', hc, r'⟩ := r.damage n
  obtain ⟨off', ho⟩ : ∃ off', (without hash bits d m).length + off' = c + W64 * (without hash bits d m).length :=
    ⟨c + W64 * (without hash bits d m).length - (without hash bits d m).length, by
      have : (without hash bits d m).length ≤ W64 * (without hash bits d m).length := Nat.le_mul_of_pos_left _ (by decide)
      omega⟩
  refine ⟨off', lk', fun j => if j = d then ⟨true, []⟩ else bk j, ?_, ?_, ?_⟩
  · obtain ⟨B0, a3, a4, a5, a6, a7⟩ := r'.b0
    refine ⟨r'.blt, r'.b31, ⟨B0, a3, a4, a5, a6, ?_⟩, r'.bs, r'.sl, r'.out, r'.dead, r'.ok, r'.disj, r'.frame⟩
    rw [a7, ho, Nat.add_mul_mod_self_left]
  · intro i
    show (if i = d then (⟨true, []⟩ : Bk) else bk i).pairs = _
    unfold without
    rw [List.filter_filter]
    by_cases e : i = d
    · subst e
      rw [if_pos rfl]
      symm
      show _ = []
      rw [List.filter_eq_nil_iff]
      intro x _
      simp
    · rw [if_neg e, hp i]
      refine List.filter_congr ?_
      intro x _
      by_cases hx : hash x.1 % 2 ^ bits = i
      · simp [hx, e]
      · simp [hx]
  · exact List.Nodup.sublist (List.Sublist.map _ List.filter_sublist) hn

/-- insert from where the new pair is in a block of its own -/
theorem pal_link (r : RepD dm h base slots bits cnt bk lk G) {i : Nat} (hi : i < 2 ^ bits ∧ ¬ dm i) {kv : Nat} {K : Block} (hkv : h.blk kv = none) :
    pal (Near h base slots bits i (bk i).foot) (link base slots (16 * i) kv k) (fun _ _ => True) (h.set kv K) := by
  have hn := (Near.refl r i).set ((Near.refl r i).fresh hkv) K
  obtain ⟨BS, hS, hsS, hsl⟩ := r.slot hi
  obtain ⟨k1, k2, k3⟩ := kv_ne r hkv
  have hbk := r.ok i
  have hS1 : (h.set kv K).blk slots = some BS := by rw [Heap.set_ne _ _ _ _ k2.symm]; exact hS
  have hbk1 : BkOk (h.set kv K) base slots (bk i) := hbk.congr (fun x hx => Heap.set_ne _ _ _ _ (fun e => k3 i (e ▸ hx)))
  unfold link
  simp only [Prog.bind_def]
  refine pal_rd hS1 ?_
  rcases hsl with ⟨hc, hw⟩ | ⟨hd, e, hc, hw1, hw2⟩ | ⟨hd, e, t, hc, htn, hw⟩
  · rw [if_pos hw]
    exact (Pl.slot (Or.inl rfl) (Pl.slot (Or.inr rfl) (Pl.bump Pl.ret))) _ hn
  · have he : e ∈ (bk i).c := by rw [hc]; exact List.mem_singleton.2 rfl
    have hm := r.mine (mem_foot.2 (Or.inl ⟨e, he, rfl⟩))
    have ho := (hbk.mem_off he).1.1
    rw [hw1, if_neg ho.ne, if_pos ho.even]
    refine pal_bind_of (pal_ro ro_keyMatches) ?_ (fun _ _ _ => trivial)
    rintro b h' rfl
    cases b with
    | true =>
      rw [if_pos rfl]
      refine pal_rd hS1 ?_
      rw [hw1]
      exact (Pl.free hm (Pl.slot (Or.inl rfl) (Pl.slot (Or.inr rfl) Pl.ret))) _ hn
    | false =>
      rw [if_neg (by simp)]
      refine (Pl.alloc fun ex hex => Pl.alloc fun cr hcr => Pl.wr hcr (Pl.wr hcr (Pl.wr hcr (Pl.wr hex (Pl.rd fun a => Pl.wr hex (Pl.rd fun b => Pl.wr hex
        (Pl.slot (Or.inl rfl) (Pl.slot (Or.inr rfl) ?_)))))))) _ hn
      exact Pl.bump Pl.ret
  · have he : e ∈ (bk i).c := by rw [hc]; exact List.mem_cons_self
    have ho := ((hbk.mem_off he).2 hd).1
    have he2 := ho.even
    rw [hw, if_neg (by omega), if_neg (by omega), Nat.add_sub_cancel]
    have := walkList_spec (k := k) (bk i).c maxNodes 0 hbk.len (hbk1.seg hd) (hbk1.walkable hd)
    rw [hc] at this
    refine pal_bind_of (pal_ro_wp (ro_walkList _ _ _) this) ?_ (fun _ _ _ => trivial)
    rintro w h'' ⟨rfl, w', hw', hwk⟩
    injection hw' with hw'
    subst hw'
    rw [← hc] at hwk
    cases hwk with
    | found a t' e' hce ha hek =>
      have he' : e' ∈ (bk i).c := by rw [hce]; simp
      rw [if_pos ((hbk.walkable hd) e' he').2]
      obtain ⟨nx, E, e1, e2, e3, e4, e5⟩ := Seg_mem (hbk1.seg hd) he'
      have hm := r.mine (mem_foot.2 (Or.inl ⟨e', he', rfl⟩))
      have hm2 := r.mine (mem_foot.2 (Or.inr ⟨hd, e', he', rfl⟩))
      refine pal_rd e1 ?_
      rw [e4]
      exact (Pl.free hm (Pl.wr hm2 (Pl.wr hm2 Pl.ret))) _ hn
    | absent ha =>
      rw [if_neg (by simp)]
      obtain ⟨a, e', hce⟩ : ∃ a e', (bk i).c = a ++ [e'] := by
        rcases List.eq_nil_or_concat (bk i).c with h1 | ⟨a, e', h1⟩
        · rw [hc] at h1; cases h1
        · exact ⟨a, e', by rw [h1]; simp⟩
      have hme : e' ∈ (bk i).c := by rw [hce]; simp
      have hm2 := r.mine (mem_foot.2 (Or.inr ⟨hd, e', hme, rfl⟩))
      have hlast : lastIv 0 (bk i).c = e'.iv := by rw [hce, lastIv_append]
      rw [hlast]
      exact (Pl.alloc fun cr hcr => Pl.wr hm2 (Pl.wr hcr (Pl.wr hcr (Pl.wr hcr (Pl.bump Pl.ret))))) _ hn

theorem pal_insert (r : RepD dm h base slots bits cnt bk lk G) (hdm : ¬ dm (hash k % 2 ^ bits)) (c : Option Check) :
    pal (Near h base slots bits (hash k % 2 ^ bits) (bk (hash k % 2 ^ bits)).foot) (insert hash base k v c) (fun _ _ => True) h := by
  have hn := Near.refl r (hash k % 2 ^ bits)
  obtain ⟨B0, h0, hs0, hb1, hb2, -⟩ := r.b0
  unfold insert
  refine pal_bind_of (pal_ro (ro_checkOk c)) ?_ (fun _ _ _ => trivial)
  rintro b h' rfl
  cases b with
  | false => trivial
  | true =>
    rw [if_pos rfl]
    simp only [Prog.bind_def]
    refine pal_alloc ?_ trivial
    intro kv dd hf
    have hmk := hn.fresh hf.none
    refine ⟨hn.set hmk _, ?_⟩
    refine pal_wrB (Heap.set_same _ _ _) ((hn.set hmk _).set hmk _) ?_
    rw [Heap.set_set]
    refine pal_wrB (Heap.set_same _ _ _) ((hn.set hmk _).set hmk _) ?_
    rw [Heap.set_set]
    refine pal_rd (B := B0) (by rw [Heap.set_ne _ _ _ _ hmk.nb.symm]; exact h0) ?_
    refine pal_rd (B := B0) (by rw [Heap.set_ne _ _ _ _ hmk.nb.symm]; exact h0) ?_
    rw [hb1, hb2]
    exact pal_bind_of (pal_link r ⟨Nat.mod_lt _ (Nat.two_pow_pos bits), hdm⟩ hf.none) (fun _ _ _ => trivial) (fun _ _ _ => trivial)

theorem Pl.newNum {h0 : Heap} {d : Nat} {f : List Nat} {α : Type} {N : Num R} {b o : Nat} {k : Bytes} {g : Unit → HProg α}
    (hw : ∀ {o' v : Nat} {g : Unit → HProg α}, o' = o ∨ o' = o + 8 → Pl h0 base slots bits d f (g ()) → Pl h0 base slots bits d f ((H.wr64 b o' v).bind g))
    (hk : Pl h0 base slots bits d f (g ())) : Pl h0 base slots bits d f ((newNum N b o k).bind g) := by
  unfold HashTable.newNum
  simp only [Prog.bind_def, Prog.bind_assoc]
  exact Pl.alloc fun kv hkv => hw (Or.inl rfl) (Pl.wrB hkv (Pl.wr hkv (hw (Or.inr rfl) hk)))

theorem Pl.bumpNum {h0 : Heap} {d : Nat} {f : List Nat} {N : Num R} {b o n : Nat} (hb : Mine h0 base slots f b) : Pl h0 base slots bits d f (HashTable.bump N b o n) := by
  unfold HashTable.bump
  split
  · exact Pl.rd fun x => Pl.wr hb (Pl.rd fun y => Pl.ret)
  · exact fun _ _ => trivial

theorem pal_incr (r : RepD dm h base slots bits cnt bk lk G) (hdm : ¬ dm (hash k % 2 ^ bits)) (N : Num R) :
    pal (Near h base slots bits (hash k % 2 ^ bits) (bk (hash k % 2 ^ bits)).foot) (incr hash base k N) (fun _ _ => True) h := by
  have hn := Near.refl r (hash k % 2 ^ bits)
  obtain ⟨B0, h0, hs0, hb1, hb2, -⟩ := r.b0
  have hi : hash k % 2 ^ bits < 2 ^ bits ∧ ¬ dm (hash k % 2 ^ bits) := ⟨Nat.mod_lt (hash k) (Nat.two_pow_pos bits), hdm⟩
  obtain ⟨BS, hS, hsS, hsl⟩ := r.slot hi
  have hbk := r.ok (hash k % 2 ^ bits)
  unfold incr
  simp only [Prog.bind_def]
  refine pal_rd h0 ?_
  refine pal_rd h0 ?_
  rw [hb1, hb2]
  unfold slotOff
  generalize hash k % 2 ^ bits = i at *
  refine pal_rd hS ?_
  rcases hsl with ⟨hc, hw⟩ | ⟨hd, e, hc, hw1, hw2⟩ | ⟨hd, e, t, hc, htn, hw⟩
  · rw [hw, if_pos rfl]
    exact (Pl.newNum (fun h1 h2 => Pl.slot h1 h2) (Pl.bump Pl.ret)) _ hn
  · have he : e ∈ (bk i).c := by rw [hc]; exact List.mem_singleton.2 rfl
    have hm := r.mine (mem_foot.2 (Or.inl ⟨e, he, rfl⟩))
    have ho := (hbk.mem_off he).1.1
    rw [hw1, if_neg ho.ne, if_pos ho.even]
    refine pal_bind_of (pal_ro ro_keyMatches) ?_ (fun _ _ _ => trivial)
    rintro b h' rfl
    cases b with
    | true =>
      rw [if_pos rfl]
      refine pal_bind_of (pal_ro_wp ro_locate (locate_spec hS (by omega) hw1 hw2 (hbk.kvs e he))) ?_ (fun _ _ _ => trivial)
      rintro l h'' ⟨hl, rfl⟩
      injection hl with hl
      subst hl
      exact Pl.bumpNum hm _ hn
    | false =>
      rw [if_neg (by simp)]
      refine (Pl.alloc fun ex hex => Pl.alloc fun cr hcr => Pl.wr hcr (Pl.newNum (fun _ h2 => Pl.wr hcr h2) (Pl.wr hex (Pl.rd fun a => Pl.wr hex (Pl.rd fun b => Pl.wr hex
        (Pl.slot (Or.inl rfl) (Pl.slot (Or.inr rfl) ?_))))))) _ hn
      exact Pl.bump Pl.ret
  · have he : e ∈ (bk i).c := by rw [hc]; exact List.mem_cons_self
    have ho := ((hbk.mem_off he).2 hd).1
    have he2 := ho.even
    rw [hw, if_neg (by omega), if_neg (by omega), Nat.add_sub_cancel]
    have := walkList_spec (k := k) (bk i).c maxNodes 0 hbk.len (hbk.seg hd) (hbk.walkable hd)
    rw [hc] at this
    refine pal_bind_of (pal_ro_wp (ro_walkList _ _ _) this) ?_ (fun _ _ _ => trivial)
    rintro w h'' ⟨rfl, w', hw', hwk⟩
    injection hw' with hw'
    subst hw'
    rw [← hc] at hwk
    cases hwk with
    | found a t' e' hce ha hek =>
      have he' : e' ∈ (bk i).c := by rw [hce]; simp
      rw [if_pos ((hbk.walkable hd) e' he').2]
      obtain ⟨nx, E, e1, e2, e3, e4, e5⟩ := Seg_mem (hbk.seg hd) he'
      have hm := r.mine (mem_foot.2 (Or.inl ⟨e', he', rfl⟩))
      refine pal_bind_of (pal_ro_wp ro_locate (locate_spec e1 (by omega) e4 e5 (hbk.kvs e' he'))) ?_ (fun _ _ _ => trivial)
      rintro l h3 ⟨hl, rfl⟩
      injection hl with hl
      subst hl
      exact Pl.bumpNum hm _ hn
    | absent ha =>
      rw [if_neg (by simp)]
      obtain ⟨a, e', hce⟩ : ∃ a e', (bk i).c = a ++ [e'] := by
        rcases List.eq_nil_or_concat (bk i).c with h1 | ⟨a, e', h1⟩
        · rw [hc] at h1; cases h1
        · exact ⟨a, e', by rw [h1]; simp⟩
      have hme : e' ∈ (bk i).c := by rw [hce]; simp
      have hm2 := r.mine (mem_foot.2 (Or.inr ⟨hd, e', hme, rfl⟩))
      have hlast : lastIv 0 (bk i).c = e'.iv := by rw [hce, lastIv_append]
      rw [hlast]
      exact (Pl.alloc fun cr hcr => Pl.wr hm2 (Pl.wr hcr (Pl.newNum (fun _ h2 => Pl.wr hcr h2) (Pl.bump Pl.ret)))) _ hn

theorem pal_unchain {α : Type} {h0 h1 : Heap} {d : Nat} {f : List Nat} {g : Unit → HProg α} {B : Block} (hn : Near h0 base slots bits d f h1) (hS : h1.blk slots = some B)
    (hio : B.rd (16 * d) 8 = 0 ∨ Mine h0 base slots f (B.rd (16 * d) 8)) (hk : Pl h0 base slots bits d f (g ())) :
    pal (Near h0 base slots bits d f) ((unchain slots (16 * d)).bind g) (fun _ _ => True) h1 := by
  refine pal_bind_of (R := fun _ h' => Near h0 base slots bits d f h') ?_ (fun _ h' hn' => hk h' hn') (fun _ _ _ => trivial)
  unfold unchain
  simp only [Prog.bind_def]
  refine pal_rd hS ?_
  rcases hio with h2 | h2
  · rw [if_neg (by simpa using h2)]; exact hn
  · split
    · intro C hC
      simp only [Prog.ret_bind]
      split
      · intro C1 _ C2 hC2
        refine ⟨hn.slot hC2 (Or.inl rfl) _, ?_⟩
        intro C3 _ C4 hC4
        refine ⟨(hn.slot hC2 (Or.inl rfl) _).slot hC4 (Or.inr rfl) _, ?_⟩
        intro C5 hC5
        exact ⟨((hn.slot hC2 (Or.inl rfl) _).slot hC4 (Or.inr rfl) _).del h2, ((hn.slot hC2 (Or.inl rfl) _).slot hC4 (Or.inr rfl) _).del h2⟩
      · exact hn
    · exact hn

theorem pal_erase (r : RepD dm h base slots bits cnt bk lk G) (hok : HeapOk h) (hdm : ¬ dm (hash k % 2 ^ bits)) (c : Option Check) :
    pal (Near h base slots bits (hash k % 2 ^ bits) (bk (hash k % 2 ^ bits)).foot) (erase hash base k c) (fun _ _ => True) h := by
  have hn := Near.refl r (hash k % 2 ^ bits)
  obtain ⟨B0, h0, hs0, hb1, hb2, -⟩ := r.b0
  have hi : hash k % 2 ^ bits < 2 ^ bits ∧ ¬ dm (hash k % 2 ^ bits) := ⟨Nat.mod_lt (hash k) (Nat.two_pow_pos bits), hdm⟩
  obtain ⟨BS, hS, hsS, hsl⟩ := r.slot hi
  have hbk := r.ok (hash k % 2 ^ bits)
  unfold erase
  refine pal_bind_of (pal_ro (ro_checkOk c)) ?_ (fun _ _ _ => trivial)
  rintro b h' rfl
  cases b with
  | false => trivial
  | true =>
  rw [if_pos rfl]
  simp only [Prog.bind_def]
  refine pal_rd h0 ?_
  refine pal_rd h0 ?_
  rw [hb1, hb2]
  unfold slotOff
  generalize hash k % 2 ^ bits = i at *
  refine pal_rd hS ?_
  rcases hsl with ⟨hc, hw⟩ | ⟨hd, e, hc, hw1, hw2⟩ | ⟨hd, e, t, hc, htn, hw⟩
  · rw [hw, if_pos rfl]; trivial
  · have he : e ∈ (bk i).c := by rw [hc]; exact List.mem_singleton.2 rfl
    have hm := r.mine (mem_foot.2 (Or.inl ⟨e, he, rfl⟩))
    have ho := (hbk.mem_off he).1.1
    rw [hw1, if_neg ho.ne, if_pos ho.even]
    refine pal_bind_of (pal_ro ro_keyMatches) ?_ (fun _ _ _ => trivial)
    rintro b h'' rfl
    cases b with
    | true =>
      rw [if_pos rfl]
      refine pal_rd hS ?_
      rw [hw1]
      exact (Pl.free hm (Pl.slot (Or.inl rfl) (Pl.slot (Or.inr rfl) (Pl.drop Pl.ret)))) _ hn
    | false =>
      rw [if_neg (by simp)]; trivial
  · have he : e ∈ (bk i).c := by rw [hc]; exact List.mem_cons_self
    have ho := ((hbk.mem_off he).2 hd).1
    have he2 := ho.even
    rw [hw, if_neg (by omega), if_neg (by omega), Nat.add_sub_cancel]
    have := walkList_spec (k := k) (bk i).c maxNodes 0 hbk.len (hbk.seg hd) (hbk.walkable hd)
    rw [hc] at this
    refine pal_bind_of (pal_ro_wp (ro_walkList _ _ _) this) ?_ (fun _ _ _ => trivial)
    rintro w h'' ⟨rfl, w', hw', hwk⟩
    injection hw' with hw'
    subst hw'
    rw [← hc] at hwk
    cases hwk with
    | absent ha => rw [if_neg (by simp)]; trivial
    | found a t' e' hce ha hek =>
      have he' : e' ∈ (bk i).c := by rw [hce]; simp
      rw [if_pos ((hbk.walkable hd) e' he').2]
      obtain ⟨nx, E, e1, e2, e3, e4, e5⟩ := Seg_mem (hbk.seg hd) he'
      have hm := r.mine (mem_foot.2 (Or.inl ⟨e', he', rfl⟩))
      have hm2 := r.mine (mem_foot.2 (Or.inr ⟨hd, e', he', rfl⟩))
      have fin : ∀ {h1 : Heap} {B : Block}, Near h'' base slots bits i (bk i).foot h1 → h1.blk e'.iv = some E → h1.blk slots = some B →
          (B.rd (16 * i) 8 = 0 ∨ Mine h'' base slots (bk i).foot (B.rd (16 * i) 8)) →
          pal (Near h'' base slots bits i (bk i).foot) ((H.rd64 e'.iv 8).bind fun old => (H.free old).bind fun _ => (H.free e'.iv).bind fun _ =>
            (unchain slots (16 * i)).bind fun _ => (dropCount base).bind fun _ => Pure.pure true) (fun _ _ => True) h1 := by
        intro h1 B hn1 hE hB hio
        refine pal_rd hE ?_
        rw [e4]
        refine pal_free (hn1.del hm) ?_
        refine pal_free ((hn1.del hm).del hm2) ?_
        refine pal_unchain ((hn1.del hm).del hm2) (B := B) ?_ hio (Pl.drop Pl.ret)
        rw [Heap.del_ne _ _ _ hm2.ns.symm, Heap.del_ne _ _ _ hm.ns.symm]; exact hB
      have hseg : e'.iv ∉ a.map Ent.iv := by
        have h1 := hbk.nodup
        unfold Bk.foot at h1
        rw [hd, hce] at h1
        simp only [Bool.false_eq_true, if_false, List.map_append, List.map_cons] at h1
        have h2 := (List.nodup_append.1 h1).2.1
        intro h3
        exact (List.nodup_append.1 h2).2.2 _ h3 _ List.mem_cons_self rfl
      unfold unlinkIv
      simp only [Prog.bind_def, Prog.bind_assoc]
      refine pal_rd e1 ?_
      rcases List.eq_nil_or_concat a with h1 | ⟨a', p, h1⟩
      · subst h1
        rw [if_neg (by simp [lastIv])]
        have hN := hn.slot hS (o := 16 * i) (Or.inl rfl) (E.rd 0 8)
        refine pal_wr hS hN ?_
        refine fin hN (by rw [Heap.set_ne _ _ _ _ hm2.ns]; exact e1) (Heap.set_same _ _ _) ?_
        rw [Block.rd_wr_same8 _ _ _ (Block.rd8_lt _ _)]
        have hs := hbk.seg hd
        rw [hce] at hs
        obtain ⟨⟨E', f1, f2, f3, -⟩, -⟩ := hs
        rw [e1] at f1; cases f1
        rw [f3]
        cases t' with
        | nil => exact Or.inl rfl
        | cons x t2 => exact Or.inr (r.mine (mem_foot.2 (Or.inr ⟨hd, x, by rw [hce]; simp, rfl⟩)))
      · have hpc : p ∈ (bk i).c := by rw [hce, h1]; simp
        have hla : lastIv 0 a = p.iv := by rw [h1, List.concat_eq_append, lastIv_append]
        rw [hla, if_pos ((hbk.walkable hd) p hpc).2]
        obtain ⟨nx2, P, p1, p2, -⟩ := Seg_mem (hbk.seg hd) hpc
        have hmp := r.mine (mem_foot.2 (Or.inr ⟨hd, p, hpc, rfl⟩))
        refine pal_wr p1 (hn.set hmp _) ?_
        refine fin (hn.set hmp _) ?_ (B := BS) (by rw [Heap.set_ne _ _ _ _ hmp.ns.symm]; exact hS) (Or.inr ?_)
        · rw [Heap.set_ne]
          · exact e1
          · intro h3
            refine hseg ?_
            rw [h3, h1]; simp
        · rw [hw]
          obtain ⟨nx3, E0, q1, q2, -⟩ := Seg_mem (hbk.seg hd) he
          refine hn.fresh ?_
          cases hb : h''.blk (e.iv + 1) with
          | none => rfl
          | some C =>
            have := hok.disj _ _ _ _ q1 hb (by omega)
            omega

/-- an insert whose check fails writes nothing -/
theorem pal_insert_idle {I : Heap → Prop} {v : Bytes} {m : Pairs} (r : RepD dm h base slots bits cnt bk lk G) (hp : ∀ i, (bk i).pairs = m.filter (fun e => decide (hash e.1 % 2 ^ bits = i))) {c : Option Check}
    (hdc : ∀ c', c = some c' → ¬ dm (hash c'.1 % 2 ^ bits)) (hc : checkAll m c = false) : pal I (insert hash base k v c) (fun _ _ => True) h := by
  unfold insert
  refine pal_bind_of (pal_ro_wp (ro_checkOk c) (checkOk_spec r (bucket_get hp) hdc)) ?_ (fun _ _ _ => trivial)
  rintro b h' ⟨-, hb⟩
  injection hb with hb
  rw [hb, hc]
  trivial

/-- an erase whose check fails, or of an absent key, writes nothing -/
theorem pal_erase_idle {I : Heap → Prop} {m : Pairs} (r : RepD dm h base slots bits cnt bk lk G) (hp : ∀ i, (bk i).pairs = m.filter (fun e => decide (hash e.1 % 2 ^ bits = i))) (hdm : ¬ dm (hash k % 2 ^ bits))
    {c : Option Check} (hdc : ∀ c', c = some c' → ¬ dm (hash c'.1 % 2 ^ bits)) (hc : checkAll m c = true → k ∉ keys m) : pal I (erase hash base k c) (fun _ _ => True) h := by
  obtain ⟨B0, h0, hs0, hb1, hb2, -⟩ := r.b0
  have hi : hash k % 2 ^ bits < 2 ^ bits ∧ ¬ dm (hash k % 2 ^ bits) := ⟨Nat.mod_lt (hash k) (Nat.two_pow_pos bits), hdm⟩
  obtain ⟨BS, hS, hsS, hsl⟩ := r.slot hi
  have hbk := r.ok (hash k % 2 ^ bits)
  have hkm := bucket_keys hp k
  unfold erase
  refine pal_bind_of (pal_ro_wp (ro_checkOk c) (checkOk_spec r (bucket_get hp) hdc)) ?_ (fun _ _ _ => trivial)
  rintro b h' ⟨rfl, hb⟩
  injection hb with hb
  subst hb
  cases hcc : checkAll m c with
  | false => trivial
  | true =>
  have hk := hc hcc
  rw [← hkm] at hk
  rw [if_pos rfl]
  simp only [Prog.bind_def]
  refine pal_rd h0 ?_
  refine pal_rd h0 ?_
  rw [hb1, hb2]
  unfold slotOff
  generalize hash k % 2 ^ bits = i at *
  refine pal_rd hS ?_
  rcases hsl with ⟨hc, hw⟩ | ⟨hd, e, hc, hw1, hw2⟩ | ⟨hd, e, t, hc, htn, hw⟩
  · rw [hw, if_pos rfl]; trivial
  · have he : e ∈ (bk i).c := by rw [hc]; exact List.mem_singleton.2 rfl
    have ho := (hbk.mem_off he).1.1
    rw [hw1, if_neg ho.ne, if_pos ho.even]
    refine pal_bind_of (pal_ro_wp ro_keyMatches (keyMatches_spec hS (by omega) hw1 hw2 (hbk.kvs e he) k)) ?_ (fun _ _ _ => trivial)
    rintro b h'' ⟨hm, rfl⟩
    injection hm with hm
    subst hm
    have hne : ¬ e.key = k := by
      intro h1
      refine hk ?_
      unfold Bk.pairs
      rw [keys_pairs]
      exact ⟨e, he, h1⟩
    rw [if_neg (by simpa using hne)]
    trivial
  · have he : e ∈ (bk i).c := by rw [hc]; exact List.mem_cons_self
    have ho := ((hbk.mem_off he).2 hd).1
    have he2 := ho.even
    rw [hw, if_neg (by omega), if_neg (by omega), Nat.add_sub_cancel]
    have := walkList_spec (k := k) (bk i).c maxNodes 0 hbk.len (hbk.seg hd) (hbk.walkable hd)
    rw [hc] at this
    refine pal_bind_of (pal_ro_wp (ro_walkList _ _ _) this) ?_ (fun _ _ _ => trivial)
    rintro w h'' ⟨rfl, w', hw', hwk⟩
    injection hw' with hw'
    subst hw'
    rw [← hc] at hwk
    cases hwk with
    | absent ha => rw [if_neg (by simp)]; trivial
    | found a t' e' hce ha hek =>
      refine absurd ?_ hk
      unfold Bk.pairs
      rw [keys_pairs]
      exact ⟨e', by rw [hce]; simp, hek⟩

end walk
end HashTable
end Verif
