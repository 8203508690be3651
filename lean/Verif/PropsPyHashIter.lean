import Verif.PyHashIter
import Verif.PropsPyIter
import Verif.PropsPythonMore
import Verif.PropsHashTableCrash
/-
C91: the iterators of the Python class HashTable.
-/
namespace Verif
open HashTable (Pairs keys)
open Py
namespace Py
variable {O : Type} {M : Marshal O}

/-! ### Specification -/

/-- a dictionary, and the order in which its keys are listed -/
structure Ordered (O : Type) where
  d : Bytes → Option (Obj O)
  order : List Bytes

/-- calls that change nothing -/
def HOp.reads : HOp O → Prop
  | .get _ => True
  | .contains _ => True
  | .len => True
  | .items => True
  | _ => False

/-- `HVSpec M s op r s'`: the call `op` on a HashTable that is the dictionary `s.d`, with the keys listed in the order `s.order`, may have the outcome `r` and leave `s'`; the order changes only in calls that may change the table -/
def HVSpec (M : Marshal O) (s : Ordered O) (op : HVOp O) (r : Out (VRes O)) (s' : Ordered O) : Prop :=
  match op with
  | .method o => (∃ r', HSpec M s.d o r' s'.d ∧ r = (match r' with
    | .ok x => .ok (.res x)
    | .err e => .err e)) ∧ (o.reads → s' = s)
  | .list w => s' = s ∧ ∃ l : List (Bytes × Obj O), r = .ok (.list (l.map (Yield.of w))) ∧ l.map Prod.fst = s.order ∧ s.order.Nodup ∧ ∀ k v, (k, v) ∈ l ↔ s.d k = some v

/-- the calls that the theorem covers -/
def HVOp.ok (M : Marshal O) (hash : Bytes → Nat) (bits : Nat) (s : Ordered O) : HVOp O → Prop
  | .method o => o.ok M hash bits s.d
  | .list _ => True

/-! ### Proof -/

/-- the yields of a list of pairs -/
def yieldsHash (M : Marshal O) (w : What) : Pairs → Option (List (Yield O))
  | [] => some []
  | e :: l => match yieldHash M w e with
    | Option.none => Option.none
    | some y => (yieldsHash M w l).map (y :: ·)

theorem yieldsHash_load {w : What} {l : Pairs} {l' : List (Bytes × Obj O)} (h : loadAll M l = some l') : yieldsHash M w l = some (l'.map (Yield.of w)) := by
  induction l generalizing l' with
  | nil => simp only [loadAll] at h; injection h with h; subst h; rfl
  | cons e l ih =>
    obtain ⟨k, x⟩ := e
    simp only [loadAll] at h
    cases hx : M.load x with
    | none => rw [hx] at h; cases h
    | some v =>
      cases hl : loadAll M l with
      | none => rw [hx, hl] at h; cases h
      | some r =>
        rw [hx, hl] at h
        injection h with h; subst h
        have := ih hl
        cases w <;> simp [yieldsHash, yieldHash, hx, this, Yield.of]

theorem ro_tryCatch {α : Type} {p : HProg α} {f : Err → HProg α} (hp : HRo p) (hf : ∀ e, HRo (f e)) : HRo (p.tryCatch f) := by
  induction p with
  | ret a => exact trivial
  | err e => exact hf e
  | ub => exact trivial
  | step op k ih => cases op <;> first | exact fun v => ih v (hp v) | exact hp.elim

/-- what writes nothing leaves the heap as it is -/
theorem wp_still {α : Type} {p : HProg α} (hp : HRo p) {Q : Out α → Heap → Prop} : ∀ {h : Heap}, wp p Q h → wp p (fun o h' => Q o h' ∧ h' = h) h := by
  induction p with
  | ret a => exact fun h => ⟨h, rfl⟩
  | err e => exact fun h => ⟨h, rfl⟩
  | ub => exact fun h => h
  | step op k ih =>
    intro h hw
    cases op with
    | getBase => exact ih _ (hp _) hw
    | bsize => obtain ⟨b, h1, h2⟩ := hw; exact ⟨b, h1, ih _ (hp _) h2⟩
    | rd | rdB => obtain ⟨b, h1, h2, h3⟩ := hw; exact ⟨b, h1, h2, ih _ (hp _) h3⟩
    | _ => exact hp.elim

section
variable {hash : Bytes → Nat} {F : HT.Fp} {base slots bits cnt : Nat} {G : Nat → Option Block} {h : Heap} {bk : Nat → HashTable.Bk} {lk : List Nat}
open HashTable

theorem drainHash_spec (w : What) (r : HashTable.Rep h base slots bits cnt bk lk G) (n : Nat) : ∀ (fuel : Nat) (it : Iter), it.Valid bk (2 ^ bits) → (it.rem bk (2 ^ bits)).length = n → n < fuel →
    wp (drainHash M base w fuel it) (fun out h' => out = .ok (yieldsHash M w (it.rem bk (2 ^ bits))) ∧ h' = h) h := by
  induction n with
  | zero =>
    intro fuel it hv hn hf
    obtain ⟨f, rfl⟩ : ∃ f, fuel = f + 1 := ⟨fuel - 1, by omega⟩
    unfold drainHash
    refine wp_bind_of (end_spec r) ?_ ?_
    rotate_left
    · rintro _ _ ⟨hx, -⟩; cases hx
    rintro e h' ⟨hb, rfl⟩
    injection hb with hb
    subst hb
    rcases hv with ⟨h1, h2, h3⟩ | rfl
    · exfalso
      unfold Iter.rem at hn
      rw [List.length_append, List.length_drop] at hn
      omega
    · rw [if_pos (by unfold Iter.eq; simp)]
      rw [List.length_eq_zero_iff] at hn
      rw [hn]
      exact ⟨rfl, rfl⟩
  | succ n ih =>
    intro fuel it hv hn hf
    obtain ⟨f, rfl⟩ : ∃ f, fuel = f + 1 := ⟨fuel - 1, by omega⟩
    unfold drainHash
    refine wp_bind_of (end_spec r) ?_ ?_
    rotate_left
    · rintro _ _ ⟨hx, -⟩; cases hx
    rintro e h' ⟨hb, rfl⟩
    injection hb with hb
    subst hb
    rcases hv with ⟨h1, h2, h3⟩ | rfl
    · have hne : it.eq ⟨2 ^ bits, 0, []⟩ = false := by
        unfold Iter.eq
        rw [if_pos (by simp only; omega)]
      rw [hne, if_neg (by simp)]
      unfold Iter.next
      simp only [Prog.bind_def, Prog.bind_assoc]
      refine wp_bind_of (bits_spec r) ?_ ?_
      rotate_left
      · rintro _ _ ⟨hx, -⟩; cases hx
      rintro b h' ⟨hb, rfl⟩
      injection hb with hb
      subst hb
      rw [if_neg (by omega), if_pos h3]
      have hmax : 2 ^ b - it.slot < maxNodes := by
        have := two_pow_small r.b31
        rw [maxNodes_eq]; omega
      refine wp_bind_of (advance_spec r (2 ^ b - it.slot) maxNodes { it with res := it.res + 1 } h1 rfl hmax h2 h3) ?_ ?_
      rotate_left
      · rintro _ _ ⟨-, it', hx, -⟩; cases hx
      rintro it' h'' ⟨rfl, it2, hx, h4, h5⟩
      injection hx with hx
      subst hx
      have hcons : it.rem bk (2 ^ b) = it.cont.getD it.res ([], []) :: it'.rem bk (2 ^ b) := by
        rw [h5]
        unfold Iter.rem
        rw [List.drop_eq_getElem_cons h3, List.getD_eq_getElem?_getD, List.getElem?_eq_getElem h3]
        rfl
      rw [hcons]
      cases hy : yieldHash M w (it.cont.getD it.res ([], [])) with
      | none => exact ⟨by simp only [yieldsHash, hy], rfl⟩
      | some y =>
        refine wp_bind_of (ih f it' h4 (by rw [hcons] at hn; simpa using hn) (by omega)) ?_ ?_
        · rintro l h3 ⟨hl, rfl⟩
          injection hl with hl
          subst hl
          exact ⟨by simp only [yieldsHash, hy], rfl⟩
        · rintro _ _ ⟨hx, -⟩; cases hx
    · exfalso
      unfold Iter.rem at hn
      rw [after_end (by simp only; omega)] at hn
      simp at hn

/-- the pairs in the order in which an iteration shows them -/
def scan (hash : Bytes → Nat) (bits : Nat) (m : Pairs) : Pairs := (List.range (2 ^ bits)).flatMap fun i => m.filter fun e => decide (hash e.1 % 2 ^ bits = i)

theorem scan_perm (hash : Bytes → Nat) (bits : Nat) (m : Pairs) : (scan hash bits m).Perm m := by
  refine (partition_perm m (fun e => hash e.1 % 2 ^ bits) (2 ^ bits)).trans (.of_eq ?_)
  rw [List.filter_eq_self]
  intro e _
  simpa using Nat.mod_lt _ (Nat.two_pow_pos bits)

theorem begin_spec {m : Pairs} (t : Table hash base slots bits G m lk h) (w : What) :
    wp ((begin base).bind fun it => drainHash M base w maxNodes it) (fun out h' => out = .ok (yieldsHash M w (scan hash bits m)) ∧ h' = h) h := by
  have hl := t.len
  obtain ⟨bk, r, hp, hn⟩ := t
  have hpos := Nat.two_pow_pos bits
  have hscan : after bk (2 ^ bits) 0 = scan hash bits m := by
    unfold after scan
    rw [Nat.sub_zero, ← List.range_eq_range']
    congr 1; funext i; exact hp i
  have hperm := scan_perm hash bits m
  unfold begin iterAt
  simp only [Prog.bind_def, Prog.bind_assoc]
  refine wp_bind_of (bits_spec r) ?_ ?_
  rotate_left
  · rintro _ _ ⟨hx, -⟩; cases hx
  rintro b h' ⟨hb, rfl⟩
  injection hb with hb
  subst hb
  rw [if_pos hpos]
  simp only [Prog.bind_assoc]
  refine wp_bind_of (slotContents_spec r hpos) ?_ ?_
  rotate_left
  · rintro _ _ ⟨hx, -⟩; cases hx
  rintro c h'' ⟨hb, rfl⟩
  injection hb with hb
  subst hb
  have hmax : 2 ^ b - 0 < maxNodes := by
    have := two_pow_small r.b31
    rw [maxNodes_eq]; omega
  refine wp_bind_of (advance_spec r (2 ^ b - 0) maxNodes ⟨0, 0, (bk 0).pairs⟩ hpos rfl hmax rfl (Nat.zero_le _)) ?_ ?_
  rotate_left
  · rintro _ _ ⟨-, it', hx, -⟩; cases hx
  rintro it h3 ⟨rfl, it', hx, h4, h5⟩
  injection hx with hx
  subst hx
  have hrem : it.rem bk (2 ^ b) = scan hash b m := by
    rw [h5, ← hscan, after_step hpos]; rfl
  rw [← hrem]
  exact drainHash_spec w r _ maxNodes it h4 rfl (by rw [hrem, hperm.length_eq, maxNodes_eq]; omega)

/-- the table at `base` is the dictionary `s.d`, listed in the order `s.order` -/
def HVHolds (M : Marshal O) (hash : Bytes → Nat) (base slots bits : Nat) (G : Nat → Option Block) (s : Ordered O) (h : Heap) : Prop :=
  ∃ m lk, HIs M m s.d ∧ Table hash base slots bits G m lk h ∧ keys (scan hash bits m) = s.order

theorem reads_ro (o : HOp O) (ho : o.reads) : HRo (hcall M hash F base o) := by
  cases o with
  | get k =>
    refine ro_tryCatch (HRo.bind (HashTable.ro_read _ rfl (fun h => by cases h)) fun r => ?_) fun e => .ite .ret .err
    cases r <;> exact HRo.ret
  | contains k => exact HRo.bind (HashTable.ro_read _ rfl (fun h => by cases h)) fun r => HRo.ret
  | len =>
    refine HRo.bind (HashTable.ro_read _ rfl (fun h => by cases h)) fun r => ?_
    cases r <;> exact HRo.ret
  | items =>
    refine HRo.bind (HashTable.ro_read _ rfl (fun h => by cases h)) fun r => ?_
    cases r with
    | list l =>
      simp only
      split <;> exact HRo.ret
    | _ => exact HRo.ret
  | _ => exact ho.elim

theorem hvstep (op : HVOp O) (s : Ordered O) (h : Heap) (hok : op.ok M hash bits s) (hi : HVHolds M hash base slots bits G s h) :
    wp (hvcall M hash F base op) (fun out h' => ∃ s', HVSpec M s op out s' ∧ HVHolds M hash base slots bits G s' h') h := by
  obtain ⟨m, lk, h1, h2, h3⟩ := hi
  cases op with
  | method o =>
    have hw := hstep (F := F) o s.d h hok ⟨m, lk, h1, h2⟩
    by_cases hr : o.reads
    · refine wp_bind_of (wp_still (reads_ro o hr) hw) ?_ ?_
      · rintro r h' ⟨⟨d', h4, -⟩, rfl⟩
        have e : d' = s.d := by cases o <;> first | exact h4.1 | exact hr.elim
        subst e
        exact ⟨s, ⟨⟨_, h4, rfl⟩, fun _ => rfl⟩, m, lk, h1, h2, h3⟩
      · rintro x h' ⟨⟨d', h4, -⟩, rfl⟩
        have e : d' = s.d := by cases o <;> first | exact h4.1 | exact hr.elim
        subst e
        exact ⟨s, ⟨⟨_, h4, rfl⟩, fun _ => rfl⟩, m, lk, h1, h2, h3⟩
    · refine wp_bind_of hw ?_ ?_
      · rintro r h' ⟨d', h4, m', lk', h5, h6⟩
        exact ⟨⟨d', keys (scan hash bits m')⟩, ⟨⟨_, h4, rfl⟩, fun h => absurd h hr⟩, m', lk', h5, h6, rfl⟩
      · rintro x h' ⟨d', h4, m', lk', h5, h6⟩
        exact ⟨⟨d', keys (scan hash bits m')⟩, ⟨⟨_, h4, rfl⟩, fun h => absurd h hr⟩, m', lk', h5, h6, rfl⟩
  | list w =>
    have hn : (keys m).Nodup := by obtain ⟨bk, -, -, hn⟩ := h2; exact hn
    have hp := scan_perm hash bits m
    have hmem : ∀ k w, (k, w) ∈ scan hash bits m ↔ HashTable.get m k = some w := fun k w => by rw [← get_mem hn]; exact hp.mem_iff
    obtain ⟨l', e1, e2, e3⟩ := loadAll_some (M := M) (l := scan hash bits m) (by
      rintro ⟨k, w⟩ he
      have := (hmem k w).1 he
      rcases h1 k with ⟨h4, -⟩ | ⟨w', v, t, h4, h5, h6⟩
      · rw [h4] at this; cases this
      · rw [h4] at this; injection this with this; subst this
        exact ⟨v, M.load_dump _ _ _ h6⟩)
    have hb := begin_spec (M := M) h2 w
    rw [yieldsHash_load e1] at hb
    show wp ((begin base).bind fun it => (drainHash M base w maxNodes it).bind fun l => _) _ h
    rw [← Prog.bind_assoc]
    refine wp_bind_of hb ?_ ?_
    rotate_left
    · rintro _ _ ⟨hx, -⟩; cases hx
    rintro l h' ⟨hx, rfl⟩
    injection hx with hx
    subst hx
    refine ⟨s, ⟨rfl, l', rfl, e2.trans h3, ?_, fun k v => ?_⟩, m, lk, h1, h2, h3⟩
    · rw [← h3]
      exact (hp.map Prod.fst).nodup_iff.2 hn
    · rw [e3]
      rcases h1 k with ⟨h4, h5⟩ | ⟨w', v', t, h4, h5, h6⟩
      · simp only [hmem, h4, h5]; simp
      · simp only [hmem, h4, h5, Option.some.injEq]
        constructor
        · rintro ⟨w, rfl, hw⟩
          rw [M.load_dump _ _ _ h6] at hw
          exact Option.some.inj hw
        · rintro rfl
          exact ⟨w', rfl, M.load_dump _ _ _ h6⟩
end
end Py

/-! ### C91 -/

/-- **C91, HashTable's iterators.** In a pool with any history of SimpleAllocator calls, a new Python HashTable answers every client - a program that chooses each call by the outcomes of the calls before - that uses the
methods of C53, list(t.keys()), list(t.values()) and list(t.items()) as the dictionary: a list has the keys (or values, or pairs) of all entries, each once, with the objects that were stored, in an order that
stays the same until the table is changed, so that keys and values listed one after the other belong together.  What C53 excludes is excluded here. -/
theorem C91_hash_views {O : Type} (M : Marshal O) (hash : Bytes → Nat) (F : HT.Fp) (bits : Nat) (hb : 2 ≤ bits) (hb2 : bits < 31)
    {p0 p : Pool} {live lk : List (Nat × Nat)} {ex : Bool} (h : Hist p0 p live lk ex) :
    (∃ p1, run (compile (HashTable.create bits)) p = (.err .noMem, p1)) ∨
    ∃ b p1, run (compile (HashTable.create bits)) p = (.ok b, p1) ∧ ∀ c : Client (HVOp O) (VRes O), c.Careful (HVSpec M) (fun s o => o.ok M hash bits s) ⟨fun _ => none, []⟩ →
      ∃ l p2 s, run (compile (c.play (hvcall M hash F b))) p1 = (.ok l, p2) ∧ c.Made l ∧ Trace (HVSpec M) ⟨fun _ => none, []⟩ (l.map Prod.fst) (l.map Prod.snd) s := by
  obtain ⟨hp, hs, hl⟩ := h.sim
  obtain ⟨out, p1, h1, hr, hq, hs1⟩ := sim_run (HashTable.create_spec (hash := hash) hp hb hb2) hs
  rcases hq with ⟨rfl, -⟩ | ⟨b, sl, rfl, -, ht⟩
  · exact Or.inl ⟨p1, hr⟩
  · refine Or.inr ⟨b, p1, hr, fun c hok => ?_⟩
    obtain ⟨rs, p2, d, h2, e1, e2, e3, -⟩ := Client.play_run (f := hvcall M hash F b) (Inv := HVHolds M hash b sl bits hp.blk)
      (fun d o h h1 h2 => hvstep o d h h1 h2) c hok ⟨[], _, fun k => Or.inl ⟨rfl, rfl⟩, ht, by simp [scan, keys]⟩ hs1
    exact ⟨rs, p2, d, e1, e2, e3⟩

/-- **C91, dict(zip(t.keys(), t.values())).** If keys and values are listed one after the other, with only reading calls between, they are of the same length and their pairs are the entries. -/
theorem C91_zip {O : Type} (M : Marshal O) {s s1 s2 s3 : Ordered O} {os : List (Py.HOp O)} {rs : List (Out (VRes O))} {r1 r2 : Out (VRes O)} (hr : ∀ o ∈ os, o.reads)
    (h1 : HVSpec M s (.list .keys) r1 s1) (h2 : Trace (HVSpec M) s1 (os.map .method) rs s2) (h3 : HVSpec M s2 (.list .values) r2 s3) :
    ∃ (ks : List Bytes) (vs : List (Obj O)), r1 = .ok (.list (ks.map .key)) ∧ r2 = .ok (.list (vs.map .value)) ∧ ks.length = vs.length ∧ ks.Nodup ∧ ∀ k v, (k, v) ∈ ks.zip vs ↔ s.d k = some v := by
  obtain ⟨rfl, l1, rfl, e1, hn, -⟩ := h1
  have h4 : ∀ {os : List (Py.HOp O)} {rs : List (Out (VRes O))} {s1 s2 : Ordered O}, (∀ o ∈ os, o.reads) → Trace (HVSpec M) s1 (os.map .method) rs s2 → s2 = s1 := by
    intro os
    induction os with
    | nil => intro rs s1 s2 _ h; cases h; rfl
    | cons o os ih =>
      intro rs s1 s2 hr h
      cases h with
      | cons h5 h6 =>
        rw [ih (fun o h => hr o (List.mem_cons_of_mem _ h)) h6]
        exact h5.2 (hr o List.mem_cons_self)
  obtain rfl := h4 hr h2
  obtain ⟨rfl, l2, rfl, e2, -, h5⟩ := h3
  refine ⟨l1.map Prod.fst, l2.map Prod.snd, ?_, ?_, ?_, by rw [e1]; exact hn, fun k v => ?_⟩
  · rw [List.map_map]; rfl
  · rw [List.map_map]; rfl
  · rw [e1, ← e2, List.length_map, List.length_map]
  · rw [e1, ← e2, ← h5, ← List.unzip_fst, ← List.unzip_snd, List.zip_unzip]

/-- a concrete run: keys, values and items in the same order, and after a change of the table -/
example : (run (compile (hist (hvcall someMarshal HashTable.fnv1a64 noFp 344) [.method (.set [97] (.other true) 0), .method (.set [98] (.other false) 0), .method (.set [99] (.other true) 0),
      .list .keys, .method (.get [97]), .list .values, .list .items, .method (.del [98]), .list .keys])) (htPool 0)).1 =
    .ok [.ok (.res (.obj .none)), .ok (.res (.obj .none)), .ok (.res (.obj .none)), .ok (.list [.key [97], .key [98], .key [99]]), .ok (.res (.obj (.other true))),
      .ok (.list [.value (.other true), .value (.other false), .value (.other true)]), .ok (.list [.item [97] (.other true), .item [98] (.other false), .item [99] (.other true)]),
      .ok (.res (.obj .none)), .ok (.list [.key [97], .key [99]])] := by
  decide +kernel

/-- a client that stores t[b"a"] and lists keys and values, and the keys again -/
def lister : Client (HVOp Bool) (VRes Bool) := .call (.method (.set [97] (.other true) 0)) fun r => match r with
  | .ok _ => .call (.list .keys) fun _ => .call (.list .values) fun _ => .done
  | .err _ => .call (.list .keys) fun _ => .done

/-- it meets the condition of the theorem -/
example : lister.Careful (HVSpec someMarshal) (fun s o => o.ok someMarshal HashTable.fnv1a64 2 s) ⟨fun _ => none, []⟩ := by
  refine ⟨?_, ?_⟩
  · intro w hw
    have e : someMarshal.dump 0 (.other true) = some [1, 0] := rfl
    rw [e] at hw
    injection hw with hw
    subst hw
    simp
  · rintro r s' -
    cases r with
    | ok x => exact ⟨trivial, fun _ _ _ => ⟨trivial, fun _ _ _ => trivial⟩⟩
    | err e => exact ⟨trivial, fun _ _ _ => trivial⟩

end Verif
