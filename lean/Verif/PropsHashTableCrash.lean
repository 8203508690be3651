import Verif.HashTableCrash
import Verif.ConcCrash
import Verif.PropsHashTable
/-
C74: a process that dies in a call on a HashTable damages at most the slot of the key.
-/
namespace Verif
open HashTable (Pairs get put del keys Check)
namespace HT

/-- what happens to a table: a call is made and returns; or a process dies in a call after `c` accesses to the pool (also inside the allocator), and the next process that takes the lock repairs the allocator -/
inductive Act
  | call (o : Op)
  | die (o : Op) (c : Nat)

/-- the slots of the table that are not to be touched again, and the pairs in the other slots -/
structure Damaged where
  m : Pairs
  dm : List Nat

/-- the key whose slot a call may change -/
def Op.target : Op → Option Bytes
  | .insert k _ _ => some k
  | .erase k _ => some k
  | .incr k _ => some k
  | .incrDouble k _ => some k
  | _ => none

/-- the call returns false on a table with the pairs `m`: its check fails, or it is to erase an absent key -/
def Op.idle (m : Pairs) : Op → Prop
  | .insert _ _ c => ¬ passes m c
  | .erase k c => ¬ (passes m c ∧ k ∈ keys m)
  | _ => False

instance (m : Pairs) (c : Option Check) : Decidable (passes m c) := by
  cases c <;> simp only [passes] <;> infer_instance

instance (m : Pairs) (o : Op) : Decidable (o.idle m) := by
  cases o <;> simp only [Op.idle] <;> infer_instance

/-- a process died in the call `o`: if this is a call that would have changed the slot of its key, the slot is given up, with the pairs in it; a call that would have returned false loses nothing -/
def lose (hash : Bytes → Nat) (bits : Nat) (s : Damaged) (o : Op) : Damaged :=
  match o.target with
  | none => s
  | some k => if o.idle s.m then s else ⟨s.m.filter fun e => decide (hash e.1 % 2 ^ bits ≠ hash k % 2 ^ bits), (hash k % 2 ^ bits) :: s.dm⟩

theorem lose_idle {hash : Bytes → Nat} {bits : Nat} {s : Damaged} {o : Op} (h : o.idle s.m) : lose hash bits s o = s := by
  unfold lose
  split
  · rfl
  · exact if_pos h

/-- the calls that may be made: none on a key (nor with a check on a key) in a slot that has been given up, and no clear and no iteration once there is such a slot; apart from that as in `C35_erase_incr_partial` -/
def Damaged.ok (hash : Bytes → Nat) (bits : Nat) (s : Damaged) (o : Op) : Prop :=
  o.ok hash bits s.m ∧ (∀ k ∈ o.args, hash k % 2 ^ bits ∉ s.dm) ∧ (o = .clear ∨ o = .items → s.dm = [])

/-- a call on the table behaves as a call on the map of the pairs in its other slots; but once a slot has been given up, size() may return any number -/
def SpecD (F : Fp) (s : Damaged) (o : Op) (r : Out Ret) (s' : Damaged) : Prop :=
  s'.dm = s.dm ∧ if o = .size ∧ s.dm ≠ [] then s'.m = s.m ∧ ∃ n, r = .ok (.num n) else Spec F s.m o r s'.m

/-- every call may be made when it is made -/
def May (hash : Bytes → Nat) (F : Fp) (bits : Nat) : Damaged → List Act → Prop
  | _, [] => True
  | s, .call o :: l => s.ok hash bits o ∧ ∀ r s', SpecD F s o r s' → May hash F bits s' l
  | s, .die o _ :: l => s.ok hash bits o ∧ o ≠ .clear ∧ May hash F bits (lose hash bits s o) l

/-- the answers `rs` (none for a call in which the process died) are right -/
inductive Right (hash : Bytes → Nat) (F : Fp) (bits : Nat) : Damaged → List Act → List (Option (Out Ret)) → Damaged → Prop
  | nil (s : Damaged) : Right hash F bits s [] [] s
  | call {s s1 s2 : Damaged} {o : Op} {l : List Act} {r : Out Ret} {rs : List (Option (Out Ret))} : SpecD F s o r s1 → Right hash F bits s1 l rs s2 → Right hash F bits s (.call o :: l) (some r :: rs) s2
  | die {s s2 : Damaged} {o : Op} {c : Nat} {l : List Act} {rs : List (Option (Out Ret))} : Right hash F bits (lose hash bits s o) l rs s2 → Right hash F bits s (.die o c :: l) (none :: rs) s2
end HT

open HT
namespace HashTable

/-- put the answer of one action before those of the others -/
def andThen (a : Option (Out Ret)) : Res (List (Option (Out Ret))) × Pool → Res (List (Option (Out Ret))) × Pool
  | (.ok rs, p) => (.ok (a :: rs), p)
  | (.err e, p) => (.err e, p)
  | (.ub, p) => (.ub, p)

/-- carry out the actions on the table at `b` in the pool, on bytes -/
def perform (hash : Bytes → Nat) (F : Fp) (b : Nat) : List Act → Pool → Res (List (Option (Out Ret))) × Pool
  | [], p => (.ok [], p)
  | .call o :: l, p =>
    match run (compile (attempt (call hash F b o))) p with
    | (.ok r, p') => andThen (some r) (perform hash F b l p')
    | (.err e, p') => (.err e, p')
    | (.ub, p') => (.ub, p')
  | .die o c :: l, p =>
    match run Simple.repair (crashAt c (compile (call hash F b o)) p) with
    | (.ok _, p') => andThen none (perform hash F b l p')
    | (.err e, p') => (.err e, p')
    | (.ub, p') => (.ub, p')

/-- the heap holds a table at `base` with these pairs and these slots given up -/
def Lives (hash : Bytes → Nat) (base bits : Nat) (G : Nat → Option Block) (s : Damaged) (h : Heap) : Prop :=
  ∃ slots off lk, TableD (· ∈ s.dm) off hash base slots bits G s.m lk h ∧ (s.dm = [] → off = 0)

theorem tableD_nil {hash : Bytes → Nat} {base slots bits : Nat} {G : Nat → Option Block} {m : Pairs} {lk : List Nat} {h : Heap} :
    TableD (· ∈ ([] : List Nat)) 0 hash base slots bits G m lk h ↔ Table hash base slots bits G m lk h := by
  have : (fun x : Nat => x ∈ ([] : List Nat)) = fun _ => False := by funext x; simp
  show TableD (fun x => x ∈ ([] : List Nat)) 0 hash base slots bits G m lk h ↔ _
  rw [this]; rfl

variable {hash : Bytes → Nat} {F : Fp} {base bits : Nat} {G : Nat → Option Block}

theorem lives_step {s : Damaged} {o : Op} {h : Heap} (hok : s.ok hash bits o) (hi : Lives hash base bits G s h) :
    wp (call hash F base o) (fun out h' => ∃ s', SpecD F s o out s' ∧ Lives hash base bits G s' h') h := by
  obtain ⟨m, dm⟩ := s
  obtain ⟨slots, off, lk, t, ho⟩ := hi
  obtain ⟨h1, h2, h3⟩ := hok
  simp only at t ho h1 h2 h3
  by_cases hk : o.keyed
  · refine wp_mono ?_ (stepD (F := F) o (m, lk) h hk h2 h1 t)
    rintro out h' ⟨s', ⟨e1, -⟩, e2⟩
    refine ⟨⟨s'.1, dm⟩, ⟨rfl, ?_⟩, slots, off, s'.2, e2, ho⟩
    rw [if_neg (by rintro ⟨rfl, -⟩; exact hk)]
    exact e1
  by_cases hd : dm = []
  · subst hd
    have := ho rfl
    subst this
    rw [tableD_nil] at t
    refine wp_mono ?_ (step (F := F) o (m, lk) h h1 t)
    rintro out h' ⟨s', ⟨e1, -⟩, e2⟩
    refine ⟨⟨s'.1, []⟩, ⟨rfl, ?_⟩, slots, 0, s'.2, tableD_nil.2 e2, fun _ => rfl⟩
    rw [if_neg (by rintro ⟨-, e⟩; exact e rfl)]
    exact e1
  cases o with
  | size =>
    obtain ⟨bk, r, hp, hn⟩ := id t
    obtain ⟨B0, b1, b2, -⟩ := r.b0
    show wp ((H.rd64 base 16).bind fun n => Prog.bind (.ret n) fun r => .ret (Ret.num r)) _ h
    refine wp_rd b1 (by omega) ?_
    refine ⟨⟨m, dm⟩, ⟨rfl, ?_⟩, slots, off, lk, t, ho⟩
    rw [if_pos ⟨rfl, hd⟩]
    exact ⟨rfl, _, rfl⟩
  | clear => exact absurd (h3 (Or.inl rfl)) hd
  | items => exact absurd (h3 (Or.inr rfl)) hd
  | insert | erase | incr | incrDouble | «at» | «exists» => exact absurd trivial hk

theorem ro_read (o : Op) (ht : o.target = none) (hc : o ≠ .clear) : HRo (call hash F base o) := by
  cases o with
  | size => exact HRo.bind (HRo.bind .rd fun _ => .ret) fun _ => .ret
  | «at» k =>
    refine HRo.bind (HRo.bind HashTable.ro_walkTables fun r => ?_) fun _ => .ret
    cases r with
    | none => exact .err
    | some l => exact HRo.bind .rdB fun _ => .ret
  | «exists» k => exact HRo.bind (HRo.bind HashTable.ro_walkTables fun _ => .ret) fun _ => .ret
  | items => exact HRo.bind ro_items fun _ => .ret
  | clear => exact absurd rfl hc
  | _ => cases ht

theorem cut_ro {α : Type} {p : HProg α} {P : Heap → Prop} {Q : Out α → Heap → Prop} {h : Heap} (hr : HRo p) (hw : wp p Q h) (hp : P h) : always p P h := by
  have h1 : pal P p (fun _ h' => h' = h) h := pal_ro hr
  exact h1.always hp hw

theorem pal_call {α : Type} {I : Heap → Prop} {p : HProg α} {f : α → Ret} {h : Heap} (hp : pal I p (fun _ _ => True) h) : pal I (p.bind fun a => .ret (f a)) (fun _ _ => True) h :=
  pal_bind_of hp (fun _ _ _ => trivial) (fun _ _ _ => trivial)

theorem call_incr (k : Bytes) (d : BitVec 64) : call hash F base (.incr k d) = (incr hash base k (intNum d)).bind fun r => .ret (.word r) := rfl
theorem call_incrDouble (k : Bytes) (d : BitVec 64) : call hash F base (.incrDouble k d) = (incr hash base k (dblNum F.add F.widen d)).bind fun r => .ret (.word r) := rfl
theorem call_insert (k v : Bytes) (c : Option Check) : call hash F base (.insert k v c) = (insert hash base k v c).bind fun r => .ret (.bool r) := rfl
theorem call_erase (k : Bytes) (c : Option Check) : call hash F base (.erase k c) = (erase hash base k c).bind fun r => .ret (.bool r) := rfl

attribute [local irreducible] pal call incr insert erase always in
theorem lives_cut {s : Damaged} {o : Op} {h : Heap} (hheap : HeapOk h) (hok : s.ok hash bits o) (hc : o ≠ .clear) (hi : Lives hash base bits G s h) :
    always (call hash F base o) (fun h' => Lives hash base bits G (lose hash bits s o) h') h := by
  have hw := lives_step (F := F) hok hi
  obtain ⟨m, dm⟩ := s
  obtain ⟨slots, off, lk, t, ho⟩ := hi
  obtain ⟨h1, h2, h3⟩ := hok
  simp only at t ho h1 h2 h3
  obtain ⟨bk, r, hp, hn⟩ := id t
  by_cases hidle : o.idle m
  · rw [lose_idle hidle]
    have still : pal (fun h' => h' = h) (call hash F base o) (fun _ _ => True) h → always (call hash F base o) (fun h' => Lives hash base bits G ⟨m, dm⟩ h') h := by
      intro hpal
      refine Lock.always_mono ?_ (pal.always (I := fun h' => h' = h) rfl hw hpal)
      rintro h' rfl
      exact ⟨slots, off, lk, t, ho⟩
    refine still ?_
    cases o with
    | insert k v c =>
      rw [call_insert]
      refine pal_call (pal_insert_idle r hp (fun c' hc => h2 c'.1 (by rw [hc]; simp [Op.args])) ?_)
      have h4 : ¬ passes m c := hidle
      rw [passes_iff] at h4
      simpa using h4
    | erase k c =>
      rw [call_erase]
      refine pal_call (pal_erase_idle r hp (h2 k (by simp [Op.args])) (fun c' hc => h2 c'.1 (by rw [hc]; simp [Op.args])) ?_)
      intro h4 h5
      exact hidle ⟨(passes_iff _ _).2 h4, h5⟩
    | _ => exact hidle.elim
  have fin : ∀ {k : Bytes}, o.target = some k → pal (Near h base slots bits (hash k % 2 ^ bits) (bk (hash k % 2 ^ bits)).foot) (call hash F base o) (fun _ _ => True) h →
      always (call hash F base o) (fun h' => Lives hash base bits G (lose hash bits ⟨m, dm⟩ o) h') h := by
    intro k hk hpal
    refine Lock.always_mono ?_ (hpal.always (Near.refl r _) hw)
    intro h' hnear
    obtain ⟨off', lk', t'⟩ := r.tableD_damage hp hn hnear
    unfold lose
    rw [hk]
    simp only [if_neg hidle]
    refine ⟨slots, off', lk', ?_, fun e => by cases e⟩
    have : (fun i => i ∈ (hash k % 2 ^ bits) :: dm) = fun i => i ∈ dm ∨ i = hash k % 2 ^ bits := by
      funext i; rw [List.mem_cons, or_comm]
    show TableD (fun i => i ∈ (hash k % 2 ^ bits) :: dm) off' hash base slots bits G _ lk' h'
    rw [this]
    exact t'
  cases o with
  | insert k v c => exact fin rfl (by rw [call_insert]; exact pal_call (pal_insert r (h2 k (by simp [Op.args])) c))
  | erase k c => exact fin rfl (by rw [call_erase]; exact pal_call (pal_erase r hheap (h2 k (by simp [Op.args])) c))
  | incr k d => exact fin rfl (by rw [call_incr]; exact pal_call (pal_incr r (h2 k (by simp [Op.args])) _))
  | incrDouble k d => exact fin rfl (by rw [call_incrDouble]; exact pal_call (pal_incr r (h2 k (by simp [Op.args])) _))
  | clear => exact absurd rfl hc
  | size => exact cut_ro (ro_read .size rfl hc) hw ⟨slots, off, lk, t, ho⟩
  | «at» k => exact cut_ro (ro_read (.at k) rfl hc) hw ⟨slots, off, lk, t, ho⟩
  | «exists» k => exact cut_ro (ro_read (.exists k) rfl hc) hw ⟨slots, off, lk, t, ho⟩
  | items => exact cut_ro (ro_read .items rfl hc) hw ⟨slots, off, lk, t, ho⟩

theorem perform_spec (l : List Act) : ∀ {s : Damaged} {h : Heap} {p : Pool}, May hash F bits s l → Lives hash base bits G s h → Sim h p →
    ∃ rs p' s' h', perform hash F base l p = (.ok rs, p') ∧ Right hash F bits s l rs s' ∧ Lives hash base bits G s' h' ∧ Sim h' p' := by
  induction l with
  | nil => exact fun _ hi hs => ⟨[], _, _, _, rfl, .nil _, hi, hs⟩
  | cons a l ih =>
    intro s h p hm hi hs
    cases a with
    | call o =>
      obtain ⟨hok, hm⟩ := hm
      have hw : wp (attempt (call hash F base o)) (fun out h' => ∃ r s', out = .ok r ∧ SpecD F s o r s' ∧ Lives hash base bits G s' h') h := by
        rw [wp_attempt]
        refine wp_mono ?_ (lives_step (F := F) hok hi)
        rintro out h' ⟨s', e1, e2⟩
        exact ⟨out, s', rfl, e1, e2⟩
      obtain ⟨out, p1, h1, hr, ⟨r, s1, rfl, e1, e2⟩, hs1⟩ := sim_run hw hs
      obtain ⟨rs, p2, s2, h2, f1, f2, f3, f4⟩ := ih (hm r s1 e1) e2 hs1
      refine ⟨some r :: rs, p2, s2, h2, ?_, .call e1 f2, f3, f4⟩
      unfold perform
      rw [hr]
      show andThen (some r) (perform hash F base l p1) = _
      rw [f1]; rfl
    | die o c =>
      obtain ⟨hok, hc, hm⟩ := hm
      obtain ⟨h1, e2, p1, hr, hs1⟩ := sim_crash (lives_step (F := F) hok hi) (lives_cut hs.heapOk hok hc hi) hs c
      obtain ⟨rs, p2, s2, h2, f1, f2, f3, f4⟩ := ih hm e2 hs1
      refine ⟨none :: rs, p2, s2, h2, ?_, .die f2, f3, f4⟩
      unfold perform
      rw [hr]
      show andThen none (perform hash F base l p1) = _
      rw [f1]; rfl

end HashTable

namespace HT
/-- a condition on the actions alone under which every call may be made: no erase and no incr (whose conditions depend on the pairs), and `dm` are the slots given up so far -/
def Calm (hash : Bytes → Nat) (bits : Nat) : List Nat → List Act → Prop
  | _, [] => True
  | dm, .call o :: l => o.free ∧ (∀ k ∈ o.args, hash k % 2 ^ bits ∉ dm) ∧ (o = .clear ∨ o = .items → dm = []) ∧ Calm hash bits dm l
  | dm, .die o _ :: l => o.free ∧ (∀ k ∈ o.args, hash k % 2 ^ bits ∉ dm) ∧ (o = .items → dm = []) ∧ o ≠ .clear ∧
      Calm hash bits (match o.target with | none => dm | some k => (hash k % 2 ^ bits) :: dm) l

instance (o : Op) : Decidable o.free := by
  cases o <;> simp only [Op.free] <;> infer_instance

instance Calm.dec (hash : Bytes → Nat) (bits : Nat) : ∀ (dm : List Nat) (l : List Act), Decidable (Calm hash bits dm l)
  | _, [] => .isTrue trivial
  | dm, .call o :: l =>
    have := Calm.dec hash bits dm l
    inferInstanceAs (Decidable (o.free ∧ (∀ k ∈ o.args, hash k % 2 ^ bits ∉ dm) ∧ (o = .clear ∨ o = .items → dm = []) ∧ Calm hash bits dm l))
  | dm, .die o _ :: l =>
    have := Calm.dec hash bits (match o.target with | none => dm | some k => (hash k % 2 ^ bits) :: dm) l
    inferInstanceAs (Decidable (o.free ∧ (∀ k ∈ o.args, hash k % 2 ^ bits ∉ dm) ∧ (o = .items → dm = []) ∧ o ≠ .clear ∧
      Calm hash bits (match o.target with | none => dm | some k => (hash k % 2 ^ bits) :: dm) l))

theorem Calm.mono {hash : Bytes → Nat} {bits : Nat} {l : List Act} : ∀ {dm dm' : List Nat}, (∀ x ∈ dm', x ∈ dm) → Calm hash bits dm l → Calm hash bits dm' l := by
  induction l with
  | nil => exact fun _ _ => trivial
  | cons a l ih =>
    intro dm dm' hs h
    have hn : dm = [] → dm' = [] := by
      rintro rfl
      cases dm' with
      | nil => rfl
      | cons x t => cases hs x List.mem_cons_self
    cases a with
    | call o =>
      obtain ⟨h1, h2, h3, h4⟩ := h
      exact ⟨h1, fun k hk hx => h2 k hk (hs _ hx), fun e => hn (h3 e), ih hs h4⟩
    | die o c =>
      obtain ⟨h1, h2, h3, h4, h5⟩ := h
      refine ⟨h1, fun k hk hx => h2 k hk (hs _ hx), fun e => hn (h3 e), h4, ih ?_ h5⟩
      cases o.target with
      | none => exact hs
      | some k =>
        intro x hx
        rcases List.mem_cons.1 hx with rfl | hx
        · exact List.mem_cons_self
        · exact List.mem_cons_of_mem _ (hs _ hx)

theorem Calm.may {hash : Bytes → Nat} {F : Fp} {bits : Nat} {l : List Act} : ∀ {s : Damaged}, Calm hash bits s.dm l → May hash F bits s l := by
  induction l with
  | nil => exact fun _ => trivial
  | cons a l ih =>
    intro s h
    cases a with
    | call o =>
      obtain ⟨h1, h2, h3, h4⟩ := h
      exact ⟨⟨h1.ok, h2, h3⟩, fun r s' hs => ih (by rw [hs.1]; exact h4)⟩
    | die o c =>
      obtain ⟨h1, h2, h3, h4, h5⟩ := h
      refine ⟨⟨h1.ok, h2, fun h => h.elim (fun h => absurd h h4) h3⟩, h4, ih ?_⟩
      refine Calm.mono ?_ h5
      unfold lose
      cases ht : o.target with
      | none => exact fun _ h => h
      | some k =>
        simp only
        split
        · exact fun x hx => List.mem_cons_of_mem _ hx
        · exact fun _ h => h

/-- the pairs in the other slots are kept by a death -/
theorem get_lose {hash : Bytes → Nat} {bits : Nat} {s : Damaged} {o : Op} {k' : Bytes} (h : ∀ k, o.target = some k → hash k' % 2 ^ bits ≠ hash k % 2 ^ bits ∨ o.idle s.m) :
    get (lose hash bits s o).m k' = get s.m k' := by
  unfold lose
  cases hk : o.target with
  | none => rfl
  | some k =>
    by_cases hi : o.idle s.m
    · simp only [if_pos hi]
    simp only [if_neg hi]
    have h := (h k hk).resolve_right hi
    generalize s.m = m
    induction m with
    | nil => rfl
    | cons e m ih =>
      obtain ⟨a, v⟩ := e
      by_cases he : a = k'
      · subst he
        rw [List.filter_cons_of_pos (by simpa using h)]
        simp [HashTable.get]
      · by_cases hf : hash a % 2 ^ bits ≠ hash k % 2 ^ bits
        · rw [List.filter_cons_of_pos (by simpa using hf)]
          simp [HashTable.get, he] at ih ⊢
          exact ih
        · rw [List.filter_cons_of_neg (by simpa using hf)]
          simp [HashTable.get, he] at ih ⊢
          exact ih
end HT

/-- **C74.** In a pool with any history of SimpleAllocator calls, a new hash table is used by processes of which any number die, each at any point of any call except clear (inside the
allocator too), and after each death the allocator is repaired by the next process that takes the lock.  Every call that returns, and that is neither given a key in the slot of a key in
whose call a process died (a call that would not have returned false: one whose check fails or that erases an absent key loses nothing) nor a clear or an iteration after such a death, answers as on the map of the pairs in the other slots; only size() may then be wrong.  No action faults, and
none touches the bytes of blocks that other clients hold.  Calls made on the slots given up, and clear and iterations after a death, are false by `C74_needed`. -/
theorem C74_contained (hash : Bytes → Nat) (F : Fp) (bits : Nat) (hb : 2 ≤ bits) (hb2 : bits < 31)
    {p0 p : Pool} {live lk : List (Nat × Nat)} {ex : Bool} (h : Hist p0 p live lk ex) :
    (∃ p1, run (compile (HashTable.create bits)) p = (.err .noMem, p1)) ∨
    ∃ b p1, run (compile (HashTable.create bits)) p = (.ok b, p1) ∧ ∀ acts : List Act, May hash F bits ⟨[], []⟩ acts →
      ∃ rs p2 s, HashTable.perform hash F b acts p1 = (.ok rs, p2) ∧ Right hash F bits ⟨[], []⟩ acts rs s ∧
        ∀ o n, (o, n) ∈ live → ∀ i, i < n → p2.mem (o + i) = p.mem (o + i) := by
  obtain ⟨hp, hs, hl⟩ := h.sim
  obtain ⟨out, p1, h1, hr, hq, hs1⟩ := sim_run (HashTable.create_spec (hash := hash) hp hb hb2) hs
  rcases hq with ⟨rfl, -⟩ | ⟨b, sl, rfl, -, ht⟩
  · exact Or.inl ⟨p1, hr⟩
  · refine Or.inr ⟨b, p1, hr, ?_⟩
    intro acts hm
    obtain ⟨rs, p2, s2, h2, e1, e2, ⟨sl2, off2, lk2, ⟨bk, r, -⟩, -⟩, L2, hS2, hh2⟩ := HashTable.perform_spec acts hm ⟨sl, 0, [], HashTable.tableD_nil.2 ht, fun _ => rfl⟩ hs1
    refine ⟨rs, p2, s2, e1, e2, ?_⟩
    intro o n hm i hi
    obtain ⟨B, hB, rfl, hd⟩ := hl o n hm
    have hfr := r.frame o
    rw [hB] at hfr
    split at hfr
    · cases hfr
    · rw [(hh2.blk o B hfr.symm).2.2 i hi, hd i]

/-- **C74, for one death.** After any calls on a new table, a process dies anywhere in a call `o` (not clear) and then `at k'` is called, where `k'` is in another slot than the key of `o`, or `o` would have returned false:
it answers as it would have before `o`. -/
theorem C74_at_after (hash : Bytes → Nat) (F : Fp) (bits : Nat) (hb : 2 ≤ bits) (hb2 : bits < 31)
    {p0 p : Pool} {live lk : List (Nat × Nat)} {ex : Bool} (h : Hist p0 p live lk ex) {b : Nat} {p1 : Pool} (hc : run (compile (HashTable.create bits)) p = (.ok b, p1))
    {ops : List Op} (hg : Guarded (Spec F) (Op.ok hash bits) [] ops) {rs : List (Out Ret)} {p2 : Pool} (hr : run (compile (hist (HashTable.call hash F b) ops)) p1 = (.ok rs, p2))
    {o : Op} (ho : o ≠ .clear) (hok : ∀ m, Trace (Spec F) [] ops rs m → o.ok hash bits m) (c : Nat) {k' : Bytes}
    (hk : ∀ k, o.target = some k → hash k' % 2 ^ bits ≠ hash k % 2 ^ bits ∨ ∀ m, Trace (Spec F) [] ops rs m → o.idle m) :
    ∃ p3 r p4 p5, run Simple.repair (crashAt c (compile (HashTable.call hash F b o)) p2) = (.ok (), p3) ∧
      run (compile (attempt (HashTable.call hash F b (.at k')))) p3 = (.ok r, p4) ∧
      run (compile (attempt (HashTable.call hash F b (.at k')))) p2 = (.ok r, p5) := by
  obtain ⟨hp, hs, hl⟩ := h.sim
  obtain ⟨out, q1, h1, hr1, hq, hs1⟩ := sim_run (HashTable.create_spec (hash := hash) hp hb hb2) hs
  rw [hc] at hr1
  obtain ⟨e1, rfl⟩ := Prod.mk.inj hr1
  rcases hq with ⟨rfl, -⟩ | ⟨b', sl, rfl, -, ht⟩
  · cases e1
  injection e1 with e1; subst e1
  obtain ⟨out, q2, h2, hr2, ⟨rs', m, lk', rfl, tr, -, t2⟩, hs2⟩ := sim_run (HashTable.history ops hg ht) hs1
  rw [hr] at hr2
  obtain ⟨er, rfl⟩ := Prod.mk.inj hr2
  injection er with er; subst er
  have hi : HashTable.Lives hash b bits hp.blk ⟨m, []⟩ h2 := ⟨sl, 0, _, HashTable.tableD_nil.2 t2, fun _ => rfl⟩
  have hook : Damaged.ok hash bits ⟨m, []⟩ o := ⟨hok m tr, (fun _ _ h => by cases h), fun _ => rfl⟩
  obtain ⟨h3, hi3, p3, hr3, hs3⟩ := sim_crash (HashTable.lives_step (F := F) hook hi) (HashTable.lives_cut hs2.heapOk hook ho hi) hs2 c
  have key : ∀ {s : Damaged} {h : Heap} {q : Pool}, HashTable.Lives hash b bits hp.blk s h → Sim h q → hash k' % 2 ^ bits ∉ s.dm →
      ∃ q', run (compile (attempt (HashTable.call hash F b (.at k')))) q = (.ok (match get s.m k' with | some v => .ok (.str v) | none => .err .outOfRange), q') := by
    intro s h q hi hs hn
    have hw := HashTable.lives_step (F := F) (o := .at k') ⟨trivial, by intro k hk; simp [Op.args] at hk; rw [hk]; exact hn, by rintro (h | h) <;> cases h⟩ hi
    have hw' : wp (attempt (HashTable.call hash F b (.at k'))) (fun out _ => out = .ok (match get s.m k' with | some v => .ok (.str v) | none => .err .outOfRange)) h := by
      rw [wp_attempt]
      refine wp_mono ?_ hw
      rintro out h' ⟨s', ⟨-, e1⟩, -⟩
      rw [if_neg (by rintro ⟨h, -⟩; cases h)] at e1
      exact congrArg Out.ok e1.2
    obtain ⟨out, q', -, hr, rfl, -⟩ := sim_run hw' hs
    exact ⟨q', hr⟩
  obtain ⟨p4, hr4⟩ := key hi3 hs3 (by
    unfold lose
    cases ht : o.target with
    | none => simp
    | some k =>
      simp only
      split
      · simp
      · next hni => simpa using (hk k ht).resolve_right fun h1 => hni (h1 m tr))
  obtain ⟨p5, hr5⟩ := key hi hs2 (by simp)
  rw [get_lose fun k h1 => (hk k h1).imp id fun h2 => h2 m tr] at hr4
  exact ⟨p3, _, p4, p5, hr3, hr4, hr5⟩

/-- the hypotheses of `C74_contained` and `C74_at_after` are met: the death of a process that replaces the value of [0], and a call on [1] -/
example : ∃ rs p2, run (compile (hist (HashTable.call HashTable.fnv1a64 noFp 344) [.insert [0] [10] none, .insert [1] [20] none])) (htPool 0) = (.ok rs, p2) ∧
    run (compile (HashTable.create 2)) (run Simple.init (newPool 0)).2 = (.ok 344, htPool 0) ∧
    Hist (newPool 0) (run Simple.init (newPool 0)).2 [] [] true ∧
    Guarded (Spec noFp) (Op.ok HashTable.fnv1a64 2) [] [.insert [0] [10] none, .insert [1] [20] none] ∧
    (∀ m, Trace (Spec noFp) [] [.insert [0] [10] none, .insert [1] [20] none] rs m → (Op.insert [0] [1, 2] none).ok HashTable.fnv1a64 2 m) ∧
    (∀ k, (Op.insert [0] [1, 2] none).target = some k → HashTable.fnv1a64 [1] % 2 ^ 2 ≠ HashTable.fnv1a64 k % 2 ^ 2) := by
  refine ⟨[.ok (.bool true), .ok (.bool true)], _, run_eta (by decide +kernel), run_eta (by decide +kernel), .start (newPool_geo 0) (by decide +kernel) (run_eta (by decide +kernel)),
    Guarded.of_all (fun o ho m => ?_) _, fun _ _ => ?_, ?_⟩
  · simp at ho
    rcases ho with rfl | rfl <;> simp [Op.ok]
  · simp [Op.ok]
  · intro k hk
    injection hk with hk
    subst hk
    decide +kernel

/-- a table of 4 slots on which a process died in the middle of replacing the value of [0] (after 45 accesses: the old block is freed, its offset is still in the slot), and later one in the
middle of an insert of [5], goes on to serve the keys of the other slots; these actions satisfy the condition of `C74_contained` -/
example : (HashTable.perform HashTable.fnv1a64 noFp 344 [.call (.insert [0] [10] none), .call (.insert [1] [20] none), .die (.insert [0] [1, 2, 3, 4, 5, 6, 7, 8, 9] none) 45,
      .call (.at [1]), .call (.insert [2] [3] (some ([1], some [20]))), .die (.insert [3] [4] none) 12, .call (.exists [2]), .call (.at [9])] (htPool 0)).1 =
      .ok [some (.ok (.bool true)), some (.ok (.bool true)), none, some (.ok (.str [20])), some (.ok (.bool true)), none, some (.ok (.bool true)), some (.err .outOfRange)] ∧
    May HashTable.fnv1a64 noFp 2 ⟨[], []⟩ [.call (.insert [0] [10] none), .call (.insert [1] [20] none), .die (.insert [0] [1, 2, 3, 4, 5, 6, 7, 8, 9] none) 45,
      .call (.at [1]), .call (.insert [2] [3] (some ([1], some [20]))), .die (.insert [3] [4] none) 12, .call (.exists [2]), .call (.at [9])] := by
  refine ⟨by decide +kernel, Calm.may (by decide +kernel)⟩

/-- the deaths in an insert whose check fails and in an erase of an absent key lose nothing: the keys of their slots are served as before -/
example : (HashTable.perform HashTable.fnv1a64 noFp 344 [.call (.insert [0] [10] none), .die (.insert [0] [11] (some ([1], some [20]))) 7, .call (.at [0]), .die (.erase [4] none) 5, .call .items, .call .size] (htPool 0)).1 =
      .ok [some (.ok (.bool true)), none, some (.ok (.str [10])), none, some (.ok (.list [([0], [10])])), some (.ok (.num 1))] ∧
    (Op.insert [0] [11] (some ([1], some [20]))).idle [([0], [10])] ∧ (Op.erase [4] none).idle [([0], [10])] := by
  refine ⟨by decide +kernel, by decide +kernel, by decide +kernel⟩

/-- **The condition of C74 is needed.** After a death in the middle of an erase of [0] (the block is freed, its offset is still in the slot), a new key's block is put in its place: the slot
given up now holds [1] too, which is in another slot; an iteration returns it twice, and size is one too large.  Without the death, all is well. -/
theorem C74_needed : (HashTable.perform HashTable.fnv1a64 noFp 344 [.call (.insert [0] [10] none), .die (.erase [0] none) 17, .call (.insert [1] [20] none), .call .items, .call .size] (htPool 0)).1 =
      .ok [some (.ok (.bool true)), none, some (.ok (.bool true)), some (.ok (.list [([1], [20]), ([1], [20])])), some (.ok (.num 2))] ∧
    (HashTable.perform HashTable.fnv1a64 noFp 344 [.call (.insert [0] [10] none), .call (.erase [0] none), .call (.insert [1] [20] none), .call .items, .call .size] (htPool 0)).1 =
      .ok [some (.ok (.bool true)), some (.ok (.bool true)), some (.ok (.bool true)), some (.ok (.list [([1], [20])])), some (.ok (.num 1))] := by
  decide +kernel

end Verif
