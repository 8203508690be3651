import Verif.Frame
import Verif.OpeningStays
import Verif.Sim
import Verif.PropsCrash
/-
C75: any number of structures in one pool.
-/
namespace Verif
open Opening Heap

/-- a kind of structure: its methods, and what they do.  `create` is the constructor that takes only an allocator; `Cut s o s'` says in what state a death in the call `o` may leave the structure
(`none`: in none that may be used any more). -/
structure Kind where
  Op : Type
  Ret : Type
  St : Type
  create : HProg Nat
  call : Nat → Op → HProg Ret
  new : St
  ok : St → Op → Prop
  Spec : St → Op → Out Ret → St → Prop
  Cut : St → Op → Option St → Prop

/-- what has been proved of a kind of structure that is alone on a heap -/
structure Kind.Laws (K : Kind) (Inv : Nat → K.St → Heap → Prop) : Prop where
  make : ∀ h, (∀ x, h.blk x = none) → wp K.create (fun out h' => out = .err .noMem ∨ ∃ b, out = .ok b ∧ Inv b K.new h') h
  makeStays : Stays K.create
  step : ∀ b s o h, HeapOk h → K.ok s o → Inv b s h → wp (K.call b o) (fun out h' => ∃ s', K.Spec s o out s' ∧ Inv b s' h') h
  stays : ∀ b o, Stays (K.call b o)
  cut : ∀ b s o h, HeapOk h → K.ok s o → Inv b s h → always (K.call b o) (fun h' => ∃ s', K.Cut s o s' ∧ ∀ s1, s' = some s1 → HeapOk h' → Inv b s1 h') h

namespace Many
variable {ι : Type} (K : ι → Kind)

/-- what happens in the pool: a structure is made; a method of the structure number `n`, which is of kind `i`, is called; a process dies in such a call, or making a structure,
after `c` accesses to the pool, and the next process that takes the lock repairs the allocator -/
inductive Act
  | make (i : ι)
  | call (n : Nat) (i : ι) (o : (K i).Op)
  | die (n : Nat) (i : ι) (o : (K i).Op) (c : Nat)
  | dieMaking (i : ι) (c : Nat)

/-- the answer to each: the offset of the structure that was made (none if there was no memory for it); what the method returned or threw; nothing -/
inductive Ans
  | made (b : Option Nat)
  | ret (i : ι) (r : Out (K i).Ret)
  | died

/-- a structure: its kind and its state, none if it cannot be used -/
abbrev Entry := (i : ι) × Option (K i).St

/-- the effect of each on the structures, numbered in the order in which they were made: a call changes the one it is made on, as it would if that were alone -/
inductive Steps : List (Entry K) → Act K → Ans K → List (Entry K) → Prop
  | made (es i b) : Steps es (.make i) (.made (some b)) (es ++ [⟨i, some (K i).new⟩])
  | full (es i) : Steps es (.make i) (.made none) (es ++ [⟨i, none⟩])
  | call {es n i o s r s'} : es[n]? = some ⟨i, some s⟩ → (K i).Spec s o r s' → Steps es (.call n i o) (.ret i r) (es.set n ⟨i, some s'⟩)
  | die {es n i o c s s'} : es[n]? = some ⟨i, some s⟩ → (K i).Cut s o s' → Steps es (.die n i o c) .died (es.set n ⟨i, s'⟩)
  | dieMaking (es i c) : Steps es (.dieMaking i c) .died (es ++ [⟨i, none⟩])

/-- calls are made on structures that can be used, under the conditions of their kind -/
def Act.ok (es : List (Entry K)) : Act K → Prop
  | .make _ => True
  | .dieMaking _ _ => True
  | .call n i o => ∃ s, es[n]? = some ⟨i, some s⟩ ∧ (K i).ok s o
  | .die n i o _ => ∃ s, es[n]? = some ⟨i, some s⟩ ∧ (K i).ok s o

/-- the clients of the pool, taken together: what happens next depends on the answers so far (a client goes on only with structures that could be made, and frees the blocks it was given) -/
inductive Client
  | done
  | act (a : Act K) (next : Ans K → Client)

/-- every call may be made when it is made -/
def May : List (Entry K) → Client K → Prop
  | _, .done => True
  | es, .act a next => a.ok K es ∧ ∀ r es', Steps K es a r es' → May es' (next r)

/-- what has happened -/
abbrev Log := List (Act K × Ans K)

/-- what has happened is what the clients do, and the answers are right -/
inductive Right : List (Entry K) → Client K → Log K → List (Entry K) → Prop
  | done (es) : Right es .done [] es
  | act {es a next r es1 l es2} : Steps K es a r es1 → Right es1 (next r) l es2 → Right es (.act a next) ((a, r) :: l) es2

/-- put an entry before the others -/
def andThen (e : Act K × Ans K) : Res (Log K) × Pool → Res (Log K) × Pool
  | (.ok l, p) => (.ok (e :: l), p)
  | (.err e, p) => (.err e, p)
  | (.ub, p) => (.ub, p)

/-- carry out what the clients do on the bytes of the pool; `bs` are the offsets of the structures made so far -/
def perform : Client K → List Nat → Pool → Res (Log K) × Pool
  | .done, _, p => (.ok [], p)
  | .act (.make i) next, bs, p =>
    match run (compile (attempt (K i).create)) p with
    | (.ok (.ok b), p') => andThen K (.make i, .made (some b)) (perform (next (.made (some b))) (bs ++ [b]) p')
    | (.ok (.err _), p') => andThen K (.make i, .made none) (perform (next (.made none)) (bs ++ [0]) p')
    | (.err e, p') => (.err e, p')
    | (.ub, p') => (.ub, p')
  | .act (.call n i o) next, bs, p =>
    match run (compile (attempt ((K i).call (bs.getD n 0) o))) p with
    | (.ok r, p') => andThen K (.call n i o, .ret i r) (perform (next (.ret i r)) bs p')
    | (.err e, p') => (.err e, p')
    | (.ub, p') => (.ub, p')
  | .act (.die n i o c) next, bs, p =>
    match run Simple.repair (crashAt c (compile ((K i).call (bs.getD n 0) o)) p) with
    | (.ok _, p') => andThen K (.die n i o c, .died) (perform (next .died) bs p')
    | (.err e, p') => (.err e, p')
    | (.ub, p') => (.ub, p')
  | .act (.dieMaking i c) next, bs, p =>
    match run Simple.repair (crashAt c (compile (K i).create) p) with
    | (.ok _, p') => andThen K (.dieMaking i c, .died) (perform (next .died) (bs ++ [0]) p')
    | (.err e, p') => (.err e, p')
    | (.ub, p') => (.ub, p')

/-! ### who owns which block -/

/-- the blocks of structure `n` -/
def part (h : Heap) (own : Nat → Option Nat) (n : Nat) : Heap := ⟨fun x => if own x = some n then h.blk x else none, h.base⟩
/-- the blocks that are not those of structure `n` -/
def rest (h : Heap) (own : Nat → Option Nat) (n : Nat) (x : Nat) : Option Block := if own x = some n then none else h.blk x
/-- the owners when structure `n` has the blocks `hs` -/
def owners (own : Nat → Option Nat) (n : Nat) (hs : Heap) (x : Nat) : Option Nat :=
  if (hs.blk x).isSome then some n else if own x = some n then none else own x

theorem part_join (h : Heap) (own : Nat → Option Nat) (n : Nat) : (part h own n).join (rest h own n) = h := by
  obtain ⟨blk, base⟩ := h
  simp only [part, rest, join]
  congr 1
  funext x
  split <;> simp

theorem part_apart (h : Heap) (own : Nat → Option Nat) (n : Nat) : (part h own n).Apart (rest h own n) := by
  intro x B hx
  simp only [part] at hx
  simp only [rest]
  split at hx
  · rename_i e; rw [if_pos e]
  · cases hx

theorem owners_some {own : Nat → Option Nat} {n x : Nat} {hs : Heap} {B : Block} (hx : hs.blk x = some B) : owners own n hs x = some n := by
  unfold owners; rw [if_pos (by rw [hx]; rfl)]
theorem owners_none {own : Nat → Option Nat} {n x : Nat} {hs : Heap} (hx : hs.blk x = none) : owners own n hs x = if own x = some n then none else own x := by
  unfold owners; rw [if_neg (by rw [hx]; simp)]

theorem part_new {h : Heap} {own : Nat → Option Nat} {n : Nat} {hs : Heap} : part (hs.join (rest h own n)) (owners own n hs) n = hs := by
  have key : (fun x => if owners own n hs x = some n then (hs.join (rest h own n)).blk x else none) = hs.blk := by
    funext x
    rcases Option.eq_none_or_eq_some (hs.blk x) with hx | ⟨B, hx⟩
    · rw [owners_none hx, hx]
      by_cases e : own x = some n
      · rw [if_pos e, if_neg (by simp)]
      · rw [if_neg e, if_neg e]
    · rw [owners_some hx, if_pos rfl, hx, join_some hx]
  unfold part
  rw [key]
  rfl

theorem part_other {h : Heap} {own : Nat → Option Nat} {n j : Nat} {hs : Heap} (ha : hs.Apart (rest h own n)) (hb : hs.base = h.base) (hj : j ≠ n) :
    part (hs.join (rest h own n)) (owners own n hs) j = part h own j := by
  have key : (fun x => if owners own n hs x = some j then (hs.join (rest h own n)).blk x else none) = fun x => if own x = some j then h.blk x else none := by
    funext x
    rcases Option.eq_none_or_eq_some (hs.blk x) with hx | ⟨B, hx⟩
    · rw [owners_none hx]
      by_cases e : own x = some n
      · rw [if_pos e, if_neg (by simp), if_neg (by rw [e]; intro e; injection e with e; exact hj e.symm)]
      · rw [if_neg e]
        simp only [join, hx, Option.none_or, rest, if_neg e]
    · have hr := ha x B hx
      unfold rest at hr
      rw [owners_some hx, if_neg (by intro e; injection e with e; exact hj e.symm)]
      by_cases e : own x = some j
      · rw [if_neg (by rw [e]; intro e; injection e with e; exact hj e)] at hr
        rw [if_pos e, hr]
      · rw [if_neg e]
  unfold part
  rw [key]
  show Heap.mk _ hs.base = _
  rw [hb]

theorem part_empty {h : Heap} {own : Nat → Option Nat} {n : Nat} (hn : ∀ x, own x ≠ some n) (x : Nat) : (part h own n).blk x = none := by
  simp only [part]
  rw [if_neg (hn x)]

theorem part_ok {h : Heap} (hk : HeapOk h) (own : Nat → Option Nat) (n : Nat) : HeapOk (part h own n) := by
  have key : ∀ x B, (part h own n).blk x = some B → h.blk x = some B := by
    intro x B hx
    simp only [part] at hx
    split at hx
    · exact hx
    · cases hx
  exact ⟨fun x y B C hx hy => hk.disj x y B C (key x B hx) (key y C hy), fun x B hx => hk.lt x B (key x B hx)⟩

/-- the offsets of the structures that were made -/
def bases {ι : Type} {K : ι → Kind} : Log K → List Nat
  | [] => []
  | (.make _, .made b) :: l => b.getD 0 :: bases l
  | (.dieMaking _ _, _) :: l => 0 :: bases l
  | _ :: l => bases l

variable {K} {Inv : (i : ι) → Nat → (K i).St → Heap → Prop} {G : Nat → Option Block}

/-- the pool holds these structures, and besides them the blocks `G` -/
structure Good (Inv : (i : ι) → Nat → (K i).St → Heap → Prop) (G : Nat → Option Block) (es : List (Entry K)) (bs : List Nat) (own : Nat → Option Nat) (h : Heap) : Prop where
  len : bs.length = es.length
  inv : ∀ n i s, es[n]? = some ⟨i, some s⟩ → Inv i (bs.getD n 0) s (part h own n)
  lt : ∀ x n, own x = some n → n < es.length
  others : ∀ x B, G x = some B → own x = none ∧ h.blk x = some B

theorem Good.keep {es : List (Entry K)} {bs : List Nat} {own : Nat → Option Nat} {h hs : Heap} {n : Nat} (g : Good Inv G es bs own h) (ha : hs.Apart (rest h own n)) :
    ∀ x B, G x = some B → owners own n hs x = none ∧ (hs.join (rest h own n)).blk x = some B := by
  intro x B hx
  obtain ⟨h1, h2⟩ := g.others x B hx
  have h3 : rest h own n x = some B := by simp only [rest, h1]; rw [if_neg (by simp), h2]
  have h4 : hs.blk x = none := by
    cases hc : hs.blk x with
    | none => rfl
    | some C => rw [ha x C hc] at h3; cases h3
  refine ⟨?_, ?_⟩
  · simp [owners, h4, h1]
  · simp [join, h4, h3]

/-- structure `n` has been worked on -/
theorem Good.set {es : List (Entry K)} {bs : List Nat} {own : Nat → Option Nat} {h hs : Heap} {n : Nat} {i : ι} {s' : Option (K i).St} (g : Good Inv G es bs own h) (hn : n < es.length)
    (ha : hs.Apart (rest h own n)) (hb : hs.base = h.base) (hi : ∀ s, s' = some s → Inv i (bs.getD n 0) s hs) :
    Good Inv G (es.set n ⟨i, s'⟩) bs (owners own n hs) (hs.join (rest h own n)) := by
  refine ⟨by rw [List.length_set]; exact g.len, ?_, ?_, g.keep ha⟩
  · intro m j s hm
    by_cases e : m = n
    · subst e
      rw [List.getElem?_set_self hn] at hm
      injection hm with hm
      injection hm with e1 e2
      subst e1
      rw [part_new]
      exact hi s (eq_of_heq e2)
    · rw [List.getElem?_set_ne (Ne.symm e)] at hm
      rw [part_other ha hb e]
      exact g.inv m j s hm
  · intro x m hm
    rw [List.length_set]
    simp only [owners] at hm
    split at hm
    · injection hm with hm; omega
    · split at hm
      · cases hm
      · exact g.lt x m hm

/-- a structure has been added -/
theorem Good.add {es : List (Entry K)} {bs : List Nat} {own : Nat → Option Nat} {h hs : Heap} {b : Nat} {i : ι} {s' : Option (K i).St} (g : Good Inv G es bs own h)
    (ha : hs.Apart (rest h own es.length)) (hb : hs.base = h.base) (hi : ∀ s, s' = some s → Inv i b s hs) :
    Good Inv G (es ++ [⟨i, s'⟩]) (bs ++ [b]) (owners own es.length hs) (hs.join (rest h own es.length)) := by
  refine ⟨by simp [g.len], ?_, ?_, g.keep ha⟩
  · intro m j s hm
    by_cases e : m = es.length
    · subst e
      rw [List.getElem?_concat_length] at hm
      injection hm with hm
      injection hm with e1 e2
      subst e1
      rw [part_new]
      have : (bs ++ [b]).getD es.length 0 = b := by rw [← g.len]; simp [List.getD]
      rw [this]
      exact hi s (eq_of_heq e2)
    · have hlt : m < es.length := by
        have := (List.getElem?_eq_some_iff.1 hm).1
        simp at this; omega
      rw [List.getElem?_append_left hlt] at hm
      rw [part_other ha hb e]
      have : (bs ++ [b]).getD m 0 = bs.getD m 0 := by
        simp only [List.getD]
        rw [List.getElem?_append_left (by rw [g.len]; exact hlt)]
      rw [this]
      exact g.inv m j s hm
  · intro x m hm
    simp only [owners] at hm
    rw [List.length_append]
    split at hm
    · injection hm with hm; simp; omega
    · split at hm
      · cases hm
      · have := g.lt x m hm; simp; omega

/-- a program that works on the blocks of structure `n` -/
theorem wp_part {α : Type} {p : HProg α} {Q : Out α → Heap → Prop} {h : Heap} (own : Nat → Option Nat) (n : Nat) (hs : Stays p) (hw : wp p Q (part h own n)) :
    wp p (fun out h' => ∃ hs', Q out hs' ∧ hs'.base = h.base ∧ h' = hs'.join (rest h own n) ∧ hs'.Apart (rest h own n)) h := by
  have := wp_frame (part_apart h own n) (hs.wp hw)
  rw [part_join] at this
  refine wp_mono ?_ this
  rintro out h' ⟨hs', ⟨h1, h2⟩, h3, h4⟩
  exact ⟨hs', h1, h2, h3, h4⟩

theorem always_part {α : Type} {p : HProg α} {I : Heap → Prop} {h : Heap} (own : Nat → Option Nat) (n : Nat) (hs : Stays p) (hw : always p I (part h own n)) :
    always p (fun h' => ∃ hs', I hs' ∧ hs'.base = h.base ∧ h' = hs'.join (rest h own n) ∧ hs'.Apart (rest h own n)) h := by
  have := always_frame (part_apart h own n) (hs.always hw)
  rw [part_join] at this
  refine Lock.always_mono ?_ this
  rintro h' ⟨hs', ⟨h1, h2⟩, h3, h4⟩
  exact ⟨hs', h1, h2, h3, h4⟩

attribute [local irreducible] run compile crashAt wp always attempt in
theorem perform_spec (hK : ∀ i, (K i).Laws (Inv i)) (c : Client K) : ∀ {es : List (Entry K)} {bs : List Nat} {own : Nat → Option Nat} {h : Heap} {p : Pool}, May K es c → Good Inv G es bs own h → Sim h p →
    ∃ rs p' es' own' h', perform K c bs p = (.ok rs, p') ∧ Right K es c rs es' ∧ Good Inv G es' (bs ++ bases rs) own' h' ∧ Sim h' p' := by
  induction c with
  | done => exact fun _ hg hs => ⟨[], _, _, _, _, rfl, .done _, by rw [bases, List.append_nil]; exact hg, hs⟩
  | act a next ih =>
    intro es bs own h p hm hg hs
    obtain ⟨hok, hm⟩ := hm
    have hH := hs.heapOk
    have hne : ∀ x, own x ≠ some es.length := fun x e => Nat.lt_irrefl _ (hg.lt x _ e)
    cases a with
    | make i =>
      have hw := wp_part own es.length (hK i).makeStays ((hK i).make (part h own es.length) (part_empty hne))
      have hw' : wp (attempt (K i).create) (fun out h' => ∃ r, out = .ok r ∧ ∃ hs', (r = .err .noMem ∨ ∃ b, r = .ok b ∧ Inv i b (K i).new hs') ∧ hs'.base = h.base ∧
          h' = hs'.join (rest h own es.length) ∧ hs'.Apart (rest h own es.length)) h := by
        rw [wp_attempt]
        exact wp_mono (fun out h' h => ⟨out, rfl, h⟩) hw
      obtain ⟨out, p1, h1, hr, ⟨r, rfl, hs', hq, hb, rfl, ha⟩, hs1⟩ := sim_run hw' hs
      rcases hq with rfl | ⟨b, rfl, hi⟩
      · obtain ⟨rs, p2, es2, own2, h2, f1, f2, f3, f4⟩ := ih _ (hm _ _ (.full es i)) (hg.add (b := 0) (i := i) (s' := none) ha hb (fun s e => by cases e)) hs1
        refine ⟨_, p2, es2, own2, h2, ?_, .act (.full es i) f2, by rw [List.append_assoc] at f3; exact f3, f4⟩
        unfold perform
        rw [hr]
        show andThen K _ (perform K _ _ p1) = _
        rw [f1]; rfl
      · obtain ⟨rs, p2, es2, own2, h2, f1, f2, f3, f4⟩ := ih _ (hm _ _ (.made es i b)) (hg.add (b := b) (i := i) (s' := some (K i).new) ha hb (fun s e => by cases e; exact hi)) hs1
        refine ⟨_, p2, es2, own2, h2, ?_, .act (.made es i b) f2, by rw [List.append_assoc] at f3; exact f3, f4⟩
        unfold perform
        rw [hr]
        show andThen K _ (perform K _ _ p1) = _
        rw [f1]; rfl
    | call n i o =>
      obtain ⟨s, hn, ho⟩ := hok
      have hlt := (List.getElem?_eq_some_iff.1 hn).1
      have hw := wp_part own n ((hK i).stays (bs.getD n 0) o) ((hK i).step _ s o _ (part_ok hH own n) ho (hg.inv n i s hn))
      have hw' : wp (attempt ((K i).call (bs.getD n 0) o)) (fun out h' => ∃ r, out = .ok r ∧ ∃ hs', (∃ s', (K i).Spec s o r s' ∧ Inv i (bs.getD n 0) s' hs') ∧ hs'.base = h.base ∧
          h' = hs'.join (rest h own n) ∧ hs'.Apart (rest h own n)) h := by
        rw [wp_attempt]
        exact wp_mono (fun out h' h => ⟨out, rfl, h⟩) hw
      obtain ⟨out, p1, h1, hr, ⟨r, rfl, hs', ⟨s', hsp, hi⟩, hb, rfl, ha⟩, hs1⟩ := sim_run hw' hs
      obtain ⟨rs, p2, es2, own2, h2, f1, f2, f3, f4⟩ := ih _ (hm _ _ (.call hn hsp)) (hg.set (i := i) (s' := some s') hlt ha hb (fun s e => by cases e; exact hi)) hs1
      refine ⟨_, p2, es2, own2, h2, ?_, .act (.call hn hsp) f2, f3, f4⟩
      unfold perform
      rw [hr]
      show andThen K _ (perform K _ _ p1) = _
      rw [f1]; rfl
    | die n i o c =>
      obtain ⟨s, hn, ho⟩ := hok
      have hlt := (List.getElem?_eq_some_iff.1 hn).1
      have hw := (hK i).step _ s o _ (part_ok hH own n) ho (hg.inv n i s hn)
      have hw2 := wp_part own n ((hK i).stays (bs.getD n 0) o) hw
      have ha := always_part own n ((hK i).stays (bs.getD n 0) o) ((hK i).cut _ s o _ (part_ok hH own n) ho (hg.inv n i s hn))
      obtain ⟨h1, ⟨hs', ⟨s', hc, hi⟩, hb, rfl, ha⟩, p1, hr, hs1⟩ := sim_crash hw2 ha hs c
      have hk1 : HeapOk hs' := by
        have := part_ok hs1.heapOk (owners own n hs') n
        rwa [part_new] at this
      obtain ⟨rs, p2, es2, own2, h2, f1, f2, f3, f4⟩ := ih _ (hm _ _ (.die hn hc)) (hg.set (i := i) (s' := s') hlt ha hb (fun s e => hi s e hk1)) hs1
      refine ⟨_, p2, es2, own2, h2, ?_, .act (.die hn hc) f2, f3, f4⟩
      unfold perform
      rw [hr]
      show andThen K _ (perform K _ _ p1) = _
      rw [f1]; rfl
    | dieMaking i c =>
      have hw := (hK i).make (part h own es.length) (part_empty hne)
      have ha := always_part own es.length (hK i).makeStays (wp_always hw)
      obtain ⟨h1, ⟨hs', -, hb, rfl, ha⟩, p1, hr, hs1⟩ := sim_crash (wp_part own es.length (hK i).makeStays hw) ha hs c
      obtain ⟨rs, p2, es2, own2, h2, f1, f2, f3, f4⟩ := ih _ (hm _ _ (.dieMaking es i c)) (hg.add (b := 0) (i := i) (s' := none) ha hb (fun s e => by cases e)) hs1
      refine ⟨_, p2, es2, own2, h2, ?_, .act (.dieMaking es i c) f2, by rw [List.append_assoc] at f3; exact f3, f4⟩
      unfold perform
      rw [hr]
      show andThen K _ (perform K _ _ p1) = _
      rw [f1]; rfl

/-! ### what one structure sees -/

/-- the number of structures made, or attempted, so far -/
def count : Log K → Nat
  | [] => 0
  | (.make _, _) :: l => count l + 1
  | (.dieMaking _ _, _) :: l => count l + 1
  | (.call _ _ _, _) :: l => count l
  | (.die _ _ _ _, _) :: l => count l

/-- `os` are the calls made on structure `n`, of kind `i`, and `rs` the answers; no process dies in a call on it -/
inductive Only (n : Nat) (i : ι) : Log K → List (K i).Op → List (Out (K i).Ret) → Prop
  | nil : Only n i [] [] []
  | call {l o os r rs} : Only n i l os rs → Only n i ((.call n i o, .ret i r) :: l) (o :: os) (r :: rs)
  | other {m j o r l os rs} : m ≠ n → Only n i l os rs → Only n i ((.call m j o, r) :: l) os rs
  | die {m j o c r l os rs} : m ≠ n → Only n i l os rs → Only n i ((.die m j o c, r) :: l) os rs
  | make {j r l os rs} : Only n i l os rs → Only n i ((.make j, r) :: l) os rs
  | dieMaking {j c r l os rs} : Only n i l os rs → Only n i ((.dieMaking j c, r) :: l) os rs

/-- no process dies in a call on structure `n` -/
def NoDeath (n : Nat) (l : Log K) : Prop := ∀ j o c r, (Act.die n j o c, r) ∉ l

theorem right_only {n : Nat} {i : ι} : ∀ {es : List (Entry K)} {c : Client K} {l : Log K} {es' : List (Entry K)} {s : (K i).St}, Right K es c l es' → es[n]? = some ⟨i, some s⟩ → NoDeath n l →
    ∃ os rs s', Only n i l os rs ∧ Trace (K i).Spec s os rs s' ∧ es'[n]? = some ⟨i, some s'⟩ := by
  intro es c l es' s hr
  induction hr generalizing s with
  | done es => exact fun hn _ => ⟨[], [], s, .nil, .nil _, hn⟩
  | @act es a next r es1 l es2 hst hr ih =>
    intro hn hd
    have hd' : NoDeath n l := fun j o c r hm => hd j o c r (List.mem_cons_of_mem _ hm)
    have hlt := (List.getElem?_eq_some_iff.1 hn).1
    cases hst with
    | made j b =>
      obtain ⟨os, rs, s', h1, h2, h3⟩ := ih (s := s) (by rw [List.getElem?_append_left hlt]; exact hn) hd'
      exact ⟨os, rs, s', .make h1, h2, h3⟩
    | full j =>
      obtain ⟨os, rs, s', h1, h2, h3⟩ := ih (s := s) (by rw [List.getElem?_append_left hlt]; exact hn) hd'
      exact ⟨os, rs, s', .make h1, h2, h3⟩
    | dieMaking j c =>
      obtain ⟨os, rs, s', h1, h2, h3⟩ := ih (s := s) (by rw [List.getElem?_append_left hlt]; exact hn) hd'
      exact ⟨os, rs, s', .dieMaking h1, h2, h3⟩
    | @call m j o t r t' hm hsp =>
      by_cases e : m = n
      · subst e
        rw [hn] at hm
        injection hm with hm
        injection hm with e1 e2
        subst e1
        have e2 := Option.some.inj (eq_of_heq e2)
        subst e2
        obtain ⟨os, rs, s', h1, h2, h3⟩ := ih (s := t') (by rw [List.getElem?_set_self hlt]) hd'
        exact ⟨_, _, s', .call h1, .cons hsp h2, h3⟩
      · obtain ⟨os, rs, s', h1, h2, h3⟩ := ih (s := s) (by rw [List.getElem?_set_ne e]; exact hn) hd'
        exact ⟨os, rs, s', .other e h1, h2, h3⟩
    | @die m j o c t t' hm hsp =>
      by_cases e : m = n
      · subst e
        exact absurd (List.mem_cons_self) (hd j o c _)
      · obtain ⟨os, rs, s', h1, h2, h3⟩ := ih (s := s) (by rw [List.getElem?_set_ne e]; exact hn) hd'
        exact ⟨os, rs, s', .die e h1, h2, h3⟩

/-- **C75**, seen from one structure: whatever else happens in the pool, the calls on a structure, from when it is made, are answered exactly as if it were alone in the world, as long as no process dies in one of them. -/
theorem C75_alone {i : ι} {b : Nat} {es0 : List (Entry K)} {c : Client K} {l1 l2 : Log K} {es' : List (Entry K)} (hr : Right K es0 c (l1 ++ (.make i, .made (some b)) :: l2) es') (hd : NoDeath (es0.length + count l1) l2) :
    ∃ os rs s', Only (es0.length + count l1) i l2 os rs ∧ Trace (K i).Spec (K i).new os rs s' := by
  generalize hl : l1 ++ (.make i, .made (some b)) :: l2 = l at hr
  induction hr generalizing l1 with
  | done es => cases l1 <;> cases hl
  | @act es a next r es1 l es2 hst hr ih =>
    cases l1 with
    | nil =>
      injection hl with e1 e2
      subst e2
      cases e1
      cases hst with
      | made j _ =>
        obtain ⟨os, rs, s', h1, h2, -⟩ := right_only (n := es.length) (i := i) (s := (K i).new) hr (by simp) hd
        exact ⟨os, rs, s', h1, h2⟩
    | cons x l1 =>
      injection hl with e1 e2
      have key : es1.length + count l1 = es.length + count (x :: l1) := by
        subst e1
        cases hst <;> simp only [count, List.length_append, List.length_set, List.length_cons, List.length_nil] <;> omega
      rw [← key] at hd ⊢
      exact ih hd e2

end Many
end Verif
