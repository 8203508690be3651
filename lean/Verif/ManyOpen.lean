import Verif.PropsManyConc
import Verif.OpenSys
/-
C88: any number of structures in one pool, made and used by threads of processes that may die at any time; each thread decides from what it has seen what to do next.
-/
namespace Verif
open Opening Heap Lock

namespace Many
variable {ι : Type} (K : ι → Kind)

/-- What a thread does: construct a structure (the constructor that takes only an allocator: Queue.cc 16-21, PriorityQueue.cc 16-20, HashTable.cc 12-18, PrefixTree.cc 16-22), or call a method of the structure
at offset `b`.  The number `n` of that structure in the order of their making has no effect; it is only to say which one is meant. -/
inductive Doing
  | make (i : ι)
  | call (n b : Nat) (i : ι) (o : (K i).Op)

/-- what that returns: the offset of the new structure, or what the method returned -/
inductive Answer
  | made (b : Nat)
  | ret (i : ι) (r : (K i).Ret)

variable {K}

/-- what is executed -/
def Doing.prog : Doing K → HProg (Answer K)
  | .make i => (K i).create.bind fun b => .ret (.made b)
  | .call _ b i o => ((K i).call b o).bind fun r => .ret (.ret i r)

/-- what a method of any kind returned or threw -/
def answer (i : ι) : Out (K i).Ret → Out (Answer K)
  | .ok r => .ok (.ret i r)
  | .err e => .err e

/-- the structures of a pool in the order in which they were made: offset, kind and state, none if it cannot be used (any more) -/
abbrev Pools (K : ι → Kind) := List (Nat × Entry K)

/-- the effect of what a thread does: a new structure is added at the end (one that cannot be used, if there was no memory for it); a call changes the structure it is made on, as it would if that were alone -/
inductive DoSpec : Pools K → Doing K → Out (Answer K) → Pools K → Prop
  | made (st i b) : DoSpec st (.make i) (.ok (.made b)) (st ++ [(b, ⟨i, some (K i).new⟩)])
  | full (st i) : DoSpec st (.make i) (.err .noMem) (st ++ [(0, ⟨i, none⟩)])
  | call {st n b i o s r s'} : st[n]? = some (b, ⟨i, some s⟩) → (K i).Spec s o r s' → DoSpec st (.call n b i o) (answer i r) (st.set n (b, ⟨i, some s'⟩))

/-- the effect of a death: a structure that was being made cannot be used; a call changes only the structure it is made on, as `Cut` of its kind says -/
inductive DoCut : Pools K → Doing K → Pools K → Prop
  | make (st i) : DoCut st (.make i) (st ++ [(0, ⟨i, none⟩)])
  | call {st n b i o s s'} : st[n]? = some (b, ⟨i, some s⟩) → (K i).Cut s o s' → DoCut st (.call n b i o) (st.set n (b, ⟨i, s'⟩))

/-- calls are made on structures that have been made and can be used, under the conditions of their kind -/
def Doing.ok (st : Pools K) : Doing K → Prop
  | .make _ => True
  | .call n b i o => ∃ s, st[n]? = some (b, ⟨i, some s⟩) ∧ (K i).ok s o

/-- the pool can be used further by clients that know these structures, one at a time -/
def Serves (st : Pools K) (h : Heap) : Prop := ∀ p, Sim h p → Usable K (st.map (·.1)) (st.map (·.2)) p

variable {Inv : (i : ι) → Nat → (K i).St → Heap → Prop} {G : Nat → Option Block}

/-- what holds when nobody is writing -/
def Kept (Inv : (i : ι) → Nat → (K i).St → Heap → Prop) (G : Nat → Option Block) (st : Pools K) (h : Heap) : Prop :=
  HeapOk h ∧ ∃ own, Good Inv G (st.map (·.2)) (st.map (·.1)) own h

theorem Kept.serves (hK : ∀ i, (K i).Laws (Inv i)) {st : Pools K} {h : Heap} (hk : Kept Inv G st h) : Serves st h := by
  intro p hs c hm
  obtain ⟨-, own, g⟩ := hk
  obtain ⟨rs, p', es', own', h', e1, e2, -⟩ := perform_spec hK c hm g hs
  exact ⟨rs, p', es', e1, e2⟩

theorem at_snd {st : Pools K} {n b : Nat} {e : Entry K} (h : st[n]? = some (b, e)) : (st.map (·.2))[n]? = some e := by rw [List.getElem?_map, h]; rfl

theorem at_fst {st : Pools K} {n b : Nat} {e : Entry K} (h : st[n]? = some (b, e)) : (st.map (·.1)).getD n 0 = b := by
  rw [List.getD_eq_getElem?_getD, List.getElem?_map, h]; rfl

theorem Good.at (g : Good Inv G es bs own h) {n : Nat} {i : ι} {s : (K i).St} {b : Nat} (hn : es[n]? = some ⟨i, some s⟩) (hb : bs.getD n 0 = b) : Inv i b s (part h own n) := hb ▸ g.inv n i s hn

theorem fst_set {st : Pools K} {n b : Nat} {e e' : Entry K} (h : st[n]? = some (b, e)) : (st.set n (b, e')).map (·.1) = st.map (·.1) := by
  rw [List.map_set]
  refine List.ext_getElem? fun m => ?_
  by_cases hm : n = m
  · subst hm
    have hlt := (List.getElem?_eq_some_iff.1 h).1
    rw [List.getElem?_set_self (by simpa using hlt), List.getElem?_map, h]
    rfl
  · rw [List.getElem?_set_ne hm]

theorem kept_set {st : Pools K} {n b : Nat} {i : ι} {e : Entry K} {s' : Option (K i).St} {own : Nat → Option Nat} {h hs : Heap} (g : Good Inv G (st.map (·.2)) (st.map (·.1)) own h) (hn : st[n]? = some (b, e))
    (hk : HeapOk (hs.join (rest h own n))) (ha : hs.Apart (rest h own n)) (hb : hs.base = h.base) (hi : ∀ s, s' = some s → Inv i b s hs) :
    Kept Inv G (st.set n (b, ⟨i, s'⟩)) (hs.join (rest h own n)) := by
  refine ⟨hk, owners own n hs, ?_⟩
  rw [fst_set hn, List.map_set]
  exact g.set (i := i) (s' := s') (by simpa using (List.getElem?_eq_some_iff.1 hn).1) ha hb fun s e => (at_fst hn).symm ▸ hi s e

theorem kept_add {st : Pools K} {b : Nat} {i : ι} {s' : Option (K i).St} {own : Nat → Option Nat} {h hs : Heap} (g : Good Inv G (st.map (·.2)) (st.map (·.1)) own h)
    (hk : HeapOk (hs.join (rest h own (st.map (·.2)).length))) (ha : hs.Apart (rest h own (st.map (·.2)).length)) (hb : hs.base = h.base) (hi : ∀ s, s' = some s → Inv i b s hs) :
    Kept Inv G (st ++ [(b, ⟨i, s'⟩)]) (hs.join (rest h own (st.map (·.2)).length)) := by
  refine ⟨hk, owners own (st.map (·.2)).length hs, ?_⟩
  rw [List.map_append, List.map_append]
  exact g.add (i := i) (s' := s') ha hb hi

theorem doing_step (hK : ∀ i, (K i).Laws (Inv i)) (st : Pools K) (o : Doing K) (h : Heap) (hok : o.ok st) (hb : Kept Inv G st h) :
    wp o.prog (fun out h' => ∃ st', DoSpec st o out st' ∧ Kept Inv G st' h') h := by
  obtain ⟨hk, own, g⟩ := hb
  cases o with
  | make i =>
    have hne : ∀ x, own x ≠ some (st.map (·.2)).length := fun x e => Nat.lt_irrefl _ (g.lt x _ e)
    have hw := wp_heapOk hk (wp_part own (st.map (·.2)).length (hK i).makeStays ((hK i).make (part h own (st.map (·.2)).length) (part_empty hne)))
    unfold Doing.prog
    rw [wp_bind]
    refine wp_mono ?_ hw
    rintro out h' ⟨⟨hs', hq, h3, rfl, h4⟩, hk'⟩
    rcases hq with rfl | ⟨b, rfl, hi⟩
    · exact ⟨_, .full st i, kept_add g hk' h4 h3 fun s e => by cases e⟩
    · exact ⟨_, .made st i b, kept_add g hk' h4 h3 fun s e => by cases e; exact hi⟩
  | call n b i o =>
    obtain ⟨s, hn, hso⟩ := hok
    have hw := wp_heapOk hk (wp_part own n ((hK i).stays b o) ((hK i).step _ s o _ (part_ok hk own n) hso (g.at (at_snd hn) (at_fst hn))))
    unfold Doing.prog
    rw [wp_bind]
    refine wp_mono ?_ hw
    rintro out h' ⟨⟨hs', ⟨s', h1, h2⟩, h3, rfl, h4⟩, hk'⟩
    have key : Kept Inv G (st.set n (b, ⟨i, some s'⟩)) (hs'.join (rest h own n)) := kept_set g hn hk' h4 h3 fun s e => by cases e; exact h2
    cases out with
    | ok r => exact ⟨_, .call hn h1, key⟩
    | err e => exact ⟨_, .call hn h1, key⟩

theorem doing_cut (hK : ∀ i, (K i).Laws (Inv i)) (st : Pools K) (o : Doing K) (h : Heap) (hok : o.ok st) (hb : Kept Inv G st h) :
    always o.prog (fun h' => ∃ st', (st' = st ∨ DoCut st o st') ∧ (HeapOk h' → Kept Inv G st' h')) h := by
  obtain ⟨hk, own, g⟩ := hb
  cases o with
  | make i =>
    have hne : ∀ x, own x ≠ some (st.map (·.2)).length := fun x e => Nat.lt_irrefl _ (g.lt x _ e)
    have ha := always_part own (st.map (·.2)).length (hK i).makeStays (wp_always ((hK i).make (part h own (st.map (·.2)).length) (part_empty hne)))
    unfold Doing.prog
    refine always_bind_ret (always_mono ?_ ha)
    rintro h' ⟨hs', -, h3, rfl, h4⟩
    exact ⟨_, Or.inr (.make st i), fun hk' => kept_add g hk' h4 h3 fun s e => by cases e⟩
  | call n b i o =>
    obtain ⟨s, hn, hso⟩ := hok
    have ha := always_part own n ((hK i).stays b o) ((hK i).cut _ s o _ (part_ok hk own n) hso (g.at (at_snd hn) (at_fst hn)))
    unfold Doing.prog
    refine always_bind_ret (always_mono ?_ ha)
    rintro h' ⟨hs', ⟨s', h1, h2⟩, h3, rfl, h4⟩
    refine ⟨_, Or.inr (.call hn h1), fun hk' => kept_set g hn hk' h4 h3 fun s e => h2 s e ?_⟩
    have := part_ok hk' (owners own n hs') n
    rwa [part_new] at this

theorem doing_fragile (hK : ∀ i, (K i).Laws (Inv i)) : Fragile (Doing.prog (K := K)) DoSpec DoCut (Kept Inv G) (fun st h => HeapOk h → Kept Inv G st h) (fun st o => o.ok st) where
  step st o h hok hb := doing_step hK st o h hok hb
  cut st o h hok hb := doing_cut hK st o h hok hb
  weak _ _ h := fun _ => h
  heal _ _ _ h hs := h hs.heapOk

/-- which of these take the lock for writing -/
def Doing.writes (writes : (i : ι) → (K i).Op → Bool) : Doing K → Bool
  | .make _ => true
  | .call _ _ i o => writes i o

end Many
end Verif
