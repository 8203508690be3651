import Verif.Many
import Verif.PropsHashTableCrash
/-
C75: the kinds of structure of the library, and code that uses the allocator directly, side by side in one pool.
-/
namespace Verif
open Opening Heap

/-! ### the kinds -/

/-- Queue (Queue.hh); after a death in a call it is not used any more (C23) -/
def Queue.kind : Kind := ⟨Deque.Op, Deque.Ret, List Bytes, Queue.create, Queue.call, [], fun _ o => o.ok, Deque.Spec, fun _ _ s' => s' = none⟩

/-- PriorityQueue (PriorityQueue.hh); after a death in a call it is not used any more (README.md 292) -/
def PrioQueue.kind : Kind := ⟨PQ.Op, PQ.Ret, List Bytes, PrioQueue.create, PrioQueue.call, [], fun _ o => o.ok, PQ.Spec, fun _ _ s' => s' = none⟩

/-- the state of a HashTable after a death in the call `o` -/
def HT.CutD (hash : Bytes → Nat) (bits : Nat) (s : HT.Damaged) (o : HT.Op) (s' : Option HT.Damaged) : Prop :=
  (o = .clear ∧ s' = none) ∨ (o ≠ .clear ∧ s' = some (HT.lose hash bits s o))

/-- HashTable (HashTable.hh) with 2^bits slots; after a death in a call other than clear, it may still be used as C74 says -/
def HashTable.kind (hash : Bytes → Nat) (F : HT.Fp) (bits : Nat) : Kind :=
  ⟨HT.Op, HT.Ret, HT.Damaged, HashTable.create bits, HashTable.call hash F, ⟨[], []⟩, HT.Damaged.ok hash bits, HT.SpecD F, HT.CutD hash bits⟩

/-- PrefixTree (PrefixTree.hh); after a death in a call it may still be used, and its map is as C50 says -/
def PrefixTree.kind (add : BitVec 64 → BitVec 64 → BitVec 64) : Kind :=
  ⟨PT.Op, PT.Ret, PT.State, PrefixTree.create, PrefixTree.call add, PT.new, fun s o => o.ok s, PT.Spec add, fun s o s' => ∃ m', PT.Cut add s.m o m' ∧ s' = some (PT.torn m')⟩

namespace User
/-- code that uses the allocator directly (Allocator.hh 14-90): allocate, free, block_size, and reads and writes inside its own blocks -/
inductive Op
  | alloc (n : Nat)
  | free (o : Nat)
  | blockSize (o : Nat)
  | write (o i : Nat) (d : Bytes)
  | read (o i n : Nat)

inductive Ret
  | unit
  | num (n : Nat)
  | str (d : Bytes)

def call (_ : Nat) : Op → HProg Ret
  | .alloc n => (H.alloc n).bind fun o => .ret (.num o)
  | .free o => (H.free o).bind fun _ => .ret .unit
  | .blockSize o => (H.bsize o).bind fun n => .ret (.num n)
  | .write o i d => (H.wrB o i d).bind fun _ => .ret .unit
  | .read o i n => (H.rdB o i n).bind fun d => .ret (.str d)

/-- it keeps to its own blocks, `s` -/
def Op.ok (s : Nat → Option Block) : Op → Prop
  | .alloc n => n ≤ 2 ^ 62
  | .free o => s o ≠ none
  | .blockSize o => s o ≠ none
  | .write o i d => ∃ B, s o = some B ∧ i + d.length ≤ B.size
  | .read o i n => ∃ B, s o = some B ∧ i + n ≤ B.size

/-- what it sees: its blocks are its own -/
def Spec (s : Nat → Option Block) (op : Op) (r : Out Ret) (s' : Nat → Option Block) : Prop :=
  match op with
  | .alloc n => (r = .err .noMem ∧ s' = s) ∨ ∃ o d, r = .ok (.num o) ∧ o ≠ 0 ∧ o % 8 = 0 ∧ s o = none ∧ (∀ x B, s x = some B → o + n ≤ x ∨ x + B.size ≤ o) ∧ s' = fun x => if x = o then some ⟨n, d⟩ else s x
  | .free o => r = .ok .unit ∧ s' = fun x => if x = o then none else s x
  | .blockSize o => ∃ B, s o = some B ∧ r = .ok (.num B.size) ∧ s' = s
  | .write o i d => ∃ B, s o = some B ∧ r = .ok .unit ∧ s' = fun x => if x = o then some (B.wrB i d) else s x
  | .read o i n => ∃ B, s o = some B ∧ r = .ok (.str (B.rdB i n)) ∧ s' = s

/-- a death in such code: its blocks are as before or as after the call; a write may also have left other bytes where it was to write -/
def Cut (s : Nat → Option Block) (op : Op) (s' : Option (Nat → Option Block)) : Prop :=
  ∃ t, s' = some t ∧ (t = s ∨ (∃ r, Spec s op r t) ∨ ∃ o i d d' B, op = .write o i d ∧ d'.length = d.length ∧ s o = some B ∧ t = fun x => if x = o then some (B.wrB i d') else s x)

/-- the kind of such code; it has nothing to create (`create` returns 0) -/
def kind : Kind := ⟨Op, Ret, Nat → Option Block, .ret 0, call, fun _ => none, Op.ok, Spec, Cut⟩
end User

/-! ### their laws -/

theorem Queue.laws : Queue.kind.Laws fun b s h => ∃ G, Queue.Inv b G s h where
  make h he := by
    have hk : HeapOk h := ⟨(fun x _ _ _ hx => by rw [he x] at hx; cases hx), (fun x _ hx => by rw [he x] at hx; cases hx)⟩
    refine wp_mono ?_ (wp_heapOk hk (Queue.create_spec h))
    rintro out h' ⟨⟨-, hq⟩, hk'⟩
    cases out with
    | ok b => exact Or.inr ⟨b, rfl, h.blk, hk', [], rfl, hq⟩
    | err e => obtain ⟨rfl, -⟩ := hq; exact Or.inl rfl
  makeStays := by
    show Stays Queue.create
    unfold Queue.create Queue.allocBase Queue.setupBase Queue.wrPrev Queue.wrNext; stays
  step b s o h _ ho := by
    rintro ⟨G, hi⟩
    refine wp_mono ?_ (Queue.step b G s o h ho hi)
    rintro out h' ⟨s', h1, h2⟩
    exact ⟨s', h1, G, h2⟩
  stays := Queue.st_call
  cut b s o h _ ho := by
    rintro ⟨G, hi⟩
    refine Lock.always_mono ?_ (wp_always (Queue.step b G s o h ho hi))
    exact fun _ _ => ⟨none, rfl, fun _ e => by cases e⟩

theorem PrioQueue.laws : PrioQueue.kind.Laws fun b s h => ∃ G, PrioQueue.Inv b G s h where
  make h he := by
    have hk : HeapOk h := ⟨(fun x _ _ _ hx => by rw [he x] at hx; cases hx), (fun x _ hx => by rw [he x] at hx; cases hx)⟩
    refine wp_mono ?_ (wp_heapOk hk (PrioQueue.create_spec h))
    rintro out h' ⟨hq, hk'⟩
    cases out with
    | ok b => exact Or.inr ⟨b, rfl, h.blk, hk', 0, 0, [], fun _ => [], [], List.Perm.refl _, hq⟩
    | err e => obtain ⟨rfl, -⟩ := hq; exact Or.inl rfl
  makeStays := by
    show Stays PrioQueue.create
    unfold PrioQueue.create PrioQueue.allocBase; stays
  step b s o h _ ho := by
    rintro ⟨G, hi⟩
    refine wp_mono ?_ (PrioQueue.step b G s o h ho hi)
    rintro out h' ⟨s', h1, h2⟩
    exact ⟨s', h1, G, h2⟩
  stays := PrioQueue.st_call
  cut b s o h _ ho := by
    rintro ⟨G, hi⟩
    refine Lock.always_mono ?_ (wp_always (PrioQueue.step b G s o h ho hi))
    exact fun _ _ => ⟨none, rfl, fun _ e => by cases e⟩

theorem HashTable.st_zero (a : Nat) : ∀ n x, Stays (HashTable.zeroSlots a n x)
  | 0, x => by unfold HashTable.zeroSlots; stays
  | n + 1, x => by unfold HashTable.zeroSlots; stays [HashTable.st_zero]

theorem HashTable.laws (hash : Bytes → Nat) (F : HT.Fp) {bits : Nat} (hb : 2 ≤ bits) (hb2 : bits < 31) : (HashTable.kind hash F bits).Laws fun b s h => ∃ G, HashTable.Lives hash b bits G s h where
  make h he := by
    have hk : HeapOk h := ⟨(fun x _ _ _ hx => by rw [he x] at hx; cases hx), (fun x _ hx => by rw [he x] at hx; cases hx)⟩
    refine wp_mono ?_ (HashTable.create_spec (hash := hash) h hb hb2)
    rintro out h' (⟨rfl, -⟩ | ⟨b, sl, rfl, -, ht⟩)
    · exact Or.inl rfl
    · exact Or.inr ⟨b, rfl, h.blk, sl, 0, [], HashTable.tableD_nil.2 ht, fun _ => rfl⟩
  makeStays := by
    show Stays (HashTable.create bits)
    unfold HashTable.create HashTable.createBase; stays [HashTable.st_zero]
  step b s o h _ ho := by
    rintro ⟨G, hi⟩
    refine wp_mono ?_ (HashTable.lives_step (F := F) ho hi)
    rintro out h' ⟨s', h1, h2⟩
    exact ⟨s', h1, G, h2⟩
  stays := HashTable.st_call hash F
  cut b s o h hk ho := by
    rintro ⟨G, hi⟩
    by_cases hc : o = .clear
    · refine Lock.always_mono ?_ (wp_always (HashTable.lives_step (F := F) ho hi))
      intro _ _
      exact ⟨none, Or.inl ⟨hc, rfl⟩, fun _ e => by cases e⟩
    · refine Lock.always_mono ?_ (HashTable.lives_cut (F := F) hk ho hc hi)
      intro h' hi'
      refine ⟨some (HT.lose hash bits s o), Or.inr ⟨hc, rfl⟩, fun s1 e _ => ?_⟩
      injection e with e; subst e; exact ⟨G, hi'⟩

theorem PrefixTree.laws (add : BitVec 64 → BitVec 64 → BitVec 64) : (PrefixTree.kind add).Laws fun b s h => ∃ F, PrefixTree.Holds b F s h where
  make h he := by
    have hk : HeapOk h := ⟨(fun x _ _ _ hx => by rw [he x] at hx; cases hx), (fun x _ hx => by rw [he x] at hx; cases hx)⟩
    refine wp_mono ?_ (wp_heapOk hk (PrefixTree.create_spec h).wp)
    rintro out h' ⟨(⟨rfl, -⟩ | ⟨b, rfl, -, t⟩), hk'⟩
    · exact Or.inl rfl
    · exact Or.inr ⟨b, rfl, _, PrefixTree.holds_new t hk'⟩
  makeStays := by
    show Stays PrefixTree.create
    unfold PrefixTree.create PrefixTree.createBase; stays [PrefixTree.st_zeroSlots]
  step b s o h _ ho := by
    rintro ⟨F, hi⟩
    refine wp_mono ?_ (PrefixTree.step (add := add) o s h ho hi)
    rintro out h' ⟨s', h1, h2⟩
    exact ⟨s', h1, F, h2⟩
  stays := PrefixTree.st_call add
  cut b s o h _ ho := by
    rintro ⟨F, hi⟩
    obtain ⟨n, hn⟩ := hi.fin
    have h0 : PrefixTree.Cr b (PT.Cut add s.m o) h := by
      obtain ⟨⟨g, ni, nn, t, hm, -⟩, -⟩ := hi
      exact ⟨F, g, ni, nn, t, hm ▸ PrefixTree.cut_refl⟩
    refine Lock.always_mono ?_ ((PrefixTree.cut (add := add) o s h ho hi).always h0)
    rintro h' ⟨F', g', ni', nn', t', hm'⟩
    refine ⟨some (PT.torn g'.kv), ⟨_, hm', rfl⟩, ?_⟩
    rintro s1 e hk'
    injection e with e; subst e
    exact ⟨F', ⟨g', ni', nn', t', rfl, (fun h => by cases h), (fun h => by cases h), (fun h => by cases h)⟩, PrefixTree.cut_fin hm' hn, hk'⟩

theorem User.step (b : Nat) (s : Nat → Option Block) (o : User.Op) (h : Heap) (ho : o.ok s) (hi : h.blk = s) : wp (User.call b o) (fun out h' => ∃ s', User.Spec s o out s' ∧ h'.blk = s') h := by
  subst hi
  cases o with
  | alloc n =>
    refine wp_alloc ho ?_ ⟨_, Or.inl ⟨rfl, rfl⟩, rfl⟩
    intro o d hf
    exact ⟨_, Or.inr ⟨o, d, rfl, hf.pos, hf.align, hf.none, hf.disj, rfl⟩, rfl⟩
  | free o =>
    obtain ⟨B, hB⟩ := Option.ne_none_iff_exists'.1 ho
    exact ⟨B, hB, _, ⟨rfl, rfl⟩, rfl⟩
  | blockSize o =>
    obtain ⟨B, hB⟩ := Option.ne_none_iff_exists'.1 ho
    exact ⟨B, hB, _, ⟨B, hB, rfl, rfl⟩, rfl⟩
  | write o i d =>
    obtain ⟨B, hB, hl⟩ := ho
    exact ⟨B, hB, hl, _, ⟨B, hB, rfl, rfl⟩, rfl⟩
  | read o i n =>
    obtain ⟨B, hB, hl⟩ := ho
    exact ⟨B, hB, hl, _, ⟨B, hB, rfl, rfl⟩, rfl⟩

theorem User.cut (b : Nat) (s : Nat → Option Block) (o : User.Op) (h : Heap) (ho : o.ok s) (hi : h.blk = s) :
    always (User.call b o) (fun h' => ∃ s', User.kind.Cut s o s' ∧ ∀ s1, s' = some s1 → HeapOk h' → h'.blk = s1) h := by
  have mk : ∀ {h' : Heap} {t}, h'.blk = t → (t = s ∨ ∃ r, User.Spec s o r t) → ∃ s', User.kind.Cut s o s' ∧ ∀ s1, s' = some s1 → HeapOk h' → h'.blk = s1 :=
    fun {h' t} e1 e2 => ⟨some t, ⟨t, rfl, e2.elim Or.inl fun h => Or.inr (Or.inl h)⟩, fun s1 e _ => by injection e with e; exact e1.trans e⟩
  have now := mk hi (Or.inl rfl)
  have aft : ∀ {h' : Heap} {r}, User.Spec s o r h'.blk → ∃ s', User.kind.Cut s o s' ∧ ∀ s1, s' = some s1 → HeapOk h' → h'.blk = s1 := fun e => mk rfl (Or.inr ⟨_, e⟩)
  subst hi
  cases o with
  | alloc n => exact ⟨now, ho, (fun o d hf => aft (Or.inr ⟨o, d, rfl, hf.pos, hf.align, hf.none, hf.disj, rfl⟩)), now⟩
  | free o =>
    obtain ⟨B, hB⟩ := Option.ne_none_iff_exists'.1 ho
    exact ⟨now, B, hB, aft (r := .ok .unit) ⟨rfl, rfl⟩⟩
  | blockSize o =>
    obtain ⟨B, hB⟩ := Option.ne_none_iff_exists'.1 ho
    exact ⟨now, B, hB, now⟩
  | write o i d =>
    obtain ⟨B, hB, hl⟩ := ho
    exact ⟨now, B, hB, hl, aft (r := .ok .unit) ⟨B, hB, rfl, rfl⟩⟩
  | read o i n =>
    obtain ⟨B, hB, hl⟩ := ho
    exact ⟨now, B, hB, hl, now⟩

theorem User.laws : User.kind.Laws fun _ s h => h.blk = s where
  make h he := Or.inr ⟨0, rfl, funext he⟩
  makeStays := by
    show Stays (.ret 0 : HProg Nat)
    stays
  step b s o h _ ho hi := User.step b s o h ho hi
  stays := by
    intro b o
    show Stays (User.call b o)
    cases o <;> simp only [User.call] <;> stays
  cut b s o h _ ho hi := User.cut b s o h ho hi

/-- what can be in a pool -/
inductive Which
  | queue
  | prio
  | hash (bits : Nat) (hb : 2 ≤ bits ∧ bits < 31)
  | tree
  | user

/-- the kinds, for a hash function (the code's is FNV-1a) and the machine's floating-point addition -/
def library (hash : Bytes → Nat) (F : HT.Fp) (add : BitVec 64 → BitVec 64 → BitVec 64) : Which → Kind
  | .queue => Queue.kind
  | .prio => PrioQueue.kind
  | .hash bits _ => HashTable.kind hash F bits
  | .tree => PrefixTree.kind add
  | .user => User.kind

/-- the invariants of the kinds -/
def libInv (hash : Bytes → Nat) (F : HT.Fp) (add : BitVec 64 → BitVec 64 → BitVec 64) : (i : Which) → Nat → (library hash F add i).St → Heap → Prop
  | .queue => fun b s h => ∃ G, Queue.Inv b G s h
  | .prio => fun b s h => ∃ G, PrioQueue.Inv b G s h
  | .hash bits _ => fun b s h => ∃ G, HashTable.Lives hash b bits G s h
  | .tree => fun b s h => ∃ F, PrefixTree.Holds b F s h
  | .user => fun _ s h => h.blk = s

theorem library_laws (hash : Bytes → Nat) (F : HT.Fp) (add : BitVec 64 → BitVec 64 → BitVec 64) : ∀ i, (library hash F add i).Laws (libInv hash F add i)
  | .queue => Queue.laws
  | .prio => PrioQueue.laws
  | .hash _ hb => HashTable.laws hash F hb.1 hb.2
  | .tree => PrefixTree.laws add
  | .user => User.laws

/-- **C75.** In a pool with any history of SimpleAllocator calls, any number of queues, priority queues, hash tables and prefix trees are made, in any order, and used in any order, together with code that
uses the allocator directly; any number of processes die, each at any point of any call or constructor, and the next one repairs the allocator.  Every call answers exactly as it would if its structure
were alone (`Steps`: a call has the effect its kind's `Spec` says on its own structure, and none on any other); a death leaves all other structures as they are, and its own as `Cut` says; no action
faults; and none touches the blocks of clients from before. -/
theorem C75_many (hash : Bytes → Nat) (F : HT.Fp) (add : BitVec 64 → BitVec 64 → BitVec 64) {p0 p : Pool} {live lk : List (Nat × Nat)} {ex : Bool} (h : Hist p0 p live lk ex)
    (c : Many.Client (library hash F add)) (hm : Many.May (library hash F add) [] c) :
    ∃ log p' es, Many.perform (library hash F add) c [] p = (.ok log, p') ∧ Many.Right (library hash F add) [] c log es ∧
      ∀ o n, (o, n) ∈ live → ∀ i, i < n → p'.mem (o + i) = p.mem (o + i) := by
  obtain ⟨hp, hs, hl⟩ := h.sim
  have hg : Many.Good (libInv hash F add) hp.blk [] [] (fun _ => none) hp :=
    ⟨rfl, (fun n i s e => by cases e), (fun x n e => by cases e), fun x B hx => ⟨rfl, hx⟩⟩
  obtain ⟨rs, p', es, own, h', e1, e2, g, L, hS, hh⟩ := Many.perform_spec (library_laws hash F add) c hm hg hs
  refine ⟨rs, p', es, e1, e2, ?_⟩
  intro o n hm i hi
  obtain ⟨B, hB, rfl, hd⟩ := hl o n hm
  rw [(hh.blk o B (g.others o B hB).2).2.2 i hi, hd i]


/-! ### a case -/

/-- the clients of the case: a queue, a hash table of four slots and code that uses the allocator are set up; a process dies inserting into the hash table; the others go on -/
def sampleClients : Many.Client (library (fun _ => 1) noFp noAdd) :=
  .act (.make .queue) fun a => match a with
    | .made (some _) => .act (.make (.hash 2 ⟨by decide, by decide⟩)) fun a => match a with
      | .made (some _) => .act (.make .user) fun a => match a with
        | .made (some _) => .act (.call 0 .queue (Deque.Op.pushBack [1, 2])) fun _ => .act (.call 2 .user (User.Op.alloc 16)) fun a => match a with
          | .ret .user (.ok (.num o)) => .act (.call 2 .user (User.Op.write o 3 [7, 8])) fun _ => .act (.die 1 (.hash 2 ⟨by decide, by decide⟩) (HT.Op.insert [5] [6] none) 60) fun _ =>
            .act (.call 0 .queue Deque.Op.popFront) fun _ => .act (.call 2 .user (User.Op.read o 3 2)) fun _ => .act (.call 2 .user (User.Op.free o)) fun _ => .done
          | _ => .done
        | _ => .done
      | _ => .done
    | _ => .done

/-- the answers of the library's kinds, for comparison -/
def Many.show {hash : Bytes → Nat} {F : HT.Fp} {add : BitVec 64 → BitVec 64 → BitVec 64} : Many.Ans (library hash F add) → List Nat
  | .made b => 0 :: b.toList
  | .ret .queue (.ok (.str d)) => 1 :: d.map (·.toNat)
  | .ret .queue (.ok .unit) => [2]
  | .ret .user (.ok (.num n)) => [3, n]
  | .ret .user (.ok (.str d)) => 4 :: d.map (·.toNat)
  | .ret .user (.ok .unit) => [5]
  | .died => [6]
  | _ => [7]

theorem sample_may : Many.May (library (fun _ => 1) noFp noAdd) [] sampleClients := by
  refine ⟨trivial, ?_⟩
  intro r es' h
  cases h with
  | full => trivial
  | made =>
  refine ⟨trivial, ?_⟩
  intro r es' h
  cases h with
  | full => trivial
  | made =>
  refine ⟨trivial, ?_⟩
  intro r es' h
  cases h with
  | full => trivial
  | made =>
  refine ⟨⟨_, rfl, show Deque.Op.ok (.pushBack [1, 2]) by simp [Deque.Op.ok]⟩, ?_⟩
  intro r es' h
  cases h with
  | @call _ _ _ s r s' e1 h =>
  cases e1
  refine ⟨⟨_, rfl, show (16 : Nat) ≤ 2 ^ 62 by decide⟩, ?_⟩
  intro r es' h
  cases h with
  | @call _ _ _ t r t' e2 h2 =>
  cases e2
  rcases h2 with ⟨rfl, rfl⟩ | ⟨o, d, rfl, -, -, -, -, rfl⟩
  · trivial
  refine ⟨⟨_, rfl, _, if_pos rfl, show 3 + 2 ≤ 16 by decide⟩, ?_⟩
  intro r es' h
  cases h with
  | @call _ _ _ t r t' e2 h2 =>
  cases e2
  obtain ⟨B, e3, rfl, rfl⟩ := h2
  have e4 : 3 + 2 ≤ (B.wrB 3 [7, 8]).size := by
    have e5 := Option.some.inj ((if_pos rfl).symm.trans e3)
    rw [← e5]
    exact show 3 + 2 ≤ 16 by decide
  refine ⟨⟨_, rfl, ⟨(show (1 + 1 : Nat) ≤ 2 ^ 62 by decide), (fun _ _ h => by cases h), (fun _ => rfl)⟩⟩, ?_⟩
  intro r es' h
  cases h with
  | @die _ _ _ _ t t' e2 h2 =>
  cases e2
  refine ⟨⟨_, rfl, trivial⟩, ?_⟩
  intro r es' h
  cases h with
  | @call _ _ _ t r t' e2 h2 =>
  cases e2
  refine ⟨⟨_, rfl, _, if_pos rfl, e4⟩, ?_⟩
  intro r es' h
  cases h with
  | @call _ _ _ t r t' e2 h2 =>
  cases e2
  obtain ⟨C, -, -, rfl⟩ := h2
  refine ⟨⟨_, rfl, fun hc => Option.some_ne_none _ ((if_pos rfl).symm.trans hc)⟩, ?_⟩
  intro r es' h
  trivial

/-- the hypotheses of `C75_many` and `C75_alone` are met by clients that set up three structures in a new pool, and go on with two of them after a process has died using the third -/
example : ∃ log p' es, Many.perform _ sampleClients [] (run Simple.init (newPool 0)).2 = (.ok log, p') ∧ Many.Right _ [] sampleClients log es ∧
    log.map (fun e => Many.show e.2) = [[0, 344], [0, 416], [0, 0], [2], [3, 600], [5], [6], [1, 1, 2], [4, 7, 8], [5]] := by
  have hst : Hist (newPool 0) (run Simple.init (newPool 0)).2 [] [] true := .start (newPool_geo 0) (by decide +kernel) (run_eta (by decide +kernel))
  obtain ⟨log, p', es, h1, h2, -⟩ := C75_many _ _ _ hst sampleClients sample_may
  have h3 : (match Many.perform _ sampleClients [] (run Simple.init (newPool 0)).2 with
      | (.ok l, _) => l.map fun (e : Many.Act (library (fun _ => 1) noFp noAdd) × Many.Ans (library (fun _ => 1) noFp noAdd)) => Many.show e.2
      | _ => []) = [[0, 344], [0, 416], [0, 0], [2], [3, 600], [5], [6], [1, 1, 2], [4, 7, 8], [5]] := by decide +kernel
  rw [h1] at h3
  exact ⟨log, p', es, h1, h2, h3⟩
end Verif
