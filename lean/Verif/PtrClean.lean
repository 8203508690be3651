import Verif.PtrMethods
import Verif.PropsHashTable
/-
No method but HashTable::incr uses a pointer after a later allocation.
-/
namespace Verif
variable {α β γ : Type}

theorem strict_alloc {n g : Nat} {k : Nat → PProg α} {f : α → Nat → HProg β} :
    strict ((P.alloc n).bind k) g f = (H.alloc n).bind fun o => strict (k o) (g + 1) f := by
  simp only [P.alloc, H.alloc, Prog.step_bind, strict]
  congr 1
  funext r
  cases r <;> rfl

theorem strict_at {b g : Nat} {k : Ptr → PProg α} {f : α → Nat → HProg β} : strict ((P.at b).bind k) g f = strict (k ⟨b, g⟩) g f := rfl
theorem strict_rd {b g o n : Nat} {k : Nat → PProg α} {f : α → Nat → HProg β} : strict ((P.rd ⟨b, g⟩ o n).bind k) g f = (H.rd b o n).bind fun x => strict (k x) g f := by
  simp [P.rd, H.rd, strict]
theorem strict_wr {b g o n v : Nat} {k : Unit → PProg α} {f : α → Nat → HProg β} : strict ((P.wr ⟨b, g⟩ o n v).bind k) g f = (H.wr b o n v).bind fun x => strict (k x) g f := by
  simp [P.wr, H.wr, strict]
theorem strict_rdB {b g o n : Nat} {k : Bytes → PProg α} {f : α → Nat → HProg β} : strict ((P.rdB ⟨b, g⟩ o n).bind k) g f = (H.rdB b o n).bind fun x => strict (k x) g f := by
  simp [P.rdB, H.rdB, strict]
theorem strict_wrB {b g o : Nat} {bs : Bytes} {k : Unit → PProg α} {f : α → Nat → HProg β} : strict ((P.wrB ⟨b, g⟩ o bs).bind k) g f = (H.wrB b o bs).bind fun x => strict (k x) g f := by
  simp [P.wrB, H.wrB, strict]
theorem strict_free {b g : Nat} {k : Unit → PProg α} {f : α → Nat → HProg β} : strict ((P.free b).bind k) g f = (H.free b).bind fun x => strict (k x) g f := by
  simp [P.free, H.free, strict]
theorem strict_bsize {b g : Nat} {k : Nat → PProg α} {f : α → Nat → HProg β} : strict ((P.bsize b).bind k) g f = (H.bsize b).bind fun x => strict (k x) g f := by
  simp [P.bsize, H.bsize, strict]
theorem strict_ret {a : α} {g : Nat} {f : α → Nat → HProg β} : strict (.ret a) g f = f a g := rfl
theorem strict_wr' {b g o n v : Nat} {f : Unit → Nat → HProg β} : strict (P.wr ⟨b, g⟩ o n v) g f = (H.wr b o n v).bind fun x => f x g := by
  simp [P.wr, H.wr, strict]
theorem strict_free' {b g : Nat} {f : Unit → Nat → HProg β} : strict (P.free b) g f = (H.free b).bind fun x => f x g := by
  simp [P.free, H.free, strict]

/-- evaluating `strict` on a method -/
macro "strict_eval" "[" ts:Lean.Parser.Tactic.simpLemma,* "]" : tactic =>
  `(tactic| simp only [$ts,*, Prog.bind_def, Prog.pure_def, Prog.bind_assoc, Prog.ret_bind, P.rd64, P.wr64, P.rd8, P.wr8, H.rd64, H.wr64, H.rd8, H.wr8, strict_alloc, strict_at, strict_rd, strict_wr, strict_rdB, strict_wrB,
      strict_free, strict_bsize, strict_ret, strict_wr', strict_free'])

namespace Queue

theorem pushBack_clean (base : Nat) (d : Bytes) : Clean (pushBackP base d) (pushBack base d) := by
  intro β g f
  have e : (loc base (base + 32)).1 = base ∧ (loc base (base + 32)).2 = 32 := by simp [loc]
  strict_eval [pushBackP, pushBack, createNodeP, createNode, linkNodeP, linkNode, nodeAt, rdPrev, rdNext, wrPrev, wrNext, e]

theorem pushFront_clean (base : Nat) (d : Bytes) : Clean (pushFrontP base d) (pushFront base d) := by
  intro β g f
  have e : (loc base (base + 16)).1 = base ∧ (loc base (base + 16)).2 = 16 := by simp [loc]
  strict_eval [pushFrontP, pushFront, createNodeP, createNode, linkNodeP, linkNode, nodeAt, rdPrev, rdNext, wrPrev, wrNext, e]

theorem callP_clean (b : Nat) (o : Deque.Op) : Clean (callP b o) (call b o) := by
  cases o with
  | pushBack d => exact (pushBack_clean b d).bind fun _ => .ret _
  | pushFront d => exact (pushFront_clean b d).bind fun _ => .ret _
  | _ => exact lift_clean _

end Queue

namespace PrioQueue

theorem copyLoop_still (b old new g : Nat) : ∀ (fuel x : Nat) {β : Type} (f : Unit → Nat → HProg β),
    strict (copyLoopP ⟨b, g⟩ ⟨old, g⟩ ⟨new, g⟩ fuel x) g f = (copyLoop b old new fuel x).bind fun a => f a g
  | 0, _, _, _ => rfl
  | fuel + 1, x, β, f => by
    strict_eval [copyLoopP, copyLoop]
    congr 1; funext n
    split
    · strict_eval [P.rd64]
      congr 1; funext v
      congr 1; funext u
      exact copyLoop_still b old new g fuel (x + 1) f
    · rfl

theorem push_clean (b : Nat) (d : Bytes) : Clean (pushP b d) (push b d) := by
  have tail : ∀ (n : Nat), Clean (lift (siftDown b 0 n)) (siftDown b 0 n) := fun n => lift_clean _
  have second : ∀ (β : Type) (g : Nat) (f : Unit → HProg β), strict (do
      let item ← P.alloc d.length
      let ip ← P.at item
      P.wrB ip 0 d
      let base ← P.at b
      let arr ← P.rd64 base 16
      let ap ← P.at arr
      let n ← P.rd64 base 0
      P.wr64 ap (8 * n) item
      let n ← P.rd64 base 0
      P.wr64 base 0 (n + 1)
      let n ← P.rd64 base 0
      lift (siftDown b 0 (n - 1))) g (fun a _ => f a) = Prog.bind (do
      let item ← H.alloc d.length
      H.wrB item 0 d
      let arr ← H.rd64 b 16
      let n ← H.rd64 b 0
      H.wr64 arr (8 * n) item
      let n ← H.rd64 b 0
      H.wr64 b 0 (n + 1)
      let n ← H.rd64 b 0
      siftDown b 0 (n - 1)) f := by
    intro β g f
    strict_eval [P.rd64]
    have : ∀ n, strict (lift (siftDown b 0 n)) (g + 1) (fun a _ => f a) = (siftDown b 0 n).bind f := fun n => tail n β _ f
    simp only [this]
  have first : Clean (growArrayP b) (growArray b) := by
    intro β g f
    have fin : ∀ (g : Nat) (new cap : Nat), strict (do
        let old ← P.rd64 ⟨b, g⟩ 16
        if new ≠ old then do
          let oldp ← P.at old
          let newp ← P.at new
          let n ← P.rd64 ⟨b, g⟩ 0
          copyLoopP ⟨b, g⟩ oldp newp (n + 1) 0
          P.wr64 ⟨b, g⟩ 16 new
          P.wr64 ⟨b, g⟩ 8 cap
        else pure ()) g (fun a _ => f a) = Prog.bind (do
        let old ← H.rd64 b 16
        if new ≠ old then do
          let n ← H.rd64 b 0
          copyLoop b old new (n + 1) 0
          H.wr64 b 16 new
          H.wr64 b 8 cap
        else pure ()) f := by
      intro g new cap
      strict_eval [P.rd64]
      congr 1; funext old
      split
      · strict_eval [P.rd64]
        congr 1; funext n
        rw [strict_bind, copyLoop_still]
        strict_eval [P.rd64]
      · rfl
    strict_eval [growArrayP, growArray, pickArrayP, pickArray]
    congr 1; funext cap
    split
    · strict_eval [P.rd64]
      congr 1; funext o
      have h := fin (g + 1) o 32
      simp only [Prog.bind_def, Prog.pure_def, Prog.bind_assoc, P.rd64, P.wr64, H.rd64, H.wr64, strict_rd] at h
      exact h
    · strict_eval [P.rd64]
      congr 1; funext n
      split
      · strict_eval [P.rd64]
        congr 1; funext o
        have h := fin (g + 1) o (cap * 2)
        simp only [Prog.bind_def, Prog.pure_def, Prog.bind_assoc, P.rd64, P.wr64, H.rd64, H.wr64, strict_rd] at h
        exact h
      · strict_eval [P.rd64]
        congr 1; funext o
        have h := fin g o cap
        simp only [Prog.bind_def, Prog.pure_def, Prog.bind_assoc, P.rd64, P.wr64, H.rd64, H.wr64, strict_rd] at h
        exact h
  exact first.bind fun _ => second

theorem callP_clean (b : Nat) (o : PQ.Op) : Clean (callP b o) (call b o) := by
  cases o with
  | push d => exact (push_clean b d).bind fun _ => .ret _
  | _ => exact lift_clean _

end PrioQueue

namespace HashTable

theorem keyMatches_still (b o g : Nat) (k : Bytes) {q : Bool → PProg α} {f : α → Nat → HProg β} :
    strict ((keyMatchesP ⟨b, g⟩ o k).bind q) g f = (keyMatches b o k).bind fun a => strict (q a) g f := by
  strict_eval [keyMatchesP, keyMatches]
  congr 1; funext ks
  split
  · strict_eval [P.rd64]
  · rfl

theorem createBase_clean (bits : Nat) : Clean (createBaseP bits) (createBase bits) := by
  unfold createBaseP createBase
  split
  · exact .err _
  · intro β g f
    have tail : ∀ (base slots n x : Nat), strict (Prog.bind (lift (zeroSlots slots n x)) fun _ => Prog.ret base) (g + 1 + 1) (fun a _ => f a) =
        (zeroSlots slots n x).bind fun _ => f base := by
      intro base slots n x
      have := ((lift_clean (zeroSlots slots n x)).bind fun _ => Clean.ret base) β (g + 1 + 1) f
      rw [this, Prog.bind_assoc]; rfl
    strict_eval [tail]

theorem link_clean (base slots so kv g : Nat) (k : Bytes) {f : Unit → HProg β} :
    strict (linkP base slots so kv k ⟨base, g⟩ ⟨slots, g⟩) g (fun a _ => f a) = (link base slots so kv k).bind f := by
  have hw : ∀ n x y, Still (lift (walkList k n x y)) (walkList k n x y) := fun n x y => lift_still (ro_walkList n x y).noAlloc
  strict_eval [linkP, link, bumpCountP, bumpCount]
  congr 1; funext ko
  split
  · strict_eval [P.rd64]
  · split
    · rw [Prog.bind_assoc, keyMatches_still]
      congr 1; funext m
      split
      · strict_eval [P.rd64]
      · strict_eval [P.rd64]
    · rw [strict_still (hw _ _ _), Prog.bind_assoc]
      congr 1; funext w
      split
      · strict_eval [P.rd64]
      · strict_eval [P.rd64]

theorem insert_clean (hash : Bytes → Nat) (base : Nat) (k v : Bytes) (c : Option Check) : Clean (insertP hash base k v c) (insert hash base k v c) := by
  refine (lift_clean _).bind ?_
  intro go
  refine Clean.ite ?_ (.ret _)
  intro β g f
  have tail : ∀ (slots so kv : Nat), strict (Prog.bind (linkP base slots so kv k ⟨base, g + 1⟩ ⟨slots, g + 1⟩) fun _ => Prog.ret true) (g + 1) (fun a _ => f a) =
      (link base slots so kv k).bind fun _ => f true := by
    intro slots so kv
    rw [strict_bind]
    exact link_clean base slots so kv (g + 1) k (f := fun _ => f true)
  strict_eval [tail]

theorem callP_clean (hash : Bytes → Nat) (F : HT.Fp) (b : Nat) (o : HT.Op) (h1 : ∀ k d, o ≠ .incr k d) (h2 : ∀ k d, o ≠ .incrDouble k d) : Clean (callP hash F b o) (call hash F b o) := by
  cases o with
  | insert k v c => exact (insert_clean hash b k v c).bind fun _ => .ret _
  | incr k d => exact absurd rfl (h1 k d)
  | incrDouble k d => exact absurd rfl (h2 k d)
  | _ => exact lift_clean _

end HashTable

namespace PrefixTree

theorem copySlots_still (old new : Addr) (os ns g : Nat) : ∀ (n x : Nat) {β : Type} (f : Unit → Nat → HProg β),
    strict (copySlotsP ⟨old.1, g⟩ ⟨new.1, g⟩ old.2 new.2 os ns n x) g f = (copySlots old new os ns n x).bind fun a => f a g
  | 0, _, _, _ => rfl
  | n + 1, x, β, f => by
    strict_eval [copySlotsP, copySlots, slotOf]
    congr 1; funext c
    congr 1; funext u
    exact copySlots_still old new os ns g n (x + 1) f

theorem zeroSlots_still (b o g : Nat) : ∀ (n x : Nat) {β : Type} (f : Unit → Nat → HProg β), strict (zeroSlotsP ⟨b, g⟩ o n x) g f = (zeroSlots b o n x).bind fun a => f a g
  | 0, _, _, _ => rfl
  | n + 1, x, β, f => by
    strict_eval [zeroSlotsP, zeroSlots]
    congr 1; funext u
    exact zeroSlots_still b o g n (x + 1) f

theorem fillSlots_still (nd : Addr) (o g s e s' e' : Nat) (lo : Bool) {q : Unit → PProg α} {f : α → Nat → HProg β} :
    strict ((fillSlotsP ⟨nd.1, g⟩ ⟨o, g⟩ nd.2 s e s' e' lo).bind q) g f = (fillSlots nd o s e s' e' lo).bind fun a => strict (q a) g f := by
  have c := fun n x => @copySlots_still nd (o, 0) s s' g n x
  have z := fun n x => @zeroSlots_still o 16 g n x
  simp only at c
  unfold fillSlotsP fillSlots
  split
  · simp only [Prog.bind_def, Prog.bind_assoc]
    rw [strict_bind, z]
    congr 1; funext u
    rw [strict_bind, c]
  · simp only [Prog.bind_def, Prog.bind_assoc]
    rw [strict_bind, c]
    congr 1; funext u
    rw [strict_bind, z]

theorem regrow_clean (par nd : Addr) (g s e s' e' : Nat) (lo : Bool) {f : Addr → HProg β} :
    strict (regrowP par nd ⟨nd.1, g⟩ s e s' e' lo) g (fun a _ => f a) = (regrow par nd s e s' e' lo).bind f := by
  strict_eval [regrowP, regrow, fillSlots_still, slotOf]

theorem extend_clean (par nd : Addr) (b : Nat) : Clean (extendP par nd b) (extend par nd b) := by
  intro β g f
  strict_eval [extendP, extend]
  congr 1; funext s
  congr 1; funext e
  split
  · exact regrow_clean ..
  · split
    · exact regrow_clean ..
    · rfl

theorem chain_clean (base : Nat) : ∀ (k : Bytes) (nd : Addr) (b : UInt8), Clean (chainP base nd b k) (chain base nd b k)
  | [], nd, b => by
    intro β g f
    strict_eval [chainP, chain]
  | b' :: k, nd, b => by
    intro β g f
    have ih : ∀ (nd : Addr) g, strict (chainP base nd b' k) g (fun a _ => f a) = (chain base nd b' k).bind f := fun nd g => chain_clean base k nd b' β g f
    strict_eval [chainP, chain, slotOf, addNodes, ih]

theorem traverseCreate_clean (base : Nat) (k : Bytes) : Clean (traverseCreateP base k) (traverseCreate base k) := by
  refine (lift_clean _).bind ?_
  intro f
  cases f with
  | val a ns => exact .ret _
  | node p nd ns => exact .ret _
  | stuck par nd ns b k => exact (extend_clean par nd b.toNat).bind fun nd' => chain_clean base k nd' b

theorem makeWord_clean (v : Val) : Clean (makeWordP v) (makeWord v) := by
  cases v with
  | str v =>
    refine Clean.ite (.ret _) (Clean.ite (.ret _) ?_)
    intro β g f
    strict_eval [P.rd64]
  | int v =>
    refine Clean.ite (.ret _) ?_
    intro β g f
    strict_eval [P.rd64]
  | bool b => exact .ret _
  | null => exact .ret _
  | dbl d => exact .ub

theorem setSlot_clean (a : Addr) (w : Nat) : Clean (setSlot a w) (H.wr64 a.1 a.2 w) := by
  intro β g f
  strict_eval [setSlot]

theorem clean_alloc (n : Nat) : Clean (P.alloc n) (H.alloc n) := by
  intro β g f
  simp only [P.alloc, H.alloc, strict, Prog.step_bind]
  congr 1; funext r; cases r <;> rfl

theorem clean_slot (a : Addr) {q : Nat → PProg α} {q' : Nat → HProg α} (h : ∀ c, Clean (q c) (q' c)) : Clean ((P.at a.1).bind fun p => (P.rd64 p a.2).bind q) ((H.rd64 a.1 a.2).bind q') := by
  intro β g f
  have h' : ∀ c, strict (q c) g (fun a _ => f a) = (q' c).bind f := fun c => h c β g f
  strict_eval [h']

theorem storeVal_clean (base : Nat) (a : Addr) (v : Val) : Clean (storeValP base a v) (storeVal base a v) :=
  (lift_clean _).bind fun _ => (makeWord_clean v).bind fun w => (setSlot_clean a w).bind fun _ => lift_clean _

theorem storeDbl_clean (base : Nat) (a : Addr) (d : BitVec 64) : Clean (storeDblP base a d) (storeDbl base a d) := by
  refine clean_slot a fun c => ?_
  refine Clean.ite ((lift_clean _).bind fun _ => (setSlot_clean a 4).bind fun _ => lift_clean _) (Clean.ite ((setSlot_clean _ _).bind fun _ => Clean.ite (setSlot_clean _ _) (.ret _)) ?_)
  exact (clean_alloc 8).bind fun o => (setSlot_clean (o, 0) _).bind fun _ => (lift_clean _).bind fun _ => (setSlot_clean a _).bind fun _ => lift_clean _

theorem store_clean (base : Nat) (a : Addr) (v : Val) : Clean (storeP base a v) (store base a v) := by
  cases v with
  | dbl d => exact storeDbl_clean base a d
  | _ => exact storeVal_clean base a _

theorem insert_clean (base : Nat) (k : Bytes) (v : Val) (c : Option Check) : Clean (insertP base k v c) (insert base k v c) := by
  refine (lift_clean _).bind fun go => Clean.ite ?_ (.ret _)
  exact (traverseCreate_clean base k).bind fun a => (store_clean base a v).bind fun _ => .ret _

theorem insertResult_clean (base : Nat) (k : Bytes) (r : CVal) (c : Option Check) : Clean (insertResultP base k r c) (insertResult base k r c) := by
  cases r with
  | missing => exact lift_clean _
  | val v => exact insert_clean base k v c
  | ref d => exact insert_clean base k (.str d) c

theorem clean_free (b : Nat) : Clean (P.free b) (H.free b) := by
  intro β g f
  strict_eval [P.rd64]

theorem storeIncr_clean (a : Addr) (c : Nat) (v : BitVec 64) : Clean (storeIncrP a c v) (storeIncr a c v) := by
  refine Clean.ite ((setSlot_clean _ _).bind fun _ => Clean.ite (clean_free _) (.ret _)) (Clean.ite (setSlot_clean _ _) ?_)
  exact (clean_alloc 8).bind fun o => (setSlot_clean (o, 0) _).bind fun _ => setSlot_clean a _

theorem incrInt_clean (base : Nat) (k : Bytes) (d : BitVec 64) : Clean (incrIntP base k d) (incrInt base k d) := by
  refine (traverseCreate_clean base k).bind fun a => clean_slot a fun c => ?_
  refine Clean.ite ((storeIncr_clean _ _ _).bind fun _ => .ret _) (Clean.ite ?_ (Clean.ite ?_ (.err _)))
  · exact clean_slot (valOf c, 0) fun x => (storeIncr_clean _ _ _).bind fun _ => .ret _
  · exact (lift_clean _).bind fun _ => (storeIncr_clean _ _ _).bind fun _ => .ret _

theorem storeIncrDbl_clean (a : Addr) (o : Nat) (x : BitVec 64) : Clean (storeIncrDblP a o x) (storeIncrDbl a o x) := by
  refine Clean.ite ((setSlot_clean _ _).bind fun _ => lift_clean _) (Clean.ite (setSlot_clean (o, 0) _) ?_)
  exact (clean_alloc 8).bind fun o => (setSlot_clean (o, 0) _).bind fun _ => setSlot_clean a _

theorem incrDbl_clean (add : BitVec 64 → BitVec 64 → BitVec 64) (base : Nat) (k : Bytes) (d : BitVec 64) : Clean (incrDblP add base k d) (incrDbl add base k d) := by
  refine (traverseCreate_clean base k).bind fun a => clean_slot a fun c => ?_
  refine Clean.ite (Clean.ite ((storeIncrDbl_clean _ _ _).bind fun _ => .ret _) ?_) (Clean.ite (Clean.ite ?_ ?_) (.err _))
  · exact clean_slot (valOf c, 0) fun x => (storeIncrDbl_clean _ _ _).bind fun _ => .ret _
  · exact (setSlot_clean _ _).bind fun _ => (lift_clean _).bind fun _ => .ret _
  · exact (clean_alloc 8).bind fun o => (setSlot_clean (o, 0) _).bind fun _ => (setSlot_clean a _).bind fun _ => (lift_clean _).bind fun _ => .ret _

theorem callP_clean (add : BitVec 64 → BitVec 64 → BitVec 64) (b : Nat) (o : PT.Op) : Clean (callP add b o) (call add b o) := by
  cases o with
  | insert k v c => exact (insert_clean b k v c).bind fun _ => .ret _
  | insertResult k v c => exact (insertResult_clean b k v c).bind fun _ => .ret _
  | incr k d => exact (incrInt_clean b k d).bind fun _ => .ret _
  | incrDouble k d => exact (incrDbl_clean add b k d).bind fun _ => .ret _
  | _ => exact lift_clean _

end PrefixTree
end Verif
