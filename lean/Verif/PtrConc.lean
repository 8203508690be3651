import Verif.PtrClean
import Verif.ViewConc
/-
Calls of methods with pointers, as sections under the lock.
-/
namespace Verif.Lock
open Verif
variable {R O S : Type}

/-- a call: the mapping is refreshed, then the method runs with its pointers into it -/
def ptrBody (f : O → PProg R) (o : O) : Body (poolMach (Out R)) := remapped (withPtrs (attemptP (f o)))

/-- the session of a method call -/
def ptrSession (f : O → PProg R) (writes : O → Bool) (dummy : R) (o : O) : Session (poolMach (Out R)) := bodySession (ptrBody f) (viewRepair dummy) writes o

theorem pointed_ro : ∀ (p : HProg R) (v g last : Nat), last ≤ g → HRo p → Ro (K := poolMach (Out R)) (pointed (attemptP (lift p)) v g last) := by
  intro p
  induction p with
  | ret a => intros; trivial
  | err e => intros; trivial
  | ub => intros; trivial
  | step op k ih =>
    intro v g last hl h
    cases op with
    | rd b o n => exact ro_ite ⟨fun _ => rfl, fun x => ih x v g last hl (h x)⟩ trivial
    | rdB b o n => exact ro_ite ⟨fun _ => rfl, fun x => ih x v g last hl (h x)⟩ trivial
    | bsize b => exact ⟨fun _ => rfl, fun x => ih x v g last hl (h x)⟩
    | getBase => exact ⟨fun _ => rfl, fun x => ih x v g last hl (h x)⟩
    | _ => exact h.elim

theorem ptrBody_ro {f : O → PProg R} {f' : O → HProg R} {o : O} (e : f o = lift (f' o)) (h : HRo (f' o)) : Ro (ptrBody f o) := by
  refine ⟨fun _ => rfl, fun v => viewed_ro _ v ⟨fun _ => rfl, fun v => ?_⟩⟩
  rw [e]
  exact pointed_ro _ v 0 0 (Nat.le_refl 0) h

variable {Spec : S → O → Out R → S → Prop} {Cut : S → O → S → Prop} {Inv CI : S → Heap → Prop} {ok : O → Prop} {dummy : R}

theorem Crashable.ptr {f : O → HProg R} (H : Crashable f Spec Cut Inv CI ok) {fp : O → PProg R} (hc : ∀ o, ok o → Clean (fp o) (f o)) :
    BodyCrash (ptrBody fp) (viewRepair dummy) dummy Spec Cut Inv CI ok where
  method := by
    intro o ho s h p hi hs
    have hg : ∀ p, (∃ s' h', (s' = s ∨ Cut s o s') ∧ CI s' h' ∧ CSim h' p) → Simple.Geo p := by rintro p ⟨s', h', -, -, h⟩; exact CSim.geo h
    exact remapped_rwp hg (withPtrs_rwp hg (hc o ho) (H.method ho hi hs))
  repaired := by
    intro o ho s h p hi hs
    have hg : ∀ p, (∃ s' h', (s' = s ∨ Cut s o s') ∧ CI s' h' ∧ CSim h' p) → Simple.Geo p := by rintro p ⟨s', h', -, -, h⟩; exact CSim.geo h
    refine rwp_bind_of (remapped_rwp (fun _ h => CSim.geo h) (repairBody_rwp (dummy := dummy) hs)) ?_ ?_ (by rintro e s' ⟨h, -⟩; cases h)
    · intro p' h1; exact ⟨s, h, Or.inl rfl, hi, h1⟩
    · rintro a p' ⟨-, h1⟩
      exact remapped_rwp hg (withPtrs_rwp hg (hc o ho) (H.method ho (H.heal _ _ _ hi h1) h1))
  repair := fun hs => remapped_rwp (fun _ h => CSim.geo h) (repairBody_rwp hs)
  weak := H.weak
  heal := H.heal

theorem ptr_run {f : O → HProg R} (hstep : ∀ s o h, ok o → Inv s h → wp (f o) (fun out h' => ∃ s', Spec s o out s' ∧ Inv s' h') h)
    {fp : O → PProg R} (hc : ∀ o, ok o → Clean (fp o) (f o)) {o : O} (ho : ok o) {s : S} {h : Heap} {p : Pool} (hi : Inv s h) (hs : Sim h p) :
    ∃ (r : Out R) (p' : Pool) (s' : S) (h' : Heap), Body.run (ptrBody fp o) p = (.ok r, p') ∧ Spec s o r s' ∧ Inv s' h' ∧ Sim h' p' := by
  have hw : wp (attempt (f o)) (fun out h' => ∃ r s', out = .ok r ∧ Spec s o r s' ∧ Inv s' h') h := by
    rw [wp_attempt]
    refine wp_mono ?_ (hstep s o h ho hi)
    rintro out h' ⟨s', h1, h2⟩
    exact ⟨out, s', rfl, h1, h2⟩
  have hg : ∀ p, (∃ h', True ∧ CSim h' p) → Simple.Geo p := by rintro p ⟨h', -, h⟩; exact CSim.geo h
  obtain ⟨out, p', h1, h', ⟨r, s', rfl, h2, h3⟩, h4⟩ := pool_run (remapped_rwp hg (withPtrs_rwp hg (hc o ho) (sim hw (wp_always hw) hs)))
  exact ⟨r, p', s', h', h1, h2, h3, h4⟩

end Verif.Lock
