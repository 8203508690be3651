import Verif.HeapOk
/-
Histories whose calls must satisfy a condition on the abstract state they are made in.
-/
namespace Verif

variable {O R S T : Type}

/-- every call of `ops` satisfies `ok` in every state in which `Spec` can have brought it when it is made -/
def Guarded (Spec : S → O → Out R → S → Prop) (ok : S → O → Prop) : S → List O → Prop
  | _, [] => True
  | s, o :: os => ok s o ∧ ∀ r s', Spec s o r s' → Guarded Spec ok s' os

theorem Guarded.of_all {Spec : S → O → Out R → S → Prop} {ok : S → O → Prop} {ops : List O} (h : ∀ o ∈ ops, ∀ s, ok s o) : ∀ s, Guarded Spec ok s ops := by
  induction ops with
  | nil => intro s; trivial
  | cons o os ih => intro s; exact ⟨h o (by simp) s, fun _ s' _ => ih (fun o ho => h o (by simp [ho])) s'⟩

theorem Guarded.map {Spec : S → O → Out R → S → Prop} {Spec' : T → O → Out R → T → Prop} {ok : S → O → Prop} {f : T → S}
    (h : ∀ s o r s', Spec' s o r s' → Spec (f s) o r (f s')) {ops : List O} : ∀ {s : T}, Guarded Spec ok (f s) ops → Guarded Spec' (fun s o => ok (f s) o) s ops := by
  induction ops with
  | nil => intro s _; trivial
  | cons o os ih => intro s g; exact ⟨g.1, fun r s' hs => ih (g.2 r _ (h _ _ _ _ hs))⟩

theorem Trace.map {Spec : S → O → Out R → S → Prop} {Spec' : T → O → Out R → T → Prop} {f : T → S}
    (h : ∀ s o r s', Spec' s o r s' → Spec (f s) o r (f s')) {s s' : T} {ops : List O} {rs : List (Out R)} (t : Trace Spec' s ops rs s') :
    Trace Spec (f s) ops rs (f s') := by
  induction t with
  | nil s => exact .nil _
  | cons h1 _ ih => exact .cons (h _ _ _ _ h1) ih

theorem hist_guarded {f : O → HProg R} {Spec : S → O → Out R → S → Prop} {Inv : S → Heap → Prop} {ok : S → O → Prop}
    (hstep : ∀ s o h, ok s o → Inv s h → wp (f o) (fun out h' => ∃ s', Spec s o out s' ∧ Inv s' h') h)
    (ops : List O) : ∀ (s : S) (h : Heap), Guarded Spec ok s ops → Inv s h →
    wp (hist f ops) (fun out h' => ∃ rs s', out = .ok rs ∧ Trace Spec s ops rs s' ∧ Inv s' h') h := by
  induction ops with
  | nil => intro s h _ hi; exact ⟨[], s, rfl, .nil s, hi⟩
  | cons o os ih =>
    intro s h hok hi
    unfold hist
    refine wp_bind_of (R := fun out h' => ∃ r s', out = .ok r ∧ Spec s o r s' ∧ Inv s' h') ?_ ?_ ?_
    · rw [wp_attempt]
      refine wp_mono ?_ (hstep s o h hok.1 hi)
      rintro out h' ⟨s', h1, h2⟩
      exact ⟨out, s', rfl, h1, h2⟩
    · rintro r h' ⟨r', s', he, h1, h2⟩
      cases he
      refine wp_bind_of (ih s' h' (hok.2 _ _ h1) h2) ?_ ?_
      · rintro rs h'' ⟨rs', s'', he, h3, h4⟩
        cases he
        exact ⟨_, s'', rfl, .cons h1 h3, h4⟩
      · rintro e h'' ⟨rs', s'', he, -⟩; cases he
    · rintro e h' ⟨r', s', he, -⟩; cases he

theorem hist_run_guarded {f : O → HProg R} {Spec : S → O → Out R → S → Prop} {Inv : S → Heap → Prop} {ok : S → O → Prop}
    (hstep : ∀ s o h, ok s o → Inv s h → wp (f o) (fun out h' => ∃ s', Spec s o out s' ∧ Inv s' h') h)
    (ops : List O) {s : S} {h : Heap} {p : Pool} (hok : Guarded Spec ok s ops) (hi : Inv s h) (hs : Sim h p) :
    ∃ rs p' s' h', run (compile (hist f ops)) p = (.ok rs, p') ∧ Trace Spec s ops rs s' ∧ Inv s' h' ∧ Sim h' p' := by
  obtain ⟨out, p', h', h1, ⟨rs, s', h2, h3, h4⟩, h5⟩ := sim_run (hist_guarded hstep ops s h hok hi) hs
  subst h2
  exact ⟨rs, p', s', h', h1, h3, h4, h5⟩

end Verif
