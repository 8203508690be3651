import Verif.Heap
/-
Histories: running a list of method calls one after another, recording each result or exception.
-/
namespace Verif

variable {α β O R S : Type}

/-- run `p`, turning its outcome (result or exception) into a value, as a caller that catches
exceptions sees it -/
def attempt (p : HProg α) : HProg (Out α) :=
  (p.bind fun a => .ret (Out.ok a)).tryCatch fun e => .ret (Out.err e)

theorem wp_attempt (p : HProg α) (Q : Out (Out α) → Heap → Prop) (h : Heap) :
    wp (attempt p) Q h ↔ wp p (fun o h => Q (.ok o) h) h := by
  unfold attempt
  rw [wp_tryCatch, wp_bind]
  constructor
  · refine wp_mono ?_
    intro o h' hq
    cases o <;> exact hq
  · refine wp_mono ?_
    intro o h' hq
    cases o <;> exact hq

/-- a sequence of calls; `f` interprets a call -/
def hist (f : O → HProg R) : List O → HProg (List (Out R))
  | [] => .ret []
  | o :: os => (attempt (f o)).bind fun r => (hist f os).bind fun rs => .ret (r :: rs)

/-- `rs` is a possible list of results of `ops` from `s` to `s'` for the specification `Spec` -/
inductive Trace (Spec : S → O → Out R → S → Prop) : S → List O → List (Out R) → S → Prop
  | nil (s : S) : Trace Spec s [] [] s
  | cons {s s1 s2 : S} {o : O} {os : List O} {r : Out R} {rs : List (Out R)} :
      Spec s o r s1 → Trace Spec s1 os rs s2 → Trace Spec s (o :: os) (r :: rs) s2

theorem Trace.split {Spec : S → O → Out R → S → Prop} {a b : List O} : ∀ {s : S} {rs : List (Out R)} {s' : S},
    Trace Spec s (a ++ b) rs s' → ∃ r1 r2 t, rs = r1 ++ r2 ∧ Trace Spec s a r1 t ∧ Trace Spec t b r2 s' := by
  induction a with
  | nil => intro s rs s' h; exact ⟨[], rs, s, rfl, .nil s, h⟩
  | cons o a ih =>
    intro s rs s' h
    cases h with
    | cons h1 h2 =>
      obtain ⟨r1, r2, t, rfl, h3, h4⟩ := ih h2
      exact ⟨_ :: r1, r2, t, rfl, .cons h1 h3, h4⟩

theorem hist_spec {f : O → HProg R} {Spec : S → O → Out R → S → Prop} {Inv : S → Heap → Prop}
    {ok : O → Prop}
    (hstep : ∀ s o h, ok o → Inv s h →
      wp (f o) (fun out h' => ∃ s', Spec s o out s' ∧ Inv s' h') h)
    (ops : List O) : ∀ (s : S) (h : Heap), (∀ o ∈ ops, ok o) → Inv s h →
    wp (hist f ops) (fun out h' => ∃ rs s', out = .ok rs ∧ Trace Spec s ops rs s' ∧ Inv s' h') h := by
  induction ops with
  | nil => intro s h _ hi; exact ⟨[], s, rfl, .nil s, hi⟩
  | cons o os ih =>
    intro s h hok hi
    unfold hist
    refine wp_bind_of (R := fun out h' => ∃ r s', out = .ok r ∧ Spec s o r s' ∧ Inv s' h') ?_ ?_ ?_
    · rw [wp_attempt]
      refine wp_mono ?_ (hstep s o h (hok o (by simp)) hi)
      rintro out h' ⟨s', h1, h2⟩
      exact ⟨out, s', rfl, h1, h2⟩
    · rintro r h' ⟨r', s', he, h1, h2⟩
      cases he
      refine wp_bind_of (ih s' h' (fun o ho => hok o (by simp [ho])) h2) ?_ ?_
      · rintro rs h'' ⟨rs', s'', he, h3, h4⟩
        cases he
        exact ⟨_, s'', rfl, .cons h1 h3, h4⟩
      · rintro e h'' ⟨rs', s'', he, -⟩; cases he
    · rintro e h' ⟨r', s', he, -⟩; cases he

end Verif
