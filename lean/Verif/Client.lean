import Verif.Guarded
/-
Clients that choose each call by the outcomes of the calls before it (programs with branches and bounded loops around the API), instead of fixed lists of calls.
-/
namespace Verif

/-- A client of an object with calls `O` and results `R`: it stops, or it makes a call and goes on according to its outcome (a result or an exception). -/
inductive Client (O R : Type)
  | done
  | call (o : O) (next : Out R → Client O R)

namespace Client
variable {O R S : Type}

/-- the client that makes the calls of a list -/
def ofList : List O → Client O R
  | [] => .done
  | o :: os => .call o fun _ => ofList os

/-- run a client; `f` interprets a call.  The result is the list of the calls it made with their outcomes. -/
def play (f : O → HProg R) : Client O R → HProg (List (O × Out R))
  | .done => .ret []
  | .call o k => (attempt (f o)).bind fun r => (play f (k r)).bind fun l => .ret ((o, r) :: l)

/-- the calls and outcomes `l` are those of the client: each call is the one it chooses after the outcomes before -/
def Made : Client O R → List (O × Out R) → Prop
  | .done, l => l = []
  | .call o k, l => ∃ r l', l = (o, r) :: l' ∧ Made (k r) l'

/-- every call that the client can make satisfies `ok` in the state in which it makes it -/
def Careful (Spec : S → O → Out R → S → Prop) (ok : S → O → Prop) : S → Client O R → Prop
  | _, .done => True
  | s, .call o k => ok s o ∧ ∀ r s', Spec s o r s' → Careful Spec ok s' (k r)

theorem careful_ofList {Spec : S → O → Out R → S → Prop} {ok : S → O → Prop} {ops : List O} : ∀ {s : S}, Guarded Spec ok s ops → Careful Spec ok s (ofList ops) := by
  induction ops with
  | nil => intro s _; trivial
  | cons o os ih => intro s g; exact ⟨g.1, fun r s' h => ih (g.2 r s' h)⟩

theorem play_spec {f : O → HProg R} {Spec : S → O → Out R → S → Prop} {Inv : S → Heap → Prop} {ok : S → O → Prop}
    (hstep : ∀ s o h, ok s o → Inv s h → wp (f o) (fun out h' => ∃ s', Spec s o out s' ∧ Inv s' h') h)
    (c : Client O R) : ∀ (s : S) (h : Heap), Careful Spec ok s c → Inv s h →
    wp (play f c) (fun out h' => ∃ l s', out = .ok l ∧ Made c l ∧ Trace Spec s (l.map Prod.fst) (l.map Prod.snd) s' ∧ Inv s' h') h := by
  induction c with
  | done => intro s h _ hi; exact ⟨[], s, rfl, rfl, .nil s, hi⟩
  | call o k ih =>
    intro s h hok hi
    unfold play
    refine wp_bind_of (R := fun out h' => ∃ r s', out = .ok r ∧ Spec s o r s' ∧ Inv s' h') ?_ ?_ ?_
    · rw [wp_attempt]
      refine wp_mono ?_ (hstep s o h hok.1 hi)
      rintro out h' ⟨s', h1, h2⟩
      exact ⟨out, s', rfl, h1, h2⟩
    · rintro r h' ⟨r', s', he, h1, h2⟩
      cases he
      refine wp_bind_of (ih r s' h' (hok.2 _ _ h1) h2) ?_ ?_
      · rintro rs h'' ⟨rs', s'', he, h3, h4, h5⟩
        cases he
        exact ⟨_, s'', rfl, ⟨_, _, rfl, h3⟩, .cons h1 h4, h5⟩
      · rintro e h'' ⟨rs', s'', he, -⟩; cases he
    · rintro e h' ⟨r', s', he, -⟩; cases he

/-- the same on the bytes of a pool -/
theorem play_run {f : O → HProg R} {Spec : S → O → Out R → S → Prop} {Inv : S → Heap → Prop} {ok : S → O → Prop}
    (hstep : ∀ s o h, ok s o → Inv s h → wp (f o) (fun out h' => ∃ s', Spec s o out s' ∧ Inv s' h') h)
    (c : Client O R) {s : S} {h : Heap} {p : Pool} (hok : Careful Spec ok s c) (hi : Inv s h) (hs : Sim h p) :
    ∃ l p' s' h', run (compile (play f c)) p = (.ok l, p') ∧ Made c l ∧ Trace Spec s (l.map Prod.fst) (l.map Prod.snd) s' ∧ Inv s' h' ∧ Sim h' p' := by
  obtain ⟨out, p', h', h1, ⟨rs, s', h2, h3, h4, h5⟩, h6⟩ := sim_run (play_spec hstep c s h hok hi) hs
  subst h2
  exact ⟨rs, p', s', h', h1, h3, h4, h5, h6⟩

end Client
end Verif
