import Verif.PrefixStructureInj
import Verif.PropsPrefixTree
/-
C98: PrefixTree::get_structure (/repo/src/PrefixTree.cc 840-843, 1331-1430).  The text is `draw` (PrefixStructure.lean).
-/
namespace Verif
open PrefixTree PT

namespace PrefixTree
variable {base : Nat} {F : Nat → Option Block} {g : G} {ni nn : Nat} {h : Heap}

theorem Tr.tidy (t : Tr base F g ni nn h) {D : BitVec 64 → Prop} (hD : ∀ k d, g.kv k = some (.dbl d) → D d) : Tidy D g.shape where
  below := fun q r h1 hr => by
    have h2 : g.nd q = none := by simpa [G.shape] using h1
    obtain ⟨h3, h4⟩ := t.below h2 hr
    simp [G.shape, h3, h4]
  range := fun q s e p h1 => by
    cases h2 : g.nd q with
    | none => simp [G.shape, h2] at h1
    | some hd =>
      simp only [G.shape, h2, Option.map_some, Option.some.injEq, Prod.mk.injEq] at h1
      obtain ⟨rfl, rfl, rfl⟩ := h1
      obtain ⟨B, -, hn⟩ := t.node q hd h2
      have := B.rd_lt (hd.off + 2) 1
      have := hn.ps
      exact ⟨hn.le, hn.lt, by omega⟩
  out := fun q s e p b r h1 hb => by
    cases h2 : g.nd q with
    | none => simp [G.shape, h2] at h1
    | some hd =>
      simp only [G.shape, h2, Option.map_some, Option.some.injEq, Prod.mk.injEq] at h1
      obtain ⟨rfl, rfl, rfl⟩ := h1
      have h3 := t.outside' h2 hb r
      obtain ⟨h4, -⟩ := t.outside h2 hb
      have h5 : g.nd (q ++ b :: r) = none := by
        by_cases hr : r = []
        · subst hr; exact h4
        · have := (t.below h4 hr).1
          rwa [List.append_assoc] at this
      simp [G.shape, h3, h5]
  val := fun q => by
    cases h2 : g.vl q with
    | none => simp [G.shape, h2, ValOk]
    | some x =>
      obtain ⟨c, v⟩ := x
      obtain ⟨he, -⟩ := t.val q c v h2
      have h3 : g.shape.vl q = some (boxed c, v) := by simp [G.shape, h2]
      rw [h3]
      cases v with
      | dbl d =>
        refine ⟨hD q d (by simp [G.kv, h2]), fun hb => ?_⟩
        rcases he.2.2.1 with ⟨-, rfl⟩ | ⟨h4, h5⟩
        · rfl
        · have h6 : typeOf c = 4 := h4
          simp [boxed, h6] at hb
          omega
      | str d => trivial
      | int d => trivial
      | bool d => trivial
      | null => trivial

theorem Tr.low (t : Tr base F g ni nn h) : Low g.shape [] (maxSteps + 1) := by
  have h1 := t.deep [] (f := maxSteps) (by rw [maxSteps_eq]; omega)
  refine ⟨by omega, fun r hr => ?_⟩
  have := h1.2 r (by simpa [G.shape] using hr)
  omega
end PrefixTree

/-- **C98, the text is that of a tree that holds the map.** In any pool, after any history of calls, get_structure changes nothing and returns the text of a tree with a root whose range is all bytes, in which the value at every key is the one the map has. -/
theorem C98_reads (fmt : BitVec 64 → Bytes) {base : Nat} {F : Nat → Option Block} {s : State} {h : Heap} {p : Pool} (hi : PrefixTree.Holds base F s h) (hs : Sim h p) :
    ∃ T p2, run (compile (getStructure fmt base)) p = (.ok (draw fmt T (maxSteps + 1) []), p2) ∧ Sim h p2 ∧
      T.nd [] = some (0, 255, 0) ∧ (∀ k, (T.vl k).map Prod.snd = s.m k) ∧ Tidy (fun d => ∃ k, s.m k = some (.dbl d)) T := by
  obtain ⟨⟨g, ni, nn, t, hm, -⟩, -⟩ := hi
  obtain ⟨out, p2, h2, e1, ⟨rfl, rfl⟩, hs2⟩ := sim_run (getStructure_spec (I := fun _ => True) (fmt := fmt) t).wp hs
  refine ⟨g.shape, p2, e1, hs2, ?_, fun k => ?_, t.tidy fun k d hk => ⟨k, by rw [← hm]; exact hk⟩⟩
  · simp [G.shape, t.root, rootHd]
  · rw [← hm]; simp [G.shape, G.kv, Option.map_map, Function.comp_def]

/-- **C98, the text determines the map.** Two trees, in the same or in different pools and with any histories, for which get_structure returns the same string, hold the same keys and values -- if %lg prints no comma or parenthesis and prints no two of the doubles in them alike. -/
theorem C98_determines {fmt : BitVec 64 → Bytes} {b1 b2 : Nat} {F1 F2 : Nat → Option Block} {s1 s2 : State} {h1 h2 : Heap} {p1 p2 : Pool}
    (i1 : PrefixTree.Holds b1 F1 s1 h1) (k1 : Sim h1 p1) (i2 : PrefixTree.Holds b2 F2 s2 h2) (k2 : Sim h2 p2)
    (hc : ∀ k d, (s1.m k = some (.dbl d) ∨ s2.m k = some (.dbl d)) → 44 ∉ fmt d ∧ 41 ∉ fmt d)
    (hj : ∀ k k' d e, (s1.m k = some (.dbl d) ∨ s2.m k = some (.dbl d)) → (s1.m k' = some (.dbl e) ∨ s2.m k' = some (.dbl e)) → fmt d = fmt e → d = e)
    {t : Bytes} (r1 : (run (compile (getStructure fmt b1)) p1).1 = .ok t) (r2 : (run (compile (getStructure fmt b2)) p2).1 = .ok t) : s1.m = s2.m := by
  obtain ⟨⟨g1, ni1, nn1, t1, m1, -⟩, -⟩ := i1
  obtain ⟨⟨g2, ni2, nn2, t2, m2, -⟩, -⟩ := i2
  obtain ⟨o1, q1, -, e1, ⟨-, rfl⟩, -⟩ := sim_run (getStructure_spec (I := fun _ => True) (fmt := fmt) t1).wp k1
  obtain ⟨o2, q2, -, e2, ⟨-, rfl⟩, -⟩ := sim_run (getStructure_spec (I := fun _ => True) (fmt := fmt) t2).wp k2
  rw [e1] at r1
  rw [e2] at r2
  have e3 : draw fmt g1.shape (maxSteps + 1) [] ++ [] = draw fmt g2.shape (maxSteps + 1) [] ++ [] := by
    rw [List.append_nil, List.append_nil]
    exact Res.ok.inj (r1.trans r2.symm)
  have hf : FmtOk fmt (fun d => ∃ k, s1.m k = some (.dbl d) ∨ s2.m k = some (.dbl d)) :=
    ⟨fun d ⟨k, hk⟩ c hm => ⟨fun e => (hc k d hk).1 (e ▸ hm), fun e => (hc k d hk).2 (e ▸ hm)⟩, fun d e ⟨k, hk⟩ ⟨k', hk'⟩ => hj k k' d e hk hk'⟩
  have hT := t1.tidy (D := fun d => ∃ k, s1.m k = some (.dbl d) ∨ s2.m k = some (.dbl d)) (fun k d hk => ⟨k, Or.inl (by rw [← m1]; exact hk)⟩)
  have hU := t2.tidy (D := fun d => ∃ k, s1.m k = some (.dbl d) ∨ s2.m k = some (.dbl d)) (fun k d hk => ⟨k, Or.inr (by rw [← m2]; exact hk)⟩)
  obtain ⟨hsame, -⟩ := draw_same hf hT hU _ [] [] [] t1.low t2.low trivial trivial e3
  funext k
  have := (hsame k).2
  rw [List.nil_append] at this
  rw [← m1, ← m2]
  simpa [G.shape, G.kv, Option.map_map, Function.comp_def] using this

/-- get_structure after some calls on a tree that was just created on a fresh pool -/
def structRun (fmt : BitVec 64 → Bytes) (ops : List Op) : Res Bytes :=
  (run (compile ((hist (PrefixTree.call noAdd 344) ops).bind fun _ => getStructure fmt 344)) (ptPool 0)).1

/-- a tree and a pool that meet the hypotheses -/
example (fmt : BitVec 64 → Bytes) : ∃ T p2, run (compile (getStructure fmt 344)) (ptPool 0) = (.ok (draw fmt T (maxSteps + 1) []), p2) ∧ T.nd [] = some (0, 255, 0) ∧ ∀ k, T.vl k = none := by
  obtain ⟨h, hp, hi, hs⟩ := ptPool_ready
  obtain ⟨T, p2, h1, -, h2, h3, -⟩ := C98_reads fmt hi hs
  exact ⟨T, p2, h1, h2, fun k => by simpa [new] using h3 k⟩

/-- **The converse of C98 is false** (and two concrete runs, with an escaped comma, a string in a buffer and an erased number).  Two trees that hold the same keys and values, with the strings
`([00,FF]@00+#,01:([61,62]@01+s"\x2C",62:S"12345678"))` and `([00,FF]@00+#,01:([62,62]@01+s"\x2C",62:S"12345678"))`: nodes keep the range they were given for keys that were erased. -/
theorem C98_not_canonical :
    structRun (fun _ => []) [.insert [1, 97] (.int (-5)) none, .insert [1] (.str [44]) none, .insert [1, 98] (.str [49, 50, 51, 52, 53, 54, 55, 56]) none, .erase [1, 97] none] =
      .ok [40, 91, 48, 48, 44, 70, 70, 93, 64, 48, 48, 43, 35, 44, 48, 49, 58, 40, 91, 54, 49, 44, 54, 50, 93, 64, 48, 49, 43, 115, 34, 92, 120, 50, 67, 34, 44, 54, 50, 58, 83, 34, 49, 50, 51, 52, 53, 54, 55, 56, 34, 41, 41] ∧
    structRun (fun _ => []) [.insert [1] (.str [44]) none, .insert [1, 98] (.str [49, 50, 51, 52, 53, 54, 55, 56]) none] =
      .ok [40, 91, 48, 48, 44, 70, 70, 93, 64, 48, 48, 43, 35, 44, 48, 49, 58, 40, 91, 54, 50, 44, 54, 50, 93, 64, 48, 49, 43, 115, 34, 92, 120, 50, 67, 34, 44, 54, 50, 58, 83, 34, 49, 50, 51, 52, 53, 54, 55, 56, 34, 41, 41] := by
  decide +kernel

end Verif
