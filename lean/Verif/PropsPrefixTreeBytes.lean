import Verif.PrefixTreeBytes
import Verif.PropsPrefixTree
/-
C57: bytes_for_prefix (PrefixTree.cc 698-762).
-/
namespace Verif
open PrefixTree (Val)
open PT

/-- run some calls on a tree that was just created on a fresh pool, then bytes_for_prefix -/
def ptBytes (ops : List Op) (k : Bytes) : Res Nat :=
  (run (compile ((hist (PrefixTree.call noAdd 344) ops).bind fun _ => PrefixTree.bytesForPrefix 344 k)) (ptPool 0)).1

/-- **C57 is false.** A string of 100 bytes adds 100 bytes, but none any more once a key exists that extends its key (it then sits in a node, and bytes_for_contents skips the values of nodes). -/
theorem C57_false : ptBytes [] [] = .ok 2064 ∧ ptBytes [.insert [97] (.str (List.replicate 100 1)) none] [] = .ok 2164 ∧
    ptBytes [.insert [97] (.str (List.replicate 100 1)) none, .insert [97, 98] .null none] [] = .ok 2088 := by
  decide +kernel

/-- **C57 is false.** 0.0 takes no buffer but is counted with one. -/
theorem C57_false_zero : ptBytes [.insert [97] (.dbl 0) none] [] = .ok 2072 := by
  decide +kernel

/-- **C57 is false.** An empty string sends the allocator looking for a block header in front of the pool. -/
theorem C57_false_empty : ptBytes [.insert [97] (.str []) none] [97] = .ub := by
  decide +kernel

section
variable {base : Nat} {F : Nat → Option Block} {s : State} {h : Heap}

/-- **C57, whole tree.** On a tree that holds neither "" nor 0.0, bytes_for_prefix("") changes nothing and returns at most the total size of the blocks the tree has allocated less the 16 bytes of its two
counters; it is exactly that if no allocation has failed since the last clear (`clean`) and the values of the empty key and of keys that other keys extend are all null, true or false.
Missing: see the three counterexamples. -/
theorem C57_total_partial (hi : PrefixTree.Holds base F s h) (he : ∀ k, s.m k ≠ some (.str [])) (hz : ∀ k, s.m k ≠ some (.dbl 0#64)) :
    wp (PrefixTree.bytesForPrefix base []) (fun out h' => h' = h ∧ ∃ n L, out = .ok n ∧ PrefixTree.Held h F L ∧ n + 16 ≤ PrefixTree.sizeIn h L ∧
      (s.clean = true → (∀ k v, Inner s.m k → s.m k = some v → v = .null ∨ ∃ b, v = .bool b) → n + 16 = PrefixTree.sizeIn h L)) h := by
  obtain ⟨⟨g, ni, nn, t, hm, -, -, hc⟩, -, -⟩ := hi
  have hkv : ∀ q c v, g.vl q = some (c, v) → s.m q = some v := by
    intro q c v hq
    rw [← hm]; simp [PrefixTree.G.kv, hq]
  refine wp_mono ?_ (PrefixTree.bytesForPrefix_spec (I := fun _ => True) t (fun q c _ hq => he q (hkv q c _ hq)) []).wp
  rintro out h' ⟨h1, ⟨-, h2, -⟩ | ⟨n, rfl, h2⟩⟩
  · exact absurd rfl h2
  obtain ⟨L, h3, h4, h5⟩ := t.total (fun q c _ hq => hz q (hkv q c _ hq)) h2
  refine ⟨h1, n, L, by simp, h3, h4, fun hcl hin => h5 ?_⟩
  intro p hp
  cases hv : g.vl p with
  | none => rfl
  | some cv =>
    obtain ⟨c, v⟩ := cv
    have hw := (t.val p c v hv).1.2.2.1
    rcases hin p v (hm ▸ (t.tight_inner (hc hcl) p).1 hp) (hkv p c v hv) with rfl | ⟨b, rfl⟩
    · rw [show c = 21 from hw]; rfl
    · rw [show c = if b then 13 else 5 from hw]; cases b <;> rfl

theorem le_sum {f : Bytes → Nat} {l : List Bytes} {p : Bytes} (h : p ∈ l) : f p ≤ (l.map f).sum := by
  induction l with
  | nil => cases h
  | cons q l ih =>
    simp only [List.map_cons, List.sum_cons]
    rcases List.mem_cons.1 h with rfl | h
    · omega
    · have := ih h; omega

/-- **C57, prefixes.** On a tree that does not hold "", bytes_for_prefix(k) for k not empty changes nothing; if no key starts with k (and no allocation has failed since the last clear) it returns 0 or 8 (an
unused slot); if a key starts with k, at least 8; and if a key that starts with k, and that no other key extends, holds a string of 8 bytes or more, at least 8 plus the length of that string. -/
theorem C57_prefix_partial (hi : PrefixTree.Holds base F s h) (he : ∀ k, s.m k ≠ some (.str [])) {k : Bytes} (hk : k ≠ []) :
    wp (PrefixTree.bytesForPrefix base k) (fun out h' => h' = h ∧ ∃ n, out = .ok n ∧
      (s.clean = true → (∀ r, s.m (k ++ r) = none) → n = 0 ∨ n = 8) ∧ (∀ r, s.m (k ++ r) ≠ none → 8 ≤ n) ∧
      (s.clean = true → ∀ r d, s.m (k ++ r) = some (.str d) → ¬ Inner s.m (k ++ r) → 8 ≤ d.length → 8 + d.length ≤ n)) h := by
  obtain ⟨⟨g, ni, nn, t, hm, -, -, hc⟩, -, -⟩ := hi
  have hkv : ∀ q c v, g.vl q = some (c, v) → s.m q = some v := by
    intro q c v hq
    rw [← hm]; simp [PrefixTree.G.kv, hq]
  have hvl : ∀ q v, s.m q = some v → ∃ c, g.vl q = some (c, v) := by
    intro q v hq
    rw [← hm] at hq
    cases hv : g.vl q with
    | none => simp [PrefixTree.G.kv, hv] at hq
    | some cv => obtain ⟨c, v'⟩ := cv; simp [PrefixTree.G.kv, hv] at hq; exact ⟨c, by rw [hq]⟩
  refine wp_mono ?_ (PrefixTree.bytesForPrefix_spec (I := fun _ => True) t (fun q c _ hq => he q (hkv q c _ hq)) k).wp
  rintro out h' ⟨h1, ⟨rfl, -, h2⟩ | ⟨n, rfl, l, h2, h3, h4⟩⟩
  · have hno : ∀ r, s.m (k ++ r) = none := by
      intro r
      cases hv : s.m (k ++ r) with
      | none => rfl
      | some v => obtain ⟨c, h3⟩ := hvl _ _ hv; exact absurd ⟨List.prefix_append k r, Or.inr (by rw [h3]; simp)⟩ (h2 (k ++ r))
    refine ⟨h1, 0, rfl, fun _ _ => Or.inl rfl, fun r hr => absurd (hno r) hr, fun _ r d hr => ?_⟩
    rw [hno r] at hr; cases hr
  · rw [if_neg hk]
    refine ⟨h1, 8 + n, rfl, ?_, fun r _ => by omega, ?_⟩
    · intro hcl hno
      right
      have : l = [] := by
        refine List.eq_nil_iff_forall_not_mem.2 fun p hp => ?_
        obtain ⟨⟨r, rfl⟩, h5⟩ := (h3 p).1 hp
        have h6 : OnPath g.kv (k ++ r) := (t.tight_path (hc hcl) (k ++ r)).1 (by
          rcases h5 with h5 | h5
          · exact Or.inl h5
          · right
            cases hv : g.vl (k ++ r) with
            | none => exact absurd hv h5
            | some cv => obtain ⟨c, v⟩ := cv; simp [PrefixTree.G.kv, hv])
        rcases h6 with h6 | ⟨r', h6⟩
        · exact hk (List.append_eq_nil_iff.1 h6).1
        · rw [hm, List.append_assoc] at h6; exact h6 (hno _)
      subst this
      rw [← h4]; rfl
    · intro hcl r d hr hin hd
      obtain ⟨c, hv⟩ := hvl _ _ hr
      have hnd : g.nd (k ++ r) = none := by
        refine Classical.byContradiction fun hn => hin ?_
        have := (t.tight_inner (hc hcl) (k ++ r)).1 hn
        rw [hm] at this; exact this
      have h5 := le_sum (f := PrefixTree.pathB g) ((h3 (k ++ r)).2 ⟨List.prefix_append k r, Or.inr (by rw [hv]; simp)⟩)
      rw [h4] at h5
      have h6 : PrefixTree.pathB g (k ++ r) = d.length := by
        unfold PrefixTree.pathB
        rw [hnd, hv]
        rcases (t.val _ _ _ hv).1.2.2.1 with ⟨-, rfl⟩ | ⟨-, h7, -⟩ | ⟨h7, -⟩
        · simp at hd
        · omega
        · simp [PrefixTree.leafB, PrefixTree.typeOf, h7]
      omega

end

/-- the hypotheses of both theorems, including those for equality, are met by a tree with one string -/
example : ∃ h F s, PrefixTree.Holds 344 F s h ∧ (∀ k, s.m k ≠ some (.str [])) ∧ (∀ k, s.m k ≠ some (.dbl 0#64)) ∧ s.clean = true ∧
    (∀ k v, Inner s.m k → s.m k = some v → v = .null ∨ ∃ b, v = .bool b) ∧ s.m [97] = some (.str [1, 2, 3, 4, 5, 6, 7, 8, 9]) ∧ ¬ Inner s.m [97] := by
  obtain ⟨h, hp, h1, h2⟩ := ptPool_ready
  obtain ⟨out, p2, h3, e1, ⟨rs, s, rfl, e2, hh2⟩, -⟩ := sim_run (PrefixTree.history (add := noAdd) [.insert [97] (.str [1, 2, 3, 4, 5, 6, 7, 8, 9]) none]
    (Guarded.of_all (fun o ho s => by simp only [List.mem_singleton] at ho; subst ho; exact Op.free.ok (by simp [Op.free])) _) h1) h2
  have e3 : (run (compile (hist (PrefixTree.call noAdd 344) [.insert [97] (.str [1, 2, 3, 4, 5, 6, 7, 8, 9]) none])) (ptPool 0)).1 = .ok [.ok (.bool true)] := by decide +kernel
  rw [e1] at e3
  injection e3 with e3
  subst e3
  cases e2 with
  | cons hs ht =>
    cases ht
    rcases hs with ⟨-, h4, -⟩ | ⟨-, -, h4⟩ | ⟨-, h4, -⟩
    · cases h4
    · have hm : ∀ k, s.m k = if k = [97] then some (.str [1, 2, 3, 4, 5, 6, 7, 8, 9]) else none := by
        intro k; rw [h4]; simp [put, new, kept]
      have hin : ∀ k, Inner s.m k → k = [] := by
        rintro k (h5 | ⟨r, h5, h6⟩)
        · exact h5
        · rw [hm] at h6
          by_cases e : k ++ r = [97]
          · rcases k with _ | ⟨a, _ | ⟨b, k⟩⟩
            · rfl
            · simp at e; exact absurd e.2 h5
            · simp at e
          · simp [e] at h6
      refine ⟨h3, hp, s, hh2, ?_, ?_, by rw [h4]; rfl, ?_, by rw [hm]; rfl, fun h5 => by cases hin _ h5⟩
      · intro k; rw [hm]; split <;> simp
      · intro k; rw [hm]; split <;> simp
      · intro k v h5 h6
        rw [hin k h5, hm] at h6
        simp at h6
    · cases h4

end Verif
