import Verif.PrefixTreeOrder
/-
next_key_value_internal: the search for the next key.
-/
namespace Verif.PrefixTree
open Verif
attribute [local irreducible] Block.rd Block.rdB

theorem nodup_lt {l : List Nat} {n : Nat} (hn : l.Nodup) (hl : ∀ x ∈ l, x < n) : l.length ≤ n := by
  rw [← List.toFinset_card_of_nodup hn, ← Finset.card_range n]
  refine Finset.card_le_card ?_
  intro x hx
  exact Finset.mem_range.2 (hl x (List.mem_toFinset.1 hx))

theorem Stack.inv {g : G} {p : Bytes} {a : Addr} {st : List Addr} (s : Stack g p (a :: st)) : (p = [] ∧ st = []) ∨ ∃ p' b, p = p' ++ [b] ∧ Stack g p' st := by
  generalize e : a :: st = l at s
  cases s with
  | root hd hr => injection e with _ e; exact Or.inl ⟨rfl, e⟩
  | snoc p b ns hd hs hn => injection e with _ e; subst e; exact Or.inr ⟨p, b, rfl, hs⟩

/-- a number for each node -/
def addr (g : G) (p : Bytes) : Nat := if p = [] then 0 else match g.nd p with
  | some hd => hd.o
  | none => 0

section
variable {base : Nat} {F : Nat → Option Block} {g : G} {ni nn : Nat} {h : Heap} {I : Heap → Prop}

theorem Tr.addr_lt (t : Tr base F g ni nn h) (p : Bytes) : addr g p < W64 := by
  unfold addr
  split
  · omega
  · rename_i hp
    obtain ⟨p', b, rfl⟩ := exists_snoc hp
    cases hq : g.nd (p' ++ [b]) with
    | none => simp only; omega
    | some hd => exact (t.child _ _ _ hq).2.2.2.2.1

theorem Tr.addr_inj (t : Tr base F g ni nn h) {p p' : Bytes} (h1 : g.nd p ≠ none) (h2 : g.nd p' ≠ none) (e : addr g p = addr g p') : p = p' := by
  have hpos : ∀ q, q ≠ [] → ∀ hd, g.nd q = some hd → addr g q = hd.o ∧ hd.o ≠ 0 := by
    intro q hq hd hn
    unfold addr
    rw [if_neg hq, hn]
    obtain ⟨p', b, rfl⟩ := exists_snoc hq
    exact ⟨rfl, (t.child _ _ _ hn).2.2.2.1⟩
  have hz : addr g [] = 0 := by unfold addr; rw [if_pos rfl]
  obtain ⟨hd, h3⟩ := Option.ne_none_iff_exists'.1 h1
  obtain ⟨hd', h4⟩ := Option.ne_none_iff_exists'.1 h2
  by_cases e1 : p = []
  · by_cases e2 : p' = []
    · rw [e1, e2]
    · obtain ⟨h5, h6⟩ := hpos p' e2 hd' h4
      rw [e1, hz, h5] at e; exact absurd e.symm h6
  · obtain ⟨h5, h6⟩ := hpos p e1 hd h3
    by_cases e2 : p' = []
    · rw [e2, hz, h5] at e; exact absurd e h6
    · obtain ⟨h7, h8⟩ := hpos p' e2 hd' h4
      refine Classical.byContradiction fun hne => t.nd_ne h3 h4 hne ?_
      rw [← h5, ← h7, e]

/-- slot_id as a number -/
def ix : Option Nat → Nat
  | none => 0
  | some j => j + 1

/-- the position of slot `i` of node `p` -/
def pos (p : Bytes) (i : Option Nat) : List Nat := enc p ++ [ix i]

/-- the positions visited before -/
def Seen (g : G) (q : List Nat) (V : List Nat) : Prop := V.Nodup ∧ ∀ c ∈ V, ∃ p i, g.nd p ≠ none ∧ ix i < 1024 ∧ c = addr g p * 1024 + ix i ∧ pos p i < q

theorem Seen.add (t : Tr base F g ni nn h) {V : List Nat} {p : Bytes} {i : Option Nat} {q : List Nat} (s : Seen g (pos p i) V) (hp : g.nd p ≠ none) (hi : ix i < 1024) (hq : pos p i < q) :
    Seen g q ((addr g p * 1024 + ix i) :: V) := by
  refine ⟨List.nodup_cons.2 ⟨?_, s.1⟩, ?_⟩
  · intro hm
    obtain ⟨p', i', h1, h2, h3, h4⟩ := s.2 _ hm
    have e1 : addr g p = addr g p' := by omega
    have e2 : ix i = ix i' := by omega
    rw [← t.addr_inj hp h1 e1] at h4
    unfold pos at h4
    rw [e2] at h4
    exact List.lt_irrefl _ h4
  · intro c hc
    rcases List.mem_cons.1 hc with rfl | hc
    · exact ⟨p, i, hp, hi, rfl, hq⟩
    · obtain ⟨p', i', h1, h2, h3, h4⟩ := s.2 c hc
      exact ⟨p', i', h1, h2, h3, List.lt_trans h4 hq⟩

theorem Seen.length (t : Tr base F g ni nn h) {q V : List Nat} (s : Seen g q V) : V.length ≤ 18889465931478580854784 := by
  refine nodup_lt s.1 ?_
  intro c hc
  obtain ⟨p, i, -, h1, h2, -⟩ := s.2 c hc
  have := t.addr_lt p
  omega

/-- the key at slot `i` of node `p` -/
def keyOf (p : Bytes) : Option Nat → Bytes
  | none => p
  | some j => p ++ [UInt8.ofNat j]

/-- the first value at or after position `q` -/
def ScanOk (g : G) (q : List Nat) (r : Option (Nat × List Addr × Option Nat)) : Prop :=
  (∃ k' c v st' i' p', r = some (c, st', i') ∧ Stack g p' st' ∧ k' = keyOf p' i' ∧ g.vl k' = some (c, v) ∧ ¬ K k' < q ∧ ∀ k, g.vl k ≠ none → K k < q ∨ ¬ k < k') ∨
  (r = none ∧ ∀ k, g.vl k ≠ none → K k < q)

theorem ScanOk.back {q q' : List Nat} {r : Option (Nat × List Addr × Option Nat)} (hlt : q < q') (hno : ∀ k, g.vl k ≠ none → q ≤ K k → K k < q' → False) (s : ScanOk g q' r) : ScanOk g q r := by
  have key : ∀ k, g.vl k ≠ none → K k < q' → K k < q := by
    intro k hk h1
    refine Classical.byContradiction fun h2 => hno k hk (List.not_lt.1 h2) h1
  rcases s with ⟨k', c, v, st', i', p', h1, h2, h3, h4, h5, h6⟩ | ⟨h1, h2⟩
  · refine Or.inl ⟨k', c, v, st', i', p', h1, h2, h3, h4, fun h => h5 (List.lt_trans h hlt), ?_⟩
    intro k hk
    rcases h6 k hk with h7 | h7
    · exact Or.inl (key k hk h7)
    · exact Or.inr h7
  · exact Or.inr ⟨h1, fun k hk => key k hk (h2 k hk)⟩

theorem cons_lt_app {p : Bytes} {a b : Nat} {t : List Nat} (h : a < b) : enc p ++ [a] < enc p ++ b :: t := by
  rw [app_lt, List.cons_lt_cons_iff]; exact Or.inl h

theorem scan_spec (t : Tr base F g ni nn h) : ∀ (fuel : Nat) (V : List Nat) (st : List Addr) (p : Bytes) (i : Option Nat), Stack g p st → Seen g (pos p i) V → ix i < 300 →
    18889465931478580854784 < V.length + fuel → wpI I (scan fuel st i) (fun out h' => h' = h ∧ ∃ r, out = .ok r ∧ ScanOk g (pos p i) r) h := by
  intro fuel
  induction fuel with
  | zero => intro V st p i _ hV _ hf; have := hV.length t; omega
  | succ fuel ih =>
    intro V st p i hst hV hi hf
    obtain ⟨hd, st0, hpn, rfl⟩ := hst.head
    obtain ⟨B, hB, hn⟩ := t.node p hd hpn
    have hsz := lt_size hn
    have hlt := hn.lt
    have hle := hn.le
    cases i with
    | none =>
      unfold scan
      simp only [Prog.bind_def]
      refine wpI_rd (B := B) hB (by show hd.off + 8 + 8 ≤ _; omega) ?_
      rw [show B.rd (hd.off + 8) 8 = cw (g.vl p) from hn.v]
      split
      · rename_i hv
        cases hq : g.vl p with
        | none => rw [hq] at hv; exact absurd rfl hv
        | some cv =>
          obtain ⟨c, v⟩ := cv
          refine ⟨rfl, _, rfl, Or.inl ⟨p, c, v, _, none, p, rfl, hst, rfl, hq, ?_, ?_⟩⟩
          · exact List.lt_irrefl _
          · intro k _
            rcases Classical.em (K k < pos p none) with h1 | h1
            · exact Or.inl h1
            · right; intro h2; exact h1 (K_lt.2 h2)
      · rename_i hv
        have hq : g.vl p = none := (t.cw_zero p).1 (Classical.not_not.1 hv)
        refine wpI_rd (B := B) hB (by show hd.off + 1 ≤ _; omega) ?_
        rw [show B.rd hd.off 1 = hd.s from hn.s]
        have hQ : pos p none < pos p (some hd.s) := cons_lt_app (by simp [ix])
        refine wpI_mono (fun _ h => h) ?_ (ih _ _ p (some hd.s) hst (hV.add t (by rw [hpn]; simp) (by omega) hQ) (by simp only [ix]; omega) (by simp only [List.length_cons]; omega))
        rintro out h' ⟨h1, r, h2, h3⟩
        refine ⟨h1, r, h2, h3.back hQ ?_⟩
        intro k hk h4 h5
        obtain ⟨r, rfl, h6, h7⟩ := keyMid h4 h5
        cases r with
        | nil => rw [List.append_nil] at hk; exact hk hq
        | cons x s =>
          rw [K_cons, List.cons_lt_cons_iff] at h7
          refine hk (t.outside' hpn (Or.inl ?_) s)
          rcases h7 with h7 | ⟨-, h7⟩
          · simp only [ix] at h7; omega
          · exact absurd h7 (List.not_lt_nil _)
    | some i =>
      have hi' : i < 299 := by simp only [ix] at hi; omega
      unfold scan
      simp only [Prog.bind_def]
      refine wpI_rd (B := B) hB (by show hd.off + 1 ≤ _; omega) ?_
      rw [show B.rd hd.off 1 = hd.s from hn.s]
      refine wpI_rd (B := B) hB (by show hd.off + 1 + 1 ≤ _; omega) ?_
      rw [show B.rd (hd.off + 1) 1 = hd.e from hn.e]
      -- keys in slots below max i s
      have hskip : ∀ k, g.vl k ≠ none → ∀ tl, (∀ r, tl ≤ K r) → pos p (some i) ≤ K k → K k < enc p ++ (max i hd.s + 1) :: tl → False := by
        intro k hk tl htl h1 h2
        obtain ⟨x, s, rfl, h3, h4⟩ := keySlots h1 h2 htl
        exact hk (t.outside' hpn (Or.inl (by omega)) s)
      split
      · rename_i he
        rcases hst.inv with ⟨rfl, rfl⟩ | ⟨p', b, rfl, hs⟩
        · refine ⟨rfl, none, rfl, Or.inr ⟨rfl, ?_⟩⟩
          intro k hk
          refine Classical.byContradiction fun h1 => ?_
          cases k with
          | nil => exact h1 (by simp [pos, ix, List.cons_lt_cons_iff])
          | cons x s =>
            have h2 : i ≤ x.toNat := by
              refine Classical.byContradiction fun h2 => h1 ?_
              simp only [pos, ix, enc_nil, List.nil_append, K_cons, List.cons_lt_cons_iff]; left; omega
            refine hk ?_
            have hx := x.toNat_lt
            exact t.outside' (p := []) (b := x) hpn (by omega) s
        · obtain ⟨hp, st', hpn', rfl⟩ := hs.head
          obtain ⟨-, hps, -⟩ := t.child p' b hd hpn
          simp only
          refine wpI_rd (B := B) hB (by show hd.off + 2 + 1 ≤ _; omega) ?_
          rw [show B.rd (hd.off + 2) 1 = hd.ps from hn.ps, hps]
          have hb := b.toNat_lt
          have hQ : pos (p' ++ [b]) (some i) < pos p' (some (b.toNat + 1)) := by
            unfold pos
            rw [enc_append, List.append_assoc, app_lt]
            simp [ix, List.cons_lt_cons_iff]
          refine wpI_mono (fun _ h => h) ?_ (ih _ _ p' (some (b.toNat + 1)) hs (hV.add t (by rw [hpn]; simp) (by omega) hQ) (by simp only [ix]; omega) (by simp only [List.length_cons]; omega))
          rintro out h' ⟨h1, r, h2, h3⟩
          refine ⟨h1, r, h2, h3.back hQ ?_⟩
          intro k hk h4 h5
          unfold pos at h4 h5
          rw [enc_append, List.append_assoc] at h4
          obtain ⟨r, rfl, h6, h7⟩ := keyMid h4 h5
          cases r with
          | nil =>
            rw [← List.not_lt] at h6
            exact h6 (by simp [List.cons_lt_cons_iff])
          | cons x s =>
            rw [K_cons, enc_cons, List.cons_append, List.cons_le_cons_iff] at h6
            rw [K_cons, List.cons_lt_cons_iff] at h7
            have hx : x = b := by
              refine toNat_inj ?_
              simp only [ix] at h7
              rcases h7 with h7 | ⟨-, h7⟩
              · omega
              · exact absurd h7 (List.not_lt_nil _)
            subst hx
            have h8 : [i + 1] ≤ K s := by
              rcases h6 with h6 | h6
              · omega
              · exact h6.2
            cases s with
            | nil => rw [← List.not_lt] at h8; exact h8 (by simp [List.cons_lt_cons_iff])
            | cons y s =>
              rw [K_cons, List.cons_le_cons_iff] at h8
              have hy := y.toNat_lt
              have := t.outside' hpn (b := y) (by omega) s
              exact hk (by simpa using this)
      · rename_i he
        have h1 : hd.s ≤ max i hd.s := by omega
        have h2 : max i hd.s ≤ hd.e := by omega
        have hb : (UInt8.ofNat (max i hd.s)).toNat = max i hd.s := by
          have : (UInt8.ofNat (max i hd.s)).toNat = (max i hd.s) % 256 := UInt8.toNat_ofNat'
          omega
        refine wpI_rd (B := B) hB (ch_size hn h1 h2) ?_
        have hw := hn.ch (UInt8.ofNat (max i hd.s)) (by omega) (by omega)
        rw [hb] at hw
        rw [show B.rd (slotOf (hd.o, hd.off) hd.s (max i hd.s)).2 8 = g.word (p ++ [UInt8.ofNat (max i hd.s)]) from hw]
        split
        · rename_i hz
          obtain ⟨h3, h4⟩ := t.word_zero.1 hz
          have hQ : pos p (some i) < pos p (some (max i hd.s + 1)) := cons_lt_app (by simp only [ix]; omega)
          refine wpI_mono (fun _ h => h) ?_ (ih _ _ p (some (max i hd.s + 1)) hst (hV.add t (by rw [hpn]; simp) (by omega) hQ) (by simp only [ix]; omega) (by simp only [List.length_cons]; omega))
          rintro out h' ⟨h5, r, h6, h7⟩
          refine ⟨h5, r, h6, h7.back hQ ?_⟩
          intro k hk h8 h9
          obtain ⟨x, s, rfl, h10, h11⟩ := keySlots h8 h9 nil_le_K
          by_cases e : x.toNat = max i hd.s
          · have : x = UInt8.ofNat (max i hd.s) := toNat_inj (by omega)
            subst this
            exact hk (t.empty' h3 h4 s)
          · exact hk (t.outside' hpn (Or.inl (by omega)) s)
        · rename_i hz
          split
          · rename_i hty
            rw [ne_eq, t.word_node] at hty
            obtain ⟨h3, h4⟩ := not_or.1 hty
            rw [ne_eq, Classical.not_not] at h3
            have hwv : g.word (p ++ [UInt8.ofNat (max i hd.s)]) = cw (g.vl (p ++ [UInt8.ofNat (max i hd.s)])) := by unfold G.word; rw [h3]
            obtain ⟨⟨c, v⟩, hq⟩ := Option.ne_none_iff_exists'.1 h4
            rw [hwv, hq, cw_some]
            refine ⟨rfl, _, rfl, Or.inl ⟨_, c, v, _, _, p, rfl, hst, rfl, hq, ?_, ?_⟩⟩
            · show ¬ K (p ++ [UInt8.ofNat (max i hd.s)]) < pos p (some i)
              rw [K_append, pos, app_lt, K_cons, hb, List.cons_lt_cons_iff]
              simp only [ix]
              rintro (h5 | ⟨-, h5⟩)
              · omega
              · exact absurd h5 (List.not_lt_nil _)
            · intro k hk
              rcases Classical.em (K k < pos p (some i)) with h5 | h5
              · exact Or.inl h5
              · right
                intro h6
                have h6 := K_lt.2 h6
                rw [show keyOf p (some (max i hd.s)) = p ++ [UInt8.ofNat (max i hd.s)] from rfl, K_append, K_cons, hb, K_nil] at h6
                exact hskip k hk [0] zero_le_K (List.not_lt.1 h5) h6
          · rename_i hty
            rw [ne_eq, Classical.not_not, t.word_node] at hty
            have h3 : g.nd (p ++ [UInt8.ofNat (max i hd.s)]) ≠ none := by
              rcases hty with h3 | h3
              · exact h3
              · intro h4; exact hz (t.word_zero.2 ⟨h4, h3⟩)
            obtain ⟨hd', h4⟩ := Option.ne_none_iff_exists'.1 h3
            have hw' : g.word (p ++ [UInt8.ofNat (max i hd.s)]) = hd'.o := by unfold G.word; rw [h4]
            obtain ⟨hoff, -, hal, -⟩ := t.child _ _ _ h4
            have hval : valOf hd'.o = hd'.o := by unfold valOf; omega
            rw [hw', hval, show ((hd'.o, 0) : Addr) = (hd'.o, hd'.off) by rw [hoff]]
            have hpos : pos (p ++ [UInt8.ofNat (max i hd.s)]) none = enc p ++ [max i hd.s + 1, 0] := by
              unfold pos; rw [enc_append, enc_cons, hb, List.append_assoc]; rfl
            have hQ : pos p (some i) < pos (p ++ [UInt8.ofNat (max i hd.s)]) none := by
              rw [hpos]
              unfold pos
              rw [app_lt, List.cons_lt_cons_iff]
              by_cases e : i = max i hd.s
              · right; exact ⟨by simp only [ix]; omega, by simp⟩
              · left; simp only [ix]; omega
            refine wpI_mono (fun _ h => h) ?_ (ih _ _ (p ++ [UInt8.ofNat (max i hd.s)]) none (.snoc _ _ _ hd' hst h4) (hV.add t (by rw [hpn]; simp) (by omega) hQ) (by simp [ix]) (by simp only [List.length_cons]; omega))
            rintro out h' ⟨h5, r, h6, h7⟩
            refine ⟨h5, r, h6, h7.back hQ ?_⟩
            intro k hk h8 h9
            rw [hpos] at h9
            exact hskip k hk [0] zero_le_K h8 h9

end
end Verif.PrefixTree
