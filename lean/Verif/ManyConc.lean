import Verif.PropsMany
/-
C75, at the same time: threads of several processes use the structures of a pool concurrently.
-/
namespace Verif
open Opening Heap Lock

namespace Many
variable {ι : Type} (K : ι → Kind)

/-- a call: of a method of structure `n`, which is of kind `i` -/
structure Call where
  n : Nat
  i : ι
  o : (K i).Op

variable {K}

/-- what a method of any kind returns -/
def tag (i : ι) : Out (K i).Ret → Out ((i : ι) × (K i).Ret)
  | .ok r => .ok ⟨i, r⟩
  | .err e => .err e

/-- carry out a call, the structures being at the offsets `bs` -/
def Call.prog (bs : List Nat) (c : Call K) : HProg ((i : ι) × (K i).Ret) := ((K c.i).call (bs.getD c.n 0) c.o).bind fun r => .ret ⟨c.i, r⟩

/-- the effect of a call, as in `Steps` -/
def CallSpec (es : List (Entry K)) (c : Call K) (out : Out ((i : ι) × (K i).Ret)) (es' : List (Entry K)) : Prop :=
  ∃ r, Steps K es (.call c.n c.i c.o) (.ret c.i r) es' ∧ out = tag c.i r

/-- the effect of a death in a call, as in `Steps` -/
def CallCut (es : List (Entry K)) (c : Call K) (es' : List (Entry K)) : Prop := ∃ a, Steps K es (.die c.n c.i c.o a) .died es'

/-- calls that may be made whenever the state is in `fair`: concurrent callers do not know the state -/
structure Static (K : ι → Kind) (static : (i : ι) → (K i).Op → Prop) (fair : (i : ι) → (K i).St → Prop) : Prop where
  ok : ∀ i s o, fair i s → static i o → (K i).ok s o
  keep : ∀ i s o r s', fair i s → static i o → (K i).Spec s o r s' → fair i s'

/-- the structures that could be used at the beginning still can be -/
def Still (fair : (i : ι) → (K i).St → Prop) (es0 es : List (Entry K)) : Prop :=
  ∀ (n : Nat) (i : ι) (s0 : (K i).St), es0[n]? = some ⟨i, some s0⟩ → ∃ s, es[n]? = some ⟨i, some s⟩ ∧ fair i s

variable {Inv : (i : ι) → Nat → (K i).St → Heap → Prop} {G : Nat → Option Block} {static : (i : ι) → (K i).Op → Prop} {fair : (i : ι) → (K i).St → Prop}

theorem Still.set {es0 es : List (Entry K)} {n : Nat} {i : ι} {s s' : (K i).St} (hs : Still fair es0 es) (hn : es[n]? = some ⟨i, some s⟩) (hf : fair i s') : Still fair es0 (es.set n ⟨i, some s'⟩) := by
  intro m j t hm
  obtain ⟨u, h1, h2⟩ := hs m j t hm
  by_cases e : m = n
  · subst e
    rw [hn] at h1
    injection h1 with h1
    injection h1 with e1 e2
    subst e1
    exact ⟨s', by rw [List.getElem?_set_self (List.getElem?_eq_some_iff.1 hn).1], hf⟩
  · exact ⟨u, by rw [List.getElem?_set_ne (Ne.symm e)]; exact h1, h2⟩

/-- what holds between calls -/
def Between (Inv : (i : ι) → Nat → (K i).St → Heap → Prop) (G : Nat → Option Block) (fair : (i : ι) → (K i).St → Prop) (es0 : List (Entry K)) (bs : List Nat) (es : List (Entry K)) (h : Heap) : Prop :=
  Still fair es0 es ∧ HeapOk h ∧ ∃ own, Good Inv G es bs own h

/-- the calls that are made: of structures that could be used at the beginning -/
def Call.can (static : (i : ι) → (K i).Op → Prop) (es0 : List (Entry K)) (c : Call K) : Prop := (∃ s, es0[c.n]? = some ⟨c.i, some s⟩) ∧ static c.i c.o

theorem call_step (hK : ∀ i, (K i).Laws (Inv i)) (hS : Static K static fair) {es0 : List (Entry K)} {bs : List Nat} (es : List (Entry K)) (c : Call K) (h : Heap) (hc : c.can static es0)
    (hb : Between Inv G fair es0 bs es h) : wp (c.prog bs) (fun out h' => ∃ es', CallSpec es c out es' ∧ Between Inv G fair es0 bs es' h') h := by
  obtain ⟨n, i, o⟩ := c
  obtain ⟨hs, hk, own, g⟩ := hb
  obtain ⟨⟨s0, h0⟩, hst⟩ := hc
  obtain ⟨s, hn, hf⟩ := hs n i s0 h0
  have hlt := (List.getElem?_eq_some_iff.1 hn).1
  have hw := wp_heapOk hk (wp_part own n ((hK i).stays (bs.getD n 0) o) ((hK i).step _ s o _ (part_ok hk own n) (hS.ok i s o hf hst) (g.inv n i s hn)))
  unfold Call.prog
  rw [wp_bind]
  refine wp_mono ?_ hw
  rintro out h' ⟨⟨hs', ⟨s', h1, h2⟩, h3, rfl, h4⟩, hk'⟩
  have key : Between Inv G fair es0 bs (es.set n ⟨i, some s'⟩) (hs'.join (rest h own n)) :=
    ⟨hs.set hn (hS.keep i s o _ s' hf hst h1), hk', _, g.set (i := i) (s' := some s') hlt h4 h3 fun s e => by cases e; exact h2⟩
  cases out with
  | ok r => exact ⟨_, ⟨_, .call hn h1, rfl⟩, key⟩
  | err e => exact ⟨_, ⟨_, .call hn h1, rfl⟩, key⟩

/-- the structures can be used further -/
def Usable (K : ι → Kind) (bs : List Nat) (es : List (Entry K)) (p : Pool) : Prop :=
  ∀ c, May K es c → ∃ log p' es', perform K c bs p = (.ok log, p') ∧ Right K es c log es'

theorem usable (hK : ∀ i, (K i).Laws (Inv i)) {es0 es : List (Entry K)} {bs : List Nat} {h : Heap} {p : Pool} (hb : Between Inv G fair es0 bs es h) (hs : Sim h p) : Usable K bs es p := by
  intro c hm
  obtain ⟨-, -, own, g⟩ := hb
  obtain ⟨rs, p', es', own', h', e1, e2, -⟩ := perform_spec hK c hm g hs
  exact ⟨rs, p', es', e1, e2⟩

/-- a session of a concurrent thread -/
def Call.session (writes : (i : ι) → (K i).Op → Bool) (dummy : (i : ι) × (K i).Ret) (bs : List Nat) : Call K → Session (poolMach (Out ((i : ι) × (K i).Ret))) :=
  callSession (Call.prog bs) (fun c => writes c.i c.o) dummy

theorem concurrent (hK : ∀ i, (K i).Laws (Inv i)) (hS : Static K static fair) {writes : (i : ι) → (K i).Op → Bool} {dummy : (i : ι) × (K i).Ret}
    (hro : ∀ i b o, writes i o = false → HRo ((K i).call b o)) {es0 : List (Entry K)} {bs : List Nat} {h0 : Heap} {p0 : Pool} (hb : Between Inv G fair es0 bs es0 h0) (hs0 : Sim h0 p0)
    {calls : Nat → List (Call K)} (hok : ∀ t, ∀ c ∈ calls t, c.can static es0) {pid : Nat → Nat} {fuel : Nat} (hp : PidsOk pid) {s0 s : St (poolMach (Out ((i : ι) × (K i).Ret)))}
    (hi : Init pid fuel (fun t => (calls t).map (Call.session writes dummy bs)) p0 s0) (hr : Reach pid s0 s) (hal : ∀ t, s.alive (pid t) = true) :
    ∃ (cs : List (Call K)) (rs : List (Out ((i : ι) × (K i).Ret))) (es : List (Entry K)), Trace CallSpec es0 cs rs es ∧
      s.log.map (fun e => (e.2.2.1, e.2.2.2)) = (cs.zip rs).map (fun x => (methodBody (Call.prog bs) x.1, Res.ok x.2)) ∧ cs.length = rs.length ∧
      ((∀ t n, s.st t ≠ some (.write n)) → Usable K bs es s.mem) := by
  obtain ⟨cs, rs, es, h1, h2, h3, h4⟩ := concurrent_calls (f := Call.prog bs) (writes := fun c : Call K => writes c.i c.o) (dummy := dummy) (Inv := Between Inv G fair es0 bs)
    (call_step hK hS) (fun c hc => HRo.body (HRo.bind (hro c.i _ c.o hc) fun _ => .ret)) hok hb hs0 hp hi hr hal
  refine ⟨cs, rs, es, h1, h2, h3, fun hw => ?_⟩
  obtain ⟨h, h5, h6⟩ := h4 hw
  exact usable hK h5 h6

/-- what holds wherever a process dies -/
def Midway (Inv : (i : ι) → Nat → (K i).St → Heap → Prop) (G : Nat → Option Block) (fair : (i : ι) → (K i).St → Prop) (es0 : List (Entry K)) (bs : List Nat) (es : List (Entry K)) (h : Heap) : Prop :=
  HeapOk h → Between Inv G fair es0 bs es h

theorem crashable (hK : ∀ i, (K i).Laws (Inv i)) (hS : Static K static fair) (hC : ∀ i s o s', fair i s → static i o → (K i).Cut s o s' → ∃ t, s' = some t ∧ fair i t) {es0 : List (Entry K)} {bs : List Nat} :
    Crashable (Call.prog bs) CallSpec CallCut (Between Inv G fair es0 bs) (Midway Inv G fair es0 bs) (Call.can static es0) where
  step := call_step hK hS
  cut es c h hc hb := by
    obtain ⟨n, i, o⟩ := c
    obtain ⟨hs, hk, own, g⟩ := hb
    obtain ⟨⟨s0, h0⟩, hst⟩ := hc
    obtain ⟨s, hn, hf⟩ := hs n i s0 h0
    have hlt := (List.getElem?_eq_some_iff.1 hn).1
    have ha := always_part own n ((hK i).stays (bs.getD n 0) o) ((hK i).cut _ s o _ (part_ok hk own n) (hS.ok i s o hf hst) (g.inv n i s hn))
    unfold Call.prog
    refine always_bind_ret (always_mono ?_ ha)
    rintro h' ⟨hs', ⟨s', h1, h2⟩, h3, rfl, h4⟩
    obtain ⟨t, rfl, hft⟩ := hC i s o s' hf hst h1
    refine ⟨es.set n ⟨i, some t⟩, Or.inr ⟨0, .die hn h1⟩, fun hk' => ?_⟩
    have hk1 : HeapOk hs' := by
      have := part_ok hk' (owners own n hs') n
      rwa [part_new] at this
    exact ⟨hs.set hn hft, hk', _, g.set (i := i) (s' := some t) hlt h4 h3 fun s e => h2 s e hk1⟩
  weak _ _ h := fun _ => h
  heal _ _ _ h hs := h hs.heapOk

theorem concurrent_crash (hK : ∀ i, (K i).Laws (Inv i)) (hS : Static K static fair) (hC : ∀ i s o s', fair i s → static i o → (K i).Cut s o s' → ∃ t, s' = some t ∧ fair i t)
    {writes : (i : ι) → (K i).Op → Bool} {dummy : (i : ι) × (K i).Ret}
    (hro : ∀ i b o, writes i o = false → HRo ((K i).call b o)) {es0 : List (Entry K)} {bs : List Nat} {h0 : Heap} {p0 : Pool} (hb : Between Inv G fair es0 bs es0 h0) (hs0 : Sim h0 p0)
    {calls : Nat → List (Call K)} (hok : ∀ t, ∀ c ∈ calls t, c.can static es0) {pid : Nat → Nat} {fuel : Nat} (hp : PidsOk pid) {s0 s : St (poolMach (Out ((i : ι) × (K i).Ret)))}
    (hi : Init pid fuel (fun t => (calls t).map (Call.session writes dummy bs)) p0 s0) (hr : Reach pid s0 s) :
    ∃ (evs : List (Ev (Call K) ((i : ι) × (K i).Ret))) (es : List (Entry K)), CTrace CallSpec CallCut es0 evs es ∧ Logged (Call.prog bs) dummy calls s.log (results evs) ∧
      (∀ c, .died c ∈ evs → ∃ t, c ∈ calls t ∧ s.alive (pid t) = false) ∧
      ((∀ t n, ¬ s.inside pid t (.write n)) → ∃ p', run Simple.repair s.mem = (.ok (), p') ∧ Usable K bs es p') := by
  obtain ⟨evs, es, h1, h2, h3, h4⟩ := concurrent_calls_crash (crashable (G := G) (bs := bs) hK hS hC (es0 := es0)) (writes := fun c : Call K => writes c.i c.o) (dummy := dummy)
    (fun c hc => HRo.body (HRo.bind (hro c.i _ c.o hc) fun _ => .ret)) hok hb hs0 hp hi hr
  refine ⟨evs, es, h1, h2, h3, fun hw => ?_⟩
  obtain ⟨p', h, h5, h6, h7⟩ := h4 hw
  exact ⟨p', h5, usable hK h6 h7⟩

end Many
end Verif
