import Verif.ManyOpen
import Verif.PropsOpen
/-
C88: all of a pool at once: structures of every kind are made and used by threads of processes that may die, and one history accounts for it all.
-/
namespace Verif
open Opening Heap Lock

namespace Many
variable {ι : Type} {K : ι → Kind}

theorem told_mono {O R S : Type} {f : O → HProg R} {dummy : R} {pid : Nat → Nat} {Spec : S → O → Out R → S → Prop} {Cut : S → O → S → Prop} {I I' : S → Heap → Prop} {st0 : S} {N : Nat}
    {lab : Nat → Option (Nat × O)} {σ : Nat → St (poolMach (Out R))} (hI : ∀ s h, I s h → I' s h) (h : ToldOpen f dummy pid Spec Cut I st0 N lab σ) : ToldOpen f dummy pid Spec Cut I' st0 N lab σ := by
  obtain ⟨evs, n, h1, h2, h3⟩ := h
  refine ⟨evs, n, h1, h2, fun i hi => ?_⟩
  obtain ⟨st, a1, a2, a3⟩ := h3 i hi
  refine ⟨st, a1, a2, fun hw => ?_⟩
  obtain ⟨p', h, e1, e2, e3⟩ := a3 hw
  exact ⟨p', h, e1, hI _ _ e2, e3⟩

/-- a sequential history leaves the numbers, offsets and kinds of the structures as they are; what can be used and on which only calls are made that keep it usable stays usable -/
theorem keeps {st0 st : Pools K} {evs : List (Ev (Doing K) (Answer K))} (h : CTrace DoSpec DoCut st0 evs st) {n b : Nat} {i : ι} {P : (K i).St → Prop} {s0 : (K i).St} (h0 : st0[n]? = some (b, ⟨i, some s0⟩))
    (hP : P s0) (hd : ∀ o s r s', Ev.done (.call n b i o) (answer i r) ∈ evs → P s → (K i).Spec s o r s' → P s')
    (hc : ∀ o s s', Ev.died (.call n b i o) ∈ evs → P s → (K i).Cut s o s' → ∃ t, s' = some t ∧ P t) : ∃ s, st[n]? = some (b, ⟨i, some s⟩) ∧ P s := by
  induction h with
  | nil => exact ⟨s0, h0, hP⟩
  | @done l s1 o r s2 _ hs ih =>
    obtain ⟨s, h1, h2⟩ := ih (fun o s r s' hm => hd o s r s' (List.mem_append_left _ hm)) (fun o s s' hm => hc o s s' (List.mem_append_left _ hm))
    have hlt := (List.getElem?_eq_some_iff.1 h1).1
    cases hs with
    | made => exact ⟨s, by rw [List.getElem?_append_left hlt]; exact h1, h2⟩
    | full => exact ⟨s, by rw [List.getElem?_append_left hlt]; exact h1, h2⟩
    | @call m c j o u r u' hm hu =>
      by_cases e : m = n
      · subst e
        rw [h1] at hm
        injection hm with hm
        injection hm with e1 e2
        injection e2 with e2 e3
        subst e1; subst e2
        injection (eq_of_heq e3) with e3
        subst e3
        exact ⟨u', by rw [List.getElem?_set_self hlt], hd o s r u' (List.mem_append_right _ (List.mem_singleton.2 rfl)) h2 hu⟩
      · exact ⟨s, by rw [List.getElem?_set_ne e]; exact h1, h2⟩
  | @died l s1 o s2 _ hs ih =>
    obtain ⟨s, h1, h2⟩ := ih (fun o s r s' hm => hd o s r s' (List.mem_append_left _ hm)) (fun o s s' hm => hc o s s' (List.mem_append_left _ hm))
    have hlt := (List.getElem?_eq_some_iff.1 h1).1
    rcases hs with rfl | hs
    · exact ⟨s, h1, h2⟩
    cases hs with
    | make => exact ⟨s, by rw [List.getElem?_append_left hlt]; exact h1, h2⟩
    | @call m c j o u u' hm hu =>
      by_cases e : m = n
      · subst e
        rw [h1] at hm
        injection hm with hm
        injection hm with e1 e2
        injection e2 with e2 e3
        subst e1; subst e2
        injection (eq_of_heq e3) with e3
        subst e3
        obtain ⟨t, rfl, ht⟩ := hc o s u' (List.mem_append_right _ (List.mem_singleton.2 rfl)) h2 hu
        exact ⟨t, by rw [List.getElem?_set_self hlt], ht⟩
      · exact ⟨s, by rw [List.getElem?_set_ne e]; exact h1, h2⟩

end Many

variable (hash : Bytes → Nat) (F : HT.Fp) (add : BitVec 64 → BitVec 64 → BitVec 64)

/-- the methods that are executed in one section: all but the iterations over a whole table or tree, which take the lock again at each step -/
def libSingle : (i : Which) → (library hash F add i).Op → Prop
  | .hash _ _ => fun (o : HT.Op) => o ≠ .items
  | .tree => fun (o : PT.Op) => o ≠ .items
  | _ => fun _ => True

/-- the pool can be used further as in `C75_many` by clients that know the structures `st`, and the blocks `live` of other clients are as in `p` -/
def Sound (p : Pool) (live : List (Nat × Nat)) (st : Many.Pools (library hash F add)) (h : Heap) : Prop :=
  ∀ p', Sim h p' → Many.Usable (library hash F add) (st.map (·.1)) (st.map (·.2)) p' ∧ ∀ o n, (o, n) ∈ live → ∀ i, i < n → p'.mem (o + i) = p.mem (o + i)

/-- **C88.** Clients have set up structures `st0` in a pool, as in `C75_many`.  Then any number of threads of any number of processes make structures of any kind and call the methods of any structures of the
pool; when a thread has finished a call it may begin any other, at any time, depending on whatever it has seen; memory accesses interleave in any way and any process may die at any time, also in a constructor
or a repair.  One sequential history accounts for the whole run (`ToldOpen`): at each moment a first part of it, which only grows, has exactly the calls that have finished, in the order they finished, with the
results they returned, each acting only on its own structure, as if that were alone; and some of those begun and cut short by deaths, each affecting only the structure it was made on; each thread's calls in the order in which it
has begun them; and as long as no live process is writing, repair succeeds, all structures that can be used can be used further, and other clients' blocks are untouched.  Or a thread went on to call a method that may not be
called in the state that this history had reached (a structure that a death has made unusable, or that is not there): then this holds up to that call (`Misused`). -/
theorem C88_pool {p0 p : Pool} {live lk : List (Nat × Nat)} {ex : Bool} (h : Hist p0 p live lk ex) (c : Many.Client (library hash F add)) (hm : Many.May (library hash F add) [] c) :
    ∃ (log : Many.Log (library hash F add)) (p1 : Pool) (es : List (Many.Entry (library hash F add))), Many.perform (library hash F add) c [] p = (.ok log, p1) ∧ Many.Right (library hash F add) [] c log es ∧
      ∀ {lab : Nat → Option (Nat × Many.Doing (library hash F add))} {N : Nat} {pid : Nat → Nat} {fuel : Nat} {σ : Nat → St (poolMach (Out (Many.Answer (library hash F add))))},
        (∀ j t n b i o, j < N → lab j = some (t, .call n b i o) → libSingle hash F add i o) → PidsOk pid → OpenInit p1 (σ 0) →
        OpenRun pid fuel (callSession Many.Doing.prog (Many.Doing.writes (libWrites hash F add)) (.made 0)) N lab σ →
        ToldOpen Many.Doing.prog (.made 0) pid Many.DoSpec Many.DoCut (Sound hash F add p live) ((Many.bases log).zip es) N lab σ ∨
        Misused Many.Doing.prog (.made 0) (fun t => begun lab t N) pid (fun q => (σ N).alive q = false) Many.DoSpec Many.DoCut (fun st o => o.ok st) ((Many.bases log).zip es) (σ N).log := by
  obtain ⟨hp, hs, hl⟩ := h.sim
  have hg : Many.Good (libInv hash F add) hp.blk [] [] (fun _ => none) hp :=
    ⟨rfl, (fun n i s e => by cases e), (fun x n e => by cases e), fun x B hx => ⟨rfl, hx⟩⟩
  obtain ⟨log, p1, es, own, h', e1, e2, g, hs'⟩ := Many.perform_spec (library_laws hash F add) c hm hg hs
  rw [List.nil_append] at g
  refine ⟨log, p1, es, e1, e2, ?_⟩
  intro lab N pid fuel σ _ hpi hi hr
  have hk : Many.Kept (libInv hash F add) hp.blk ((Many.bases log).zip es) h' := by
    refine ⟨hs'.heapOk, own, ?_⟩
    have hlen := g.len
    rw [List.map_snd_zip (by omega), List.map_fst_zip (by omega)]
    exact g
  rcases open_run_durable (writes := Many.Doing.writes (libWrites hash F add)) (Many.doing_fragile (library_laws hash F add)) (dummy := .made 0) (fun o ho => by
    cases o with
    | make i => cases ho
    | call n b i o => exact HRo.body (HRo.bind (libRo hash F add i _ o ho) fun _ => .ret)) hk hs' hpi hi hr with hT | hM
  · refine Or.inl (Many.told_mono ?_ hT)
    intro st h2 hk2 p2 hs2
    refine ⟨Many.Kept.serves (library_laws hash F add) hk2 p2 hs2, fun o n hm i hi => ?_⟩
    obtain ⟨-, own2, g2⟩ := hk2
    obtain ⟨B, hB, rfl, hd⟩ := hl o n hm
    obtain ⟨L, hS, hh⟩ := hs2
    rw [(hh.blk o B (g2.others o B hB).2).2.2 i hi, hd i]
  · exact Or.inr hM

/-- **C88: damage is contained.** If the calls are on structures of the beginning, in ways that are right in every state, then the history accounts for the whole run, or up to a call on a structure `n` that a process has
died in a call on before: in the history `evs` there is such a death, and the thread's next call is on the same structure.  New structures of all kinds may be made meanwhile. -/
theorem C88_contained {p0 p : Pool} {live lk : List (Nat × Nat)} {ex : Bool} (h : Hist p0 p live lk ex) (c : Many.Client (library hash F add)) (hm : Many.May (library hash F add) [] c) :
    ∃ (log : Many.Log (library hash F add)) (p1 : Pool) (es : List (Many.Entry (library hash F add))), Many.perform (library hash F add) c [] p = (.ok log, p1) ∧ Many.Right (library hash F add) [] c log es ∧
      ∀ {lab : Nat → Option (Nat × Many.Doing (library hash F add))} {N : Nat} {pid : Nat → Nat} {fuel : Nat} {σ : Nat → St (poolMach (Out (Many.Answer (library hash F add))))},
        (∀ (n : Nat) (i : Which) (s : (library hash F add i).St), es[n]? = some ⟨i, some s⟩ → libFair hash F add i s) →
        (∀ j t n b i o, j < N → lab j = some (t, .call n b i o) → (∃ s, ((Many.bases log).zip es)[n]? = some (b, ⟨i, some s⟩)) ∧ libStatic hash F add i o) → PidsOk pid → OpenInit p1 (σ 0) →
        OpenRun pid fuel (callSession Many.Doing.prog (Many.Doing.writes (libWrites hash F add)) (.made 0)) N lab σ →
        ToldOpen Many.Doing.prog (.made 0) pid Many.DoSpec Many.DoCut (Sound hash F add p live) ((Many.bases log).zip es) N lab σ ∨
        ∃ l1 evs st t n b i o o' t', l1 <+: (σ N).log ∧
          Durable Many.Doing.prog (.made 0) (fun t => begun lab t N) pid (fun q => (σ N).alive q = false) Many.DoSpec Many.DoCut ((Many.bases log).zip es) l1 evs st ∧
          (begun lab t N)[(evsOf evs t).length]? = some (.call n b i o) ∧ (t', .died (.call n b i o')) ∈ evs := by
  obtain ⟨log, p1, es, e1, e2, H⟩ := C88_pool hash F add h c hm
  refine ⟨log, p1, es, e1, e2, ?_⟩
  intro lab N pid fuel σ hf hc hpi hi hr
  have hsingle : ∀ i o, libStatic hash F add i o → libSingle hash F add i o
    | .queue, _, _ => trivial
    | .prio, _, _ => trivial
    | .hash _ _, _, h => h.2
    | .tree, _, h => h.2
    | .user, _, _ => trivial
  rcases H (fun j t n b i o hj hl => hsingle i o (hc j t n b i o hj hl).2) hpi hi hr with hT | ⟨l1, evs, st, t, o, m0, ⟨m1, m2, m3⟩, -, m4, m5⟩
  · exact Or.inl hT
  refine Or.inr ?_
  obtain ⟨j, hj, hl⟩ := mem_begun (List.mem_of_getElem? m4)
  cases o with
  | make i => exact absurd trivial m5
  | call n b i o =>
    obtain ⟨⟨s0, h0⟩, hst⟩ := hc j t n b i o hj hl
    by_cases hd : ∃ o' t', (t', .died (.call n b i o')) ∈ evs
    · obtain ⟨o', t', hd⟩ := hd
      exact ⟨l1, evs, st, t, n, b, i, o, o', t', m0, ⟨m1, m2, m3⟩, m4, hd⟩
    refine absurd ?_ m5
    have hfair : libFair hash F add i s0 := by
      refine hf n i s0 ?_
      rw [List.getElem?_zip_eq_some] at h0
      exact h0.2
    obtain ⟨s, h1, h2⟩ := Many.keeps m1 h0 hfair (fun o s r s' hm' hfs hsp => by
      obtain ⟨⟨u, e'⟩, he', e2⟩ := List.mem_map.1 hm'
      have h1 : e'.op ∈ (evsOf evs u).map Ev.op := List.mem_map.2 ⟨e', evsOf_mem.2 he', rfl⟩
      rw [(m3 u).1] at h1
      obtain ⟨j, hj, hl⟩ := mem_begun (List.mem_of_mem_take h1)
      simp only at e2
      subst e2
      exact (lib_static hash F add).keep i s o r s' hfs (hc j u n b i o hj hl).2 hsp) (fun o s s' hm' _ _ => by
      obtain ⟨⟨u, e'⟩, he', e2⟩ := List.mem_map.1 hm'
      simp only at e2
      subst e2
      exact absurd ⟨o, u, he'⟩ hd)
    exact ⟨s, h1, (lib_static hash F add).ok i s o h2 hst⟩

/-- the structures that exist at the beginning may be called in ways that are right in every state: any of them, if no process has died; prefix trees and the allocator anyway -/
def libSure (alive : Prop) (i : Which) (o : (library hash F add i).Op) : Prop := (alive ∧ libStatic hash F add i o) ∨ libSafe hash F add i o

/-- **C88, for clients that keep away from damage.** If the calls are on structures of the beginning, and are on prefix trees and the allocator or no process dies, then the history accounts for the whole run.  New structures of all kinds
may be made meanwhile. -/
theorem C88_sound {p0 p : Pool} {live lk : List (Nat × Nat)} {ex : Bool} (h : Hist p0 p live lk ex) (c : Many.Client (library hash F add)) (hm : Many.May (library hash F add) [] c) :
    ∃ (log : Many.Log (library hash F add)) (p1 : Pool) (es : List (Many.Entry (library hash F add))), Many.perform (library hash F add) c [] p = (.ok log, p1) ∧ Many.Right (library hash F add) [] c log es ∧
      ∀ {lab : Nat → Option (Nat × Many.Doing (library hash F add))} {N : Nat} {pid : Nat → Nat} {fuel : Nat} {σ : Nat → St (poolMach (Out (Many.Answer (library hash F add))))},
        (∀ (n : Nat) (i : Which) (s : (library hash F add i).St), es[n]? = some ⟨i, some s⟩ → libFair hash F add i s) →
        (∀ j t n b i o, j < N → lab j = some (t, .call n b i o) → (∃ s, ((Many.bases log).zip es)[n]? = some (b, ⟨i, some s⟩)) ∧ libSingle hash F add i o ∧ libSure hash F add (∀ q, (σ N).alive q = true) i o) → PidsOk pid → OpenInit p1 (σ 0) →
        OpenRun pid fuel (callSession Many.Doing.prog (Many.Doing.writes (libWrites hash F add)) (.made 0)) N lab σ →
        ToldOpen Many.Doing.prog (.made 0) pid Many.DoSpec Many.DoCut (Sound hash F add p live) ((Many.bases log).zip es) N lab σ := by
  obtain ⟨log, p1, es, e1, e2, H⟩ := C88_pool hash F add h c hm
  refine ⟨log, p1, es, e1, e2, ?_⟩
  intro lab N pid fuel σ hf hc hpi hi hr
  rcases H (fun j t n b i o hj hl => (hc j t n b i o hj hl).2.1) hpi hi hr with hT | ⟨l1, evs, st, t, o, -, ⟨m1, -, m3⟩, -, m4, m5⟩
  · exact hT
  exfalso
  obtain ⟨j, hj, hl⟩ := mem_begun (List.mem_of_getElem? m4)
  cases o with
  | make i => exact m5 trivial
  | call n b i o =>
    obtain ⟨⟨s0, h0⟩, -, hsure⟩ := hc j t n b i o hj hl
    have hev : ∀ e, e ∈ evs.map (·.2) → ∃ j t, j < N ∧ lab j = some (t, e.op) ∧ ∀ o, e = .died o → (σ N).alive (pid t) = false := by
      intro e he
      obtain ⟨⟨u, e'⟩, he', rfl⟩ := List.mem_map.1 he
      have h1 : e'.op ∈ (evsOf evs u).map Ev.op := List.mem_map.2 ⟨e', evsOf_mem.2 he', rfl⟩
      rw [(m3 u).1] at h1
      obtain ⟨j, hj, hl⟩ := mem_begun (List.mem_of_mem_take h1)
      refine ⟨j, u, hj, hl, fun o ho => ?_⟩
      simp only at ho
      subst ho
      exact (inOrder_cut m3 he').1
    have hfair : libFair hash F add i s0 := by
      refine hf n i s0 ?_
      rw [List.getElem?_zip_eq_some] at h0
      exact h0.2
    have hdone : ∀ o s r s', Ev.done (.call n b i o) (Many.answer i r) ∈ evs.map (·.2) → libFair hash F add i s → (library hash F add i).Spec s o r s' → libFair hash F add i s' := by
      intro o s r s' hm' hfs hsp
      obtain ⟨j, t, hj, hl, -⟩ := hev _ hm'
      rcases (hc j t n b i o hj hl).2.2 with ⟨-, h2⟩ | h2
      · exact (lib_static hash F add).keep i s o r s' hfs h2 hsp
      · revert hfs h2
        cases i with
        | queue => exact fun _ h2 => h2.elim
        | prio => exact fun _ h2 => h2.elim
        | hash => exact fun _ h2 => h2.elim
        | tree => exact fun _ _ => trivial
        | user => exact fun _ _ => trivial
    have hcut : ∀ o s s', Ev.died (.call n b i o) ∈ evs.map (·.2) → libFair hash F add i s → (library hash F add i).Cut s o s' → ∃ t, s' = some t ∧ libFair hash F add i t := by
      intro o s s' hm' hfs hcu
      obtain ⟨j, t, hj, hl, hdead⟩ := hev _ hm'
      rcases (hc j t n b i o hj hl).2.2 with ⟨h1, -⟩ | h2
      · exact absurd ((h1 _).symm.trans (hdead _ rfl)) (by decide)
      · obtain ⟨t, rfl, -⟩ := lib_cut hash F add i s o s' trivial h2 hcu
        refine ⟨t, rfl, ?_⟩
        revert h2
        cases i with
        | queue => exact fun h2 => h2.elim
        | prio => exact fun h2 => h2.elim
        | hash => exact fun h2 => h2.elim
        | tree => exact fun _ => trivial
        | user => exact fun _ => trivial
    obtain ⟨s, h1, h2⟩ := Many.keeps m1 h0 hfair hdone hcut
    refine m5 ⟨s, h1, ?_⟩
    rcases hsure with ⟨-, h3⟩ | h3
    · exact (lib_static hash F add).ok i s o h2 h3
    · exact (lib_safe hash F add).ok i s o trivial h3

/-! ### a concrete run -/

/-- a pool in which a queue (at 344) and a prefix tree (at 416) have been made, as in the case of C75 -/
def twoPool : Pool := (Many.perform (library (fun _ => 1) noFp noAdd) twoClients [] (run Simple.init (newPool 0)).2).2

/-- thread 0 makes a priority queue; process 2 (thread 1) dies while it pushes to the queue; thread 0 takes the lock from it, repairs, inserts into the tree, and looks up -/
def mixedSchedule : List (Cmd (Many.Doing (library (fun _ => 1) noFp noAdd))) :=
  [.call 0 (.make .prio), .go 0 94, .call 1 (.call 0 344 .queue (Deque.Op.pushBack [1])), .go 1 90, .die 2, .call 0 (.call 1 416 .tree (PT.Op.insert [0] (.int 5) none)), .go 0 109,
   .call 0 (.call 1 416 .tree (PT.Op.at [0])), .go 0 11]

/-- the results of the case, for comparison -/
def Many.Answer.show : Many.Answer (library (fun _ => 1) noFp noAdd) → List Nat
  | .made b => [0, b]
  | .ret .queue (r : Deque.Ret) => match r with
    | .unit => [1]
    | .str d => 2 :: d.map (·.toNat)
    | .num n => [3, n]
  | .ret .tree (r : PT.Ret) => match r with
    | .bool b => [4, b.toNat]
    | .val (.int x) => [5, x.toNat]
    | _ => [6]
  | _ => [7]

def mixedShown (s : St (poolMach (Out (Many.Answer (library (fun _ => 1) noFp noAdd))))) : List (Nat × Option (List Nat)) × Bool × Bool × Bool :=
  (s.log.map fun e => (e.1, match e.2.2.2 with | .ok (.ok r) => some r.show | _ => none), isRet (s.th 0), isRet (s.th 1), s.alive 2)

/-- A run that meets the hypotheses of `C88_pool` and `C88_contained` (with the pool of `twoPool_ready`), in which a structure is made, and a process dies in a call on another. -/
theorem mixedSchedule_runs : ∃ N lab σ, σ 0 = quiet twoPool ∧
    OpenRun (fun t => t + 1) 10 (callSession Many.Doing.prog (Many.Doing.writes (libWrites (fun _ => 1) noFp noAdd)) (.made 0)) N lab σ ∧
    (∀ j t n b i o, j < N → lab j = some (t, .call n b i o) → ((n, b, i) = (0, 344, .queue) ∨ (n, b, i) = (1, 416, .tree)) ∧ libStatic (fun _ => 1) noFp noAdd i o) ∧
    mixedShown (σ N) = ([(0, some [0, 2520]), (0, some [4, 1]), (0, some [5, 5])], true, false, false) := by
  have h : (play (fun t => t + 1) 10 (callSession Many.Doing.prog (Many.Doing.writes (libWrites (fun _ => 1) noFp noAdd)) (.made 0)) mixedSchedule (quiet twoPool)).map mixedShown =
      some ([(0, some [0, 2520]), (0, some [4, 1]), (0, some [5, 5])], true, false, false) := by decide +kernel
  obtain ⟨s, h1, h4⟩ := Option.map_eq_some_iff.1 h
  clear h
  obtain ⟨N, lab, σ, e1, rfl, e3, e4⟩ := play_open (cs := []) (OpenTo.refl _) h1
  refine ⟨N, lab, σ, e1, e3, fun j t n b i o hj hl => ?_, h4⟩
  have hm := mem_filterMap_range hj hl
  rw [e4] at hm
  simp only [List.nil_append, Cmd.made, mixedSchedule, List.mem_cons, Prod.mk.injEq, List.not_mem_nil, or_false] at hm
  rcases hm with ⟨-, h⟩ | ⟨-, h⟩ | ⟨-, h⟩ | ⟨-, h⟩
  · cases h
  · cases h; exact ⟨Or.inl rfl, show (1 : Nat) + 16 ≤ 2 ^ 62 by decide⟩
  · cases h; exact ⟨Or.inr rfl, (fun d e => by cases e), fun e => by cases e⟩
  · cases h; exact ⟨Or.inr rfl, trivial, fun e => by cases e⟩

/-- the beginning of that run: the pool with the two structures, and what `C88_pool` knows about them -/
theorem twoPool_ready : ∃ p0 p live lk ex, Hist p0 p live lk ex ∧ Many.May (library (fun _ => 1) noFp noAdd) [] twoClients ∧
    ∀ log p1 es, Many.perform _ twoClients [] p = (.ok log, p1) → Many.Right _ [] twoClients log es →
      p1 = twoPool ∧ OpenInit (K := poolMach (Out (Many.Answer (library (fun _ => 1) noFp noAdd)))) p1 (quiet (K := poolMach (Out (Many.Answer (library (fun _ => 1) noFp noAdd)))) p1) ∧
      (Many.bases log).zip es = [(344, ⟨.queue, some []⟩), (416, ⟨.tree, some PT.new⟩)] := by
  refine ⟨newPool 0, (run Simple.init (newPool 0)).2, [], [], true, .start (newPool_geo 0) (by decide +kernel) (run_eta (by decide +kernel)), ⟨trivial, fun _ _ _ => ⟨trivial, fun _ _ _ => trivial⟩⟩, ?_⟩
  intro log p1 es h1 h2
  have h3 : (match Many.perform _ twoClients [] (run Simple.init (newPool 0)).2 with
      | (.ok l, _) => l.map fun (e : Many.Act (library (fun _ => 1) noFp noAdd) × Many.Ans (library (fun _ => 1) noFp noAdd)) => Many.show e.2
      | _ => []) = [[0, 344], [0, 416]] := by decide +kernel
  have h4 : p1 = twoPool := by unfold twoPool; rw [h1]
  rw [h1] at h3
  refine ⟨h4, quiet_init (K := poolMach (Out (Many.Answer (library (fun _ => 1) noFp noAdd)))) p1, ?_⟩
  cases h2 with
  | act a b =>
  cases b with
  | act b d =>
  cases d
  cases a with
  | full => cases h3
  | made =>
  cases b with
  | full => cases h3
  | made =>
    simp only [List.map_cons, List.map_nil, Many.show, Option.toList, List.cons.injEq, and_true, true_and] at h3
    obtain ⟨rfl, rfl⟩ := h3
    rfl

end Verif
