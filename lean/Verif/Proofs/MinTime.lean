import Verif.Proofs.ThreadedOpt
import Verif.Proofs.TimeOptimal
/-!
# The multi-threaded search with refreshes: the shortest schedules

After a refresh a task may overwrite better results and raise entries of its table again, so the
invariants of `ThreadedOpt` fail. They survive at the index of the least possible number of steps.
-/

namespace Verif

open Spec Search Search.Threaded

/-- What is known about the table and the results of a task at index `T`, given the shared table. -/
structure TRec (P : Problem) (T : Nat) (sh best : List Nat) (results : MappedPaths) : Prop where
  len : best.length = P.n + 1
  sound : ResultsOK P results
  low : ∀ t, t < T → at0 best t = usizeMax
  own : at0 best T < at0 sh T → ∃ S, results.get T = some (at0 best T, S)
  le : ∀ m S, results.get T = some (m, S) → at0 best T ≤ m

theorem TRec.mono {P : Problem} {T : Nat} {sh sh' best : List Nat} {results : MappedPaths}
    (h : TRec P T sh best results) (hle : at0 sh' T ≤ at0 sh T) : TRec P T sh' best results :=
  ⟨h.len, h.sound, h.low, fun hlt => h.own (by omega), h.le⟩

/-- A leaf that is about to be recorded improves on the recorded result of that length. -/
def LeafImproves (T : Nat) (l : Loc) : Prop :=
  l.sweep.stack ≠ [] → l.sweep.current.time.measurable.set = [] → l.path.length = T →
    ∀ m S, l.results.get T = some (m, S) → l.sweep.current.space.maxMemory < m

/-- Recording a valid schedule. -/
theorem TRec.record {P : Problem} (hP : P.WF) {T : Nat} {sh best : List Nat} {results : MappedPaths}
    (h : TRec P T sh best results) {S : Schedule} (h1 : T ≤ S.length) (hS : P.Valid S)
    (hlen : S.length < best.length) :
    TRec P T sh (updateBest best S.length (P.peak S)) (results.insert S.length (P.peak S, S)) := by
  refine ⟨by simpa [updateBest] using h.len, h.sound.insert ((maximal_iff hP).2 hS), ?_, ?_, ?_⟩
  · intro t ht
    rw [at0_updateBest hlen, if_pos (by omega)]
    exact h.low t ht
  · intro hlt
    rw [at0_updateBest hlen] at hlt ⊢
    rw [AMap.get_insert]
    by_cases h2 : T = S.length
    · simp [h2]
    · have h3 : T < S.length := by omega
      rw [if_pos h3] at hlt ⊢
      rw [if_neg h2]
      exact h.own hlt
  · intro m S' hm
    rw [AMap.get_insert] at hm
    rw [at0_updateBest hlen]
    by_cases h2 : T = S.length
    · simp only [h2, if_true, Option.some.injEq, Prod.mk.injEq] at hm
      simp [h2, hm.1]
    · rw [if_neg h2] at hm
      rw [if_pos (by omega)]
      exact h.le m S' hm

/-- One iteration. -/
theorem IterStep.trec {P : Problem} (hP : P.WF) {T : Nat}
    {Det : Prop} {p0 : Schedule} {sh : List Nat} {l l' : Loc} {stop : Bool}
    (hT : l.sweep.stack ≠ [] → l.sweep.current.time.measurable.set = [] → T ≤ l.path.length)
    (h : IterStep P Det l l' stop) (hl : LocOK P p0 l) (hr : TRec P T sh l.best l.results)
    (hf : LeafImproves T l) :
    TRec P T sh l'.best l'.results ∧ LeafImproves T l' ∧
      (at0 l.best T < usizeMax → at0 l'.best T < usizeMax) ∧
      ∀ u, (∃ m S, l.results.get T = some (m, S) ∧ m ≤ u) →
        ∃ m S, l'.results.get T = some (m, S) ∧ m ≤ u := by
  cases h with
  | stop hst hn hs hi => exact ⟨hr, by intro h; simp at h, id, fun u h => h⟩
  | backLeaf hst hn hleaf hlen =>
    have hstate := hl.chain.state.1
    have hv := leaf_valid hP hstate hleaf
    have hmax := leaf_max hstate
    have h1 := hT (by rw [hst]; simp) hleaf
    refine ⟨?_, ?_, ?_, ?_⟩
    · rw [hmax]; exact hr.record hP h1 hv hlen
    · intro _ hs
      have h1 := hl.chain
      rw [hst] at h1
      exact (h1.top_set_ne hs).elim
    · intro hk
      simp only
      rw [at0_updateBest hlen]
      by_cases h2 : T = l.path.length
      · simp only [h2, Nat.lt_irrefl, if_false, if_true]
        rw [hmax]
        exact peak_lt_max hP _
      · rw [if_pos (by omega)]; exact hk
    · rintro u ⟨m, S, h2, h3⟩
      simp only [AMap.get_insert]
      by_cases h4 : T = l.path.length
      · refine ⟨l.sweep.current.space.maxMemory, l.path, by simp [h4], ?_⟩
        have := hf (by rw [hst]; simp) hleaf h4.symm m S h2
        omega
      · rw [if_neg h4]
        exact ⟨m, S, h2, h3⟩
  | backInner hst hn hleaf =>
    refine ⟨hr, ?_, id, fun u h => h⟩
    intro _ hs
    have h1 := hl.chain
    rw [hst] at h1
    exact (h1.top_set_ne hs).elim
  | skip hn hb hd =>
    refine ⟨hr, ?_, id, fun u h => h⟩
    intro _ hs
    exact (hn.set_ne hs).elim
  | @push s' c k m bound hn hb hlt =>
    refine ⟨hr, ?_, id, fun u h => h⟩
    intro _ hs hlen m' S' hg
    have hmin : minimumPathLength c.time l.path = l.path.length + 1 := by
      unfold minimumPathLength
      rw [if_pos ((atLeaf_isSome _).2 hs)]
    simp only [List.length_append, List.length_singleton] at hlen
    rw [hmin, hlen] at hb
    have h1 := hr.le m' S' hg
    rw [at0_of_getElem? hb] at h1
    simp only at hlt ⊢
    omega

/-- A schedule of least length stays ahead until its length is known to be possible. -/
theorem IterStep.tcov {P : Problem} (hP : P.WF) {T : Nat} (hT : ∀ S, P.Valid S → T ≤ S.length)
    {p0 : Schedule} {sh : List Nat} {l l' : Loc} {stop : Bool}
    (h : IterStep P True l l' stop) (hl : LocOK P p0 l) (hr : TRec P T sh l.best l.results)
    (hf : LeafImproves T l) {S : Schedule} (hS : P.Valid S) (hST : S.length = T)
    (hc : at0 l.best T < usizeMax ∨ Pending S l.path l.sweep.current l.sweep.stack) :
    (stop = false → at0 l'.best T < usizeMax ∨ Pending S l'.path l'.sweep.current l'.sweep.stack) ∧
    (stop = true → at0 l'.best T < usizeMax ∨ (P.Valid p0 ∧ p0.length = T)) := by
  rcases hc with hk | hp
  · have := (h.trec hP (fun _ hs => hT _ (leaf_valid hP hl.chain.state.1 hs)) hl hr hf).2.2.1 hk
    exact ⟨fun _ => Or.inl this, fun _ => Or.inl this⟩
  have hstate := hl.chain.state.1
  cases h with
  | stop hst hn hs hi =>
    refine ⟨by simp, fun _ => ?_⟩
    rw [hst, pending_nil] at hp
    rcases hp.2 with ⟨s1, k, m, _, hm, hne, _⟩ | ⟨hset, hlen⟩
    · exact (hne (hn.no_item hm)).elim
    · have h1 := hl.chain
      rw [hst] at h1
      have h2 := h1.base_path
      exact Or.inr ⟨h2 ▸ leaf_valid hP hstate hset, by rw [← h2, hlen, hST]⟩
  | backLeaf hst hn hleaf hlen =>
    refine ⟨fun _ => ?_, by simp⟩
    rw [hst, pending_cons] at hp
    rcases hp with ⟨hE', hp⟩ | hp
    · left
      rcases hp with ⟨s1, k, m, _, hm, hne, _⟩ | ⟨_, hlenS⟩
      · exact (hne (hn.no_item hm)).elim
      · simp only
        rw [at0_updateBest hlen, hlenS, hST]
        simp only [Nat.lt_irrefl, if_false, if_true]
        rw [leaf_max hstate]
        exact peak_lt_max hP _
    · exact Or.inr hp
  | backInner hst hn hleaf =>
    refine ⟨fun _ => ?_, by simp⟩
    rw [hst, pending_cons] at hp
    rcases hp with ⟨hE', hp⟩ | hp
    · rcases hp with ⟨s1, k, m, _, hm, hne, _⟩ | ⟨h0, _⟩
      · exact (hne (hn.no_item hm)).elim
      · exact (hleaf h0).elim
    · exact Or.inr hp
  | @skip s' c k m bound hn hb hd =>
    refine ⟨fun _ => ?_, by simp⟩
    rcases hp.replace (c' := s') with ⟨hE', hp⟩ | hp
    · rcases hp with ⟨s1, k', m', hs1, hm, hne, hpm⟩ | ⟨h0, hlenS⟩
      · rw [hn.rem, List.mem_cons] at hm
        rcases hm with hm | hm
        · left
          simp only [Prod.mk.injEq] at hm
          obtain ⟨rfl, rfl⟩ := hm
          have hE2 := extends_snoc hE' hs1 hpm
          have h1 := minimumPathLength_le_of_extends hP.bits_nodup hn.child hS hE2
          have h4 := hd trivial
          have h5 := peak_lt_max hP (l.path ++ [m'])
          rw [← leaf_max hn.child] at h5
          rw [hST] at h1
          have h6 := at0_of_getElem? hb
          rcases Nat.lt_or_eq_of_le h1 with h7 | h7
          · have := hr.low _ h7
            omega
          · rw [h7] at h6
            simp only
            omega
        · right
          exact Pending.head ⟨hE', Or.inl ⟨s1, k', m', hs1, hm, hne, hpm⟩⟩
      · right
        exact Pending.head ⟨hE', Or.inr ⟨by rw [hn.set]; exact h0, hlenS⟩⟩
    · exact Or.inr hp
  | @push s' c k m bound hn hb hlt =>
    refine ⟨fun _ => ?_, by simp⟩
    right
    rw [pending_cons]
    rcases hp.replace (c' := s') with ⟨hE', hp⟩ | hp
    · rcases hp with ⟨s1, k', m', hs1, hm, hne, hpm⟩ | ⟨h0, hlenS⟩
      · rw [hn.rem, List.mem_cons] at hm
        rcases hm with hm | hm
        · left
          simp only [Prod.mk.injEq] at hm
          obtain ⟨rfl, rfl⟩ := hm
          exact fresh_pendAt hP hn.child hn.fresh hS (extends_snoc hE' hs1 hpm)
        · right
          simp only [List.dropLast_concat]
          exact Pending.head ⟨hE', Or.inl ⟨s1, k', m', hs1, hm, hne, hpm⟩⟩
      · right
        simp only [List.dropLast_concat]
        exact Pending.head ⟨hE', Or.inr ⟨by rw [hn.set]; exact h0, hlenS⟩⟩
    · right
      simpa only [List.dropLast_concat] using hp

/-- The invariant of a task. -/
inductive TaskT (P : Problem) (T : Nat) {σ : Type} (sh : List Nat) : TaskState σ → Prop
  | ready {sched : Scheduler Partitioner} {init : Option (List Nat)} {rng : σ}
      (hs : StateFor P (startPath init) sched) (hi : IterOK sched)
      (hf : init.isSome = true → Fresh sched) : TaskT P T sh (.ready sched init rng)
  | running {loc : Loc} {rng : σ} {counter : Nat} {wasInit : Bool} (p0 : Schedule)
      (hl : LocOK P p0 loc) (hr : TRec P T sh loc.best loc.results) (hleaf : LeafImproves T loc)
      (hc : counter = 0 → loc.sweep.stack = [] ∧ loc.results = [])
      (hf : counter = 0 → wasInit = true → Fresh loc.sweep.current)
      (hw : wasInit = false → p0 = []) (hnv : counter ≠ 0 → ¬ P.Valid p0)
      : TaskT P T sh (.running loc rng counter wasInit)
  | finishing {loc : Loc} (hr : TRec P T sh loc.best loc.results) : TaskT P T sh (.finishing loc)
  | done : TaskT P T sh .done

theorem TaskT.mono {P : Problem} {T : Nat} {σ : Type} {sh sh' : List Nat} {t : TaskState σ}
    (h : TaskT P T sh t) (hle : at0 sh' T ≤ at0 sh T) : TaskT P T sh' t := by
  cases h with
  | ready hs hi hf => exact .ready hs hi hf
  | running p0 hl hr hleaf hc hf hw hnv => exact .running p0 hl (hr.mono hle) hleaf hc hf hw hnv
  | finishing hr => exact .finishing (hr.mono hle)
  | done => exact .done

/-- The task holds a result of length `T` with memory at most `u`. -/
def Holds (T u : Nat) {σ : Type} : TaskState σ → Prop
  | .running loc _ _ _ => ∃ m S, loc.results.get T = some (m, S) ∧ m ≤ u
  | .finishing loc => ∃ m S, loc.results.get T = some (m, S) ∧ m ≤ u
  | _ => False

/-- The task knows that `T` steps are possible or will meet `S`. -/
def CovT (T : Nat) (S : Schedule) {σ : Type} : TaskState σ → Prop
  | .ready sched init _ => PendAt S (startPath init) sched
  | .running loc _ _ _ =>
    at0 loc.best T < usizeMax ∨ Pending S loc.path loc.sweep.current loc.sweep.stack
  | .finishing loc => at0 loc.best T < usizeMax
  | .done => False

/-- The invariant of the pool. -/
structure PoolT (P : Problem) (T : Nat) (S : Schedule) {σ : Type} (g : Global σ) : Prop where
  len : g.best.length = P.n + 1
  low : ∀ t, t < T → at0 g.best t = usizeMax
  sound : ResultsOK P g.results
  tasks : ∀ t ∈ g.tasks, TaskT P T g.best t
  pub : at0 g.best T < usizeMax → (∃ r, g.results.get T = some r) ∨
    ∃ (i : Nat) (t : TaskState σ), g.tasks[i]? = some t ∧ Holds T (at0 g.best T) t
  cov : at0 g.best T < usizeMax ∨ ∃ (i : Nat) (t : TaskState σ), g.tasks[i]? = some t ∧ CovT T S t

/-- Changing one task and the shared state. -/
theorem PoolT.set {P : Problem} {T : Nat} {S : Schedule} {σ : Type} {g : Global σ} (h : PoolT P T S g)
    {i : Nat} {t t' : TaskState σ} (ht : g.tasks[i]? = some t) {best' : List Nat}
    {results' : MappedPaths} (hlen : best'.length = P.n + 1)
    (hlow : ∀ t, t < T → at0 best' t = usizeMax) (hsound : ResultsOK P results')
    (hle : at0 best' T ≤ at0 g.best T) (ht' : TaskT P T best' t')
    (hkeep : (∃ r, g.results.get T = some r) → ∃ r, results'.get T = some r)
    (hpub : Holds T (at0 best' T) t' ∨ (∃ r, results'.get T = some r) ∨
      (at0 best' T = at0 g.best T ∧ (Holds T (at0 g.best T) t → Holds T (at0 g.best T) t')))
    (hcov : CovT T S t → at0 best' T < usizeMax ∨ CovT T S t') :
    PoolT P T S ⟨best', results', g.tasks.set i t'⟩ := by
  have hi := (List.getElem?_eq_some_iff.1 ht).1
  have hself : (g.tasks.set i t')[i]? = some t' := by simp [hi]
  have hother : ∀ {j : Nat} {a : TaskState σ}, j ≠ i → g.tasks[j]? = some a →
      (g.tasks.set i t')[j]? = some a := by
    intro j a hij hj
    rw [List.getElem?_set_ne (fun h => hij h.symm)]
    exact hj
  refine ⟨hlen, hlow, hsound, ?_, ?_, ?_⟩
  · intro a ha
    rcases List.mem_or_eq_of_mem_set ha with h1 | h1
    · exact (h.tasks a h1).mono hle
    · exact h1 ▸ ht'
  · intro hk
    rcases hpub with h1 | h1 | ⟨h1, h2⟩
    · exact Or.inr ⟨i, t', hself, h1⟩
    · exact Or.inl h1
    · simp only at hk ⊢
      rw [h1] at hk ⊢
      rcases h.pub hk with h3 | ⟨j, a, hj, ha⟩
      · exact Or.inl (hkeep h3)
      · right
        by_cases hij : j = i
        · subst hij
          rw [ht] at hj
          simp only [Option.some.injEq] at hj
          subst hj
          exact ⟨j, t', hself, h2 ha⟩
        · exact ⟨j, a, hother hij hj, ha⟩
  · rcases h.cov with hk | ⟨j, a, hj, ha⟩
    · exact Or.inl (Nat.lt_of_le_of_lt hle hk)
    · by_cases hij : j = i
      · subst hij
        rw [ht] at hj
        simp only [Option.some.injEq] at hj
        subst hj
        rcases hcov ha with h1 | h1
        · exact Or.inl h1
        · exact Or.inr ⟨j, t', hself, h1⟩
      · exact Or.inr ⟨j, a, hother hij hj, ha⟩

/-- A move of the uninterrupted deterministic search. -/
theorem move_minTime {F σ : Type} [FloatOps F] {P : Problem} (hP : P.WF) (hb : P.bits ≠ []) {T : Nat}
    (hT : ∀ S, P.Valid S → T ≤ S.length) {S : Schedule} (hS : P.Valid S) (hST : S.length = T)
    {g g' : Global σ} (hg : PoolT P T S g) {i : Nat} {prof : Profile}
    (hm : move (.det : Mode F σ) prof g i false = .ok g') : PoolT P T S g' := by
  cases ht : g.tasks[i]? with
  | none =>
    simp only [move, ht, pure, Except.pure, Except.ok.injEq] at hm
    exact hm ▸ hg
  | some t =>
    have hok := hg.tasks t (List.mem_of_getElem? ht)
    cases hok with
    | @ready sched init rng hs hi hf =>
      simp only [move, ht, pure, Except.pure, Except.ok.injEq] at hm
      subst hm
      have hl := start_locOK hs hi hg.len
      refine hg.set ht hg.len hg.low hg.sound (Nat.le_refl _) ?_ id
        (Or.inr (Or.inr ⟨rfl, fun h => h.elim⟩)) ?_
      · refine .running (startPath init) hl ?_ ?_ ?_ ?_ ?_ ?_
        · refine ⟨hg.len, ?_, hg.low, fun h => (Nat.lt_irrefl _ h).elim, ?_⟩
          · intro t m S h; simp [startLoc] at h
          · intro m S h; simp [startLoc] at h
        · intro h; simp [startLoc, Sweep.new] at h
        · intro _; exact ⟨rfl, rfl⟩
        · intro _ hw; exact hf hw
        · intro hw; cases init with
          | none => rfl
          | some m => simp at hw
        · intro h; exact (h rfl).elim
      · intro hc
        right
        have h1 : (startLoc sched init g.best).path = startPath init := by
          cases init <;> simp [startLoc, startPath]
        right
        rw [h1]
        exact Pending.head hc
    | @running loc rng counter wasInit p0 hl hr hleaf hc hf hw hnv =>
      obtain ⟨l', stop, e1, e2⟩ := searchIter_spec hP.lax hl
      obtain ⟨r1, r2, r3, r4⟩ := e2.trec hP (fun _ hs => hT _ (leaf_valid hP hl.chain.state.1 hs)) hl hr hleaf
      have hl' := e2.locOK hl
      cases stop with
      | true =>
        obtain ⟨_, hcase⟩ := finishLoop_spec hP.lax e2 hl hr.sound (fun a b => ⟨hf a b, (hc a).1⟩)
        rcases hcase with ⟨hn, hfin⟩ | ⟨hc0, hwi, hv, hpath, hbest, hres, hlen, hfin⟩
        · simp only [move, ht, modeIter, e1 prof, bind, Except.bind, pure, Except.pure, ↓reduceIte,
            hfin, Except.ok.injEq] at hm
          subst hm
          have hnv' : ¬ P.Valid p0 := by
            by_cases h0 : counter = 0
            · have : wasInit = false := by
                cases hwb : wasInit with
                | false => rfl
                | true => exact (hn ⟨h0, hwb⟩).elim
              rw [hw this]
              exact not_valid_nil hb
            · exact hnv h0
          refine hg.set ht hg.len hg.low hg.sound (Nat.le_refl _) (.finishing r1) id
            (Or.inr (Or.inr ⟨rfl, fun h => r4 _ h⟩)) ?_
          intro hcv
          right
          rcases (e2.tcov hP hT hl hr hleaf hS hST hcv).2 rfl with h1 | ⟨h1, _⟩
          · exact h1
          · exact (hnv' h1).elim
        · simp only [move, ht, modeIter, e1 prof, bind, Except.bind, pure, Except.pure, ↓reduceIte,
            hfin, Except.ok.injEq] at hm
          subst hm
          rw [maximal_iff hP] at hv
          have hres0 := (hc hc0).2
          refine hg.set ht hg.len hg.low hg.sound (Nat.le_refl _) (.finishing (hr.record hP (hT _ hv) hv hlen)) id
            (Or.inr (Or.inr ⟨rfl, ?_⟩)) ?_
          · rintro ⟨m, S', h1, _⟩
            rw [hres0] at h1
            simp at h1
          · intro hcv
            right
            have h1 := hT p0 hv
            show at0 (updateBest loc.best p0.length (P.peak p0)) T < usizeMax
            rw [at0_updateBest hlen]
            by_cases h2 : T = p0.length
            · simp only [h2, Nat.lt_irrefl, if_false, if_true]
              exact peak_lt_max hP _
            · rw [if_pos (by omega)]
              rcases (e2.tcov hP hT hl hr hleaf hS hST hcv).2 rfl with h3 | ⟨_, h3⟩
              · rw [hbest] at h3; exact h3
              · exact (h2 h3.symm).elim
      | false =>
        have hnv' : ¬ P.Valid p0 := by
          by_cases h0 : counter = 0
          · have hst := (hc h0).1
            have h1 := hl.chain
            rw [hst] at h1
            have hpath := h1.base_path
            have hstate := hl.chain.state.1
            intro hv
            have hset := (leaf_iff hP hstate).2 (hpath ▸ hv)
            cases e2 with
            | backLeaf hst' => rw [hst] at hst'; simp at hst'
            | backInner hst' => rw [hst] at hst'; simp at hst'
            | skip hn =>
              have := hn.set_ne
              rw [hn.set] at this
              exact this hset
            | push hn =>
              have := hn.set_ne
              rw [hn.set] at this
              exact this hset
          · exact hnv h0
        by_cases hcu : counter = updateInterval
        · simp only [move, ht, modeIter, e1 prof, bind, Except.bind, pure, Except.pure,
            Bool.false_eq_true, ↓reduceIte, hcu, Except.ok.injEq] at hm
          subst hm
          have hlen : g.best.length = l'.best.length := by rw [hg.len, hl'.best]
          have hex := exchange_at g.best l'.best hlen
          have hexl := exchange_length g.best l'.best
          have hlow : ∀ t, t < T → at0 (exchange g.best l'.best).1 t = usizeMax ∧
              at0 (exchange g.best l'.best).2 t = usizeMax := by
            intro t htT
            rw [(hex t).1, (hex t).2, hg.low t htT, r1.low t htT]
            simp
          refine hg.set ht (by rw [hexl.1]; exact hg.len) (fun t h => (hlow t h).1) hg.sound
            (by rw [(hex T).1]; omega) ?_ id ?_ ?_
          · refine .running p0 ⟨hl'.chain, by rw [hexl.2]; exact hl'.best⟩ ?_ r2 (by simp) (by simp) hw
              (fun _ => hnv')
            refine ⟨by rw [hexl.2]; exact hl'.best, r1.sound, fun t h => (hlow t h).2, ?_, ?_⟩
            · intro h
              rw [(hex T).1, (hex T).2] at h
              exact (Nat.lt_irrefl _ h).elim
            · intro m S' h
              have := r1.le m S' h
              simp only
              rw [(hex T).2]
              omega
          · by_cases hlt : at0 l'.best T < at0 g.best T
            · left
              obtain ⟨S', h1⟩ := r1.own hlt
              refine ⟨_, S', h1, ?_⟩
              rw [(hex T).1]
              omega
            · right; right
              refine ⟨by rw [(hex T).1]; omega, fun h => r4 _ h⟩
          · intro hcv
            rcases (e2.tcov hP hT hl hr hleaf hS hST hcv).1 rfl with h1 | h1
            · left
              rw [(hex T).1]
              omega
            · exact Or.inr (Or.inr h1)
        · simp only [move, ht, modeIter, e1 prof, bind, Except.bind, pure, Except.pure,
            Bool.false_eq_true, ↓reduceIte, hcu, Except.ok.injEq] at hm
          subst hm
          refine hg.set ht hg.len hg.low hg.sound (Nat.le_refl _)
            (.running p0 hl' r1 r2 (by simp) (by simp) hw (fun _ => hnv')) id
            (Or.inr (Or.inr ⟨rfl, fun h => r4 _ h⟩)) ?_
          intro hcv
          exact Or.inr ((e2.tcov hP hT hl hr hleaf hS hST hcv).1 rfl)
    | @finishing loc hr =>
      cases hemp : loc.results.isEmpty with
      | true =>
        have hnil : loc.results = [] := by simpa using hemp
        simp only [move, ht, hemp, pure, Except.pure, ↓reduceIte, Except.ok.injEq] at hm
        subst hm
        refine hg.set ht hg.len hg.low hg.sound (Nat.le_refl _) .done id
          (Or.inr (Or.inr ⟨rfl, ?_⟩)) ?_
        · rintro ⟨m, S', h1, _⟩
          rw [hnil] at h1
          simp at h1
        · intro hcv
          left
          have hcv' : at0 loc.best T < usizeMax := hcv
          by_cases hlt : at0 loc.best T < at0 g.best T
          · obtain ⟨S', h1⟩ := hr.own hlt
            rw [hnil] at h1
            simp at h1
          · omega
      | false =>
        simp only [move, ht, hemp, pure, Except.pure, Bool.false_eq_true, ↓reduceIte,
          Except.ok.injEq] at hm
        subst hm
        have hlen : g.best.length = loc.best.length := by rw [hg.len, hr.len]
        obtain ⟨m1, m2, m3⟩ := mergeLoop_spec g.best loc.best 0 loc.results g.results hlen
        have hTn : T < g.best.length := by
          rw [hg.len, ← hST]
          have := hS.length_le hP
          omega
        have hins : at0 loc.best T ≤ at0 g.best T → (∃ r, loc.results.get T = some r) →
            ∃ r, (mergeLoop 0 g.best loc.best loc.results g.results).2.get T = some r := by
          rintro h1 ⟨r, h2⟩
          refine ⟨r, ?_⟩
          rw [m3 T, if_pos ⟨Nat.zero_le _, by omega, by simpa using h1, by rw [h2]; rfl⟩]
          exact h2
        have hkeep : (∃ r, g.results.get T = some r) →
            ∃ r, (mergeLoop 0 g.best loc.best loc.results g.results).2.get T = some r := by
          rintro ⟨r, h1⟩
          rw [m3 T]
          split
          · rename_i h2
            exact Option.isSome_iff_exists.1 h2.2.2.2
          · exact ⟨r, h1⟩
        refine hg.set ht (by rw [m1]; exact hg.len) ?_ ?_ (by rw [m2]; omega) .done hkeep ?_ ?_
        · intro t htT
          rw [m2, hg.low t htT, hr.low t htT]
          simp
        · intro t m S' h
          rw [m3 t] at h
          split at h
          · exact hr.sound t m S' h
          · exact hg.sound t m S' h
        · right
          by_cases hlt : at0 loc.best T < at0 g.best T
          · left
            obtain ⟨S', h1⟩ := hr.own hlt
            exact hins (by omega) ⟨_, h1⟩
          · by_cases hh : Holds T (at0 g.best T) (TaskState.finishing loc : TaskState σ)
            · left
              obtain ⟨m, S', h1, h2⟩ := hh
              have := hr.le m S' h1
              exact hins (by omega) ⟨_, h1⟩
            · right
              exact ⟨by rw [m2]; omega, fun h => (hh h).elim⟩
        · intro hcv
          left
          have hcv' : at0 loc.best T < usizeMax := hcv
          rw [m2]
          omega
    | done =>
      simp only [move, ht, pure, Except.pure, Except.ok.injEq] at hm
      exact hm ▸ hg

theorem runMoves_minTime {F σ : Type} [FloatOps F] {P : Problem} (hP : P.WF) (hb : P.bits ≠ []) {T : Nat}
    (hT : ∀ S, P.Valid S → T ≤ S.length) {S : Schedule} (hS : P.Valid S) (hST : S.length = T)
    {prof : Profile} : ∀ (moves : List (Nat × Bool)) (g g' : Global σ), (∀ m ∈ moves, m.2 = false) →
    PoolT P T S g → runMoves (.det : Mode F σ) prof g moves = .ok g' → PoolT P T S g' := by
  intro moves
  induction moves with
  | nil =>
    intro g g' _ hg h
    simp only [runMoves, pure, Except.pure, Except.ok.injEq] at h
    exact h ▸ hg
  | cons m moves ih =>
    intro g g' hq hg h
    have hm2 := hq m (by simp)
    cases hm : move (.det : Mode F σ) prof g m.1 m.2 with
    | error e => simp [runMoves, hm, bind, Except.bind] at h
    | ok g1 =>
      simp only [runMoves, hm, bind, Except.bind] at h
      rw [hm2] at hm
      exact ih g1 g' (fun m' h' => hq m' (List.mem_cons_of_mem _ h'))
        (move_minTime hP hb hT hS hST hg hm) h

/-- Whatever the interleaving, an uninterrupted deterministic pool returns a shortest schedule. -/
theorem searchThreaded_minTime {F σ : Type} [FloatOps F] {P : Problem} (hP : P.WF) (hb : P.bits ≠ [])
    (tb : Int) (seeds : Nat → σ) {moves : List (Nat × Bool)} (hq : ∀ m ∈ moves, m.2 = false)
    {prof : Profile} {hashIter : MappedPaths → MappedPaths} (hh : ∀ m, (hashIter m).Perm m)
    {out : List Path}
    (h : searchThreaded (.det : Mode F σ) prof hashIter tb seeds moves P.graph P.order = .ok (some out)) :
    ∃ p ∈ out, ∀ S, P.Valid S → p.time ≤ S.length := by
  have hex : ∃ T, ∃ S, P.Valid S ∧ S.length = T := by
    obtain ⟨S, _, hS, _⟩ := getTimeOptimal_spec hP
    exact ⟨_, S, hS, rfl⟩
  classical
  obtain ⟨S, hS, hST⟩ := Nat.find_spec hex
  have hT : ∀ S, P.Valid S → Nat.find hex ≤ S.length := fun S hS => Nat.find_min' hex ⟨S, hS, rfl⟩
  generalize Nat.find hex = T at *
  obtain ⟨s, e1, hs, hf⟩ := mkScheduler_spec hP
  obtain ⟨g, e2, hg⟩ := initGlobal_inv hP hb tb seeds hs hf
  have hTn : T ≤ P.n := by rw [← hST]; exact hS.length_le hP
  have hbest : g.best = best0 P ∧ g.results = [] := by
    have := e2 prof
    unfold initGlobal at this
    cases hsp : spawn prof tb seeds s with
    | error e => simp [hsp, bind, Except.bind] at this
    | ok ts =>
      simp only [hsp, bind, Except.bind, pure, Except.pure, Except.ok.injEq] at this
      rw [← this]
      exact ⟨rfl, rfl⟩
  have hmax : ∀ t, t ≤ P.n → at0 g.best t = usizeMax := by
    intro t ht
    rw [hbest.1, at0_replicate, if_pos (by omega)]
  have hready := initGlobal_cost hP.lax tb seeds hs hf (e2 prof)
  have hinit : PoolT P T S g := by
    refine ⟨hg.shared.len, fun t ht => hmax t (by omega), hg.shared.sound, ?_, ?_, ?_⟩
    · intro t ht
      obtain ⟨sched, init, rng, rfl, _⟩ := hready t ht
      cases hg.tasks _ ht with
      | ready h1 h2 h3 => exact .ready h1 h2 h3
    · intro h; rw [hmax T hTn] at h; exact (Nat.lt_irrefl _ h).elim
    · right
      rcases hg.cov S hS with h1 | ⟨i, t, h1, h2⟩
      · unfold Dom at h1
        rw [hST, hmax T hTn] at h1
        have := peak_lt_max hP S
        omega
      · obtain ⟨sched, init, rng, rfl, _⟩ := hready t (List.mem_of_getElem? h1)
        exact ⟨i, _, h1, h2⟩
  unfold searchThreaded at h
  simp only [e1, bind, Except.bind, show P.graph.length = P.n from rfl, e2 prof] at h
  cases hr : runMoves (.det : Mode F σ) prof g moves with
  | error e => simp [hr] at h
  | ok g' =>
    simp only [hr] at h
    split at h
    · rename_i hfin
      have hg' := runMoves_minTime hP hb hT hS hST moves g g' hq hinit hr
      have hdone : ∀ {i : Nat} {t : TaskState σ}, g'.tasks[i]? = some t → t = .done := by
        intro i t ht
        have := List.all_eq_true.1 hfin t (List.mem_of_getElem? ht)
        cases t <;> simp_all
      have hk : at0 g'.best T < usizeMax := by
        rcases hg'.cov with h1 | ⟨i, t, h1, h2⟩
        · exact h1
        · rw [hdone h1] at h2; exact h2.elim
      obtain ⟨o, p1, q1⟩ := postprocess_spec hashIter hh P.n g'.results
      rw [p1] at h
      simp only [pure, Except.pure, Except.ok.injEq, Option.some.injEq] at h
      subst h
      rcases hg'.pub hk with ⟨r, h1⟩ | ⟨i, t, h1, h2⟩
      · obtain ⟨m, S'⟩ := r
        obtain ⟨k1, k2, k3⟩ := hg'.sound T m S' h1
        obtain ⟨p, j1, j2, _⟩ := q1.dominates hTn h1 (by rw [← k3]; exact peak_lt_max hP S')
        exact ⟨p, j1, fun S'' hS'' => Nat.le_trans j2 (hT S'' hS'')⟩
      · rw [hdone h1] at h2; exact h2.elim
    · simp [pure, Except.pure] at h

end Verif
