import Verif.Proofs.Found
/-!
# The first schedule that a search meets

As long as nothing is known a search goes down, and the first step that is tried is to measure everything.
-/

namespace Verif

open Spec Search Search.Threaded

/-- The first item is to measure everything. -/
theorem NextSome.all {P : Problem} {p : Schedule} {s s' c : Scheduler Partitioner} {k m : List Nat}
    (h : NextSome P p s s' c k m) (hf : Fresh s) : m = s.time.measurable.set := by
  have h1 := h.rem
  have h0 : ∀ l : List Nat, splits 0 l = [([], l)] := by
    intro l
    induction l with
    | nil => rfl
    | cons a l ih => simp [splits]
  rw [hf.rem, items, List.range_succ_eq_map, List.flatMap_cons, h0] at h1
  simp only [List.cons_append, List.cons.injEq, Prod.mk.injEq] at h1
  exact h1.1.2.symm

/-- The first step that is tried follows the schedule that measures everything as early as possible. -/
theorem NextSome.greedy {P : Problem} (hP : P.WF) {S p : Schedule} (hS : P.Valid S) (hG : Greedy P S)
    {s s' c : Scheduler Partitioner} {k m : List Nat} (h : NextSome P p s s' c k m) (hs : StateFor P p s) (hf : Fresh s)
    (hE : Extends p S) : Extends (p ++ [m]) S := by
  have hne := h.set_ne
  rw [h.set] at hne
  rcases (fresh_pendAt hP hs hf hS hE).2 with ⟨s1, _, _, h1, _, _, _⟩ | ⟨h1, _⟩
  · refine extends_snoc hE h1 ?_
    rw [h.all hf]
    have hpre := prefix_take (hS.prefix hP.bits_nodup) (p.length + 1)
    rw [take_succ_of_getElem? h1] at hpre
    obtain ⟨_, _, hnd, _⟩ := prefix_of_snoc hpre
    refine (List.perm_ext_iff_of_nodup hs.time.set_nodup hnd).2 fun b => ?_
    have h2 := hs.time.set_mem b
    have h3 := hG p.length s1 h1 b
    have h4 : Ready P p.flatten b ↔ Ready P (S.take p.length).flatten b :=
      ⟨fun r => ⟨r.bit, fun hb => r.fresh ((hE.mem b).2 hb), fun d hd => (hE.mem d).1 (r.deps d hd)⟩,
        fun r => ⟨r.bit, fun hb => r.fresh ((hE.mem b).1 hb), fun d hd => (hE.mem d).2 (r.deps d hd)⟩⟩
    exact h2.trans (h4.trans h3)
  · exact (hne h1).elim

/-- The leaf at the end of it. -/
theorem greedy_leaf {P : Problem} (hP : P.WF) {S p : Schedule} (hS : P.Valid S) (hG : Greedy P S)
    {s : Scheduler Partitioner} (hs : StateFor P p s) (hset : s.time.measurable.set = []) (hE : Extends p S) :
    p.length = S.length :=
  Nat.le_antisymm hE.le (greedy_min hP hS hG (leaf_valid hP hs hset))

/-- Where the search is as long as it follows `S`. -/
structure Follows (S : Schedule) (l : Loc) : Prop where
  ext : Extends l.path S
  fresh : Fresh l.sweep.current

/-- One more iteration, in a mode that turns down a step only if it must: the step is taken, or it is known already that
so few steps are possible. -/
theorem IterStep.follows {P : Problem} (hP : P.WF) {S : Schedule} (hS : P.Valid S) (hG : Greedy P S) {p0 : Schedule}
    {l l' : Loc} {stop : Bool} (h : IterStep P True l l' stop) (hl : LocOK P p0 l) (hF : Follows S l)
    (hne : l.sweep.current.time.measurable.set ≠ []) (hlow : ∀ t, t < S.length → at0 l.best t = usizeMax) :
    stop = false ∧ l'.best = l.best ∧ l'.results = l.results ∧
      (at0 l.best S.length < usizeMax ∨
        (Follows S l' ∧ l'.sweep.stack.length = l.sweep.stack.length + 1 ∧ l'.path.length = l.path.length + 1)) := by
  have hs := hl.chain.state.1
  cases h with
  | stop hst hn => exact (hne (hn.fresh_leaf hF.fresh)).elim
  | backLeaf hst hn => exact (hne (hn.fresh_leaf hF.fresh)).elim
  | backInner hst hn => exact (hne (hn.fresh_leaf hF.fresh)).elim
  | @skip s' c k m bound hn hb hd =>
    refine ⟨rfl, rfl, rfl, Or.inl ?_⟩
    have hE := hn.greedy hP hS hG hs hF.fresh hF.ext
    have h1 := minimumPathLength_le_of_extends hP.bits_nodup hn.child hS hE
    have h2 := hd trivial
    have h3 := at0_of_getElem? hb
    have h4 := peak_lt_max hP (l.path ++ [m])
    rw [← leaf_max hn.child] at h4
    rcases Nat.lt_or_eq_of_le h1 with h5 | h5
    · rw [hlow _ h5] at h3
      omega
    · rw [← h5]
      omega
  | @push s' c k m bound hn hb hlt =>
    exact ⟨rfl, rfl, rfl, Or.inr ⟨⟨hn.greedy hP hS hG hs hF.fresh hF.ext, hn.fresh⟩, by simp, by simp⟩⟩

/-! ## One thread -/

/-- What an iteration does; `Bd`: as long as the table is empty a step is turned down only if it must. -/
def Turn (P : Problem) (Bd : Prop) (l l' : Loc) (stop : Bool) : Prop :=
  IterStep P False l l' stop ∧ (Bd → l.best = best0 P → IterStep P True l l' stop)

/-- A run of the loop from iteration `k` on. -/
inductive LoopRun (P : Problem) (Bd : Prop) (timer : Nat → Bool) : Nat → Loc → Loc → Prop
  | stop {k : Nat} {l l' : Loc} (h : Turn P Bd l l' true) : LoopRun P Bd timer k l l'
  | time {k : Nat} {l l' : Loc} (h : Turn P Bd l l' false) (ht : timer k = true) : LoopRun P Bd timer k l l'
  | next {k : Nat} {l l' lf : Loc} (h : Turn P Bd l l' false) (ht : timer k = false)
      (hr : LoopRun P Bd timer (k + 1) l' lf) : LoopRun P Bd timer k l lf

theorem IterStep.weaken {P : Problem} {D D' : Prop} (hD : D' → D) {l l' : Loc} {stop : Bool} (h : IterStep P D l l' stop) :
    IterStep P D' l l' stop := by
  cases h with
  | stop a b c d => exact .stop a b c d
  | backLeaf a b c d => exact .backLeaf a b c d
  | backInner a b c => exact .backInner a b c
  | skip a b c => exact .skip a b fun h => c (hD h)
  | push a b c => exact .push a b c

theorem searchLoop_run {P : Problem} (hP : P.WF) {p0 : Schedule} {prof : Profile} {timer : Nat → Bool} :
    ∀ (fuel k : Nat) (l lf : Loc), LocOK P p0 l → searchLoop prof timer fuel k l = .ok (some lf) →
      LoopRun P True timer k l lf := by
  intro fuel
  induction fuel with
  | zero => intro k l lf _ h; simp [searchLoop, pure, Except.pure] at h
  | succ fuel ih =>
    intro k l lf hl h
    obtain ⟨l', stop, e1, e2⟩ := searchIter_spec hP.lax hl
    have ht : Turn P True l l' stop := ⟨e2.weaken fun h => h.elim, fun _ _ => e2⟩
    simp only [searchLoop, e1 prof, bind, Except.bind, pure, Except.pure] at h
    cases stop with
    | true =>
      simp only [↓reduceIte, Except.ok.injEq, Option.some.injEq] at h
      exact h ▸ .stop ht
    | false =>
      cases htk : timer k with
      | true =>
        simp only [htk, Bool.false_eq_true, ↓reduceIte, Except.ok.injEq, Option.some.injEq] at h
        exact h ▸ .time ht htk
      | false =>
        simp only [htk, Bool.false_eq_true, ↓reduceIte] at h
        exact .next ht htk (ih _ _ _ (e2.locOK hl) h)

theorem probLoop_run {F σ : Type} [FloatOps F] {accept : Accept F} {gen : Rng F σ} {P : Problem} (hP : P.WF)
    {p0 : Schedule} {prof : Profile} {timer : Nat → Bool} :
    ∀ (fuel k : Nat) (l lf : Loc) (rng rngf : σ), LocOK P p0 l →
      probLoop prof accept gen timer fuel k l rng = .ok (some (lf, rngf)) → LoopRun P (Bold P accept) timer k l lf := by
  intro fuel
  induction fuel with
  | zero => intro k l lf rng rngf _ h; simp [probLoop, pure, Except.pure] at h
  | succ fuel ih =>
    intro k l lf rng rngf hl h
    obtain ⟨l', rng', stop, e1, e2⟩ := modeIter_spec (.prob accept gen) rng hP.lax hl
    have ht : Turn P (Bold P accept) l l' stop := by
      refine ⟨e2, fun hA hb => ?_⟩
      obtain ⟨l2, rng2, stop2, f1, f2⟩ := modeIter_blank (mode := .prob accept gen) hA rng hP hl hb
      have := (f1 .debug).symm.trans (e1 .debug)
      simp only [Except.ok.injEq, Prod.mk.injEq] at this
      obtain ⟨rfl, _, rfl⟩ := this
      exact f2
    have e3 : probIter prof accept gen l rng = .ok (l', rng', stop) := e1 prof
    simp only [probLoop, e3, bind, Except.bind, pure, Except.pure] at h
    cases stop with
    | true =>
      simp only [↓reduceIte, Except.ok.injEq, Option.some.injEq, Prod.mk.injEq] at h
      exact h.1 ▸ .stop ht
    | false =>
      cases htk : timer k with
      | true =>
        simp only [htk, Bool.false_eq_true, ↓reduceIte, Except.ok.injEq, Option.some.injEq, Prod.mk.injEq] at h
        exact h.1 ▸ .time ht htk
      | false =>
        simp only [htk, Bool.false_eq_true, ↓reduceIte] at h
        exact .next ht htk (ih _ _ _ _ _ (e2.locOK hl) h)

/-- A result is never removed. -/
theorem IterStep.keeps {P : Problem} {D : Prop} {l l' : Loc} {stop : Bool} (h : IterStep P D l l' stop) {T : Nat}
    (hT : ∃ r, l.results.get T = some r) : ∃ r, l'.results.get T = some r := by
  cases h with
  | backLeaf =>
    simp only [AMap.get_insert]
    split
    exacts [⟨_, rfl⟩, hT]
  | _ => exact hT

theorem LoopRun.keeps {P : Problem} {Bd : Prop} {timer : Nat → Bool} {k : Nat} {l lf : Loc}
    (h : LoopRun P Bd timer k l lf) {T : Nat} (hT : ∃ r, l.results.get T = some r) : ∃ r, lf.results.get T = some r := by
  induction h with
  | stop h => exact h.1.keeps hT
  | time h => exact h.1.keeps hT
  | next h _ _ ih => exact ih (h.1.keeps hT)

theorem IterStep.sound {P : Problem} {D : Prop} {p0 : Schedule} {l l' : Loc} {stop : Bool} (h : IterStep P D l l' stop)
    (hl : LocOK P p0 l) (hr : ResultsOK P l.results) : ResultsOK P l'.results := by
  cases h with
  | backLeaf hst hn hleaf hlen =>
    have hs := hl.chain.state.1
    simp only
    rw [leaf_max hs]
    exact hr.insert ((leaf_maximal hs).1 hleaf)
  | _ => exact hr

theorem LoopRun.sound {P : Problem} {Bd : Prop} {timer : Nat → Bool} {k : Nat} {p0 : Schedule} {l lf : Loc}
    (h : LoopRun P Bd timer k l lf) (hl : LocOK P p0 l) (hr : ResultsOK P l.results) : ResultsOK P lf.results := by
  induction h with
  | stop h => exact h.1.sound hl hr
  | time h => exact h.1.sound hl hr
  | next h _ _ ih => exact ih (h.1.locOK hl) (h.1.sound hl hr)

/-- As long as the timer is silent the search goes down to the end of `S` and records it. What is left after that:
the loop goes on, unless the time is over right then. -/
theorem LoopRun.follows {P : Problem} {Bd : Prop} (hB : Bd) (hP : P.WF) (hb : P.bits ≠ []) {S : Schedule} (hS : P.Valid S) (hG : Greedy P S)
    {timer : Nat → Bool} (htimer : ∀ k, k < S.length → timer k = false) {k : Nat} {l lf : Loc}
    (h : LoopRun P Bd timer k l lf) (hl : LocOK P [] l) (hF : Follows S l) (hbest : l.best = best0 P)
    (hres : l.results = []) (hk : l.path.length = k) :
    (∃ r, lf.results.get S.length = some r) ∧
      (timer S.length = true → ∃ S', Extends S' S ∧ S'.length = S.length ∧ lf.results = [(S.length, (P.peak S', S'))]) := by
  have hs : ∀ {l : Loc}, LocOK P [] l → StateFor P l.path l.sweep.current := fun hl => hl.chain.state.1
  have hlow : ∀ {l : Loc}, l.best = best0 P → ∀ t, t < S.length → at0 l.best t = usizeMax := by
    intro l hb t ht
    have := hS.length_le hP
    rw [hb, at0_best0 (by omega)]
  have hnot : ∀ {l : Loc}, l.best = best0 P → ¬ at0 l.best S.length < usizeMax := by
    intro l hb
    rw [hb, at0_best0 (hS.length_le hP)]
    exact Nat.lt_irrefl _
  have leaf : ∀ {l l' : Loc} {stop : Bool}, Turn P Bd l l' stop → LocOK P [] l → Follows S l → l.results = [] →
      l.sweep.current.time.measurable.set = [] → stop = false ∧ l.path.length = S.length ∧
        l'.results = [(S.length, (P.peak l.path, l.path))] := by
    intro l l' stop h hl hF hres hset
    have hlen := greedy_leaf hP hS hG (hs hl) hset hF.ext
    have hst : l.sweep.stack ≠ [] := by
      intro h0
      have h1 := hl.chain
      rw [h0] at h1
      have := h1.base_path
      have hv := leaf_valid hP (hs hl) hset
      rw [this] at hv
      exact not_valid_nil hb hv
    cases h.1 with
    | stop h0 => exact (hst h0).elim
    | backLeaf _ _ _ _ =>
      refine ⟨rfl, hlen, ?_⟩
      simp only [hres, hlen, leaf_max (hs hl)]
      rfl
    | backInner _ _ h0 => exact (h0 hset).elim
    | skip hn =>
      have := hn.set_ne
      rw [hn.set] at this
      exact (this hset).elim
    | push hn =>
      have := hn.set_ne
      rw [hn.set] at this
      exact (this hset).elim
  induction h with
  | @stop k l l' h =>
    by_cases hset : l.sweep.current.time.measurable.set = []
    · exact absurd (leaf h hl hF hres hset).1 (by simp)
    · exact absurd ((h.2 hB hbest).follows hP hS hG hl hF hset (hlow hbest)).1 (by simp)
  | @time k l l' h ht =>
    by_cases hset : l.sweep.current.time.measurable.set = []
    · obtain ⟨_, h2, h3⟩ := leaf h hl hF hres hset
      refine ⟨⟨_, by rw [h3]; simp [AMap.get]; rfl⟩, fun _ => ⟨l.path, hF.ext, h2, h3⟩⟩
    · exfalso
      have h1 := htimer k
      obtain ⟨_, _, _, h4 | ⟨h4, _, h5⟩⟩ := (h.2 hB hbest).follows hP hS hG hl hF hset (hlow hbest)
      · exact hnot hbest h4
      · have := h4.ext.le
        rw [h1 (by omega)] at ht
        simp at ht
  | @next k l l' lf h ht hr ih =>
    by_cases hset : l.sweep.current.time.measurable.set = []
    · obtain ⟨_, h2, h3⟩ := leaf h hl hF hres hset
      refine ⟨hr.keeps ⟨_, by rw [h3]; simp [AMap.get]; rfl⟩, fun h4 => ?_⟩
      rw [← h2, hk, ht] at h4
      simp at h4
    · obtain ⟨_, h2, h3, h4 | ⟨h4, _, h5⟩⟩ := (h.2 hB hbest).follows hP hS hG hl hF hset (hlow hbest)
      · exact (hnot hbest h4).elim
      · exact ih (h.1.locOK hl) h4 (h2.trans hbest) (h3.trans hres) (by omega)

/-- If the time is over before the least number of steps, nothing has been recorded. -/
theorem LoopRun.early {P : Problem} {Bd : Prop} (hP : P.WF) {T : Nat} (hT : ∀ S, P.Valid S → T ≤ S.length)
    {timer : Nat → Bool} {j : Nat} (hj : timer j = true) (hjT : j < T) {k : Nat} {p0 : Schedule} {l lf : Loc}
    (h : LoopRun P Bd timer k l lf) (hl : LocOK P p0 l) (hres : l.results = []) (hk : l.path.length ≤ k) (hkj : k ≤ j) :
    lf.results = [] := by
  have step : ∀ {k : Nat} {l l' : Loc} {stop : Bool}, Turn P Bd l l' stop → LocOK P p0 l → l.results = [] →
      l.path.length ≤ k → k ≤ j → l'.results = [] ∧ l'.path.length ≤ k + 1 := by
    intro k l l' stop h hl hres hk hkj
    have hs := hl.chain.state.1
    cases h.1 with
    | stop => exact ⟨hres, by simp only; omega⟩
    | backLeaf _ _ hleaf _ =>
      have := hT _ (leaf_valid hP hs hleaf)
      omega
    | backInner => exact ⟨hres, by simp only [List.length_dropLast]; omega⟩
    | skip => exact ⟨hres, by simp only; omega⟩
    | push => exact ⟨hres, by simp only [List.length_append, List.length_singleton]; omega⟩
  induction h with
  | stop h => exact (step h hl hres hk hkj).1
  | time h => exact (step h hl hres hk hkj).1
  | @next k l l' lf h ht hr ih =>
    obtain ⟨h1, h2⟩ := step h hl hres hk hkj
    refine ih (h.1.locOK hl) h1 h2 ?_
    rcases Nat.lt_or_eq_of_le hkj with h3 | h3
    · omega
    · rw [h3, hj] at ht
      simp at ht

/-! ## Several threads -/

/-- The task is on the way to `S`. -/
def OnWay (S : Schedule) {σ : Type} : TaskState σ → Prop
  | .ready _ init _ => Extends (startPath init) S ∧ init.isSome = true
  | .running loc _ c w => Follows S loc ∧ w = true ∧ c ≤ loc.sweep.stack.length ∧
      loc.path.length = loc.sweep.stack.length + 1
  | _ => False

/-- A move changes one task only. -/
theorem move_other {F σ : Type} [FloatOps F] {mode : Mode F σ} {prof : Profile} {g g' : Global σ} {i : Nat} {tb : Bool}
    (h : move mode prof g i tb = .ok g') {j : Nat} (hij : j ≠ i) : g'.tasks[j]? = g.tasks[j]? := by
  have hset : ∀ t : TaskState σ, (g.tasks.set i t)[j]? = g.tasks[j]? := fun t => List.getElem?_set_ne (fun h => hij h.symm)
  unfold move at h
  split at h
  · simp only [pure, Except.pure, Except.ok.injEq] at h
    rw [← h]
  · simp only [pure, Except.pure, Except.ok.injEq] at h
    rw [← h]
    exact hset _
  · rename_i loc rng c w ht
    cases hm : modeIter mode prof loc rng with
    | error e => simp [hm, bind, Except.bind] at h
    | ok r =>
      obtain ⟨l', rng', stop⟩ := r
      simp only [hm, bind, Except.bind, pure, Except.pure] at h
      split at h
      · cases hf : finishLoop l' c w with
        | error e => simp [hf] at h
        | ok l'' =>
          simp only [hf, Except.ok.injEq] at h
          rw [← h]
          exact hset _
      · split at h
        · split at h
          all_goals
            simp only [Except.ok.injEq] at h
            rw [← h]
            exact hset _
        · simp only [Except.ok.injEq] at h
          rw [← h]
          exact hset _
  · split at h
    all_goals
      simp only [pure, Except.pure, Except.ok.injEq] at h
      rw [← h]
      exact hset _
  · simp only [pure, Except.pure, Except.ok.injEq] at h
    rw [← h]

/-- The task that is on the way to `S` stays on the way, or knows already that so few steps are possible. It does not
look at the timer if `S` has at most 1001 steps. -/
theorem move_onWay {F σ : Type} [FloatOps F] {mode : Mode F σ} {P : Problem} (hP : P.WF) {S : Schedule} (hS : P.Valid S)
    (hG : Greedy P S) {T : Nat} {g g' : Global σ} {i : Nat} {tb : Bool} {prof : Profile} {t : TaskState σ}
    (ht : g.tasks[i]? = some t) (hok : TaskT P T g.best t) (hway : OnWay S t)
    (hmode : ∀ loc rng c w p0, t = .running loc rng c w → LocOK P p0 loc →
      (∃ l' rng' stop, (∀ prof, modeIter mode prof loc rng = .ok (l', rng', stop)) ∧ IterStep P True loc l' stop) ∧
        ∀ t, t < S.length → at0 loc.best t = usizeMax)
    (hq : S.length ≤ updateInterval + 1 ∨ tb = false) (hrec : ∀ len, ¬ Records g i len)
    (hm : move mode prof g i tb = .ok g') :
    (∃ loc rng c w, t = .running loc rng c w ∧ at0 loc.best S.length < usizeMax) ∨
      ∃ t', g'.tasks[i]? = some t' ∧ OnWay S t' := by
  have hi := (List.getElem?_eq_some_iff.1 ht).1
  have hself : ∀ t' : TaskState σ, (g.tasks.set i t')[i]? = some t' := fun t' => by simp [hi]
  cases hok with
  | @ready sched init rng hs hi' hf =>
    simp only [move, ht, pure, Except.pure, Except.ok.injEq] at hm
    subst hm
    refine Or.inr ⟨_, hself _, ?_⟩
    obtain ⟨h1, h2⟩ := hway
    cases init with
    | none => simp at h2
    | some m => exact ⟨⟨h1, hf rfl⟩, rfl, Nat.zero_le _, rfl⟩
  | @running loc rng counter wasInit p0 hl hr hleaf hc hf hw hnv =>
    obtain ⟨hF, rfl, hcs, hps⟩ := hway
    obtain ⟨⟨l', rng', stop, e1, e2⟩, hlow⟩ := hmode _ _ _ _ _ rfl hl
    have hset : loc.sweep.current.time.measurable.set ≠ [] := by
      intro h1
      refine hrec _ ⟨loc, rng, counter, true, ht, h1, ?_, rfl⟩
      by_cases h2 : loc.sweep.stack = []
      · rw [h2] at hcs
        exact Or.inr ⟨by simpa using hcs, rfl⟩
      · exact Or.inl h2
    obtain ⟨rfl, hb, _, h4 | ⟨h4, h5, h6⟩⟩ := e2.follows hP hS hG hl hF hset hlow
    · exact Or.inl ⟨_, _, _, _, rfl, h4⟩
    · right
      have hle := h4.ext.le
      by_cases hcu : counter = updateInterval
      · have htb : tb = false := by
          rcases hq with hq | hq
          · omega
          · exact hq
        subst htb
        simp only [move, ht, e1 prof, bind, Except.bind, pure, Except.pure,
          Bool.false_eq_true, ↓reduceIte, hcu, Except.ok.injEq] at hm
        subst hm
        refine ⟨_, hself _, ⟨h4.ext, h4.fresh⟩, rfl, ?_, ?_⟩
        · show 1 ≤ l'.sweep.stack.length
          omega
        · show l'.path.length = l'.sweep.stack.length + 1
          omega
      · simp only [move, ht, e1 prof, bind, Except.bind, pure, Except.pure,
          Bool.false_eq_true, ↓reduceIte, hcu, Except.ok.injEq] at hm
        subst hm
        refine ⟨_, hself _, h4, rfl, ?_, ?_⟩ <;> omega
  | finishing => exact hway.elim
  | done => exact hway.elim

theorem records_valid {P : Problem} (hP : P.WF) {T : Nat} {σ : Type} {g : Global σ} (hg : PoolK P T g) {i len : Nat}
    (h : Records g i len) : ∃ S, P.Valid S ∧ S.length = len := by
  obtain ⟨loc, rng, c, w, h1, h2, _, rfl⟩ := h
  cases (hg.tasks _ (List.mem_of_getElem? h1)).1 with
  | running p0 hl => exact ⟨loc.path, leaf_valid hP hl.chain.state.1 h2, rfl⟩

/-- The exhaustive search: somebody knows the least number of steps, or is on the way. -/
def ShortInv (P : Problem) (S : Schedule) {σ : Type} (g : Global σ) : Prop :=
  PoolK P S.length g ∧ (Known S.length g ∨ ∃ (i : Nat) (t : TaskState σ), g.tasks[i]? = some t ∧ OnWay S t)

theorem move_shortInv {F σ : Type} [FloatOps F] {P : Problem} (hP : P.WF) {S : Schedule} (hS : P.Valid S)
    (hG : Greedy P S) {g g' : Global σ} (hg : ShortInv P S g) {i : Nat} {tb : Bool} {prof : Profile}
    (hq : S.length ≤ updateInterval + 1 ∨ tb = false) (hm : move (.det : Mode F σ) prof g i tb = .ok g') :
    ShortInv P S g' := by
  obtain ⟨hK, hg⟩ := hg
  have hmin : ∀ len, Records g i len → S.length ≤ len := by
    intro len h
    obtain ⟨S', h1, rfl⟩ := records_valid hP hK h
    exact greedy_min hP hS hG h1
  obtain ⟨k1, k2, k3⟩ := move_found _ hP (hS.length_le hP) hK hmin hm
  refine ⟨k1, ?_⟩
  rcases hg with hg | ⟨j, t, hj, hway⟩
  · exact Or.inl (k2 hg)
  · by_cases hij : j = i
    · subst hij
      by_cases hr : ∃ len, Records g j len
      · left
        obtain ⟨len, hr⟩ := hr
        have hr' := hr
        obtain ⟨loc, rng, c, w, h1, h2, _, h3⟩ := hr'
        rw [hj] at h1
        simp only [Option.some.injEq] at h1
        subst h1
        obtain ⟨hF, _⟩ := hway
        cases (hK.tasks _ (List.mem_of_getElem? hj)).1 with
        | running p0 hl =>
          have := greedy_leaf hP hS hG hl.chain.state.1 h2 hF.ext
          exact k3 (this ▸ h3 ▸ hr)
      · have hok := (hK.tasks _ (List.mem_of_getElem? hj)).1
        rcases move_onWay hP hS hG hj hok hway (by
            rintro loc rng c w p0 rfl hl
            refine ⟨modeIter_spec .det rng hP.lax hl, ?_⟩
            cases hok with
            | running _ _ hr => exact hr.low) hq (fun len h => hr ⟨len, h⟩) hm with ⟨loc, rng, c, w, rfl, h1⟩ | ⟨t', h1, h2⟩
        · exact Or.inl (k2 (Or.inr ⟨j, _, hj, h1⟩))
        · exact Or.inr ⟨j, t', h1, h2⟩
    · exact Or.inr ⟨j, t, by rw [move_other hm hij]; exact hj, hway⟩

/-- The task has recorded nothing. -/
def BlankTask (P : Problem) {σ : Type} : TaskState σ → Prop
  | .running loc _ _ _ => loc.best = best0 P ∧ loc.results = []
  | .finishing loc => loc.best = best0 P ∧ loc.results = []
  | _ => True

/-- Nothing has been recorded and a task is on the way to `S`. -/
structure Blank (P : Problem) (S : Schedule) {σ : Type} (g : Global σ) : Prop where
  best : g.best = best0 P
  tasks : ∀ t ∈ g.tasks, BlankTask P t
  way : ∃ (i : Nat) (t : TaskState σ), g.tasks[i]? = some t ∧ OnWay S t

/-- An iteration that records nothing. -/
theorem IterStep.blank {P : Problem} {D : Prop} {l l' : Loc} {stop : Bool} (h : IterStep P D l l' stop)
    (hl : l.sweep.stack ≠ [] → l.sweep.current.time.measurable.set ≠ []) :
    l'.best = l.best ∧ l'.results = l.results := by
  cases h with
  | backLeaf hst _ hleaf => exact (hl (by rw [hst]; simp) hleaf).elim
  | _ => exact ⟨rfl, rfl⟩

/-- As long as nothing is recorded. -/
theorem move_blank {F σ : Type} [FloatOps F] {mode : Mode F σ} {P : Problem} (hA : BoldMode P mode) (hP : P.WF)
    {S : Schedule} (hS : P.Valid S) (hG : Greedy P S) {T : Nat} {g g' : Global σ} (hg : PoolK P T g)
    (hB : Blank P S g) {i : Nat} {tb : Bool} {prof : Profile} (hq : S.length ≤ updateInterval + 1 ∨ tb = false)
    (hrec : ∀ len, ¬ Records g i len) (hm : move mode prof g i tb = .ok g') : Blank P S g' := by
  have hway : ∃ (i : Nat) (t : TaskState σ), g'.tasks[i]? = some t ∧ OnWay S t := by
    obtain ⟨j, t, hj, hway⟩ := hB.way
    by_cases hij : j = i
    · subst hij
      have hbl := hB.tasks _ (List.mem_of_getElem? hj)
      rcases move_onWay hP hS hG hj (hg.tasks _ (List.mem_of_getElem? hj)).1 hway (by
          rintro loc rng c w p0 rfl hl
          obtain ⟨b1, b2⟩ := hbl
          refine ⟨modeIter_blank hA rng hP hl b1, fun t h => ?_⟩
          have := hS.length_le hP
          rw [b1, at0_best0 (by omega)]) hq hrec hm with ⟨loc, rng, c, w, rfl, h1⟩ | ⟨t', h1, h2⟩
      · rw [hbl.1, at0_best0 (hS.length_le hP)] at h1
        exact (Nat.lt_irrefl _ h1).elim
      · exact ⟨j, t', h1, h2⟩
    · exact ⟨j, t, by rw [move_other hm hij]; exact hj, hway⟩
  suffices h : g'.best = best0 P ∧ ∀ t ∈ g'.tasks, BlankTask P t from ⟨h.1, h.2, hway⟩
  have hset : ∀ t' : TaskState σ, BlankTask P t' → ∀ t ∈ g.tasks.set i t', BlankTask P t := by
    intro t' h t ht
    rcases List.mem_or_eq_of_mem_set ht with h1 | h1
    · exact hB.tasks t h1
    · rw [h1]; exact h
  cases ht : g.tasks[i]? with
  | none =>
    simp only [move, ht, pure, Except.pure, Except.ok.injEq] at hm
    exact hm ▸ ⟨hB.best, hB.tasks⟩
  | some t =>
    obtain ⟨hok, _⟩ := hg.tasks t (List.mem_of_getElem? ht)
    have hbl := hB.tasks t (List.mem_of_getElem? ht)
    cases hok with
    | @ready sched init rng hs hi hf =>
      simp only [move, ht, pure, Except.pure, Except.ok.injEq] at hm
      subst hm
      exact ⟨hB.best, hset _ ⟨hB.best, rfl⟩⟩
    | @running loc rng counter wasInit p0 hl hr hleaf hc hf hw hnv =>
      obtain ⟨b1, b2⟩ := hbl
      obtain ⟨l', rng', stop, e1, e2⟩ := modeIter_spec mode rng hP.lax hl
      obtain ⟨c1, c2⟩ := e2.blank fun h1 h2 => hrec _ ⟨loc, rng, counter, wasInit, ht, h2, Or.inl h1, rfl⟩
      have hbt : ∀ rng c w, BlankTask P (.running l' rng c w : TaskState σ) := fun _ _ _ => ⟨c1.trans b1, c2.trans b2⟩
      cases stop with
      | true =>
        obtain ⟨_, hcase⟩ := finishLoop_spec hP.lax e2 hl hr.sound (fun a b => ⟨hf a b, (hc a).1⟩)
        rcases hcase with ⟨hn, hfin⟩ | ⟨hc0, hwi, hv, _⟩
        · simp only [move, ht, e1 prof, bind, Except.bind, pure, Except.pure, ↓reduceIte,
            hfin, Except.ok.injEq] at hm
          subst hm
          exact ⟨hB.best, hset _ ⟨c1.trans b1, c2.trans b2⟩⟩
        · exfalso
          have hst := (hc hc0).1
          have h1 := hl.chain
          rw [hst] at h1
          have hp0 := h1.base_path
          exact hrec _ ⟨loc, rng, counter, wasInit, ht,
            (leaf_iff hP hl.chain.state.1).2 (hp0 ▸ (maximal_iff hP).1 hv), Or.inr ⟨hc0, hwi⟩, rfl⟩
      | false =>
        by_cases hcu : counter = updateInterval
        · have hl'b := c1.trans b1
          cases tb with
          | true =>
            simp only [move, ht, e1 prof, bind, Except.bind, pure, Except.pure,
              Bool.false_eq_true, ↓reduceIte, hcu, Except.ok.injEq, hl'b, hB.best, exchange_self] at hm
            subst hm
            exact ⟨rfl, hset _ ⟨rfl, c2.trans b2⟩⟩
          | false =>
            simp only [move, ht, e1 prof, bind, Except.bind, pure, Except.pure,
              Bool.false_eq_true, ↓reduceIte, hcu, Except.ok.injEq, hl'b, hB.best, exchange_self] at hm
            subst hm
            exact ⟨rfl, hset _ ⟨rfl, c2.trans b2⟩⟩
        · simp only [move, ht, e1 prof, bind, Except.bind, pure, Except.pure,
            Bool.false_eq_true, ↓reduceIte, hcu, Except.ok.injEq] at hm
          subst hm
          exact ⟨hB.best, hset _ (hbt _ _ _)⟩
    | @finishing loc hr =>
      obtain ⟨b1, b2⟩ := hbl
      have hemp : loc.results.isEmpty = true := by rw [b2]; rfl
      simp only [move, ht, hemp, pure, Except.pure, ↓reduceIte, Except.ok.injEq] at hm
      subst hm
      exact ⟨hB.best, hset _ trivial⟩
    | done =>
      simp only [move, ht, pure, Except.pure, Except.ok.injEq] at hm
      exact hm ▸ ⟨hB.best, hB.tasks⟩

/-- Either nothing has been recorded and a task is on the way, or somebody knows a number of steps. -/
def FoundInv (P : Problem) (S : Schedule) {σ : Type} (g : Global σ) : Prop :=
  (∃ T, T ≤ P.n ∧ PoolK P T g ∧ Known T g) ∨ (PoolK P P.n g ∧ Blank P S g)

theorem move_foundInv {F σ : Type} [FloatOps F] {mode : Mode F σ} {P : Problem} (hA : BoldMode P mode) (hP : P.WF)
    {S : Schedule} (hS : P.Valid S) (hG : Greedy P S) {g g' : Global σ} (hg : FoundInv P S g)
    {i : Nat} {tb : Bool} {prof : Profile} (hq : S.length ≤ updateInterval + 1 ∨ tb = false)
    (hm : move mode prof g i tb = .ok g') : FoundInv P S g' := by
  by_cases hr : ∃ len, Records g i len
  · obtain ⟨len, hlen⟩ := hr
    have huniq : ∀ len', Records g i len' → len' = len := by
      rintro len' ⟨_, _, _, _, h1, _, _, h2⟩
      obtain ⟨_, _, _, _, h3, _, _, h4⟩ := hlen
      rw [h1] at h3
      simp only [Option.some.injEq, TaskState.running.injEq] at h3
      rw [h2, h4, h3.1]
    have key : ∀ T, T ≤ P.n → PoolK P T g → (T < len → Known T g) → FoundInv P S g' := by
      intro T hTn hT hk
      by_cases hlt : T < len
      · obtain ⟨h1, h2, _⟩ := move_found mode hP hTn hT (fun len' h => by rw [huniq _ h]; omega) hm
        exact Or.inl ⟨T, hTn, h1, h2 (hk hlt)⟩
      · obtain ⟨h1, _, h3⟩ := move_found mode hP (by omega) (hT.lower (T' := len) (by omega))
          (fun len' h => by rw [huniq _ h]) hm
        exact Or.inl ⟨len, by omega, h1, h3 hlen⟩
    rcases hg with ⟨T, hTn, hT, hk⟩ | ⟨hT, _⟩
    · exact key T hTn hT fun _ => hk
    · refine key P.n (Nat.le_refl _) hT fun h => ?_
      have := records_le hP hT hlen
      omega
  · have hno : ∀ len, ¬ Records g i len := fun len h => hr ⟨len, h⟩
    rcases hg with ⟨T, hTn, hT, hk⟩ | ⟨hT, hB⟩
    · obtain ⟨h1, h2, _⟩ := move_found mode hP hTn hT (fun len h => (hno len h).elim) hm
      exact Or.inl ⟨T, hTn, h1, h2 hk⟩
    · obtain ⟨h1, _, _⟩ := move_found mode hP (Nat.le_refl _) hT (fun len h => (hno len h).elim) hm
      exact Or.inr ⟨h1, move_blank hA hP hS hG hT hB hq hno hm⟩

theorem runMoves_keep {F σ : Type} [FloatOps F] {mode : Mode F σ} {prof : Profile} {I : Global σ → Prop} {Q : Bool → Prop}
    (hI : ∀ g g' i tb, Q tb → I g → move mode prof g i tb = .ok g' → I g') :
    ∀ (moves : List (Nat × Bool)) (g g' : Global σ), (∀ m ∈ moves, Q m.2) → I g →
      runMoves mode prof g moves = .ok g' → I g' := by
  intro moves
  induction moves with
  | nil =>
    intro g g' _ hg h
    simp only [runMoves, pure, Except.pure, Except.ok.injEq] at h
    exact h ▸ hg
  | cons m moves ih =>
    intro g g' hq hg h
    cases hm : move mode prof g m.1 m.2 with
    | error e => simp [runMoves, hm, bind, Except.bind] at h
    | ok g1 =>
      simp only [runMoves, hm, bind, Except.bind] at h
      exact ih g1 g' (fun m' h' => hq m' (List.mem_cons_of_mem _ h')) (hI _ _ _ _ (hq m (by simp)) hg hm) h

/-- The pool at the beginning: nothing is recorded and the first task is on the way to `S`. -/
theorem initGlobal_blank {σ : Type} {P : Problem} (hP : P.WF) (hb : P.bits ≠ []) {S : Schedule} (hS : P.Valid S)
    (hG : Greedy P S) (tb : Int) (seeds : Nat → σ) {s : Scheduler Partitioner} (hs : StateFor P [] s) (hf : Fresh s) :
    ∃ g, (∀ prof, initGlobal prof tb seeds s P.n = .ok g) ∧ Blank P S g ∧ ∀ T, T ≤ P.n → PoolK P T g := by
  obtain ⟨g, e2, hg⟩ := initGlobal_inv hP hb tb seeds hs hf
  refine ⟨g, e2, ?_⟩
  have hready := initGlobal_cost hP.lax tb seeds hs hf (e2 .debug)
  obtain ⟨s', c, l, m, hn⟩ : ∃ s' c l m, NextSome P [] s s' c l m := by
    rcases nextAndFocus_spec hP.lax hs hf.iterOK with ⟨s', hn, _, _⟩ | h
    · exact (not_valid_nil hb (leaf_valid hP hs (hn.fresh_leaf hf))).elim
    · exact h
  have htask : ∃ ts : List (TaskState σ), g = ⟨best0 P, [], .ready c (some m) (seeds 0) :: ts⟩ := by
    have h := e2 .debug
    unfold initGlobal spawn spawnLoop at h
    simp only [hn.eq, bind, Except.bind, pure, Except.pure] at h
    by_cases hk : (0 : Int) + 1 = tb
    · simp only [if_pos hk, Except.ok.injEq] at h
      exact ⟨_, h.symm⟩
    · simp only [if_neg hk] at h
      generalize spawnLoop .debug tb s.time.measurable.iter.length s' (0 + 1) = r at h
      cases r with
      | error e => simp at h
      | ok r =>
        simp only [Except.ok.injEq, List.mapIdx_cons, List.cons_append] at h
        exact ⟨_, h.symm⟩
  obtain ⟨ts, rfl⟩ := htask
  have hmax : ∀ t, t ≤ P.n → at0 (best0 P) t = usizeMax := fun t ht => at0_best0 ht
  refine ⟨⟨rfl, ?_, 0, _, rfl, ?_, rfl⟩, ?_⟩
  · intro t ht
    obtain ⟨sched, init, rng, rfl, _⟩ := hready t ht
    trivial
  · exact hn.greedy hP hS hG hs hf (extends_nil S)
  · intro T hT
    refine ⟨hg.shared.len, fun t ht => hmax t (by omega), ?_, hg.shared.sound, ?_, ?_⟩
    · intro t _; rfl
    · intro t ht
      obtain ⟨sched, init, rng, rfl, _⟩ := hready t ht
      cases hg.tasks _ ht with
      | ready h1 h2 h3 => exact ⟨.ready h1 h2 h3, trivial⟩
    · intro h; rw [hmax _ hT] at h; exact (Nat.lt_irrefl _ h).elim

/-- At the end what is known has been published. -/
theorem PoolK.finished {P : Problem} (hP : P.WF) {T : Nat} (hTn : T ≤ P.n) {σ : Type} {g : Global σ} (hg : PoolK P T g)
    (hfin : g.finished = true) (hk : Known T g) {out : List Path} (h : Post g.results P.n out) :
    ∃ p ∈ out, p.time ≤ T := by
  have hdone : ∀ {i : Nat} {t : TaskState σ}, g.tasks[i]? = some t → t = .done := by
    intro i t ht
    have := List.all_eq_true.1 hfin t (List.mem_of_getElem? ht)
    cases t <;> simp_all
  have hk' : at0 g.best T < usizeMax := by
    rcases hk with h1 | ⟨i, t, h1, h2⟩
    · exact h1
    · rw [hdone h1] at h2; exact h2.elim
  rcases hg.pub hk' with ⟨r, h1⟩ | ⟨i, t, h1, h2⟩
  · obtain ⟨m, S'⟩ := r
    obtain ⟨k1, k2, k3⟩ := hg.sound T m S' h1
    obtain ⟨p, j1, j2, _⟩ := h.dominates hTn h1 (by rw [← k3]; exact peak_lt_max hP S')
    exact ⟨p, j1, j2⟩
  · rw [hdone h1] at h2; exact h2.elim

theorem onWay_finished {S : Schedule} {σ : Type} {g : Global σ} (hfin : g.finished = true) {i : Nat} {t : TaskState σ}
    (ht : g.tasks[i]? = some t) (hw : OnWay S t) : False := by
  have := List.all_eq_true.1 hfin t (List.mem_of_getElem? ht)
  cases t <;> simp_all [OnWay]

/-- An exhaustive pool returns a schedule of least length if it has at most 1001 steps. -/
theorem searchThreaded_short {F σ : Type} [FloatOps F] {P : Problem} (hP : P.WF) (hb : P.bits ≠ []) {S : Schedule}
    (hS : P.Valid S) (tb : Int) (seeds : Nat → σ) {moves : List (Nat × Bool)}
    (hq : S.length ≤ updateInterval + 1 ∨ ∀ m ∈ moves, m.2 = false)
    {prof : Profile} {hashIter : MappedPaths → MappedPaths} (hh : ∀ m, (hashIter m).Perm m) {out : List Path}
    (h : searchThreaded (.det : Mode F σ) prof hashIter tb seeds moves P.graph P.order = .ok (some out)) :
    ∃ p ∈ out, p.time ≤ S.length := by
  obtain ⟨G, _, hGv, hG⟩ := getTimeOptimal_spec hP
  have hGS := greedy_min hP hGv hG hS
  obtain ⟨s, e1, hs, hf⟩ := mkScheduler_spec hP
  obtain ⟨g, e2, hB, hK⟩ := initGlobal_blank hP hb hGv hG tb seeds hs hf
  have hq' : G.length ≤ updateInterval + 1 ∨ ∀ m ∈ moves, m.2 = false := hq.imp (by omega) id
  unfold searchThreaded at h
  simp only [e1, bind, Except.bind, show P.graph.length = P.n from rfl, e2 prof] at h
  cases hr : runMoves (.det : Mode F σ) prof g moves with
  | error e => simp [hr] at h
  | ok g' =>
    simp only [hr] at h
    split at h
    · rename_i hfin
      obtain ⟨o, p1, q1⟩ := postprocess_spec hashIter hh P.n g'.results
      rw [p1] at h
      simp only [pure, Except.pure, Except.ok.injEq, Option.some.injEq] at h
      subst h
      obtain ⟨hK', hk | ⟨i, t, h1, h2⟩⟩ := runMoves_keep (I := ShortInv P G)
        (Q := fun b => G.length ≤ updateInterval + 1 ∨ b = false) (fun g g' i tb hQ hI hm => move_shortInv hP hGv hG hI hQ hm)
        moves g g' (fun m hm => hq'.imp id fun h => h m hm) ⟨hK _ (hGv.length_le hP), Or.inr hB.way⟩ hr
      · obtain ⟨p, j1, j2⟩ := hK'.finished hP (hGv.length_le hP) hfin hk q1
        exact ⟨p, j1, by omega⟩
      · exact (onWay_finished hfin h1 h2).elim
    · simp [pure, Except.pure] at h

/-- A pool that takes every step as long as nothing is known returns a path if there is a schedule with at most 1001
steps. -/
theorem searchThreaded_found {F σ : Type} [FloatOps F] {mode : Mode F σ} {P : Problem} (hA : BoldMode P mode)
    (hP : P.WF) (hb : P.bits ≠ []) (tb : Int) (seeds : Nat → σ) {moves : List (Nat × Bool)}
    (hq : (∃ S, P.Valid S ∧ S.length ≤ updateInterval + 1) ∨ ∀ m ∈ moves, m.2 = false)
    {prof : Profile} {hashIter : MappedPaths → MappedPaths} (hh : ∀ m, (hashIter m).Perm m)
    {out : List Path}
    (h : searchThreaded mode prof hashIter tb seeds moves P.graph P.order = .ok (some out)) : out ≠ [] := by
  obtain ⟨G, _, hGv, hG⟩ := getTimeOptimal_spec hP
  obtain ⟨s, e1, hs, hf⟩ := mkScheduler_spec hP
  obtain ⟨g, e2, hB, hK⟩ := initGlobal_blank hP hb hGv hG tb seeds hs hf
  have hq' : G.length ≤ updateInterval + 1 ∨ ∀ m ∈ moves, m.2 = false := by
    refine hq.imp ?_ id
    rintro ⟨S, hS, h⟩
    have := greedy_min hP hGv hG hS
    omega
  unfold searchThreaded at h
  simp only [e1, bind, Except.bind, show P.graph.length = P.n from rfl, e2 prof] at h
  cases hr : runMoves mode prof g moves with
  | error e => simp [hr] at h
  | ok g' =>
    simp only [hr] at h
    split at h
    · rename_i hfin
      obtain ⟨o, p1, q1⟩ := postprocess_spec hashIter hh P.n g'.results
      rw [p1] at h
      simp only [pure, Except.pure, Except.ok.injEq, Option.some.injEq] at h
      subst h
      rcases runMoves_keep (I := FoundInv P G)
        (Q := fun b => G.length ≤ updateInterval + 1 ∨ b = false) (fun g g' i tb hQ hI hm => move_foundInv hA hP hGv hG hI hQ hm)
        moves g g' (fun m hm => hq'.imp id fun h => h m hm) (Or.inr ⟨hK _ (Nat.le_refl _), hB⟩) hr with
        ⟨T, hTn, hT, hk⟩ | ⟨_, hB'⟩
      · obtain ⟨p, j1, _⟩ := hT.finished hP hTn hfin hk q1
        rintro rfl
        cases j1
      · obtain ⟨i, t, h1, h2⟩ := hB'.way
        exact (onWay_finished hfin h1 h2).elim
    · simp [pure, Except.pure] at h

end Verif
