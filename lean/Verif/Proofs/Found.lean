import Verif.Proofs.MinTime
import Verif.Proofs.AcceptCall
/-!
# The multi-threaded search with refreshes, in any mode: the shortest schedule found

As in `MinTime`, but for the least number of steps that any task has recorded so far.
-/

namespace Verif

open Spec Search Search.Threaded

/-- There is no result with fewer than `T` steps. -/
def NoneBelow (T : Nat) (results : MappedPaths) : Prop := ∀ t, t < T → results.get t = none

/-- The task has no result with fewer than `T` steps. -/
def LowTask (T : Nat) {σ : Type} : TaskState σ → Prop
  | .running loc _ _ _ => NoneBelow T loc.results
  | .finishing loc => NoneBelow T loc.results
  | _ => True

/-- The table of the task says that `T` steps are possible. -/
def Knows (T : Nat) {σ : Type} : TaskState σ → Prop
  | .running loc _ _ _ => at0 loc.best T < usizeMax
  | .finishing loc => at0 loc.best T < usizeMax
  | _ => False

/-- The pool as seen at index `T`; nothing below `T` has been recorded. -/
structure PoolK (P : Problem) (T : Nat) {σ : Type} (g : Global σ) : Prop where
  len : g.best.length = P.n + 1
  low : ∀ t, t < T → at0 g.best t = usizeMax
  none : NoneBelow T g.results
  sound : ResultsOK P g.results
  tasks : ∀ t ∈ g.tasks, TaskT P T g.best t ∧ LowTask T t
  pub : at0 g.best T < usizeMax → (∃ r, g.results.get T = some r) ∨
    ∃ (i : Nat) (t : TaskState σ), g.tasks[i]? = some t ∧ Holds T (at0 g.best T) t

/-- Somebody knows that `T` steps are possible. -/
def Known (T : Nat) {σ : Type} (g : Global σ) : Prop :=
  at0 g.best T < usizeMax ∨ ∃ (i : Nat) (t : TaskState σ), g.tasks[i]? = some t ∧ Knows T t

theorem NoneBelow.mono {T T' : Nat} {r : MappedPaths} (h : NoneBelow T r) (hle : T' ≤ T) : NoneBelow T' r :=
  fun t ht => h t (by omega)

theorem NoneBelow.insert {T k : Nat} {r : MappedPaths} (h : NoneBelow T r) (hk : T ≤ k) (v : Nat × Schedule) :
    NoneBelow T (r.insert k v) := by
  intro t ht
  rw [AMap.get_insert, if_neg (by omega)]
  exact h t ht

/-- One may look at a smaller index. -/
theorem TRec.lower {P : Problem} {T T' : Nat} {sh best : List Nat} {results : MappedPaths}
    (h : TRec P T sh best results) (hn : NoneBelow T results) (hlt : T' < T) (hsh : at0 sh T' = usizeMax) :
    TRec P T' sh best results := by
  refine ⟨h.len, h.sound, fun t ht => h.low t (by omega), ?_, ?_⟩
  · intro h1
    rw [h.low T' hlt, hsh] at h1
    exact (Nat.lt_irrefl _ h1).elim
  · intro m S h1
    rw [hn T' hlt] at h1
    simp at h1

theorem TaskT.lower {P : Problem} {T T' : Nat} {σ : Type} {sh : List Nat} {t : TaskState σ}
    (h : TaskT P T sh t) (hn : LowTask T t) (hlt : T' < T) (hsh : at0 sh T' = usizeMax) :
    TaskT P T' sh t ∧ LowTask T' t := by
  cases h with
  | ready hs hi hf => exact ⟨.ready hs hi hf, trivial⟩
  | running p0 hl hr hleaf hc hf hw hnv =>
    have hn' : NoneBelow T _ := hn
    refine ⟨.running p0 hl (hr.lower hn' hlt hsh) ?_ hc hf hw hnv, hn'.mono (by omega)⟩
    intro _ _ _ m S h1
    rw [hn' T' hlt] at h1
    simp at h1
  | finishing hr =>
    have hn' : NoneBelow T _ := hn
    exact ⟨.finishing (hr.lower hn' hlt hsh), hn'.mono (by omega)⟩
  | done => exact ⟨.done, trivial⟩

theorem PoolK.lower {P : Problem} {T T' : Nat} {σ : Type} {g : Global σ} (h : PoolK P T g) (hle : T' ≤ T) :
    PoolK P T' g := by
  rcases Nat.lt_or_eq_of_le hle with hlt | rfl
  · refine ⟨h.len, fun t ht => h.low t (by omega), h.none.mono hle, h.sound,
      fun t ht => (h.tasks t ht).1.lower (h.tasks t ht).2 hlt (h.low T' hlt), ?_⟩
    intro h1
    rw [h.low T' hlt] at h1
    exact (Nat.lt_irrefl _ h1).elim
  · exact h

/-- Changing one task and the shared state. -/
theorem PoolK.set {P : Problem} {T : Nat} {σ : Type} {g : Global σ} (h : PoolK P T g)
    {i : Nat} {t t' : TaskState σ} (ht : g.tasks[i]? = some t) {best' : List Nat}
    {results' : MappedPaths} (hlen : best'.length = P.n + 1)
    (hlow : ∀ t, t < T → at0 best' t = usizeMax) (hnone : NoneBelow T results') (hsound : ResultsOK P results')
    (hle : at0 best' T ≤ at0 g.best T) (ht' : TaskT P T best' t') (hlt' : LowTask T t')
    (hkeep : (∃ r, g.results.get T = some r) → ∃ r, results'.get T = some r)
    (hpub : Holds T (at0 best' T) t' ∨ (∃ r, results'.get T = some r) ∨
      (at0 best' T = at0 g.best T ∧ (Holds T (at0 g.best T) t → Holds T (at0 g.best T) t')))
    (hknow : Knows T t → at0 best' T < usizeMax ∨ Knows T t') :
    PoolK P T ⟨best', results', g.tasks.set i t'⟩ ∧ (Known T g → Known T ⟨best', results', g.tasks.set i t'⟩) ∧
      (at0 best' T < usizeMax ∨ Knows T t' → Known T (⟨best', results', g.tasks.set i t'⟩ : Global σ)) := by
  have hi := (List.getElem?_eq_some_iff.1 ht).1
  have hself : (g.tasks.set i t')[i]? = some t' := by simp [hi]
  have hother : ∀ {j : Nat} {a : TaskState σ}, j ≠ i → g.tasks[j]? = some a →
      (g.tasks.set i t')[j]? = some a := by
    intro j a hij hj
    rw [List.getElem?_set_ne (fun h => hij h.symm)]
    exact hj
  refine ⟨⟨hlen, hlow, hnone, hsound, ?_, ?_⟩, ?_, ?_⟩
  · intro a ha
    rcases List.mem_or_eq_of_mem_set ha with h1 | h1
    · exact ⟨(h.tasks a h1).1.mono hle, (h.tasks a h1).2⟩
    · rw [h1]; exact ⟨ht', hlt'⟩
  · intro hk
    rcases hpub with h1 | h1 | ⟨h1, h2⟩
    · exact Or.inr ⟨i, t', hself, h1⟩
    · exact Or.inl h1
    · simp only at hk ⊢
      rw [h1] at hk ⊢
      rcases h.pub hk with h3 | ⟨j, a, hj, ha⟩
      · exact Or.inl (hkeep h3)
      · right
        by_cases hij : j = i
        · subst hij
          rw [ht] at hj
          simp only [Option.some.injEq] at hj
          subst hj
          exact ⟨j, t', hself, h2 ha⟩
        · exact ⟨j, a, hother hij hj, ha⟩
  · rintro (hk | ⟨j, a, hj, ha⟩)
    · exact Or.inl (Nat.lt_of_le_of_lt hle hk)
    · by_cases hij : j = i
      · subst hij
        rw [ht] at hj
        simp only [Option.some.injEq] at hj
        subst hj
        rcases hknow ha with h1 | h1
        · exact Or.inl h1
        · exact Or.inr ⟨j, t', hself, h1⟩
      · exact Or.inr ⟨j, a, hother hij hj, ha⟩
  · rintro (h1 | h1)
    · exact Or.inl h1
    · exact Or.inr ⟨i, t', hself, h1⟩

/-- In its next move task `i` records a schedule with `len` steps. -/
def Records {σ : Type} (g : Global σ) (i len : Nat) : Prop :=
  ∃ loc rng c w, g.tasks[i]? = some (.running loc rng c w) ∧ loc.sweep.current.time.measurable.set = [] ∧
    (loc.sweep.stack ≠ [] ∨ (c = 0 ∧ w = true)) ∧ len = loc.path.length

theorem IterStep.noneBelow {P : Problem} {Det : Prop} {T : Nat} {l l' : Loc} {stop : Bool}
    (hT : l.sweep.stack ≠ [] → l.sweep.current.time.measurable.set = [] → T ≤ l.path.length)
    (h : IterStep P Det l l' stop) (hn : NoneBelow T l.results) : NoneBelow T l'.results := by
  cases h with
  | backLeaf hst hn' hleaf hlen => exact hn.insert (hT (by rw [hst]; simp) hleaf) _
  | _ => exact hn

/-- A leaf below which nothing has been recorded is recorded. -/
theorem IterStep.leaf_known {P : Problem} (hP : P.WF) {Det : Prop} {p0 : Schedule} {l l' : Loc} {stop : Bool}
    (h : IterStep P Det l l' stop) (hl : LocOK P p0 l) (hst : l.sweep.stack ≠ [])
    (hset : l.sweep.current.time.measurable.set = []) : stop = false ∧ at0 l'.best l.path.length < usizeMax := by
  cases h with
  | stop hst' => exact (hst hst').elim
  | backLeaf hst' hn hleaf hlen =>
    refine ⟨rfl, ?_⟩
    simp only
    rw [at0_updateBest hlen]
    simp only [Nat.lt_irrefl, if_false, if_true]
    rw [leaf_max hl.chain.state.1]
    exact peak_lt_max hP _
  | backInner _ _ hleaf => exact (hleaf hset).elim
  | skip hn =>
    have := hn.set_ne
    rw [hn.set] at this
    exact (this hset).elim
  | push hn =>
    have := hn.set_ne
    rw [hn.set] at this
    exact (this hset).elim

/-- A move that records nothing with fewer than `T` steps. -/
theorem move_found {F σ : Type} [FloatOps F] (mode : Mode F σ) {P : Problem} (hP : P.WF) {T : Nat}
    (hTn : T ≤ P.n) {g g' : Global σ} (hg : PoolK P T g) {i : Nat} {tb : Bool} {prof : Profile}
    (hrec : ∀ len, Records g i len → T ≤ len)
    (hm : move mode prof g i tb = .ok g') :
    PoolK P T g' ∧ (Known T g → Known T g') ∧ (Records g i T → Known T g') := by
  cases ht : g.tasks[i]? with
  | none =>
    simp only [move, ht, pure, Except.pure, Except.ok.injEq] at hm
    subst hm
    refine ⟨hg, id, ?_⟩
    rintro ⟨_, _, _, _, h, _⟩
    rw [ht] at h
    simp at h
  | some t =>
    obtain ⟨hok, hlow⟩ := hg.tasks t (List.mem_of_getElem? ht)
    have norec : (∀ loc rng c w, t ≠ .running loc rng c w) → ¬ Records g i T := by
      rintro h1 ⟨loc, rng, c, w, h2, _⟩
      rw [ht] at h2
      exact h1 _ _ _ _ (Option.some.inj h2)
    cases hok with
    | @ready sched init rng hs hi hf =>
      simp only [move, ht, pure, Except.pure, Except.ok.injEq] at hm
      subst hm
      have hl := start_locOK hs hi hg.len
      obtain ⟨a1, a2, _⟩ := hg.set ht (best' := g.best) (results' := g.results)
        (t' := .running (startLoc sched init g.best) rng 0 init.isSome) hg.len hg.low hg.none hg.sound (Nat.le_refl _)
        (by
          refine .running (startPath init) hl ?_ ?_ ?_ ?_ ?_ ?_
          · refine ⟨hg.len, ?_, hg.low, fun h => (Nat.lt_irrefl _ h).elim, ?_⟩
            · intro t m S h; simp [startLoc] at h
            · intro m S h; simp [startLoc] at h
          · intro h; simp [startLoc, Sweep.new] at h
          · intro _; exact ⟨rfl, rfl⟩
          · intro _ hw; exact hf hw
          · intro hw; cases init with
            | none => rfl
            | some m => simp at hw
          · intro h; exact (h rfl).elim)
        (by intro t _; simp [startLoc]) id (Or.inr (Or.inr ⟨rfl, fun h => h.elim⟩)) (fun h => h.elim)
      exact ⟨a1, a2, fun h => (norec (by simp) h).elim⟩
    | @running loc rng counter wasInit p0 hl hr hleaf hc hf hw hnv =>
      have hnb : NoneBelow T loc.results := hlow
      obtain ⟨l', rng', stop, e1, e2⟩ := modeIter_spec mode rng hP.lax hl
      have hT1 : loc.sweep.stack ≠ [] → loc.sweep.current.time.measurable.set = [] → T ≤ loc.path.length :=
        fun h1 h2 => hrec _ ⟨loc, rng, counter, wasInit, ht, h2, Or.inl h1, rfl⟩
      obtain ⟨r1, r2, r3, r4⟩ := e2.trec hP hT1 hl hr hleaf
      have hnb' := e2.noneBelow hT1 hnb
      have hl' := e2.locOK hl
      have hrecT : Records g i T → loc.sweep.current.time.measurable.set = [] ∧
          (loc.sweep.stack ≠ [] ∨ (counter = 0 ∧ wasInit = true)) ∧ T = loc.path.length := by
        rintro ⟨loc', _, _, _, h1, h2, h3, h4⟩
        rw [ht] at h1
        simp only [Option.some.injEq, TaskState.running.injEq] at h1
        obtain ⟨rfl, rfl, rfl, rfl⟩ := h1
        exact ⟨h2, h3, h4⟩
      cases stop with
      | true =>
        obtain ⟨_, hcase⟩ := finishLoop_spec hP.lax e2 hl hr.sound (fun a b => ⟨hf a b, (hc a).1⟩)
        rcases hcase with ⟨hn, hfin⟩ | ⟨hc0, hwi, hv, hpath, hbest, hres, hlen, hfin⟩
        · simp only [move, ht, e1 prof, bind, Except.bind, pure, Except.pure, ↓reduceIte,
            hfin, Except.ok.injEq] at hm
          subst hm
          obtain ⟨a1, a2, _⟩ := hg.set ht (best' := g.best) (results' := g.results) (t' := .finishing l') hg.len hg.low
            hg.none hg.sound (Nat.le_refl _) (.finishing r1) hnb' id (Or.inr (Or.inr ⟨rfl, fun h => r4 _ h⟩))
            (fun h => Or.inr (r3 h))
          refine ⟨a1, a2, fun h => ?_⟩
          obtain ⟨h1, h2 | h2, h3⟩ := hrecT h
          · exact absurd (e2.leaf_known hP hl h2 h1).1 (by simp)
          · exact (hn h2).elim
        · simp only [move, ht, e1 prof, bind, Except.bind, pure, Except.pure, ↓reduceIte,
            hfin, Except.ok.injEq] at hm
          subst hm
          rw [maximal_iff hP] at hv
          have hst := (hc hc0).1
          have hp0 : loc.path = p0 := by
            have h1 := hl.chain
            rw [hst] at h1
            exact h1.base_path
          have hset : loc.sweep.current.time.measurable.set = [] :=
            (leaf_iff hP hl.chain.state.1).2 (hp0 ▸ hv)
          have hT2 : T ≤ p0.length := hp0 ▸ hrec _ ⟨loc, rng, counter, wasInit, ht, hset, Or.inr ⟨hc0, hwi⟩, rfl⟩
          have hres0 := (hc hc0).2
          obtain ⟨a1, a2, a3⟩ := hg.set ht (best' := g.best) (results' := g.results)
            (t' := .finishing { l' with best := updateBest loc.best p0.length (P.peak p0),
                                        results := loc.results.insert p0.length (P.peak p0, p0),
                                        path := p0.dropLast }) hg.len hg.low hg.none hg.sound (Nat.le_refl _)
            (.finishing (hr.record hP hT2 hv hlen)) (hnb.insert hT2 _) id
            (Or.inr (Or.inr ⟨rfl, by
              rintro ⟨m, S', h1, _⟩
              rw [hres0] at h1
              simp at h1⟩))
            (by
              intro hk
              right
              show at0 (updateBest loc.best p0.length (P.peak p0)) T < usizeMax
              rw [at0_updateBest hlen]
              by_cases h2 : T = p0.length
              · simp only [h2, Nat.lt_irrefl, if_false, if_true]
                exact peak_lt_max hP _
              · rw [if_pos (by omega)]
                exact hk)
          refine ⟨a1, a2, fun h => a3 (Or.inr ?_)⟩
          obtain ⟨_, _, h3⟩ := hrecT h
          show at0 (updateBest loc.best p0.length (P.peak p0)) T < usizeMax
          rw [at0_updateBest hlen, h3, hp0]
          simp only [Nat.lt_irrefl, if_false, if_true]
          exact peak_lt_max hP _
      | false =>
        have hnv' : ¬ P.Valid p0 := by
          by_cases h0 : counter = 0
          · have hst := (hc h0).1
            have h1 := hl.chain
            rw [hst] at h1
            have hpath := h1.base_path
            have hstate := hl.chain.state.1
            intro hv
            have hset := (leaf_iff hP hstate).2 (hpath ▸ hv)
            cases e2 with
            | backLeaf hst' => rw [hst] at hst'; simp at hst'
            | backInner hst' => rw [hst] at hst'; simp at hst'
            | skip hn =>
              have := hn.set_ne
              rw [hn.set] at this
              exact this hset
            | push hn =>
              have := hn.set_ne
              rw [hn.set] at this
              exact this hset
          · exact hnv h0
        have hkT : Records g i T → at0 l'.best T < usizeMax := by
          intro h
          obtain ⟨h1, h2, h3⟩ := hrecT h
          by_cases hst : loc.sweep.stack = []
          · exfalso
            have h4 := hl.chain
            rw [hst] at h4
            exact hnv' (h4.base_path ▸ leaf_valid hP hl.chain.state.1 h1)
          · rw [h3]
            exact (e2.leaf_known hP hl hst h1).2
        by_cases hcu : counter = updateInterval
        · have hlen : g.best.length = l'.best.length := by rw [hg.len, hl'.best]
          have hex := exchange_at g.best l'.best hlen
          have hexl := exchange_length g.best l'.best
          have hlow : ∀ t, t < T → at0 (exchange g.best l'.best).1 t = usizeMax ∧
              at0 (exchange g.best l'.best).2 t = usizeMax := by
            intro t htT
            rw [(hex t).1, (hex t).2, hg.low t htT, r1.low t htT]
            simp
          have hTR : TRec P T (exchange g.best l'.best).1 (exchange g.best l'.best).2 l'.results := by
            refine ⟨by rw [hexl.2]; exact hl'.best, r1.sound, fun t h => (hlow t h).2, ?_, ?_⟩
            · intro h
              rw [(hex T).1, (hex T).2] at h
              exact (Nat.lt_irrefl _ h).elim
            · intro m S' h
              have := r1.le m S' h
              rw [(hex T).2]
              omega
          have hpub : ∀ t' : TaskState σ, (∀ u, Holds T u t' ↔ ∃ m S, l'.results.get T = some (m, S) ∧ m ≤ u) →
              (Holds T (at0 (exchange g.best l'.best).1 T) t' ∨ (∃ r, g.results.get T = some r) ∨
              (at0 (exchange g.best l'.best).1 T = at0 g.best T ∧
                (Holds T (at0 g.best T) (TaskState.running loc rng counter wasInit) → Holds T (at0 g.best T) t'))) := by
            intro t' hh
            by_cases hlt : at0 l'.best T < at0 g.best T
            · left
              obtain ⟨S', h1⟩ := r1.own hlt
              rw [hh]
              refine ⟨_, S', h1, ?_⟩
              rw [(hex T).1]
              omega
            · right; right
              refine ⟨by rw [(hex T).1]; omega, fun h => ?_⟩
              rw [hh]
              exact r4 _ h
          have hkn : at0 l'.best T < usizeMax → at0 (exchange g.best l'.best).1 T < usizeMax := by
            rw [(hex T).1]; omega
          cases tb with
          | true =>
            simp only [move, ht, e1 prof, bind, Except.bind, pure, Except.pure,
              Bool.false_eq_true, ↓reduceIte, hcu, Except.ok.injEq] at hm
            subst hm
            obtain ⟨a1, a2, a3⟩ := hg.set ht (best' := (exchange g.best l'.best).1) (results' := g.results)
              (t' := .finishing { l' with best := (exchange g.best l'.best).2 })
              (by rw [hexl.1]; exact hg.len) (fun t h => (hlow t h).1) hg.none hg.sound
              (by rw [(hex T).1]; omega) (.finishing hTR) hnb' id (hpub _ fun u => Iff.rfl)
              (fun h => Or.inl (hkn (r3 h)))
            exact ⟨a1, a2, fun h => a3 (Or.inl (hkn (hkT h)))⟩
          | false =>
            simp only [move, ht, e1 prof, bind, Except.bind, pure, Except.pure,
              Bool.false_eq_true, ↓reduceIte, hcu, Except.ok.injEq] at hm
            subst hm
            obtain ⟨a1, a2, a3⟩ := hg.set ht (best' := (exchange g.best l'.best).1) (results' := g.results)
              (t' := .running { l' with best := (exchange g.best l'.best).2 } rng' 1 wasInit)
              (by rw [hexl.1]; exact hg.len) (fun t h => (hlow t h).1) hg.none hg.sound
              (by rw [(hex T).1]; omega)
              (.running p0 ⟨hl'.chain, by rw [hexl.2]; exact hl'.best⟩ hTR r2 (by simp) (by simp) hw (fun _ => hnv'))
              hnb' id (hpub _ fun u => Iff.rfl) (fun h => Or.inl (hkn (r3 h)))
            exact ⟨a1, a2, fun h => a3 (Or.inl (hkn (hkT h)))⟩
        · simp only [move, ht, e1 prof, bind, Except.bind, pure, Except.pure,
            Bool.false_eq_true, ↓reduceIte, hcu, Except.ok.injEq] at hm
          subst hm
          obtain ⟨a1, a2, a3⟩ := hg.set ht (best' := g.best) (results' := g.results)
            (t' := .running l' rng' (counter + 1) wasInit) hg.len hg.low hg.none hg.sound (Nat.le_refl _)
            (.running p0 hl' r1 r2 (by simp) (by simp) hw (fun _ => hnv')) hnb' id
            (Or.inr (Or.inr ⟨rfl, fun h => r4 _ h⟩)) (fun h => Or.inr (r3 h))
          exact ⟨a1, a2, fun h => a3 (Or.inr (hkT h))⟩
    | @finishing loc hr =>
      have hnb : NoneBelow T loc.results := hlow
      cases hemp : loc.results.isEmpty with
      | true =>
        have hnil : loc.results = [] := by simpa using hemp
        simp only [move, ht, hemp, pure, Except.pure, ↓reduceIte, Except.ok.injEq] at hm
        subst hm
        obtain ⟨a1, a2, a3⟩ := hg.set ht (best' := g.best) (results' := g.results) (t' := .done) hg.len hg.low hg.none
          hg.sound (Nat.le_refl _) .done trivial id
          (Or.inr (Or.inr ⟨rfl, by
            rintro ⟨m, S', h1, _⟩
            rw [hnil] at h1
            simp at h1⟩))
          (by
            intro hk
            left
            have hk' : at0 loc.best T < usizeMax := hk
            by_cases hlt : at0 loc.best T < at0 g.best T
            · obtain ⟨S', h1⟩ := hr.own hlt
              rw [hnil] at h1
              simp at h1
            · omega)
        exact ⟨a1, a2, fun h => (norec (by simp) h).elim⟩
      | false =>
        simp only [move, ht, hemp, pure, Except.pure, Bool.false_eq_true, ↓reduceIte,
          Except.ok.injEq] at hm
        subst hm
        have hlen : g.best.length = loc.best.length := by rw [hg.len, hr.len]
        obtain ⟨m1, m2, m3⟩ := mergeLoop_spec g.best loc.best 0 loc.results g.results hlen
        have hTn' : T < g.best.length := by
          rw [hg.len]
          omega
        have hins : at0 loc.best T ≤ at0 g.best T → (∃ r, loc.results.get T = some r) →
            ∃ r, (mergeLoop 0 g.best loc.best loc.results g.results).2.get T = some r := by
          rintro h1 ⟨r, h2⟩
          refine ⟨r, ?_⟩
          rw [m3 T, if_pos ⟨Nat.zero_le _, by omega, by simpa using h1, by rw [h2]; rfl⟩]
          exact h2
        have hkeep : (∃ r, g.results.get T = some r) →
            ∃ r, (mergeLoop 0 g.best loc.best loc.results g.results).2.get T = some r := by
          rintro ⟨r, h1⟩
          rw [m3 T]
          split
          · rename_i h2
            exact Option.isSome_iff_exists.1 h2.2.2.2
          · exact ⟨r, h1⟩
        obtain ⟨a1, a2, a3⟩ := hg.set ht (best' := (mergeLoop 0 g.best loc.best loc.results g.results).1)
          (results' := (mergeLoop 0 g.best loc.best loc.results g.results).2) (t' := .done)
          (by rw [m1]; exact hg.len)
          (by
            intro t htT
            rw [m2, hg.low t htT, hr.low t htT]
            simp)
          (by
            intro t htT
            rw [m3 t]
            split
            · exact hnb t htT
            · exact hg.none t htT)
          (by
            intro t m S' h
            rw [m3 t] at h
            split at h
            · exact hr.sound t m S' h
            · exact hg.sound t m S' h)
          (by rw [m2]; omega) .done trivial hkeep
          (by
            right
            by_cases hlt : at0 loc.best T < at0 g.best T
            · left
              obtain ⟨S', h1⟩ := hr.own hlt
              exact hins (by omega) ⟨_, h1⟩
            · by_cases hh : Holds T (at0 g.best T) (TaskState.finishing loc : TaskState σ)
              · left
                obtain ⟨m, S', h1, h2⟩ := hh
                have := hr.le m S' h1
                exact hins (by omega) ⟨_, h1⟩
              · right
                exact ⟨by rw [m2]; omega, fun h => (hh h).elim⟩)
          (by
            intro hk
            left
            have hk' : at0 loc.best T < usizeMax := hk
            rw [m2]
            omega)
        exact ⟨a1, a2, fun h => (norec (by simp) h).elim⟩
    | done =>
      simp only [move, ht, pure, Except.pure, Except.ok.injEq] at hm
      subst hm
      exact ⟨hg, id, fun h => (norec (by simp) h).elim⟩

/-! ## As long as nothing is recorded -/

/-- The function accepts every step as long as no path is known. -/
def BoldMode {F σ : Type} [FloatOps F] (P : Problem) : Mode F σ → Prop
  | .det => True
  | .prob accept _ => Bold P accept

theorem at0_best0 {P : Problem} {t : Nat} (h : t ≤ P.n) : at0 (best0 P) t = usizeMax := by
  rw [at0_replicate, if_pos (by omega)]

/-- With an empty table every step is taken. -/
theorem modeIter_blank {F σ : Type} [FloatOps F] {mode : Mode F σ} {P : Problem} (hA : BoldMode P mode) (rng : σ)
    (hP : P.WF) {p0 : Schedule} {l : Loc} (hl : LocOK P p0 l) (hbest : l.best = best0 P) :
    ∃ l' rng' stop, (∀ prof, modeIter mode prof l rng = .ok (l', rng', stop)) ∧ IterStep P True l l' stop := by
  cases mode with
  | det => exact modeIter_spec .det rng hP.lax hl
  | prob accept gen =>
    obtain ⟨l2, stop2, f1, f2⟩ := searchIter_spec hP.lax hl
    rcases probIter_cases hP hl with ⟨l', stop, g1, g2⟩ | ⟨s', c, k, m, bound, minimal, hn, hb, hlt, hm, g1, g2⟩
    · have := (f1 .debug).symm.trans (g1 .debug)
      simp only [Except.ok.injEq, Prod.mk.injEq] at this
      obtain ⟨rfl, rfl⟩ := this
      exact ⟨_, rng, _, fun prof => g2 accept gen rng prof, f2⟩
    · have := (f1 .debug).symm.trans (g1 .debug)
      simp only [Except.ok.injEq, Prod.mk.injEq] at this
      obtain ⟨rfl, rfl⟩ := this
      refine ⟨_, rng, _, fun prof => ?_, f2⟩
      have h := g2 accept gen rng prof
      have hle := minimumPathLength_le hP.lax hn.child
      obtain ⟨rest, hrest⟩ := hn.child.pre.extend hP
      have hbound : bound = usizeMax := by
        rw [← at0_of_getElem? hb, hbest, at0_best0 hle]
      have hmin : minimal = usizeMax := by
        rw [getLast?_at0 hl.best hm, hbest, at0_best0 (Nat.le_refl _)]
      have hnone : ∀ t, LeastFound [] t usizeMax := fun t =>
        ⟨fun t' m S _ h => by simp [AMap.get] at h, Or.inl ⟨rfl, fun t' r _ h => by simp [AMap.get] at h⟩⟩
      have hge : FloatOps.geOne (Query.ask ⟨bound, minimal, P.peak l.path, P.held l.path, P.held (l.path ++ [m]),
          P.blocked (l.path ++ [m]), P.n⟩ accept) = true := by
        refine hA l.path m _ ⟨by rw [hbound]; exact hnone _, by rw [hmin]; exact hnone _, rfl, rfl, rfl, rfl, rfl,
          ⟨rest, by simpa using hrest⟩, hn.ne, ?_, fun t' m' S h => by simp [AMap.get] at h⟩
        simp only
        rw [hbound]
        exact peak_lt_max hP _
      simp only [hge, if_true] at h
      exact h

theorem Chain.length {P : Problem} {p0 p : Schedule} {s : Scheduler Partitioner} {st : List (Scheduler Partitioner)}
    (h : Chain P p0 p s st) : p.length = p0.length + st.length := by
  induction h with
  | base => simp
  | push _ _ _ ih => simp [ih]; omega

theorem exchange_self (b : List Nat) : exchange b b = (b, b) := by
  have h := exchange_at b b rfl
  have hl := exchange_length b b
  have ext : ∀ c : List Nat, c.length = b.length → (∀ i, at0 c i = at0 b i) → c = b := by
    intro c hc h
    refine List.ext_getElem hc fun i h1 h2 => ?_
    have := h i
    simpa [at0, h1, h2] using this
  exact Prod.ext (ext _ hl.1 fun i => by rw [(h i).1]; simp) (ext _ hl.2 fun i => by rw [(h i).2]; simp)

theorem records_le {P : Problem} (hP : P.WF) {T : Nat} {σ : Type} {g : Global σ} (hg : PoolK P T g) {i len : Nat}
    (h : Records g i len) : len ≤ P.n := by
  obtain ⟨loc, rng, c, w, h1, _, _, rfl⟩ := h
  cases (hg.tasks _ (List.mem_of_getElem? h1)).1 with
  | running p0 hl =>
    have := path_length_lt hP.lax hl
    rw [hl.best] at this
    omega

end Verif
