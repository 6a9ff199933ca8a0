import Verif.Proofs.Log
/-!
# The log of a whole run of the pool
-/

namespace Verif
namespace Log

open Spec Search Search.Threaded

theorem logMoves_eq {F σ : Type} [FloatOps F] (mode : Mode F σ) (prof : Profile) :
    ∀ (ms : List (Nat × Bool)) (g : Global σ),
    (logMoves mode prof g ms).map (·.1) = runMoves mode prof g ms := by
  intro ms
  induction ms with
  | nil => intro g; rfl
  | cons m ms ih =>
    intro g
    simp only [logMoves, runMoves, bind, Except.bind]
    cases move mode prof g m.1 m.2 with
    | error e => rfl
    | ok g1 =>
      simp only
      rw [← ih g1]
      cases logMoves mode prof g1 ms with
      | error e => rfl
      | ok r => rfl

/-- A whole run. -/
theorem logMoves_step {F σ : Type} [FloatOps F] (mode : Mode F σ) {P : Problem} (hP : P.WF) (hb : P.bits ≠ [])
    {prof : Profile} : ∀ (ms : List (Nat × Bool)) (g g' : Global σ) (acc l : List DoneLine), PoolF P g acc →
    logMoves mode prof g ms = .ok (g', l) →
    PoolF P g' (acc ++ l) ∧ (∀ t u, Has g acc t u → Has g' (acc ++ l) t u) ∧
    ((IsDet mode ∧ ∀ m ∈ ms, m.2 = false) → ∀ S, P.Valid S → Cov P S g acc → Cov P S g' (acc ++ l)) ∧
    ∀ t m, NoClash t m (acc ++ l) → Low t m g' (acc ++ l) → Kept t m g acc → Kept t m g' (acc ++ l) := by
  intro ms
  induction ms with
  | nil =>
    intro g g' acc l hg h
    simp only [logMoves, pure, Except.pure, Except.ok.injEq, Prod.mk.injEq] at h
    obtain ⟨rfl, rfl⟩ := h
    simp only [List.append_nil]
    exact ⟨hg, fun _ _ h => h, fun _ _ _ h => h, fun _ _ _ _ h => h⟩
  | cons m ms ih =>
    intro g g' acc l hg h
    simp only [logMoves, bind, Except.bind] at h
    cases hm : move mode prof g m.1 m.2 with
    | error e => simp [hm] at h
    | ok g1 =>
      simp only [hm] at h
      cases hr : logMoves mode prof g1 ms with
      | error e => simp [hr] at h
      | ok r =>
        obtain ⟨g2, l2⟩ := r
        simp only [hr, pure, Except.pure, Except.ok.injEq, Prod.mk.injEq] at h
        obtain ⟨rfl, rfl⟩ := h
        have hs := move_step mode hP hb hg hm
        obtain ⟨a1, a2, a3, a4⟩ := ih g1 g2 _ l2 hs.inv hr
        rw [List.append_assoc] at a1 a2 a3 a4
        refine ⟨a1, fun t u h => a2 t u (hs.mono t u h), ?_, ?_⟩
        · rintro ⟨h1, h2⟩ S hS hc
          exact a3 ⟨h1, fun m' hm' => h2 m' (List.mem_cons_of_mem _ hm')⟩ S hS
            (hs.cov ⟨h1, h2 m (by simp)⟩ S hS hc)
        · intro t u hnc hlow hk
          exact a4 t u hnc hlow (hs.kept t u (fun d hd => hnc d (List.mem_append_left _ hd)) (fun t' v h1 h2 => hlow t' v h1 (a2 _ _ (hs.mono _ _ h2))) hk)

/-- The pool right after spawning. -/
theorem initGlobal_log {σ : Type} {P : Problem} (hP : P.WF) (hb : P.bits ≠ []) (tb : Int)
    (seeds : Nat → σ) {s : Scheduler Partitioner} (hs : StateFor P [] s) (hf : Fresh s) :
    ∃ g : Global σ, (∀ prof, initGlobal prof tb seeds s P.n = .ok g) ∧ PoolF P g [] ∧
      (∀ S, P.Valid S → Cov P S g []) ∧ g.results = [] ∧
      ∀ x ∈ g.tasks, ∃ sched init rng, x = .ready sched init rng := by
  obtain ⟨g, e2, hg⟩ := initGlobal_inv hP hb tb seeds hs hf
  have hbest : g.best = best0 P ∧ g.results = [] := by
    have := e2 .debug
    unfold initGlobal at this
    cases hsp : spawn .debug tb seeds s with
    | error e => simp [hsp, bind, Except.bind] at this
    | ok ts =>
      simp only [hsp, bind, Except.bind, pure, Except.pure, Except.ok.injEq] at this
      rw [← this]
      exact ⟨rfl, rfl⟩
  have hready := initGlobal_cost hP.lax tb seeds hs hf (e2 .debug)
  have hready' : ∀ x ∈ g.tasks, ∃ sched init rng, x = .ready sched init rng := by
    intro x hx
    obtain ⟨sched, init, rng, h, _⟩ := hready x hx
    exact ⟨sched, init, rng, h⟩
  refine ⟨g, e2, ⟨hg.shared.len, ?_, by simp, by simp, ?_, ?_, ?_, ?_⟩, ?_, hbest.2, hready'⟩
  · intro x hx
    obtain ⟨sched, init, rng, rfl⟩ := hready' x hx
    cases hg.tasks _ hx with
    | ready h1 h2 h3 => exact .ready h1 h2 h3
  · intro t ht
    left
    rw [hg.shared.len] at ht
    rw [hbest.1, at0_replicate, if_pos (by omega)]
  · intro x hx b hb'
    obtain ⟨sched, init, rng, rfl⟩ := hready' x hx
    simp [table] at hb'
  · intro t r hr
    rw [hbest.2] at hr
    simp at hr
  · intro loc hx
    obtain ⟨sched, init, rng, h⟩ := hready' _ hx
    simp at h
  · intro S hS
    right
    rcases hg.cov S hS with h1 | ⟨i, t, h1, h2⟩
    · unfold Dom at h1
      have := peak_lt_max hP S
      rw [hbest.1, at0_replicate, if_pos (by have := hS.length_le hP; omega)] at h1
      omega
    · obtain ⟨sched, init, rng, rfl⟩ := hready' t (List.mem_of_getElem? h1)
      exact ⟨_, List.mem_of_getElem? h1, h2⟩

/-- The number of a task in the log. -/
def label (n i : Nat) : Int := if i + 1 = n then -1 else (i : Int)

theorem label_inj {n i j : Nat} (h : label n i = label n j) : i = j := by
  unfold label at h
  split at h <;> split at h <;> omega

/-- The task has logged. -/
def Logged {σ : Type} : TaskState σ → Prop
  | .finishing _ => True
  | .done => True
  | _ => False

/-- Every task that has logged has done so once. -/
structure Once {σ : Type} (g : Global σ) (acc : List DoneLine) : Prop where
  nodup : (acc.map (·.ntasks)).Nodup
  mem : ∀ z, z ∈ acc.map (·.ntasks) ↔ ∃ i x, g.tasks[i]? = some x ∧ label g.tasks.length i = z ∧ Logged x

theorem once_quiet {σ : Type} {g : Global σ} {acc : List DoneLine} (h : Once g acc) {i : Nat} {a b : TaskState σ}
    (ha : g.tasks[i]? = some a) (hab : Logged a ↔ Logged b) (best : List Nat) (results : MappedPaths) :
    Once (⟨best, results, g.tasks.set i b⟩ : Global σ) acc := by
  have hi := (List.getElem?_eq_some_iff.1 ha).1
  refine ⟨h.nodup, fun z => (h.mem z).trans ?_⟩
  simp only [List.length_set]
  constructor
  · rintro ⟨j, x, h1, h2, h3⟩
    by_cases hij : i = j
    · subst hij
      rw [ha] at h1
      cases h1
      exact ⟨i, b, by simp [hi], h2, hab.1 h3⟩
    · exact ⟨j, x, by rw [List.getElem?_set_ne hij]; exact h1, h2, h3⟩
  · rintro ⟨j, x, h1, h2, h3⟩
    by_cases hij : i = j
    · subst hij
      rw [List.getElem?_set_self hi] at h1
      cases h1
      exact ⟨i, a, ha, h2, hab.2 h3⟩
    · rw [List.getElem?_set_ne hij] at h1
      exact ⟨j, x, h1, h2, h3⟩

theorem once_log {σ : Type} {g : Global σ} {acc : List DoneLine} (h : Once g acc) {i : Nat} {a : TaskState σ}
    {loc : Loc} (ha : g.tasks[i]? = some a) (hna : ¬ Logged a) (best : List Nat) (results : MappedPaths) {d : DoneLine}
    (hd : d.ntasks = label g.tasks.length i) :
    Once (⟨best, results, g.tasks.set i (.finishing loc)⟩ : Global σ) (acc ++ [d]) := by
  have hi := (List.getElem?_eq_some_iff.1 ha).1
  have hnot : label g.tasks.length i ∉ acc.map (·.ntasks) := by
    intro hm
    obtain ⟨j, x, h1, h2, h3⟩ := (h.mem _).1 hm
    have := label_inj h2
    subst this
    rw [ha] at h1
    cases h1
    exact hna h3
  refine ⟨?_, ?_⟩
  · rw [List.map_append, List.map_singleton, hd]
    refine List.nodup_append.2 ⟨h.nodup, by simp, ?_⟩
    intro x hx y hy
    rw [List.mem_singleton.1 hy]
    intro he
    exact hnot (he ▸ hx)
  · intro z
    rw [List.map_append, List.mem_append, List.map_singleton, List.mem_singleton, hd, h.mem z]
    simp only [List.length_set]
    constructor
    · rintro (⟨j, x, h1, h2, h3⟩ | rfl)
      · by_cases hij : i = j
        · subst hij
          exact ⟨i, .finishing loc, by simp [hi], h2, trivial⟩
        · exact ⟨j, x, by rw [List.getElem?_set_ne hij]; exact h1, h2, h3⟩
      · exact ⟨i, .finishing loc, by simp [hi], rfl, trivial⟩
    · rintro ⟨j, x, h1, h2, h3⟩
      by_cases hij : i = j
      · subst hij
        exact Or.inr h2.symm
      · rw [List.getElem?_set_ne hij] at h1
        exact Or.inl ⟨j, x, h1, h2, h3⟩

theorem move_once {F σ : Type} [FloatOps F] (mode : Mode F σ) {prof : Profile} {g g' : Global σ} {acc : List DoneLine}
    (h : Once g acc) {i : Nat} {tb : Bool} (hm : move mode prof g i tb = .ok g') :
    Once g' (acc ++ doneLine g.tasks.length i g.tasks[i]? g'.tasks[i]?) ∧ g'.tasks.length = g.tasks.length := by
  cases ht : g.tasks[i]? with
  | none =>
    simp only [move, ht, pure, Except.pure, Except.ok.injEq] at hm
    subst hm
    simpa [doneLine] using h
  | some a =>
    have hi := (List.getElem?_eq_some_iff.1 ht).1
    cases a with
    | ready sched init rng =>
      simp only [move, ht, pure, Except.pure, Except.ok.injEq] at hm
      subst hm
      simp only [doneLine, List.append_nil]
      exact ⟨once_quiet h ht (by simp [Logged]) _ _, by simp⟩
    | running loc rng counter wasInit =>
      simp only [move, ht, bind, Except.bind] at hm
      split at hm
      · simp at hm
      · split at hm
        · split at hm
          · simp at hm
          · simp only [pure, Except.pure, Except.ok.injEq] at hm
            subst hm
            simp only [doneLine, List.getElem?_set_self hi]
            exact ⟨once_log h ht (by simp [Logged]) _ _ rfl, by simp⟩
        · split at hm
          · split at hm
            · simp only [pure, Except.pure, Except.ok.injEq] at hm
              subst hm
              simp only [doneLine, List.getElem?_set_self hi]
              exact ⟨once_log h ht (by simp [Logged]) _ _ rfl, by simp⟩
            · simp only [pure, Except.pure, Except.ok.injEq] at hm
              subst hm
              simp only [doneLine, List.getElem?_set_self hi, List.append_nil]
              exact ⟨once_quiet h ht (by simp [Logged]) _ _, by simp⟩
          · simp only [pure, Except.pure, Except.ok.injEq] at hm
            subst hm
            simp only [doneLine, List.getElem?_set_self hi, List.append_nil]
            exact ⟨once_quiet h ht (by simp [Logged]) _ _, by simp⟩
    | finishing loc =>
      simp only [move, ht, pure, Except.pure] at hm
      split at hm
      · simp only [Except.ok.injEq] at hm
        subst hm
        simp only [doneLine, List.append_nil]
        exact ⟨once_quiet h ht (by simp [Logged]) _ _, by simp⟩
      · simp only [Except.ok.injEq] at hm
        subst hm
        simp only [doneLine, List.append_nil]
        exact ⟨once_quiet h ht (by simp [Logged]) _ _, by simp⟩
    | done =>
      simp only [move, ht, pure, Except.pure, Except.ok.injEq] at hm
      subst hm
      simpa [doneLine] using h

theorem logMoves_once {F σ : Type} [FloatOps F] (mode : Mode F σ) {prof : Profile} :
    ∀ (ms : List (Nat × Bool)) (g g' : Global σ) (acc l : List DoneLine), Once g acc →
    logMoves mode prof g ms = .ok (g', l) → Once g' (acc ++ l) ∧ g'.tasks.length = g.tasks.length := by
  intro ms
  induction ms with
  | nil =>
    intro g g' acc l hg h
    simp only [logMoves, pure, Except.pure, Except.ok.injEq, Prod.mk.injEq] at h
    obtain ⟨rfl, rfl⟩ := h
    simpa using hg
  | cons m ms ih =>
    intro g g' acc l hg h
    simp only [logMoves, bind, Except.bind] at h
    cases hm : move mode prof g m.1 m.2 with
    | error e => simp [hm] at h
    | ok g1 =>
      simp only [hm] at h
      cases hr : logMoves mode prof g1 ms with
      | error e => simp [hr] at h
      | ok r =>
        obtain ⟨g2, l2⟩ := r
        simp only [hr, pure, Except.pure, Except.ok.injEq, Prod.mk.injEq] at h
        obtain ⟨rfl, rfl⟩ := h
        obtain ⟨a1, a2⟩ := move_once mode hg hm
        obtain ⟨b1, b2⟩ := ih g1 g2 _ l2 a1 hr
        rw [List.append_assoc] at b1
        exact ⟨b1, by omega⟩

/-- The facts about the log of a run that ends. -/
theorem searchThreaded_log {F σ : Type} [FloatOps F] (mode : Mode F σ) {P : Problem} (hP : P.WF) (hb : P.bits ≠ [])
    (tb : Int) (seeds : Nat → σ) {moves : List (Nat × Bool)} {prof : Profile} {hashIter : MappedPaths → MappedPaths}
    (hh : ∀ m, (hashIter m).Perm m) {out : List Path}
    (h : searchThreaded mode prof hashIter tb seeds moves P.graph P.order = .ok (some out)) :
    ∃ lines, logThreaded mode prof tb seeds moves P.graph P.order = .ok lines ∧
      (∀ d ∈ lines, ResultsOK P d.results) ∧
      (∀ p ∈ out, ∃ d ∈ lines, d.results.get p.time = some (p.space, p.steps)) ∧
      ((IsDet mode ∧ ∀ m ∈ moves, m.2 = false) → ∀ S, P.Valid S →
        ∃ d ∈ lines, ∃ t, t ≤ S.length ∧ HasR d.results t (P.peak S)) ∧
      (∀ t m, NoClash t m lines → (∀ t', t' ≤ t → ∀ d ∈ lines, ∀ m' S, d.results.get t' = some (m', S) → m ≤ m') →
        (∃ d ∈ lines, ∃ S, d.results.get t = some (m, S)) → ∃ p ∈ out, p.time ≤ t ∧ p.space ≤ m) ∧
      (∀ d ∈ lines, d.best.length = P.n + 1) ∧
      ∃ k, (lines.map (·.ntasks)).Perm ((List.range k).map (fun i : Nat => (i : Int)) ++ [-1]) ∧
        ∀ starts, startThreaded prof tb seeds P.graph P.order = .ok starts → starts.length = k + 1 := by
  obtain ⟨s, e1, hs, hf⟩ := mkScheduler_spec hP
  obtain ⟨g, e2, hg, hcov, hres, hready⟩ := initGlobal_log hP hb tb seeds hs hf
  have hne : g.tasks ≠ [] := by
    have := e2 prof
    unfold initGlobal spawn at this
    simp only [bind, Except.bind, pure, Except.pure] at this
    split at this
    · simp at this
    · rename_i h1
      simp only [Except.ok.injEq] at this
      subst this
      split at h1
      · simp at h1
      · simp only [Except.ok.injEq] at h1
        simp [← h1]
  unfold searchThreaded at h
  unfold logThreaded
  simp only [e1, bind, Except.bind, show P.graph.length = P.n from rfl, e2 prof] at h ⊢
  rw [← logMoves_eq] at h
  cases hr : logMoves mode prof g moves with
  | error e => simp [hr, Except.map] at h
  | ok r =>
    obtain ⟨g', lines⟩ := r
    simp only [hr, Except.map] at h
    split at h
    · rename_i hfin
      obtain ⟨o, p1, q1⟩ := postprocess_spec hashIter hh P.n g'.results
      rw [p1] at h
      simp only [pure, Except.pure, Except.ok.injEq, Option.some.injEq] at h
      subst h
      obtain ⟨a1, a2, a3, a4⟩ := logMoves_step mode hP hb moves g g' [] lines hg hr
      simp only [List.nil_append] at a1 a2 a3 a4
      have hdone : ∀ x ∈ g'.tasks, x = .done := by
        intro x hx
        have := List.all_eq_true.1 hfin x hx
        cases x <;> simp_all
      have hHas : ∀ {t u}, Has g' lines t u → ∃ d ∈ lines, HasR d.results t u := by
        rintro t u (h1 | ⟨x, h1, m, S, h2, _⟩)
        · exact h1
        · rw [hdone x h1] at h2
          simp [live] at h2
      have hkept0 : ∀ t m, Kept t m g [] := by
        rintro t m ⟨d, hd, _⟩
        simp at hd
      refine ⟨lines, rfl, a1.log, ?_, ?_, ?_, ?_, ?_⟩
      · intro p hp
        obtain ⟨_, h2, _⟩ := (q1.mem p).1 hp
        exact a1.src _ _ h2
      · rintro hD S hS
        rcases a3 hD S hS (hcov S hS) with ⟨t, h1, h2⟩ | ⟨x, h1, h2⟩
        · obtain ⟨d, h3, h4⟩ := hHas h2
          exact ⟨d, h3, t, h1, h4⟩
        · rw [hdone x h1] at h2
          exact h2.elim
      · intro t u hnc hmin hex
        have hlow : Low t u g' lines := by
          intro t2 v h1 h2
          obtain ⟨d2, h3, m2, S2, h4, h5⟩ := hHas h2
          exact Nat.le_trans (hmin t2 h1 d2 h3 m2 S2 h4) h5
        rcases a4 t u hnc hlow (hkept0 t u) hex with ⟨_, S, h1⟩ | ⟨loc, h1, _⟩
        · obtain ⟨d3, h2, h3⟩ := a1.src t _ h1
          obtain ⟨k1, k2, k3⟩ := a1.log d3 h2 t u S h3
          have hlen := ((maximal_iff hP).1 k1).length_le hP
          have hpk := peak_lt_max hP S
          obtain ⟨p, j1, j2, j3⟩ := q1.dominates (t := t) (by omega) h1 (by simp only; omega)
          exact ⟨p, j1, j2, j3⟩
        · have := hdone _ h1
          simp at this
      · exact a1.logLen
      · have honce0 : Once g [] := by
          refine ⟨by simp, ?_⟩
          intro z
          simp only [List.map_nil, List.not_mem_nil, false_iff]
          rintro ⟨i, x, h1, _, h3⟩
          obtain ⟨_, _, _, rfl⟩ := hready x (List.mem_of_getElem? h1)
          exact h3
        obtain ⟨b1, b2⟩ := logMoves_once mode moves g g' [] lines honce0 hr
        simp only [List.nil_append] at b1
        have hpos : 0 < g'.tasks.length := by rw [b2]; exact List.length_pos_iff.2 hne
        refine ⟨g'.tasks.length - 1, (List.perm_ext_iff_of_nodup b1.nodup ?_).2 ?_, ?_⟩
        · refine List.nodup_append.2 ⟨?_, by simp, ?_⟩
          · exact List.Nodup.map (fun a b h => by simpa using h) List.nodup_range
          · intro x hx y hy
            obtain ⟨i, _, rfl⟩ := List.mem_map.1 hx
            rw [List.mem_singleton.1 hy]
            omega
        · intro z
          rw [b1.mem z]
          simp only [List.mem_append, List.mem_map, List.mem_range, List.mem_singleton]
          constructor
          · rintro ⟨i, x, h1, h2, _⟩
            have hi := (List.getElem?_eq_some_iff.1 h1).1
            unfold label at h2
            split at h2
            · exact Or.inr h2.symm
            · exact Or.inl ⟨i, by omega, h2⟩
          · have hx : ∀ i, i < g'.tasks.length → g'.tasks[i]? = some .done := by
              intro i hi
              rw [List.getElem?_eq_getElem hi, hdone _ (List.getElem_mem hi)]
            rintro (⟨i, h1, rfl⟩ | rfl)
            · exact ⟨i, _, hx i (by omega), by unfold label; rw [if_neg (by omega)], trivial⟩
            · exact ⟨g'.tasks.length - 1, _, hx _ (by omega), by unfold label; rw [if_pos (by omega)], trivial⟩
        · intro starts hst
          unfold startThreaded at hst
          simp only [e1, bind, Except.bind, show P.graph.length = P.n from rfl, e2 prof, pure, Except.pure,
            Except.ok.injEq] at hst
          rw [← hst, List.length_mapIdx]
          omega
    · simp [pure, Except.pure] at h

end Log
end Verif
