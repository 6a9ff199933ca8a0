import Verif.Proofs.Threaded
/-!
# The multi-threaded search without a refresh of the shared table: nothing is lost
-/

namespace Verif

open Spec Search Search.Threaded

/-- The part of `LInv` that is about the table and the results. -/
structure LRec (P : Problem) (b0 best : List Nat) (results : MappedPaths) : Prop where
  len : best.length = P.n + 1
  sound : ResultsOK P results
  anti : Anti best
  le0 : ∀ t, at0 best t ≤ at0 b0 t
  b2 : ∀ t, at0 best t = at0 b0 t ∨
    ∃ t' m S, t' ≤ t ∧ results.get t' = some (m, S) ∧ m ≤ at0 best t
  b3 : ∀ t m S, results.get t = some (m, S) → at0 best t ≤ m
  b4 : ∀ t m S, results.get t = some (m, S) → m ≤ at0 b0 t

theorem LInv.rec' {P : Problem} {p0 : Schedule} {b0 : List Nat} {l : Loc} (h : LInv P p0 b0 l) :
    LRec P b0 l.best l.results := ⟨h.ok.best, h.sound, h.anti, h.le0, h.b2, h.b3, h.b4⟩

/-- The invariant of the shared table and the shared results. -/
structure SharedInv (P : Problem) (best : List Nat) (results : MappedPaths) : Prop where
  len : best.length = P.n + 1
  sound : ResultsOK P results
  anti : Anti best
  g2 : ∀ t ≤ P.n, at0 best t = usizeMax ∨
    ∃ t' m S, t' ≤ t ∧ results.get t' = some (m, S) ∧ m ≤ at0 best t
  g3 : ∀ t m S, results.get t = some (m, S) → at0 best t ≤ m

/-- A copy of the shared table taken earlier. -/
structure Snap (best b0 : List Nat) : Prop where
  anti : Anti b0
  le : ∀ t, at0 best t ≤ at0 b0 t

theorem Snap.mono {best best' b0 : List Nat} (h : Snap best b0)
    (hle : ∀ t, at0 best' t ≤ at0 best t) : Snap best' b0 :=
  ⟨h.anti, fun t => Nat.le_trans (hle t) (h.le t)⟩

theorem exists_least_eq (b : List Nat) (t : Nat) :
    ∃ τ, τ ≤ t ∧ at0 b τ = at0 b t ∧ ∀ i, i < τ → at0 b i ≠ at0 b t := by
  induction t using Nat.strongRecOn with
  | _ t ih =>
    by_cases h : ∃ i, i < t ∧ at0 b i = at0 b t
    · obtain ⟨i, hi, he⟩ := h
      obtain ⟨τ, h1, h2, h3⟩ := ih i hi
      exact ⟨τ, by omega, by omega, fun j hj => by rw [← he]; exact h3 j hj⟩
    · exact ⟨t, Nat.le_refl _, rfl, fun i hi he => h ⟨i, hi, he⟩⟩

/-- The merge at the end of a task keeps the shared invariant. -/
theorem merge_inv {P : Problem} {best b0 tbest : List Nat} {results tres : MappedPaths}
    (hg : SharedInv P best results) (hs : Snap best b0) (ht : LRec P b0 tbest tres) :
    SharedInv P (mergeLoop 0 best tbest tres results).1 (mergeLoop 0 best tbest tres results).2 ∧
    ∀ t, at0 (mergeLoop 0 best tbest tres results).1 t = min (at0 best t) (at0 tbest t) := by
  obtain ⟨m1, m2, m3⟩ := mergeLoop_spec best tbest 0 tres results (by rw [hg.len, ht.len])
  generalize hb' : (mergeLoop 0 best tbest tres results).1 = best' at *
  generalize hr' : (mergeLoop 0 best tbest tres results).2 = results' at *
  simp only [Nat.zero_le, Nat.zero_add, Nat.sub_zero, true_and] at m3
  -- when an entry of the task is taken over
  have hin : ∀ i m S, i ≤ P.n → tres.get i = some (m, S) → at0 tbest i ≤ at0 best i →
      results'.get i = some (m, S) := by
    intro i m S hi h1 h2
    rw [m3 i, if_pos ⟨by rw [hg.len]; omega, h2, by simp [h1]⟩, h1]
  have hout : ∀ i, (¬ at0 tbest i ≤ at0 best i ∨ tres.get i = none) →
      results'.get i = results.get i := by
    intro i h
    rw [m3 i, if_neg]
    rintro ⟨_, h2, h3⟩
    rcases h with h | h
    · exact h h2
    · rw [h] at h3; simp at h3
  -- a local witness below the shared value is taken over
  have hlocal : ∀ t t' m S v, t ≤ P.n → t' ≤ t → tres.get t' = some (m, S) → m ≤ v → v ≤ at0 best t →
      ∃ t' m S, t' ≤ t ∧ results'.get t' = some (m, S) ∧ m ≤ v := by
    intro t t' m S v htn h1 h2 h3 h4
    have h5 := ht.b3 t' m S h2
    have h6 := hg.anti t' t h1
    exact ⟨t', m, S, h1, hin t' m S (by omega) h2 (by omega), h3⟩
  refine ⟨⟨by rw [m1]; exact hg.len, ?_, ?_, ?_, ?_⟩, m2⟩
  · intro t m S h
    rw [m3 t] at h
    split at h
    · exact ht.sound t m S h
    · exact hg.sound t m S h
  · intro i j hij
    rw [m2, m2]
    have := hg.anti i j hij
    have := ht.anti i j hij
    omega
  · intro t htn
    rw [m2]
    by_cases hle : at0 tbest t ≤ at0 best t
    · rw [Nat.min_eq_right hle]
      rcases ht.b2 t with h0 | ⟨t', m, S, h1, h2, h3⟩
      · -- the task did not improve this entry: it is the value it started with
        have hsb := hs.le t
        have heq : at0 best t = at0 b0 t := by omega
        obtain ⟨τ, k1, k2, k3⟩ := exists_least_eq b0 t
        have hτ : at0 best τ = at0 b0 t := by
          have := hs.le τ
          have := hg.anti τ t k1
          omega
        rcases hg.g2 τ (by omega) with h4 | ⟨t', m, S, h5, h6, h7⟩
        · left; omega
        · right
          have h8 := hg.g3 t' m S h6
          have h9 := hg.anti t' τ h5
          have hm : m = at0 b0 t := by omega
          have ht' : at0 best t' = at0 b0 t := by omega
          cases hnew : tres.get t' with
          | none =>
            exact ⟨t', m, S, by omega, by rw [hout t' (Or.inr hnew)]; exact h6, by omega⟩
          | some r =>
            obtain ⟨m', S'⟩ := r
            by_cases hle' : at0 tbest t' ≤ at0 best t'
            · by_cases he : t' = τ
              · have := ht.b4 t' m' S' hnew
                refine ⟨t', m', S', by omega, hin t' m' S' (by omega) hnew hle', ?_⟩
                rw [he] at this; omega
              · have hlt : at0 b0 t' ≠ at0 b0 t := k3 t' (by omega)
                have := hs.le t'
                rcases ht.b2 t' with c | ⟨t2, m2', S2, c1, c2, c3⟩
                · omega
                · obtain ⟨a, b, c, d1, d2, d3⟩ :=
                    hlocal t' t2 m2' S2 (at0 tbest t') (by omega) c1 c2 c3 hle'
                  exact ⟨a, b, c, by omega, d2, by omega⟩
            · exact ⟨t', m, S, by omega, by rw [hout t' (Or.inl hle')]; exact h6, by omega⟩
      · right
        exact hlocal t t' m S _ htn h1 h2 h3 hle
    · rw [Nat.min_eq_left (by omega)]
      rcases hg.g2 t htn with h4 | ⟨t', m, S, h5, h6, h7⟩
      · exact Or.inl h4
      · right
        have h8 := hg.g3 t' m S h6
        have h9 := ht.anti t' t h5
        refine ⟨t', m, S, h5, ?_, h7⟩
        rw [hout t' (Or.inl (by omega))]
        exact h6
  · intro t m S h
    rw [m2]
    rw [m3 t] at h
    split at h
    · have := ht.b3 t m S h; omega
    · have := hg.g3 t m S h; omega

/-- The invariant of a task in the deterministic mode, given the shared table. -/
inductive TaskInv (P : Problem) {σ : Type} (best : List Nat) : TaskState σ → Prop
  | ready {sched : Scheduler Partitioner} {init : Option (List Nat)} {rng : σ}
      (hs : StateFor P (startPath init) sched) (hi : IterOK sched)
      (hf : init.isSome = true → Fresh sched) : TaskInv P best (.ready sched init rng)
  | running {loc : Loc} {rng : σ} {counter : Nat} {wasInit : Bool} (p0 : Schedule) (b0 : List Nat)
      (hl : LInv P p0 b0 loc) (hsnap : Snap best b0)
      (hc : counter = 0 → loc.sweep.stack = [])
      (hf : counter = 0 → wasInit = true → Fresh loc.sweep.current)
      (hw : wasInit = false → p0 = []) (hnv : counter ≠ 0 → ¬ P.Valid p0) (hp : p0.length ≤ 1)
      : TaskInv P best (.running loc rng counter wasInit)
  | finishing {loc : Loc} (b0 : List Nat) (hrec : LRec P b0 loc.best loc.results)
      (hsnap : Snap best b0) : TaskInv P best (.finishing loc)
  | done : TaskInv P best .done

theorem TaskInv.mono {P : Problem} {σ : Type} {best best' : List Nat} {t : TaskState σ}
    (h : TaskInv P best t) (hle : ∀ t, at0 best' t ≤ at0 best t) : TaskInv P best' t := by
  cases h with
  | ready hs hi hf => exact .ready hs hi hf
  | running p0 b0 hl hsnap hc hf hw hnv hp =>
    exact .running p0 b0 hl (hsnap.mono hle) hc hf hw hnv hp
  | finishing b0 hrec hsnap => exact .finishing b0 hrec (hsnap.mono hle)
  | done => exact .done

/-- The task will still meet `S` or something at least as good. -/
def TaskCov (P : Problem) (S : Schedule) {σ : Type} : TaskState σ → Prop
  | .ready sched init _ => PendAt S (startPath init) sched
  | .running loc _ _ _ => Dom P loc.best S ∨ Pending S loc.path loc.sweep.current loc.sweep.stack
  | .finishing loc => Dom P loc.best S
  | .done => False

/-- The invariant of the pool. -/
structure PoolInv (P : Problem) {σ : Type} (g : Global σ) : Prop where
  shared : SharedInv P g.best g.results
  tasks : ∀ t ∈ g.tasks, TaskInv P g.best t
  cov : ∀ S, P.Valid S → Dom P g.best S ∨ ∃ (i : Nat) (t : TaskState σ), g.tasks[i]? = some t ∧ TaskCov P S t

/-- Changing one task and the table. -/
theorem PoolInv.set {P : Problem} {σ : Type} {g : Global σ} (h : PoolInv P g) {i : Nat}
    {t t' : TaskState σ} (ht : g.tasks[i]? = some t) {best' : List Nat} {results' : MappedPaths}
    (hsh : SharedInv P best' results') (hle : ∀ t, at0 best' t ≤ at0 g.best t)
    (ht' : TaskInv P best' t')
    (hcov : ∀ S, P.Valid S → TaskCov P S t → Dom P best' S ∨ TaskCov P S t') :
    PoolInv P ⟨best', results', g.tasks.set i t'⟩ := by
  refine ⟨hsh, ?_, ?_⟩
  · intro a ha
    rcases List.mem_or_eq_of_mem_set ha with h1 | h1
    · exact (h.tasks a h1).mono hle
    · exact h1 ▸ ht'
  · intro S hS
    rcases h.cov S hS with hd | ⟨j, a, hj, ha⟩
    · exact Or.inl (Nat.le_trans (hle S.length) hd)
    · by_cases hij : j = i
      · subst hij
        rw [ht] at hj
        simp only [Option.some.injEq] at hj
        subst hj
        rcases hcov S hS ha with h1 | h1
        · exact Or.inl h1
        · refine Or.inr ⟨j, t', ?_, h1⟩
          simp [(List.getElem?_eq_some_iff.1 ht).1]
      · refine Or.inr ⟨j, a, ?_, ha⟩
        simp only
        rw [List.getElem?_set_ne (fun h => hij h.symm)]
        exact hj

/-- All valid schedules with at most one step cost the same. -/
theorem peak_of_single {P : Problem} {p S : Schedule} (hp : P.Valid p) (hS : P.Valid S)
    (hb : P.bits ≠ []) (h1 : p.length ≤ 1) (h2 : S.length ≤ 1) : P.peak S = P.peak p := by
  match p, S, h1, h2 with
  | [], _, _, _ => exact (not_valid_nil hb hp).elim
  | [a], [], _, _ => exact (not_valid_nil hb hS).elim
  | [a], [b], _, _ =>
    have h3 := hp.perm
    have h4 := hS.perm
    simp only [List.flatten_cons, List.flatten_nil, List.append_nil] at h3 h4
    have h5 : StepEq [b] [a] := .cons (h4.trans h3.symm) .nil
    exact h5.peak P

/-- The condition on a move: it does not refresh the tables. -/
def Quiet {σ : Type} (g : Global σ) (i : Nat) : Prop :=
  ∀ loc rng c w, g.tasks[i]? = some (.running loc rng c w) → c ≠ updateInterval

theorem move_inv {F σ : Type} [FloatOps F] {P : Problem} (hP : P.WF) (hb : P.bits ≠ [])
    {g g' : Global σ} (hg : PoolInv P g) {i : Nat} {tb : Bool} {prof : Profile} (hq : Quiet g i)
    (hm : move (.det : Mode F σ) prof g i tb = .ok g') : PoolInv P g' := by
  cases ht : g.tasks[i]? with
  | none =>
    simp only [move, ht, pure, Except.pure, Except.ok.injEq] at hm
    exact hm ▸ hg
  | some t =>
    have hok := hg.tasks t (List.mem_of_getElem? ht)
    cases hok with
    | @ready sched init rng hs hi hf =>
      simp only [move, ht, pure, Except.pure, Except.ok.injEq] at hm
      subst hm
      have hl := start_locOK hs hi hg.shared.len
      refine hg.set ht hg.shared (fun t => Nat.le_refl _) ?_ ?_
      · refine .running (startPath init) g.best ?_ ⟨hg.shared.anti, fun t => Nat.le_refl _⟩ ?_ ?_ ?_ ?_ ?_
        · refine ⟨hl, ?_, hg.shared.anti, fun t => Nat.le_refl _, fun t => Or.inl rfl, ?_, ?_, ?_⟩
          · intro t m S h; simp [startLoc] at h
          · intro t m S h; simp [startLoc] at h
          · intro t m S h; simp [startLoc] at h
          · intro h; simp [startLoc, Sweep.new] at h
        · intro _; rfl
        · intro _ hw; exact hf hw
        · intro hw; cases init with
          | none => rfl
          | some m => simp at hw
        · intro h; exact (h rfl).elim
        · cases init <;> simp [startPath]
      · intro S hS hc
        right
        have h1 : (startLoc sched init g.best).path = startPath init := by
          cases init <;> simp [startLoc, startPath]
        right
        rw [h1]
        exact Pending.head hc
    | @running loc rng counter wasInit p0 b0 hl hsnap hc hf hw hnv hp =>
      obtain ⟨l', stop, e1, e2⟩ := searchIter_spec hP.lax hl.ok
      obtain ⟨hinv, hle⟩ := e2.inv hl
      cases stop with
      | true =>
        obtain ⟨_, hcase⟩ := finishLoop_spec hP.lax e2 hl.ok hl.sound (fun a b => ⟨hf a b, hc a⟩)
        rcases hcase with ⟨hn, hfin⟩ | ⟨hc0, hwi, hv, hpath, hbest, hres, hlen, hfin⟩
        · simp only [move, ht, modeIter, e1 prof, bind, Except.bind, pure, Except.pure, ↓reduceIte,
            hfin, Except.ok.injEq] at hm
          subst hm
          have hnv' : ¬ P.Valid p0 := by
            by_cases h0 : counter = 0
            · have : wasInit = false := by
                cases hwb : wasInit with
                | false => rfl
                | true => exact (hn ⟨h0, hwb⟩).elim
              rw [hw this]
              exact not_valid_nil hb
            · exact hnv h0
          refine hg.set ht hg.shared (fun t => Nat.le_refl _) (.finishing b0 hinv.rec' hsnap) ?_
          intro S hS hcv
          right
          rcases (e2.cov1 hP hl hS hcv).2 rfl with h1 | ⟨h1, _⟩
          · exact h1
          · exact (hnv' h1).elim
        · simp only [move, ht, modeIter, e1 prof, bind, Except.bind, pure, Except.pure, ↓reduceIte,
            hfin, Except.ok.injEq] at hm
          subst hm
          rw [maximal_iff hP] at hv
          have hn1 := hv.length_le hP
          -- the entry for one step is not below the only value there is
          have hpk : P.peak p0 ≤ at0 loc.best p0.length := by
            rcases hl.b2 p0.length with h1 | ⟨t', m, S, h1, h2, h3⟩
            · rw [h1]
              have h2 := hsnap.le p0.length
              rcases hg.shared.g2 p0.length hn1 with h3 | ⟨t', m, S, h3, h4, h5⟩
              · have := peak_lt_max hP p0; omega
              · obtain ⟨k1, k2, k3⟩ := hg.shared.sound t' m S h4
                have := peak_of_single hv ((maximal_iff hP).1 k1) hb hp (by omega)
                omega
            · obtain ⟨k1, k2, k3⟩ := hl.sound t' m S h2
              have := peak_of_single hv ((maximal_iff hP).1 k1) hb hp (by omega)
              omega
          obtain ⟨r1, r2, r3, r4, r5, r6, r7⟩ := record_inv hlen hl.sound ((maximal_iff hP).2 hv) hl.anti hl.le0 hl.b2
            hl.b3 hl.b4 hpk
          refine hg.set ht hg.shared (fun t => Nat.le_refl _) (.finishing b0 ?_ hsnap) ?_
          · exact ⟨by simpa [updateBest] using hl.ok.best, r1, r2, r4, r5, r6, r7⟩
          · intro S hS hcv
            right
            rcases (e2.cov1 hP hl hS hcv).2 rfl with h1 | ⟨h1, h2, h3⟩
            · rw [Dom, hbest] at h1
              exact Nat.le_trans (r3 S.length) h1
            · have hE := h2.peak P
              rw [h3, List.take_length] at hE
              have hS1 : P.peak S = P.peak p0 := hE.symm
              change at0 (updateBest loc.best p0.length (P.peak p0)) S.length ≤ P.peak S
              rw [at0_updateBest hlen, ← h3, hS1]
              simp
      | false =>
        have hcu := hq loc rng counter wasInit ht
        simp only [move, ht, modeIter, e1 prof, bind, Except.bind, pure, Except.pure,
          Bool.false_eq_true, ↓reduceIte, hcu, Except.ok.injEq] at hm
        subst hm
        have hnv' : ¬ P.Valid p0 := by
          by_cases h0 : counter = 0
          · have hst := hc h0
            have h1 := hl.ok.chain
            rw [hst] at h1
            have hpath := h1.base_path
            have hstate := hl.ok.chain.state.1
            intro hv
            have hset := (leaf_iff hP hstate).2 (hpath ▸ hv)
            cases e2 with
            | backLeaf hst' => rw [hst] at hst'; simp at hst'
            | backInner hst' => rw [hst] at hst'; simp at hst'
            | skip hn =>
              have := hn.set_ne
              rw [hn.set] at this
              exact this hset
            | push hn =>
              have := hn.set_ne
              rw [hn.set] at this
              exact this hset
          · exact hnv h0
        refine hg.set ht hg.shared (fun t => Nat.le_refl _)
          (.running p0 b0 hinv hsnap (by simp) (by simp) hw (fun _ => hnv') hp) ?_
        intro S hS hcv
        right
        exact (e2.cov1 hP hl hS hcv).1 rfl
    | @finishing loc b0 hrec hsnap =>
      cases hemp : loc.results.isEmpty with
      | true =>
        simp only [move, ht, hemp, pure, Except.pure, ↓reduceIte, Except.ok.injEq] at hm
        subst hm
        refine hg.set ht hg.shared (fun t => Nat.le_refl _) .done ?_
        intro S hS hcv
        left
        have hnil : loc.results = [] := by simpa using hemp
        rcases hrec.b2 S.length with h1 | ⟨t', m, T, _, h2, _⟩
        · have := hsnap.le S.length
          have hcv' : at0 loc.best S.length ≤ P.peak S := hcv
          unfold Dom
          omega
        · rw [hnil] at h2; simp at h2
      | false =>
        simp only [move, ht, hemp, pure, Except.pure, Bool.false_eq_true, ↓reduceIte,
          Except.ok.injEq] at hm
        subst hm
        obtain ⟨k1, k2⟩ := merge_inv hg.shared hsnap hrec
        refine hg.set ht k1 (fun t => by rw [k2]; omega) .done ?_
        intro S hS hcv
        left
        have hcv' : at0 loc.best S.length ≤ P.peak S := hcv
        unfold Dom
        rw [k2]
        omega
    | done =>
      simp only [move, ht, pure, Except.pure, Except.ok.injEq] at hm
      exact hm ▸ hg

/-- No move of the run refreshes the tables. -/
def QuietRun {F σ : Type} [FloatOps F] (mode : Mode F σ) (prof : Profile) :
    Global σ → List (Nat × Bool) → Prop
  | _, [] => True
  | g, m :: ms => Quiet g m.1 ∧ ∀ g', move mode prof g m.1 m.2 = .ok g' → QuietRun mode prof g' ms

theorem runMoves_inv {F σ : Type} [FloatOps F] {P : Problem} (hP : P.WF) (hb : P.bits ≠ [])
    {prof : Profile} : ∀ (moves : List (Nat × Bool)) (g g' : Global σ), PoolInv P g →
    QuietRun (.det : Mode F σ) prof g moves →
    runMoves (.det : Mode F σ) prof g moves = .ok g' → PoolInv P g' := by
  intro moves
  induction moves with
  | nil =>
    intro g g' hg _ h
    simp only [runMoves, pure, Except.pure, Except.ok.injEq] at h
    exact h ▸ hg
  | cons m moves ih =>
    intro g g' hg hq h
    cases hm : move (.det : Mode F σ) prof g m.1 m.2 with
    | error e => simp [runMoves, hm, bind, Except.bind] at h
    | ok g1 =>
      simp only [runMoves, hm, bind, Except.bind] at h
      exact ih g1 g' (move_inv hP hb hg hq.1 hm) (hq.2 g1 hm) h

/-- The pool at the beginning satisfies the invariant. -/
theorem initGlobal_inv {σ : Type} {P : Problem} (hP : P.WF) (hb : P.bits ≠ []) (tb : Int)
    (seeds : Nat → σ) {s : Scheduler Partitioner} (hs : StateFor P [] s) (hf : Fresh s) :
    ∃ g : Global σ, (∀ prof, initGlobal prof tb seeds s P.n = .ok g) ∧ PoolInv P g := by
  obtain ⟨ts, rest, f1, f2, f3, f4, f5, ⟨tail, f6, f7⟩, _⟩ :=
    spawnLoop_spec hP.lax tb (s.time.measurable.iter.length + 1) s 0 hs hf.iterOK (by omega)
  refine ⟨⟨best0 P, [], (ts.mapIdx fun k t => .ready t.1 (some t.2) (seeds k))
    ++ [.ready rest none (seeds ts.length)]⟩, ?_, ?_⟩
  · intro prof
    simp [initGlobal, spawn, f1 prof, bind, Except.bind, pure, Except.pure]
  · refine ⟨⟨by simp, resultsOK_nil P, anti_replicate _ _, ?_, ?_⟩, ?_, ?_⟩
    · intro t ht
      left
      rw [at0_replicate, if_pos (by omega)]
    · intro t m S h; simp at h
    · intro t ht
      simp only [List.mem_append, List.mem_singleton, List.mem_mapIdx] at ht
      rcases ht with ⟨k, hk, rfl⟩ | rfl
      · obtain ⟨h1, h2, _⟩ := f4 _ (List.getElem_mem hk)
        exact .ready h1 h2.iterOK fun _ => h2
      · exact .ready f2 f3 (by simp)
    · intro S hS
      right
      have hE := extends_nil S
      have hpend := fresh_pendAt hP hs hf hS hE
      rcases hpend.2 with ⟨s1, l, m, h1, h2, h3, h4⟩ | ⟨hset, _⟩
      · have hm : m ∈ (rem s).map (·.2) := List.mem_map.2 ⟨_, h2, rfl⟩
        rw [f6, List.mem_append] at hm
        rcases hm with hm | hm
        · obtain ⟨t, ht, rfl⟩ := List.mem_map.1 hm
          obtain ⟨k, hk, rfl⟩ := List.getElem_of_mem ht
          obtain ⟨h5, h6, _⟩ := f4 _ (List.getElem_mem hk)
          refine ⟨k, .ready ts[k].1 (some ts[k].2) (seeds k), ?_, ?_⟩
          · rw [List.getElem?_append_left (by simpa using hk)]
            simp [hk]
          · exact fresh_pendAt hP h5 h6 hS (extends_snoc (p := []) hE h1 h4)
        · refine ⟨ts.length, .ready rest none (seeds ts.length), by simp, hE, Or.inl ?_⟩
          rcases f7 with f7 | ⟨_, f7⟩
          · rw [← f7] at hm
            obtain ⟨x, hx, rfl⟩ := List.mem_map.1 hm
            exact ⟨s1, x.1, x.2, h1, hx, h3, h4⟩
          · exact (h3 (f7 m hm)).elim
      · exact (not_valid_nil hb (leaf_valid hP hs hset)).elim

/-- When all tasks have returned, everything is dominated. -/
theorem PoolInv.complete {P : Problem} (hP : P.WF) {σ : Type} {g : Global σ} (h : PoolInv P g)
    (hfin : g.finished = true) {out : List Path} (hpost : Post g.results P.n out) :
    Complete P out := by
  intro S hS
  have hd : Dom P g.best S := by
    rcases h.cov S hS with hd | ⟨i, t, hi, ht⟩
    · exact hd
    · have := List.all_eq_true.1 hfin t (List.mem_of_getElem? hi)
      cases t <;> simp [TaskCov] at ht this
  unfold Dom at hd
  have hlen := hS.length_le hP
  have hpk := peak_lt_max hP S
  rcases h.shared.g2 S.length hlen with h2 | ⟨t', m, T, h2, h3, h4⟩
  · omega
  · obtain ⟨p, hp, h5, h6⟩ := hpost.dominates (t := t') (by omega) h3 (by simp only; omega)
    simp only at h6
    exact ⟨p, hp, by omega, by omega⟩

/-- The exhaustive multi-threaded search without a refresh: sound and complete for every
interleaving. -/
theorem searchThreaded_complete {F σ : Type} [FloatOps F] {P : Problem} (hP : P.WF)
    (hb : P.bits ≠ []) (tb : Int) (seeds : Nat → σ) (moves : List (Nat × Bool)) (prof : Profile)
    (hashIter : MappedPaths → MappedPaths) (hh : ∀ m, (hashIter m).Perm m) (out : List Path)
    (hq : ∀ s g, mkScheduler P.graph P.order = .ok s →
      initGlobal prof tb seeds s P.n = .ok g → QuietRun (.det : Mode F σ) prof g moves)
    (hout : searchThreaded (.det : Mode F σ) prof hashIter tb seeds moves P.graph P.order
      = .ok (some out)) : Complete P out := by
  obtain ⟨s, e1, hs, hf⟩ := mkScheduler_spec hP
  obtain ⟨g, e2, hg⟩ := initGlobal_inv hP hb tb seeds hs hf
  have e2' : initGlobal prof tb seeds s P.graph.length = .ok g := e2 prof
  simp only [searchThreaded, e1, e2', bind, Except.bind, pure, Except.pure] at hout
  cases hr : runMoves (.det : Mode F σ) prof g moves with
  | error e => simp [hr] at hout
  | ok g' =>
    simp only [hr] at hout
    have hinv := runMoves_inv hP hb moves g g' hg (hq s g e1 (e2 prof)) hr
    split at hout
    · rename_i hfin
      obtain ⟨out', p1, p2⟩ := postprocess_spec hashIter hh P.n g'.results
      have p1' : postprocess hashIter P.graph.length g'.results = .ok out' := p1
      rw [p1'] at hout
      simp only [Except.ok.injEq, Option.some.injEq] at hout
      exact hinv.complete hP hfin (hout ▸ p2)
    · simp at hout

end Verif
