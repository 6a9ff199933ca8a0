import Verif.Model.Interface
import Verif.Proofs.ThreadedOpt
import Verif.Proofs.TimeOptimal
/-!
# Whole calls of `run`, for any fuel
-/

namespace Verif

open Spec Search Search.Threaded

theorem searchLoop_total {P : Problem} (hP : Lax P) {p0 : Schedule} (timer : Nat → Bool) :
    ∀ (fuel k : Nat) (l : Loc), LocOK P p0 l →
    ∃ r, ∀ prof, searchLoop prof timer fuel k l = .ok r := by
  intro fuel
  induction fuel with
  | zero => intro k l _; exact ⟨none, fun prof => rfl⟩
  | succ fuel ih =>
    intro k l hl
    obtain ⟨l1, stop, e1, e2⟩ := searchIter_spec hP hl
    cases hstop : stop with
    | true =>
      refine ⟨some l1, fun prof => ?_⟩
      simp [searchLoop, e1 prof, hstop, bind, Except.bind, pure, Except.pure]
    | false =>
      cases ht : timer k with
      | true =>
        refine ⟨some l1, fun prof => ?_⟩
        simp [searchLoop, e1 prof, hstop, ht, bind, Except.bind, pure, Except.pure]
      | false =>
        obtain ⟨r, f1⟩ := ih (k + 1) l1 (e2.locOK hl)
        refine ⟨r, fun prof => ?_⟩
        simp only [searchLoop, e1 prof, hstop, ht, bind, Except.bind]
        simpa using f1 prof

theorem probLoop_total {F σ : Type} [FloatOps F] (accept : Accept F) (gen : Rng F σ)
    {P : Problem} (hP : Lax P) {p0 : Schedule} (timer : Nat → Bool) :
    ∀ (fuel k : Nat) (l : Loc) (rng : σ), LocOK P p0 l →
    ∃ r, ∀ prof, probLoop prof accept gen timer fuel k l rng = .ok r := by
  intro fuel
  induction fuel with
  | zero => intro k l _ _; exact ⟨none, fun prof => rfl⟩
  | succ fuel ih =>
    intro k l rng hl
    obtain ⟨l1, rng1, stop, e1, e2⟩ := probIter_spec accept gen rng hP hl
    cases hstop : stop with
    | true =>
      refine ⟨some (l1, rng1), fun prof => ?_⟩
      simp [probLoop, e1 prof, hstop, bind, Except.bind, pure, Except.pure]
    | false =>
      cases ht : timer k with
      | true =>
        refine ⟨some (l1, rng1), fun prof => ?_⟩
        simp [probLoop, e1 prof, hstop, ht, bind, Except.bind, pure, Except.pure]
      | false =>
        obtain ⟨r, f1⟩ := ih (k + 1) l1 rng1 (e2.locOK hl)
        refine ⟨r, fun prof => ?_⟩
        simp only [probLoop, e1 prof, hstop, ht, bind, Except.bind]
        simpa using f1 prof

theorem timeOptimalLoop_total {P : Problem} (hP : Lax P) :
    ∀ (fuel : Nat) (p : Schedule) (s : Scheduler (List Nat)) (q : Steps) (m : Nat), StateFor P p s →
    ∃ r, ∀ prof, timeOptimalLoop prof fuel s q m = .ok r := by
  intro fuel
  induction fuel with
  | zero => intro p s q m _; exact ⟨none, fun prof => rfl⟩
  | succ fuel ih =>
    intro p s q m hs
    by_cases hm : s.time.measurable = []
    · refine ⟨some (q, m), fun prof => ?_⟩
      simp [timeOptimalLoop, hm, pure, Except.pure]
    · have hfs := focus_spec hP set_init_list hs s.time.measurable
      cases hfs with
      | tooLong h => exact absurd h (Nat.lt_irrefl _)
      | reject h hbad => exact absurd ⟨hs.time.set_nodup, fun b hb => hb⟩ hbad
      | accept h hsub s' e e' hs' =>
        obtain ⟨r, f1⟩ := ih _ s' (q ++ [s.time.measurable]) (max m s'.space.maxMemory) hs'
        refine ⟨r, fun prof => ?_⟩
        have hm' : s.time.measurable.isEmpty = false := by simpa using hm
        simp only [timeOptimalLoop, hm', e prof, bind, Except.bind]
        simpa using f1 prof

theorem timeOptimalLoop_mono {prof : Profile} {f : Nat} (d : Nat) :
    ∀ {s : Scheduler (List Nat)} {p : Steps} {m : Nat} {r : Steps × Nat},
      timeOptimalLoop prof f s p m = .ok (some r) →
      timeOptimalLoop prof (f + d) s p m = .ok (some r) := by
  induction f with
  | zero => intro s p m r h; simp [timeOptimalLoop, pure, Except.pure] at h
  | succ f ih =>
    intro s p m r h
    rw [show f + 1 + d = (f + d) + 1 by omega]
    simp only [timeOptimalLoop] at h ⊢
    split at h
    · rename_i hm; rw [if_pos hm]; exact h
    · rename_i hm
      rw [if_neg hm]
      simp only [bind, Except.bind] at h ⊢
      cases hf : s.focusInplace prof s.time.measurable with
      | error e => simp [hf] at h
      | ok x =>
        obtain ⟨s', r'⟩ := x
        simp only [hf] at h ⊢
        cases r' with
        | error e => simp at h
        | ok u => exact ih h

/-- Deterministic single-threaded search: any fuel. -/
theorem searchDet_total {P : Problem} (hP : P.Loose) (timer : Nat → Bool) (fuel : Nat) :
    ∃ r, ∀ prof hashIter, (∀ m, (hashIter m).Perm m) →
      searchDet prof hashIter timer fuel P.graph P.order = .ok r := by
  obtain ⟨s, e1, hs, hf⟩ := mkScheduler_loose hP
  obtain ⟨r, f1⟩ := searchLoop_total hP.lax timer fuel 0 _ (init_inv hs hf).ok
  cases r with
  | none =>
    refine ⟨none, fun prof hashIter _ => ?_⟩
    have f1' : searchLoop prof timer fuel 0 (Loc.init s P.graph.length) = .ok none := f1 prof
    simp [searchDet, e1, doSearch, f1', bind, Except.bind, pure, Except.pure]
  | some l =>
    obtain ⟨out, p1, p2⟩ := postprocess_spec id (fun m => List.Perm.refl m) P.n l.results
    refine ⟨some out, fun prof hashIter hh => ?_⟩
    obtain ⟨out', k1, k2⟩ := postprocess_spec hashIter hh P.n l.results
    have := k2.unique p2
    subst this
    have k1' : postprocess hashIter P.graph.length l.results = .ok out' := k1
    have f1' : searchLoop prof timer fuel 0 (Loc.init s P.graph.length) = .ok (some l) := f1 prof
    simp [searchDet, e1, doSearch, f1', k1', bind, Except.bind, pure, Except.pure]

theorem searchDet_mono {P : Problem} {prof : Profile} {hashIter : MappedPaths → MappedPaths}
    {timer : Nat → Bool} {fuel fuel' : Nat} {out : List Path} (hle : fuel ≤ fuel')
    (h : searchDet prof hashIter timer fuel P.graph P.order = .ok (some out)) :
    searchDet prof hashIter timer fuel' P.graph P.order = .ok (some out) := by
  simp only [searchDet, doSearch, bind, Except.bind] at h ⊢
  cases hs : mkScheduler P.graph P.order with
  | error e => simp [hs] at h
  | ok s =>
    simp only [hs] at h ⊢
    cases hl : searchLoop prof timer fuel 0 (Loc.init s P.graph.length) with
    | error e => simp [hl] at h
    | ok r =>
      simp only [hl] at h
      cases r with
      | none => simp [pure, Except.pure] at h
      | some l =>
        simp only [searchLoop_mono hl hle]
        exact h

theorem searchProb_total {F σ : Type} [FloatOps F] (accept : Accept F) (gen : Rng F σ) (rng : σ)
    {P : Problem} (hP : P.Loose) (timer : Nat → Bool) (fuel : Nat) :
    ∃ r, ∀ prof hashIter, (∀ m, (hashIter m).Perm m) →
      searchProb prof hashIter accept gen rng timer fuel P.graph P.order = .ok r := by
  obtain ⟨s, e1, hs, hf⟩ := mkScheduler_loose hP
  obtain ⟨r, f1⟩ := probLoop_total accept gen hP.lax timer fuel 0 _ rng (init_inv hs hf).ok
  cases r with
  | none =>
    refine ⟨none, fun prof hashIter _ => ?_⟩
    have f1' : probLoop prof accept gen timer fuel 0 (Loc.init s P.graph.length) rng = .ok none :=
      f1 prof
    simp [searchProb, e1, doProbabilisticSearch, f1', bind, Except.bind, pure, Except.pure]
  | some l =>
    obtain ⟨out, p1, p2⟩ := postprocess_spec id (fun m => List.Perm.refl m) P.n l.1.results
    refine ⟨some out, fun prof hashIter hh => ?_⟩
    obtain ⟨out', k1, k2⟩ := postprocess_spec hashIter hh P.n l.1.results
    have := k2.unique p2
    subst this
    have k1' : postprocess hashIter P.graph.length l.1.results = .ok out' := k1
    have f1' : probLoop prof accept gen timer fuel 0 (Loc.init s P.graph.length) rng =
      .ok (some l) := f1 prof
    simp [searchProb, e1, doProbabilisticSearch, f1', k1', bind, Except.bind, pure, Except.pure]

theorem searchProb_mono {F σ : Type} [FloatOps F] {accept : Accept F} {gen : Rng F σ} {rng : σ}
    {P : Problem} {prof : Profile} {hashIter : MappedPaths → MappedPaths}
    {timer : Nat → Bool} {fuel fuel' : Nat} {out : List Path} (hle : fuel ≤ fuel')
    (h : searchProb prof hashIter accept gen rng timer fuel P.graph P.order = .ok (some out)) :
    searchProb prof hashIter accept gen rng timer fuel' P.graph P.order = .ok (some out) := by
  simp only [searchProb, doProbabilisticSearch, bind, Except.bind] at h ⊢
  cases hs : mkScheduler P.graph P.order with
  | error e => simp [hs] at h
  | ok s =>
    simp only [hs] at h ⊢
    cases hl : probLoop prof accept gen timer fuel 0 (Loc.init s P.graph.length) rng with
    | error e => simp [hl] at h
    | ok r =>
      simp only [hl] at h
      cases r with
      | none => simp [pure, Except.pure] at h
      | some l =>
        simp only [probLoop_mono hl hle]
        exact h

theorem getTimeOptimal_total {P : Problem} (hP : P.Loose) (fuel : Nat) :
    ∃ r, ∀ prof, getTimeOptimal prof fuel P.graph P.order = .ok r := by
  obtain ⟨set, deps, look, e1, e2⟩ := mkState_loose (T := List Nat) hP set_init_list rfl
    (dependencyBufferNew P.graph.length) (by simp [dependencyBufferNew, Problem.n])
  obtain ⟨r, f1⟩ := timeOptimalLoop_total hP.lax fuel [] _ [] 0 e2
  cases r with
  | none =>
    refine ⟨none, fun prof => ?_⟩
    simp [getTimeOptimal, e1, f1 prof, bind, Except.bind, pure, Except.pure]
  | some x =>
    obtain ⟨p, m⟩ := x
    refine ⟨some [⟨p.length, m, p⟩], fun prof => ?_⟩
    simp [getTimeOptimal, e1, f1 prof, bind, Except.bind, pure, Except.pure]

theorem getTimeOptimal_mono {P : Problem} {prof : Profile} {fuel fuel' : Nat} {out : List Path}
    (hle : fuel ≤ fuel') (h : getTimeOptimal prof fuel P.graph P.order = .ok (some out)) :
    getTimeOptimal prof fuel' P.graph P.order = .ok (some out) := by
  obtain ⟨d, rfl⟩ : ∃ d, fuel' = fuel + d := ⟨fuel' - fuel, by omega⟩
  simp only [getTimeOptimal, bind, Except.bind] at h ⊢
  cases hs : PathGenerator.fromDependencyGraph (T := List Nat) P.order
      (dependencyBufferNew P.graph.length) none with
  | error e => simp [hs] at h
  | ok time =>
    simp only [hs] at h ⊢
    cases hl : timeOptimalLoop prof fuel ⟨time, Graph.new P.graph⟩ [] 0 with
    | error e => simp [hl] at h
    | ok r =>
      simp only [hl] at h
      cases r with
      | none => simp [pure, Except.pure] at h
      | some l =>
        simp only [timeOptimalLoop_mono d hl]
        exact h

theorem lt_searchBound (u : Nat) : u < searchBound u := by
  have h : ∀ u, 2 * u ≤ itemCost u := by
    intro u
    induction u with
    | zero => simp
    | succ u ih =>
      simp only [itemCost]
      have : 1 * itemCost u ≤ 2 ^ u * itemCost u := Nat.mul_le_mul_right _ Nat.one_le_two_pow
      omega
  unfold searchBound
  have : 1 * itemCost u ≤ 2 ^ u * itemCost u := Nat.mul_le_mul_right _ Nat.one_le_two_pow
  have := h u
  omega

theorem sound_single {P : Problem} {S : Schedule} (h : Maximal P S) :
    SoundMax P [⟨S.length, P.peak S, S⟩] := by
  refine ⟨?_, by simp⟩
  intro p hp
  simp only [List.mem_singleton] at hp
  subst hp
  exact ⟨h, rfl, rfl⟩

/-- Every call of `run` on an input with bits that are distinct nodes: no panic, independent of the profile
and of the iteration order of hash maps, and everything returned is sound. -/
theorem run_loose {F σ : Type} [FloatOps F] {P : Problem} (hP : P.Loose) (env : Env F σ)
    (args : Args F) :
    ∃ r, (∀ prof hashIter, (∀ m, (hashIter m).Perm m) →
        run { env with prof := prof, hashIter := hashIter } P.graph P.order args = .ok r) ∧
      ∀ out, r = some out → SoundMax (eff P) out := by
  cases hd : args.doSearch with
  | false =>
    obtain ⟨r, h1⟩ := getTimeOptimal_total hP env.fuel
    obtain ⟨S, h2, h3, _⟩ := getTimeOptimal_loose hP
    refine ⟨r, ?_, ?_⟩
    · intro prof hashIter _
      simpa [run, hd] using h1 prof
    · intro out ho
      subst ho
      have h4 := getTimeOptimal_mono (Nat.le_add_right env.fuel (P.bits.length + 1)) (h1 .debug)
      rw [h2 .debug _ (by omega)] at h4
      simp only [Except.ok.injEq, Option.some.injEq] at h4
      exact h4 ▸ sound_single h3
  | true =>
    by_cases hn : args.nthreads < 2
    · cases hp : args.probabilistic with
      | none =>
        let timer := fun k => args.timeout.isSome && env.timer k
        obtain ⟨r, h1⟩ := searchDet_total hP timer env.fuel
        obtain ⟨out', h2, h3, _⟩ := searchDet_loose hP timer
        refine ⟨r, ?_, ?_⟩
        · intro prof hashIter hh
          simpa [run, hd, search, hn, hp] using h1 prof hashIter hh
        · intro out ho
          subst ho
          have h4 := searchDet_mono (Nat.le_add_right env.fuel (searchBound P.bits.length))
            (h1 .debug id fun m => List.Perm.refl m)
          rw [h2 .debug id _ (fun m => List.Perm.refl m) (by omega)] at h4
          simp only [Except.ok.injEq, Option.some.injEq] at h4
          exact h4 ▸ h3
      | some x =>
        obtain ⟨accept, seed⟩ := x
        let timer := fun k => args.timeout.isSome && env.timer k
        obtain ⟨r, h1⟩ := searchProb_total accept env.gen (env.seedRng seed) hP timer env.fuel
        obtain ⟨out', h2, h3⟩ := searchProb_loose accept env.gen (env.seedRng seed) hP timer
        refine ⟨r, ?_, ?_⟩
        · intro prof hashIter hh
          simpa [run, hd, search, hn, hp] using h1 prof hashIter hh
        · intro out ho
          subst ho
          have h4 := searchProb_mono (Nat.le_add_right env.fuel (searchBound P.bits.length))
            (h1 .debug id fun m => List.Perm.refl m)
          rw [h2 .debug id _ (fun m => List.Perm.refl m) (by omega)] at h4
          simp only [Except.ok.injEq, Option.some.injEq] at h4
          exact h4 ▸ h3
    · let moves := env.moves.map fun m => (m.1, args.timeout.isSome && m.2)
      let tb : Int := (args.taskBound.map fun b => (b : Int)).getD 100000
      cases hp : args.probabilistic with
      | none =>
        obtain ⟨r, h1, h2⟩ := searchThreaded_loose (.det : Mode F σ) hP tb (env.taskRng none) moves
        refine ⟨r, ?_, h2⟩
        intro prof hashIter hh
        simp only [run, hd, search, hp, Bool.not_true, Bool.false_eq_true, ↓reduceIte, if_neg hn]
        exact h1 prof hashIter hh
      | some x =>
        obtain ⟨accept, seed⟩ := x
        obtain ⟨r, h1, h2⟩ := searchThreaded_loose (.prob accept env.gen) hP tb (env.taskRng seed)
          moves
        refine ⟨r, ?_, h2⟩
        intro prof hashIter hh
        simp only [run, hd, search, hp, Bool.not_true, Bool.false_eq_true, ↓reduceIte, if_neg hn]
        exact h1 prof hashIter hh

/-- Every call of `run` on a well-formed input: no panic, independent of the profile and of the
iteration order of hash maps, and everything returned is sound. -/
theorem run_spec {F σ : Type} [FloatOps F] {P : Problem} (hP : P.WF) (env : Env F σ)
    (args : Args F) :
    ∃ r, (∀ prof hashIter, (∀ m, (hashIter m).Perm m) →
        run { env with prof := prof, hashIter := hashIter } P.graph P.order args = .ok r) ∧
      ∀ out, r = some out → Sound P out := by
  obtain ⟨r, h1, h2⟩ := run_loose hP.loose env args
  rw [eff_of_wf hP] at h2
  exact ⟨r, h1, fun o ho => (h2 o ho).sound hP⟩

/-- The part of `run_spec` about the given environment. -/
theorem run_sound {F σ : Type} [FloatOps F] {P : Problem} (hP : P.WF) {env : Env F σ}
    (he : env.OK) {args : Args F} {out : List Path}
    (h : run env P.graph P.order args = .ok (some out)) : Sound P out := by
  obtain ⟨r, h1, h2⟩ := run_spec hP env args
  have := h1 env.prof env.hashIter he
  have h' : run { env with prof := env.prof, hashIter := env.hashIter } P.graph P.order args
    = .ok (some out) := h
  rw [this] at h'
  simp only [Except.ok.injEq] at h'
  exact h2 out h'

end Verif
