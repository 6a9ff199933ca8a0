import Verif.Proofs.Accept
import Verif.Props.Run
/-!
# Reproducibility (C53)
-/

namespace Verif

open Spec Search Example

variable {F σ : Type} [FloatOps F]

/-- The two runs use the same generators of random numbers. Nothing is said about `from_entropy`. -/
structure SameRandom (env env' : Env F σ) : Prop where
  gen : env'.gen = env.gen
  seed : ∀ s, env'.seedRng (some s) = env.seedRng (some s)
  draw : env'.drawSeed = env.drawSeed

/-- A probabilistic search is given a seed. -/
def Args.Seeded (args : Args F) : Prop := ∀ f, args.probabilistic ≠ some (f, none)

theorem run_fuel {P : Problem} {env : Env F σ} {args : Args F} (hn : args.doSearch = false ∨ args.nthreads < 2)
    {out : List Path} (h : run env P.graph P.order args = .ok (some out)) {fuel : Nat} (hf : env.fuel ≤ fuel) :
    run { env with fuel := fuel } P.graph P.order args = .ok (some out) := by
  cases hd : args.doSearch with
  | false =>
    simp only [run, hd, Bool.not_false, if_true] at h ⊢
    exact getTimeOptimal_mono hf h
  | true =>
    have hn' : args.nthreads < 2 := by
      rcases hn with hn | hn
      · rw [hd] at hn; cases hn
      · exact hn
    simp only [run, hd, Bool.not_true, Bool.false_eq_true, if_false, search, if_pos hn'] at h ⊢
    cases hp : args.probabilistic with
    | none =>
      rw [hp] at h
      exact searchDet_mono hf h
    | some x =>
      rw [hp] at h
      exact searchProb_mono hf h

/-- **C53** Without a timeout the result of a single-threaded run with a given seed is a function of the
arguments: it depends neither on the machine (build profile, order of the hash map, speed) nor on its
entropy. -/
theorem C53_reproducible {P : Problem} (hP : P.WF) {env env' : Env F σ} (he : env.OK) (he' : env'.OK)
    (hr : SameRandom env env') {args : Args F} (hn : args.doSearch = false ∨ args.nthreads < 2)
    (hto : args.timeout = none) (hs : args.Seeded) {out out' : List Path}
    (h : run env P.graph P.order args = .ok (some out))
    (h' : run env' P.graph P.order args = .ok (some out')) : out = out' := by
  have k := run_fuel hn h (Nat.le_max_left env.fuel env'.fuel)
  have k' := run_fuel hn h' (Nat.le_max_right env.fuel env'.fuel)
  set fuel := max env.fuel env'.fuel
  obtain ⟨r, e, -⟩ := run_spec hP { env with fuel := fuel } args
  have e1 := e env.prof env.hashIter he
  have e2 := e env'.prof env'.hashIter he'
  have e3 : run { env with fuel := fuel, prof := env'.prof, hashIter := env'.hashIter } P.graph P.order args =
      run { env' with fuel := fuel } P.graph P.order args := by
    cases hd : args.doSearch with
    | false => simp only [run, hd, Bool.not_false, if_true]
    | true =>
      have hn' : args.nthreads < 2 := by
        rcases hn with hn | hn
        · rw [hd] at hn; cases hn
        · exact hn
      simp only [run, hd, Bool.not_true, Bool.false_eq_true, if_false, search, if_pos hn', hto,
        Option.isSome_none, Bool.false_and]
      cases hp : args.probabilistic with
      | none => rfl
      | some x =>
        obtain ⟨f, seed⟩ := x
        cases seed with
        | none => exact absurd hp (hs f)
        | some s => simp only [hr.gen, hr.seed s]
  have e4 : run { env with fuel := fuel, prof := env.prof, hashIter := env.hashIter } P.graph P.order args =
      .ok (some out) := k
  have e5 := e2.symm.trans (e3.trans k')
  have e6 := e1.symm.trans e4
  rw [e6] at e5
  simpa using e5

/-- **C53** With several threads the result is determined by the arguments, the interleaving and the moments
at which the timer fires: the seeds of the tasks come from the given seed. -/
theorem C53_interleaving {P : Problem} (hP : P.WF) {env env' : Env F σ} (he : env.OK) (he' : env'.OK)
    (hr : SameRandom env env') {args : Args F} (hd : args.doSearch = true) (hn : 2 ≤ args.nthreads)
    (hs : args.Seeded) (hm : env'.moves = env.moves) :
    run env P.graph P.order args = run env' P.graph P.order args := by
  obtain ⟨r, e, -⟩ := run_spec hP env args
  have e1 := e env.prof env.hashIter he
  have e2 := e env'.prof env'.hashIter he'
  have e3 : run { env with prof := env'.prof, hashIter := env'.hashIter } P.graph P.order args =
      run env' P.graph P.order args := by
    simp only [run, hd, Bool.not_true, Bool.false_eq_true, if_false, search, if_neg (by omega : ¬ args.nthreads < 2), hm]
    cases hp : args.probabilistic with
    | none =>
      exact (searchThreaded_quiet quiet_det _ _ _ _ _ _ _).trans (searchThreaded_quiet quiet_det _ _ _ _ _ _ _).symm
    | some x =>
      obtain ⟨f, seed⟩ := x
      cases seed with
      | none => exact absurd hp (hs f)
      | some s =>
        have : Env.taskRng { env with prof := env'.prof, hashIter := env'.hashIter } (some s) =
            env'.taskRng (some s) := by
          funext k
          simp only [Env.taskRng, hr.seed, hr.draw]
        simp only [this, hr.gen]
  exact e1.trans (e2.symm.trans e3)

/-- Numbers below 100 as hundredths. -/
local instance hundredths : FloatOps Nat := ⟨fun n => 100 * n, fun x => decide (100 ≤ x), fun x y => decide (x < y)⟩

/-- Accepts half of the steps. -/
private def half : Accept Nat := fun _ _ _ _ _ _ _ => 50

/-- A linear congruential generator; `entropy` is the state of a generator without a seed. -/
private def lcg (prof : Profile) (iter : MappedPaths → MappedPaths) (entropy fuel : Nat)
    (moves : List (Nat × Bool)) : Env Nat Nat where
  prof := prof
  hashIter := iter
  timer := fun _ => true
  seedRng := fun s => s.getD entropy % 101
  gen := ⟨fun s => (s % 100, (s * 37 + 11) % 101)⟩
  drawSeed := fun s => (s, (s * 37 + 11) % 101)
  moves := moves
  fuel := fuel

private theorem lcg_ok {prof : Profile} {iter : MappedPaths → MappedPaths} (h : ∀ m, (iter m).Perm m)
    {entropy fuel : Nat} {moves : List (Nat × Bool)} : (lcg prof iter entropy fuel moves).OK := h

/-- Two different machines. -/
example : SameRandom (lcg .debug id 1 200 []) (lcg .release List.reverse 2 500 [(3, true)]) ∧
    (lcg .debug id 1 200 []).OK ∧ (lcg .release List.reverse 2 500 [(3, true)]).OK ∧
    (⟨true, none, 1, none, some (half, some 8)⟩ : Args Nat).Seeded ∧
    run (lcg .debug id 1 200 []) star.graph star.order
        { doSearch := true, probabilistic := some (half, some 8) } =
      .ok (some [⟨1, 4, [[1, 2, 3, 0]]⟩, ⟨2, 3, [[3], [1, 2, 0]]⟩, ⟨3, 2, [[2], [3], [1, 0]]⟩]) ∧
    run (lcg .release List.reverse 2 500 [(3, true)]) star.graph star.order
        { doSearch := true, probabilistic := some (half, some 8) } =
      .ok (some [⟨1, 4, [[1, 2, 3, 0]]⟩, ⟨2, 3, [[3], [1, 2, 0]]⟩, ⟨3, 2, [[2], [3], [1, 0]]⟩]) :=
  ⟨⟨rfl, fun _ => rfl, rfl⟩, fun m => List.Perm.refl m, fun m => List.reverse_perm m,
    fun f h => by simp at h, by decide +kernel, by decide +kernel⟩

/-- **C53** Without a seed the same call can give different results, even different costs. -/
theorem C53_entropy : ∃ (env env' : Env Nat Nat) (args : Args Nat) (P : Problem) (out out' : List Path),
    P.WF ∧ env.OK ∧ env'.OK ∧ SameRandom env env' ∧ args.nthreads < 2 ∧ args.timeout = none ∧
    run env P.graph P.order args = .ok (some out) ∧ run env' P.graph P.order args = .ok (some out') ∧
    out.map (fun p => (p.time, p.space)) ≠ out'.map (fun p => (p.time, p.space)) :=
  ⟨lcg .debug id 2 200 [], lcg .debug id 3 200 [], { doSearch := true, probabilistic := some (half, none) },
    star, [⟨1, 4, [[1, 2, 3, 0]]⟩, ⟨2, 3, [[1, 3], [2, 0]]⟩, ⟨3, 2, [[3], [2], [1, 0]]⟩],
    [⟨1, 4, [[1, 2, 3, 0]]⟩, ⟨3, 2, [[3], [1], [2, 0]]⟩], star_wf, fun m => List.Perm.refl m,
    fun m => List.Perm.refl m, ⟨rfl, fun _ => rfl, rfl⟩, by decide, rfl, by decide +kernel, by decide +kernel,
    by decide⟩

private theorem lcg_moves (prof : Profile) (iter : MappedPaths → MappedPaths) (entropy fuel : Nat)
    (m m' : List (Nat × Bool)) : lcg prof iter entropy fuel m' =
      { lcg prof iter entropy fuel m with moves := (lcg prof iter entropy fuel m').moves } := rfl

private theorem run_forth : run (lcg .debug id 0 0 (inOrder 16 60)) star.graph star.order
      { doSearch := true, nthreads := 2, probabilistic := some (half, some 15) } =
    .ok (some [⟨1, 4, [[1, 2, 3, 0]]⟩, ⟨2, 3, [[2], [1, 3, 0]]⟩]) := by
  decide +kernel

private theorem run_back : run (lcg .debug id 0 0 (swapped 8 60)) star.graph star.order
      { doSearch := true, nthreads := 2, probabilistic := some (half, some 15) } =
    .ok (some [⟨1, 4, [[1, 2, 3, 0]]⟩, ⟨2, 3, [[2], [1, 3, 0]]⟩, ⟨4, 2, [[3], [1], [2], [0]]⟩]) := by
  decide +kernel

private theorem possible_forth : possible (lcg .debug id 0 0 (inOrder 16 60)) star.graph star.order
      { doSearch := true, nthreads := 2, probabilistic := some (half, some 15) } = .ok true :=
  possible_of_run (a := []) (List.nil_append _).symm (fun _ h => nomatch h) (inOrder_sorted 16 60) run_forth

private theorem possible_back : possible (lcg .debug id 0 0 (swapped 8 60)) star.graph star.order
      { doSearch := true, nthreads := 2, probabilistic := some (half, some 15) } = .ok true := by
  decide +kernel

/-- **C53** With several threads a fixed seed does not ensure reproducibility, as the documentation says, not even of the
costs: the two runs differ in nothing but the interleaving, and two workers can work in both ways. -/
theorem C53_threads : ∃ (env env' : Env Nat Nat) (args : Args Nat) (P : Problem) (out out' : List Path),
    P.WF ∧ env.OK ∧ env' = { env with moves := env'.moves } ∧ args.Seeded ∧ args.timeout = none ∧
    args.nthreads = 2 ∧ possible env P.graph P.order args = .ok true ∧ possible env' P.graph P.order args = .ok true ∧
    run env P.graph P.order args = .ok (some out) ∧ run env' P.graph P.order args = .ok (some out') ∧
    out.map (fun p => (p.time, p.space)) ≠ out'.map (fun p => (p.time, p.space)) :=
  ⟨_, _, _, star, _, _, star_wf, fun m => List.Perm.refl m, lcg_moves _ _ _ _ _ _,
    fun f h => by simp at h, rfl, rfl,
    possible_forth, possible_back, run_forth, run_back, by decide⟩

end Verif
