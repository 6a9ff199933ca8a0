import Verif.Props.Run
import Verif.Proofs.Accept
/-!
# Accept functions and interruptions
-/

namespace Verif

open Spec Search Search.Threaded Example

variable {F σ : Type} [FloatOps F]

/-- **C30** With an accept function that always returns at least 1, `run` returns what it returns
without an accept function, with any number of threads, even if the random numbers are replaced:
they are not used. -/
theorem C30_always {accept : Accept F} (ha : ∀ a b c d e f g, FloatOps.geOne (accept a b c d e f g) = true)
    (env : Env F σ) (gen : Rng F σ) (seedRng : Option Nat → σ) (drawSeed : σ → Nat × σ)
    (graph : List (List Nat)) (order : OrderGraph) (args : Args F) (seed : Option Nat) :
    run env graph order { args with probabilistic := some (accept, seed) } =
      run { env with gen := gen, seedRng := seedRng, drawSeed := drawSeed } graph order
        { args with probabilistic := none } := by
  unfold run
  split
  · rfl
  · simp only [Verif.search.eq_def]
    split
    · exact searchProb_always ha _ _ _ _ _ _ _ _
    · exact (searchThreaded_quiet (quiet_always ha _) _ _ _ _ _ _ _).trans
        (searchThreaded_quiet quiet_det _ _ _ _ _ _ _).symm

/-- **C30** The random number generator is handed back untouched. -/
theorem C30_no_randomness {accept : Accept F}
    (ha : ∀ a b c d e f g, FloatOps.geOne (accept a b c d e f g) = true) (gen : Rng F σ)
    (prof : Profile) (timer : Nat → Bool) (fuel : Nat) (s : Scheduler Partitioner) (n : Nat) (rng : σ) :
    doProbabilisticSearch prof accept gen timer fuel s n rng =
      (doSearch prof timer fuel s n).map fun r => r.map fun l => (l, rng) :=
  probLoop_always ha gen prof timer rng fuel 0 _ (by simp [Loc.init])

example : (∀ a b c d e f g : Bool, FloatOps.geOne ((fun _ _ _ _ _ _ _ => true : Accept Bool) a b c d e f g) = true) ∧
    run (demo 1000 []) star.graph star.order
      { doSearch := true, probabilistic := some (fun _ _ _ _ _ _ _ => true, some 7) } =
    .ok (some [⟨1, 4, [[1, 2, 3, 0]]⟩, ⟨2, 3, [[2, 3], [1, 0]]⟩, ⟨3, 2, [[3], [2], [1, 0]]⟩]) :=
  ⟨fun _ _ _ _ _ _ _ => rfl, by decide +kernel⟩

/-- Accepting only now and then does change the result. -/
example : run (demo 1000 []) star.graph star.order
      { doSearch := true, probabilistic := some (fun _ _ _ _ _ _ _ => false, some 7) } ≠
    run (demo 1000 []) star.graph star.order { doSearch := true } := by decide +kernel

/-- **C31** Whatever is accepted and however it is interrupted, no path beats the exhaustive search:
each is weakly dominated by one of its paths. -/
theorem C31_dominated {F' σ' : Type} [FloatOps F'] {P : Problem} (hP : P.WF) (hb : P.bits ≠ [])
    {env : Env F σ} {env' : Env F' σ'} (he : env.OK) (he' : env'.OK) {args : Args F} {args' : Args F'}
    (hx : Exhaustive env' args') {out out' : List Path}
    (h : run env P.graph P.order args = .ok (some out))
    (h' : run env' P.graph P.order args' = .ok (some out')) :
    ∀ p ∈ out, ∃ p' ∈ out', p'.time ≤ p.time ∧ p'.space ≤ p.space := by
  intro p hp
  obtain ⟨h1, h2, h3⟩ := (run_sound hP he h).valid p hp
  obtain ⟨p', hp', h4, h5⟩ := C07_exhaustive hP hb he' hx h' p.steps h1
  exact ⟨p', hp', by omega, by omega⟩

/-- A toy float that keeps the numbers: `geOne` is `≥ 1`. -/
local instance : FloatOps Nat := ⟨id, fun x => decide (1 ≤ x), fun x y => decide (x < y)⟩

/-- Accepts a step only while no path is known for the number of steps at hand. -/
private def picky : Accept Nat := fun bound _ _ _ _ _ _ => if bound = usizeMax then 1 else 0

private def demoNat : Env Nat Unit where
  prof := .debug
  hashIter := id
  timer := fun _ => false
  seedRng := fun _ => ()
  gen := ⟨fun _ => (1, ())⟩
  drawSeed := fun s => (0, s)
  moves := []
  fuel := 1000

/-- A search that accepts some steps and returns a strictly worse answer than the exhaustive one. -/
example : star.WF ∧ star.bits ≠ [] ∧ demoNat.OK ∧ Exhaustive (demo 1000 []) { doSearch := true } ∧
    run demoNat star.graph star.order { doSearch := true, probabilistic := some (picky, none) } =
      .ok (some [⟨1, 4, [[1, 2, 3, 0]]⟩]) :=
  ⟨star_wf, by decide, fun _ => List.Perm.refl _, ⟨rfl, by decide, rfl, Or.inl rfl⟩, by decide +kernel⟩

/-- **C31** If every step is rejected, the single-threaded search returns nothing. -/
theorem C31_reject {accept : Accept F} {env : Env F σ} (he : env.OK)
    (ha : ∀ a b c d e f g, FloatOps.geOne (accept a b c d e f g) = false)
    (hr : ∀ a b c d e f g rng, FloatOps.lt (env.gen.sample rng).1 (accept a b c d e f g) = false)
    {graph : List (List Nat)} {order : OrderGraph} {args : Args F} {seed : Option Nat}
    (hs : args.doSearch = true) (ht : args.nthreads < 2)
    (hp : args.probabilistic = some (accept, seed)) {out : List Path}
    (h : run env graph order args = .ok (some out)) : out = [] := by
  rw [run, hs, Bool.not_true, if_neg (by simp), Verif.search.eq_def, if_pos ht, hp] at h
  exact searchProb_reject (fun a b c d e f g rng => ⟨ha a b c d e f g, hr a b c d e f g rng⟩) he h

example : run (demo 1000 []) star.graph star.order
      { doSearch := true, probabilistic := some (fun _ _ _ _ _ _ _ => false, none) } =
    .ok (some []) := by decide +kernel

/-- **C31** With several threads the first step of a task is not subject to the accept function:
rejecting everything leaves at most schedules of one step. -/
theorem C31_reject_threads {accept : Accept F} {env : Env F σ} (he : env.OK)
    (ha : ∀ a b c d e f g, FloatOps.geOne (accept a b c d e f g) = false)
    (hr : ∀ a b c d e f g rng, FloatOps.lt (env.gen.sample rng).1 (accept a b c d e f g) = false)
    {graph : List (List Nat)} {order : OrderGraph} {args : Args F} {seed : Option Nat}
    (hs : args.doSearch = true) (hp : args.probabilistic = some (accept, seed)) {out : List Path}
    (h : run env graph order args = .ok (some out)) : ∀ p ∈ out, p.time = 1 := by
  by_cases ht : args.nthreads < 2
  · rw [C31_reject he ha hr hs ht hp h]
    intro p hp
    cases hp
  · rw [run, hs, Bool.not_true, if_neg (by simp), Verif.search.eq_def, if_neg ht, hp] at h
    exact searchThreaded_reject
      (fun a b c d e f g rng => ⟨ha a b c d e f g, hr a b c d e f g rng⟩) he h

/-- Such a schedule does come back. -/
example : run (demo 0 (roundRobin 16 60)) star.graph star.order
      { doSearch := true, nthreads := 2, probabilistic := some (fun _ _ _ _ _ _ _ => false, none) } =
    .ok (some [⟨1, 4, [[1, 2, 3, 0]]⟩]) := by decide +kernel

/-- **C11** Interrupting a single-threaded search later never makes the answer worse: every path of
the earlier interruption is weakly dominated by a path of the later one. Holds for the
probabilistic search as well, given the same random numbers. -/
theorem C11_later {P : Problem} (hP : P.WF) {env env' : Env F σ} (he : env.OK)
    (hrest : env' = { env with timer := env'.timer, fuel := env'.fuel })
    (hlater : ∀ j, env'.timer j = true → ∃ i ≤ j, env.timer i = true)
    {args args' : Args F} (hargs : args' = { args with timeout := args'.timeout })
    (hto : args'.timeout.isSome = true → args.timeout.isSome = true)
    (hs : args.doSearch = true) (ht : args.nthreads < 2) {out out' : List Path}
    (h : run env P.graph P.order args = .ok (some out))
    (h' : run env' P.graph P.order args' = .ok (some out')) :
    ∀ p ∈ out, ∃ p' ∈ out', p'.time ≤ p.time ∧ p'.space ≤ p.space := by
  have hfl : FiresLater 0 (fun k => args.timeout.isSome && env.timer k)
      (fun k => args'.timeout.isSome && env'.timer k) := by
    intro j _ hj
    simp only [Bool.and_eq_true] at hj
    obtain ⟨i, hi, hi'⟩ := hlater j hj.2
    exact ⟨i, Nat.zero_le _, hi, by simp [hto hj.1, hi']⟩
  rw [hrest, hargs] at h'
  rw [run, hs, Bool.not_true, if_neg (by simp), Verif.search.eq_def, if_pos ht] at h
  rw [run, hs, Bool.not_true, if_neg (by simp), Verif.search.eq_def, if_pos ht] at h'
  cases hp : args.probabilistic with
  | some x =>
    obtain ⟨accept, seed⟩ := x
    simp only [hp] at h h'
    exact searchProb_later hP he hfl h h'
  | none =>
    simp only [hp] at h h'
    have key := fun timer fuel => searchProb_always (F := Bool) (σ := Unit)
      (accept := fun _ _ _ _ _ _ _ => true) (fun _ _ _ _ _ _ _ => rfl) ⟨fun _ => (true, ())⟩ ()
      env.prof env.hashIter timer fuel P.graph P.order
    rw [← key] at h h'
    exact searchProb_later hP he hfl h h'

/-- The answers after 9 and after 15 iterations on the star. -/
example : run { demo 1000 [] with timer := fun k => k == 9 } star.graph star.order
      { doSearch := true, timeout := some 1 } = .ok (some [⟨1, 4, [[1, 2, 3, 0]]⟩]) ∧
    run { demo 1000 [] with timer := fun k => k == 15 } star.graph star.order
      { doSearch := true, timeout := some 2 } =
      .ok (some [⟨1, 4, [[1, 2, 3, 0]]⟩, ⟨2, 3, [[2, 3], [1, 0]]⟩]) := by
  refine ⟨?_, ?_⟩ <;> decide +kernel

end Verif
