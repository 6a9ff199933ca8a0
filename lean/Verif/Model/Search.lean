import Verif.Model.Scheduler
/-!
# Model of `mbqc_scheduling/src/search.rs`
-/

namespace Verif

/-- `Steps`, search.rs:37. -/
abbrev Steps := List (List Nat)

/-- `Path`, interface.rs:20-29. -/
structure Path where
  time : Nat
  space : Nat
  steps : Steps
  deriving DecidableEq, Repr

/-- `MappedPaths`, search.rs:81: time cost ↦ (memory cost, steps). -/
abbrev MappedPaths := AMap (Nat × Steps)

namespace Search

/-- The `while` loop of `get_time_optimal`, search.rs:65-72. `fuel` bounds the number of
iterations (`none`: fuel exhausted). -/
def timeOptimalLoop (prof : Profile) :
    Nat → Scheduler (List Nat) → Steps → Nat → R (Option (Steps × Nat))
  | 0, _, _, _ => pure none
  | fuel + 1, s, path, maxMemory =>
    if s.time.measurable.isEmpty then pure (some (path, maxMemory))
    else do
      let measurableSet := s.time.measurable
      let (s', r) ← s.focusInplace prof measurableSet
      match r with
      | .error _ => .error .unwrapFailed
      | .ok () =>
        timeOptimalLoop prof fuel s' (path ++ [measurableSet]) (max maxMemory s'.space.maxMemory)

/-- `get_time_optimal`, search.rs:47-79. -/
def getTimeOptimal (prof : Profile) (fuel : Nat) (spacialGraph : List (List Nat))
    (timeOrdering : OrderGraph) : R (Option (List Path)) := do
  let time ← PathGenerator.fromDependencyGraph (T := List Nat) timeOrdering
    (dependencyBufferNew spacialGraph.length) none
  match ← timeOptimalLoop prof fuel ⟨time, Graph.new spacialGraph⟩ [] 0 with
  | none => pure none
  | some (path, maxMemory) => pure (some [⟨path.length, maxMemory, path⟩])

/-- The mutable variables of the search loops (search.rs:147-154): the sweep, `current_path`,
`best_memory` and `results`. -/
structure Loc where
  sweep : Sweep (Scheduler Partitioner)
  path : Steps
  best : List Nat
  results : MappedPaths
  deriving Repr

/-- `minimum_path_length`, search.rs:176-184. -/
def minimumPathLength (time : PathGenerator Partitioner) (path : Steps) : Nat :=
  if time.atLeaf.isSome then path.length + 1
  else if time.hasUnmeasureable then path.length + 3
  else path.length + 2

/-- `forward`, search.rs:187-205. The Boolean is the return value (`true`: break). -/
def forward (measure : List Nat) (s : Loc) : R (Loc × Bool) := do
  let current := s.sweep.current
  let bound ← idx s.best (minimumPathLength current.time s.path)
  if current.space.maxMemory ≥ bound then
    match s.sweep.skipCurrent with
    | (sw, .error _) => pure ({ s with sweep := sw }, true)
    | (sw, .ok ()) => pure ({ s with sweep := sw }, false)
  else
    pure ({ s with path := s.path ++ [measure] }, false)

/-- `best_memory[len] = mem; for m in best_memory[len + 1..] { *m = min(*m, mem) }`,
search.rs:215-218, for `len` within bounds. -/
def updateBest (best : List Nat) (len mem : Nat) : List Nat :=
  best.mapIdx fun j m => if j < len then m else if j = len then mem else min m mem

/-- `backward`, search.rs:208-222. -/
def backward (leaf : Option Nat) (s : Loc) : R Loc :=
  match leaf with
  | some mem =>
    if s.path.length < s.best.length then
      pure { s with best := updateBest s.best s.path.length mem,
                    results := s.results.insert s.path.length (mem, s.path),
                    path := s.path.dropLast }
    else .error .indexOutOfBounds
  | none => pure { s with path := s.path.dropLast }

/-- One iteration of the loop in `do_search`, search.rs:155-165 (without the timer). The Boolean is
true if the loop ends here (`next()` returned `None` or `forward` asked to break). -/
def searchIter (prof : Profile) (s : Loc) : R (Loc × Bool) := do
  let (sw, step) ← s.sweep.next (Scheduler.focusIter prof)
  match step with
  | none => pure ({ s with sweep := sw }, true)
  | some (.forward measure) => forward measure { s with sweep := sw }
  | some (.backward leaf) => do
    let s' ← backward leaf { s with sweep := sw }
    pure (s', false)

/-- The loop of `do_search`, search.rs:155-170. `timer k` is the answer of `timer.finished()` after
iteration `k`; `fuel` bounds the number of iterations (`none`: fuel exhausted). -/
def searchLoop (prof : Profile) (timer : Nat → Bool) : Nat → Nat → Loc → R (Option Loc)
  | 0, _, _ => pure none
  | fuel + 1, k, s => do
    let (s', stop) ← searchIter prof s
    if stop then pure (some s')
    else if timer k then pure (some s')
    else searchLoop prof timer fuel (k + 1) s'

/-- The initial values of the local variables, search.rs:151-154, 232-234. -/
def Loc.init (scheduler : Scheduler Partitioner) (numBits : Nat) : Loc :=
  ⟨Sweep.new scheduler, [], List.replicate (numBits + 1) usizeMax, []⟩

/-- `do_search`, search.rs:146-173. -/
def doSearch (prof : Profile) (timer : Nat → Bool) (fuel : Nat)
    (scheduler : Scheduler Partitioner) (numBits : Nat) : R (Option Loc) :=
  searchLoop prof timer fuel 0 (Loc.init scheduler numBits)

/-- The operations on `f64` that the search itself performs on accept probabilities: `as f64`,
`accept >= 1.` and `sample < accept`. Nothing is assumed about them. -/
class FloatOps (F : Type) where
  ofUsize : Nat → F
  geOne : F → Bool
  lt : F → F → Bool

/-- `Accept`, probabilistic.rs:22 (seven arguments, in this order). -/
abbrev Accept (F : Type) := F → F → F → F → F → F → F → F

/-- A random number generator together with the distribution `Uniform::new(0., 1.)`:
`dist.sample(rng)`. -/
structure Rng (F σ : Type) where
  sample : σ → F × σ

/-- `probabilistic_forward`, search.rs:282-318. -/
def probabilisticForward {F σ : Type} [FloatOps F] (accept : Accept F) (gen : Rng F σ)
    (measure : List Nat) (lastCurMem lastMaxMem : Nat) (s : Loc) (rng : σ) :
    R (Loc × σ × Bool) := do
  let current := s.sweep.current
  let bound ← idx s.best (minimumPathLength current.time s.path)
  if current.space.maxMemory ≥ bound then
    match s.sweep.skipCurrent with
    | (sw, .error _) => pure ({ s with sweep := sw }, rng, true)
    | (sw, .ok ()) => pure ({ s with sweep := sw }, rng, false)
  else
    match s.best.getLast? with
    | none => .error .unwrapFailed
    | some minimal =>
      let a := accept (FloatOps.ofUsize bound) (FloatOps.ofUsize minimal)
        (FloatOps.ofUsize lastMaxMem) (FloatOps.ofUsize lastCurMem)
        (FloatOps.ofUsize current.space.currentMemory)
        (FloatOps.ofUsize current.time.numRemainingNodes)
        (FloatOps.ofUsize current.space.nodes.length)
      if FloatOps.geOne a then
        pure ({ s with path := s.path ++ [measure] }, rng, false)
      else
        let r := gen.sample rng
        if FloatOps.lt r.1 a then
          pure ({ s with path := s.path ++ [measure] }, r.2, false)
        else
          match s.sweep.skipCurrent with
          | (sw, .error _) => pure ({ s with sweep := sw }, r.2, true)
          | (sw, .ok ()) => pure ({ s with sweep := sw }, r.2, false)

/-- One iteration of the loop in `do_probabilistic_search`, search.rs:243-270. -/
def probIter {F σ : Type} [FloatOps F] (prof : Profile) (accept : Accept F) (gen : Rng F σ)
    (s : Loc) (rng : σ) : R (Loc × σ × Bool) := do
  let lastCurMem := s.sweep.current.space.currentMemory
  let lastMaxMem := s.sweep.current.space.maxMemory
  let (sw, step) ← s.sweep.next (Scheduler.focusIter prof)
  match step with
  | none => pure ({ s with sweep := sw }, rng, true)
  | some (.forward measure) =>
    probabilisticForward accept gen measure lastCurMem lastMaxMem { s with sweep := sw } rng
  | some (.backward leaf) => do
    let s' ← backward leaf { s with sweep := sw }
    pure (s', rng, false)

/-- The loop of `do_probabilistic_search`, search.rs:243-275. -/
def probLoop {F σ : Type} [FloatOps F] (prof : Profile) (accept : Accept F) (gen : Rng F σ)
    (timer : Nat → Bool) : Nat → Nat → Loc → σ → R (Option (Loc × σ))
  | 0, _, _, _ => pure none
  | fuel + 1, k, s, rng => do
    let (s', rng', stop) ← probIter prof accept gen s rng
    if stop then pure (some (s', rng'))
    else if timer k then pure (some (s', rng'))
    else probLoop prof accept gen timer fuel (k + 1) s' rng'

/-- `do_probabilistic_search`, search.rs:226-278. -/
def doProbabilisticSearch {F σ : Type} [FloatOps F] (prof : Profile) (accept : Accept F)
    (gen : Rng F σ) (timer : Nat → Bool) (fuel : Nat) (scheduler : Scheduler Partitioner)
    (numBits : Nat) (rng : σ) : R (Option (Loc × σ)) :=
  probLoop prof accept gen timer fuel 0 (Loc.init scheduler numBits) rng

/-- `for m in best[i..].iter_mut() { *m = mem }`, search.rs:129-131. -/
def fillFrom (best : List Nat) (i mem : Nat) : List Nat :=
  best.mapIdx fun j m => if i ≤ j then mem else m

/-- The filter loop of `search`, search.rs:124-134, over the remaining indices. -/
def filterLoop (results : MappedPaths) : List Nat → List Nat → MappedPaths → R MappedPaths
  | [], _, filtered => pure filtered
  | i :: is, best, filtered =>
    match results.get i with
    | none => filterLoop results is best filtered
    | some (mem, steps) => do
      let m ← idx best i
      if mem < m then
        filterLoop results is (fillFrom best i mem) (filtered.insert i (mem, steps))
      else
        filterLoop results is best filtered

/-- Insert before the first element with a larger key. -/
def insertByTime (p : Path) : List Path → List Path
  | [] => [p]
  | q :: l => if p.time ≤ q.time then p :: q :: l else q :: insertByTime p l

/-- `sort_by_key(|Path { time, .. }| *time)`, search.rs:140. Modelled by (stable) insertion sort; the
result of a stable sort does not depend on the algorithm. -/
def sortByTime : List Path → List Path
  | [] => []
  | p :: l => insertByTime p (sortByTime l)

/-- The end of `search`, search.rs:121-142: drop dominated results and sort by time. `hashIter` is
the (arbitrary) iteration order of the hash map `filtered_results`. -/
def postprocess (hashIter : MappedPaths → MappedPaths) (numBits : Nat) (results : MappedPaths) :
    R (List Path) := do
  let filtered ← filterLoop results (List.range (numBits + 1))
    (List.replicate (numBits + 1) usizeMax) []
  let paths := (hashIter filtered).map fun e => (⟨e.1, e.2.1, e.2.2⟩ : Path)
  pure (sortByTime paths)

/-- The scheduler built at the beginning of `search`, search.rs:94-101. -/
def mkScheduler (spacialGraph : List (List Nat)) (timeOrdering : OrderGraph) :
    R (Scheduler Partitioner) := do
  let time ← PathGenerator.fromDependencyGraph (T := Partitioner) timeOrdering
    (dependencyBufferNew spacialGraph.length) none
  pure ⟨time, Graph.new spacialGraph⟩

/-- `search` with `nthreads < 2` and no accept function, search.rs:86-143. -/
def searchDet (prof : Profile) (hashIter : MappedPaths → MappedPaths) (timer : Nat → Bool)
    (fuel : Nat) (spacialGraph : List (List Nat)) (timeOrdering : OrderGraph) :
    R (Option (List Path)) := do
  let scheduler ← mkScheduler spacialGraph timeOrdering
  match ← doSearch prof timer fuel scheduler spacialGraph.length with
  | none => pure none
  | some s => do
    let out ← postprocess hashIter spacialGraph.length s.results
    pure (some out)

/-- `search` with `nthreads < 2` and an accept function, search.rs:86-143. -/
def searchProb {F σ : Type} [FloatOps F] (prof : Profile) (hashIter : MappedPaths → MappedPaths)
    (accept : Accept F) (gen : Rng F σ) (rng : σ) (timer : Nat → Bool) (fuel : Nat)
    (spacialGraph : List (List Nat)) (timeOrdering : OrderGraph) : R (Option (List Path)) := do
  let scheduler ← mkScheduler spacialGraph timeOrdering
  match ← doProbabilisticSearch prof accept gen timer fuel scheduler spacialGraph.length rng with
  | none => pure none
  | some (s, _) => do
    let out ← postprocess hashIter spacialGraph.length s.results
    pure (some out)

end Search
end Verif
