import Verif.Props.Run
import Verif.Props.AcceptProps
import Verif.Props.PythonProps
import Verif.Proofs.CallbackAsked
import Verif.Proofs.CallbackCalls
/-!
# Accept functions with a state, and accept functions that fail

`runS env cb w seed` is `run` with an accept function `cb` that starts in the state `w` and may panic at any call.
-/

namespace Verif

open Spec Search Search.Threaded Example Callbacks

section

variable {F σ ω : Type} [FloatOps F] {P : Problem} {env : Env F σ} {cb : Callback F ω} {w : ω} {seed : Option Nat}
  {args : Args F} {out : List Path}

/-- **C66** Whatever the accept function remembers: every path that is returned is a valid schedule with its exact costs,
and the list is strictly monotone, in every mode. -/
theorem C66_paths (hP : P.WF) (he : env.OK) (h : runS env cb w seed P.graph P.order args = .ok (some out)) :
    (∀ p ∈ out, P.Valid p.steps ∧ p.time = p.steps.length ∧ p.space = P.peak p.steps) ∧
      out.Pairwise fun a b => a.time < b.time ∧ b.space < a.space := by
  rcases runS_lift env cb w seed P.graph P.order args with ⟨dec, h1⟩ | ⟨e, h1, _⟩
  · rw [h1] at h
    have he' : (decided env dec).OK := he
    exact ⟨fun p hp => ⟨C01_valid hP he' h p hp, C02_time hP he' h p hp, (C03_space hP he' h p hp).2.2⟩,
      C08_monotone hP he' h⟩
  · rw [h1] at h
    cases h

/-- **C66** A panic of `run` on a well-formed input is a panic of the accept function. -/
theorem C66_raise (hP : P.WF) (he : env.OK) {e : Panic} (h : runS env cb w seed P.graph P.order args = .error e) :
    ∃ a b c d f g i w', cb a b c d f g i w' = .error e := by
  rcases runS_lift env cb w seed P.graph P.order args with ⟨dec, h1⟩ | ⟨e', h1, h2⟩
  · rw [h1] at h
    exact (C13_no_panic hP (decided env dec) he _ e h).elim
  · rw [h1] at h
    cases h
    exact h2

/-- **C66** In a single-threaded search it is one at a question that belongs to the search (`Asked`, C52): seven numbers
computed from a partial schedule and the paths found so far. So a callback that would divide by zero for other
arguments only never panics. -/
theorem C66_question (hP : P.WF) (he : env.OK) (ht : args.nthreads < 2) {e : Panic}
    (h : runS env cb w seed P.graph P.order args = .error e) :
    ∃ found p m q w', Asked P found p m q ∧ askS q cb w' = .error e := by
  by_cases hd : args.doSearch = true
  · unfold runS at h
    rw [hd, Bool.not_true, if_neg (by simp), if_pos ht] at h
    exact searchProbS_raise hP he h
  · have h1 : run env P.graph P.order { doSearch := false, probabilistic := none } = .error e := by
      unfold runS at h
      unfold run
      simp only [hd, Bool.not_false, if_true] at h ⊢
      exact h
    exact (C13_no_panic hP env he _ e h1).elim

/-- **C66** A search ends as soon as one with an accept function without a state: there is a bound on the iterations that
depends on the number of qubits only. -/
theorem C66_terminates (u : Nat) : ∃ N : Nat, ∀ {F σ ω : Type} [FloatOps F] (P : Problem) (env : Env F σ)
    (cb : Callback F ω) (w : ω) (seed : Option Nat) (args : Args F),
    P.WF → P.bits.length = u → env.OK → N ≤ env.fuel → (∀ i, i < 2 ^ u + 1 → N ≤ (env.moves.map (·.1)).count i) →
    (∃ out, runS env cb w seed P.graph P.order args = .ok (some out)) ∨
      ∃ e, runS env cb w seed P.graph P.order args = .error e := by
  obtain ⟨N, h⟩ := C12_terminates u
  refine ⟨N, fun P env cb w seed args hP hu he hf hm => ?_⟩
  rcases runS_lift env cb w seed P.graph P.order args with ⟨dec, h1⟩ | ⟨e, h1, _⟩
  · obtain ⟨out, h2⟩ := h P (decided env dec)
      { doSearch := args.doSearch, timeout := args.timeout, nthreads := args.nthreads, taskBound := args.taskBound
        probabilistic := some (follow, seed) } hP hu he hf hm
    exact Or.inl ⟨out, h1.trans h2⟩
  · exact Or.inr ⟨e, h1⟩

/-- **C66** A state that is not used for the answers changes nothing, in every mode; nor does one that is used only to
choose between answers of at least 1. -/
theorem C66_same {f : Accept F}
    (h : ∀ a b c d e g i w, ∃ x w', cb a b c d e g i w = .ok (x, w') ∧
      (x = f a b c d e g i ∨ FloatOps.geOne x = true ∧ FloatOps.geOne (f a b c d e g i) = true))
    (L : List (List Nat)) (o : OrderGraph) :
    runS env cb w seed L o args = run env L o { args with probabilistic := some (f, seed) } :=
  runS_same h env w seed L o args

end

/-- **C66** The state is passed from call to call: a returned path of `t` steps has cost at least `t` calls, or `t - 1` with
threads, where the first step of a task is not asked about. Here `calls` is any measure of the state that every call raises, up
to at most `k`; the input is arbitrary. (With threads the bound is for each path. It does not say that calls for different tasks
add up.) -/
theorem C66_calls {F σ ω : Type} [FloatOps F] {env : Env F σ} {cb : Callback F ω} {w : ω} {seed : Option Nat}
    {args : Args F} {out : List Path} {L : List (List Nat)} {o : OrderGraph} (he : env.OK) (hd : args.doSearch = true)
    {calls : ω → Nat} {k : Nat} (hw : calls w ≤ k)
    (hc : ∀ a b c d e f g w x w', cb a b c d e f g w = .ok (x, w') → calls w < calls w' ∧ calls w' ≤ k)
    (h : runS env cb w seed L o args = .ok (some out)) :
    ∀ p ∈ out, p.time + calls w ≤ k + if args.nthreads < 2 then 0 else 1 := by
  unfold runS at h
  rw [hd, Bool.not_true, if_neg (by simp)] at h
  by_cases ht : args.nthreads < 2
  · rw [if_pos ht] at h ⊢
    exact searchProbS_le hc env.prof he _ hw _ _ L o _ h out rfl
  · rw [if_neg ht] at h ⊢
    exact searchThreadedS_le hc env.prof he hw _ _ _ L o _ h out rfl

/-- **C66** A failure is not swallowed: the first question of a single-threaded search is the same for all accept functions,
seeds, timers and build profiles, and a search with an accept function that fails at this question panics. -/
theorem C66_first {P : Problem} (hP : P.WF) (hb : P.bits ≠ []) :
    ∃ m q, Asked P [] [] m q ∧ ∀ {F σ ω : Type} [FloatOps F] (env : Env F σ) (cb : Callback F ω) (w : ω)
      (seed : Option Nat) (args : Args F) (e : Panic), 0 < env.fuel → args.doSearch = true → args.nthreads < 2 →
      askS q cb w = .error e → runS env cb w seed P.graph P.order args = .error e := by
  obtain ⟨m, q, h1, h2⟩ := searchProbS_first hP hb
  refine ⟨m, q, h1, fun {F σ ω} _ env cb w seed args e hf hd ht h => ?_⟩
  unfold runS
  rw [hd, Bool.not_true, if_neg (by simp), if_pos ht]
  obtain ⟨fuel, hfuel⟩ : ∃ fuel, env.fuel = fuel + 1 := ⟨env.fuel - 1, by omega⟩
  rw [hfuel]
  exact h2 cb env.gen env.prof env.hashIter _ w _ fuel e h

example : star.WF ∧ star.bits ≠ [] := ⟨star_wf, by decide⟩

section Python

variable {F σ ω : Type} [FloatOps F] {P : Problem} {env : Env F σ} {func : PyCallback F ω} {w : ω} {seed : Option Nat}
  {args : Args F}

/-- **C66** A search with a Python callback (it runs in one thread, C36) panics on a well-formed input only if the callback
has raised, or returned something that is not a number, at a question of the search. -/
theorem C66_python (hP : P.WF) (he : env.OK) (ht : args.nthreads < 2) {e : Panic}
    (h : runS env func.toReal w seed P.graph P.order args = .error e) :
    e = .unwrapFailed ∧ ∃ found p m q w', Asked P found p m q ∧
      (func (FloatOps.ofUsize q.bound) (FloatOps.ofUsize q.minimal) (FloatOps.ofUsize q.lastMax)
        (FloatOps.ofUsize q.lastCur) (FloatOps.ofUsize q.cur) (FloatOps.ofUsize q.remaining)
        (FloatOps.ofUsize q.total) w').1 = .failed := by
  obtain ⟨found, p, m, q, w', h1, h2⟩ := C66_question hP he ht h
  unfold askS PyCallback.toReal at h2
  split at h2
  · cases h2
  · rename_i w'' hf
    simp only [Except.error.injEq] at h2
    exact ⟨h2.symm, found, p, m, q, w', h1, by rw [hf]⟩

end Python

/-! ## Examples -/

/-- Accepts the first `k` questions, then rejects; the state is the number of questions so far. -/
def firstOnly (k : Nat) : Callback Bool Nat := fun _ _ _ _ _ _ _ n => .ok (decide (n < k), n + 1)

/-- Accepts the first `k` questions, then fails. -/
def failsAt (k : Nat) : PyCallback Bool Nat := fun _ _ _ _ _ _ _ n => (if n < k then .number true else .failed, n + 1)

-- the first question of the star leads to the shortest path; the search goes on and the second is rejected
example : runS (demo 1000 []) (firstOnly 1) 0 none star.graph star.order { doSearch := true } =
    .ok (some [⟨1, 4, [[1, 2, 3, 0]]⟩]) := by decide +kernel

-- the path that has been found is lost if the second call fails
example : runS (demo 1000 []) (failsAt 1).toReal 0 none star.graph star.order { doSearch := true } =
    .error .unwrapFailed := by decide +kernel

-- enough answers: the failure does not happen
example : runS (demo 1000 []) (failsAt 1000).toReal 0 none star.graph star.order { doSearch := true } =
    .ok (some [⟨1, 4, [[1, 2, 3, 0]]⟩, ⟨2, 3, [[2, 3], [1, 0]]⟩, ⟨3, 2, [[3], [2], [1, 0]]⟩]) := by decide +kernel

-- several threads share the state
example : runS (demo 0 (roundRobin 16 60)) (firstOnly 5) 0 none star.graph star.order { doSearch := true, nthreads := 4 } =
    .ok (some [⟨1, 4, [[1, 2, 3, 0]]⟩]) := by decide +kernel

/-- Rejects everything but the first question, and fails after nine. -/
def nineCalls : Callback Bool Nat := fun _ _ _ _ _ _ _ n => if n < 9 then .ok (decide (n < 1), n + 1) else .error .unwrapFailed

-- the hypotheses of `C66_calls` hold here
example : (∀ a b c d e f g w x w', nineCalls a b c d e f g w = .ok (x, w') → w < w' ∧ w' ≤ 9) ∧
    runS (demo 1000 []) nineCalls 0 none star.graph star.order { doSearch := true } =
      .ok (some [⟨1, 4, [[1, 2, 3, 0]]⟩]) := by
  refine ⟨fun a b c d e f g w x w' h => ?_, by decide +kernel⟩
  unfold nineCalls at h
  split at h
  · simp only [Except.ok.injEq, Prod.mk.injEq] at h
    omega
  · cases h

-- a callback that counts its calls and answers as a function does
example : ∀ f : Accept Bool, ∀ n : Nat, runS (demo 1000 []) (fun a b c d e g i n => .ok (f a b c d e g i, n + 1)) n none star.graph
    star.order { doSearch := true } =
    run (demo 1000 []) star.graph star.order { doSearch := true, probabilistic := some (f, none) } :=
  fun f _ => C66_same (f := f) (fun _ _ _ _ _ _ _ n => ⟨_, n + 1, rfl, Or.inl rfl⟩) _ _

/-- A toy float that keeps the numbers. -/
local instance : FloatOps Nat := ⟨id, fun x => decide (1 ≤ x), fun x y => decide (x < y)⟩

/-- Fails if `num_total_nodes <= num_remaining_nodes` or `bound_best_mem <= last_max_mem`. -/
def divides : Callback Nat Unit := fun bound _ lastMax _ _ remaining total _ =>
  if total ≤ remaining ∨ bound ≤ lastMax then .error .unwrapFailed else .ok (1, ())

-- a callback that divides by these differences never fails
example {P : Problem} (hP : P.WF) {env : Env Nat Unit} (he : env.OK) (args : Args Nat) (ht : args.nthreads < 2) (e : Panic) :
    runS env divides () none P.graph P.order args ≠ .error e := by
  intro h
  obtain ⟨found, p, m, q, w', h1, h2⟩ := C66_question hP he ht h
  have h3 := h1.remaining_lt hP
  have h4 := h1.total
  have h5 := h1.below
  have h6 := h1.lastMax
  have h7 : P.peak p ≤ P.peak (p ++ [m]) := peak_le_append P p [m]
  have h8 : askS q divides w' = if q.total ≤ q.remaining ∨ q.bound ≤ q.lastMax then .error .unwrapFailed else .ok (1, ()) :=
    rfl
  rw [h8, if_neg (by omega)] at h2
  cases h2

/-- **C66** The documentation says that fixing the seed does not ensure reproducibility if multithreaded (lib.rs:187-192).
With a callback that has a state it does not if single-threaded either: two calls with the same arguments, the
second with the state that the first has left. -/
theorem C66_seed_refuted : ¬ ∀ (P : Problem) (env : Env Bool Unit) (cb : Callback Bool Nat) (w w' : Nat) (seed : Nat)
    (args : Args Bool), P.WF → env.OK → args.nthreads = 1 →
    runS env cb w (some seed) P.graph P.order args = runS env cb w' (some seed) P.graph P.order args := by
  intro h
  have := h star (demo 1000 []) (firstOnly 1) 0 1 7 { doSearch := true, nthreads := 1 } star_wf (demo_ok _ _) rfl
  revert this
  decide +kernel

end Verif
