import Verif.Proofs.Lonely
import Verif.Props.Refresh
import Verif.Props.SeedProps
/-!
# One qubit to begin with

`OneFirst P b`: `b` is the only qubit that waits for nothing, so that every schedule begins with it.
-/

namespace Verif

open Spec Search Search.Threaded Example

variable {F σ : Type} [FloatOps F] {P : Problem}

/-- **C84** If only one qubit waits for nothing, an uninterrupted exhaustive search with threads returns exactly what it
returns without: the same paths, not only the same costs, whatever the interleaving, the number of threads and the task bound
are, and however often the tables are refreshed. -/
theorem C84_same {b : Nat} (hP : P.WF) (h1 : OneFirst P b) {env : Env F σ} {args : Args F}
    (hs : args.doSearch = true) (hn : 2 ≤ args.nthreads) (hp : args.probabilistic = none) (ht : args.timeout = none)
    {out : List Path} (h : run env P.graph P.order args = .ok (some out)) :
    ∃ N, ∀ fuel, N ≤ fuel → run { env with fuel } P.graph P.order { args with nthreads := 1 } = .ok (some out) := by
  rw [run, hs, Bool.not_true, if_neg (by simp), Verif.search.eq_def, if_neg (by omega), hp] at h
  obtain ⟨K, N, hK, hN⟩ := searchThreaded_one (cut := False) hP h1 (by
    intro m hm
    obtain ⟨_, _, rfl⟩ := List.mem_map.1 hm
    simp [ht]) h
  cases K with
  | some k => exact (hK rfl).elim
  | none => ?_
  refine ⟨N, fun fuel hf => ?_⟩
  rw [run]
  simp only [hs, Bool.not_true, Bool.false_eq_true, if_false, Verif.search, hp, ht, Option.isSome_none, Bool.false_and,
    show (1 : Nat) < 2 by decide, if_true]
  exact hN fuel hf

/-- **C84** So nothing depends on the interleaving: two such searches return the same paths. -/
theorem C84_unique {b : Nat} (hP : P.WF) (h1 : OneFirst P b) {env : Env F σ} {args : Args F}
    (hs : args.doSearch = true) (hn : 2 ≤ args.nthreads) (hp : args.probabilistic = none) (ht : args.timeout = none)
    {n : Nat} {tb : Option Nat} {moves : List (Nat × Bool)} (hn' : 2 ≤ n) {out out' : List Path}
    (h : run env P.graph P.order args = .ok (some out))
    (h' : run { env with moves } P.graph P.order { args with nthreads := n, taskBound := tb } = .ok (some out')) :
    out = out' := by
  obtain ⟨N, hN⟩ := C84_same hP h1 hs hn hp ht h
  obtain ⟨N', hN'⟩ := C84_same (env := { env with moves }) (args := { args with nthreads := n, taskBound := tb }) hP h1 hs hn' hp
    ht h'
  have e := hN (max N N') (Nat.le_max_left _ _)
  have e' := hN' (max N N') (Nat.le_max_right _ _)
  rw [run] at e e'
  simp only [hs, Bool.not_true, Bool.false_eq_true, if_false, Verif.search, hp, show (1 : Nat) < 2 by decide, if_true] at e e'
  rw [e] at e'
  simpa using e'

/-- **C84** In particular the refresh loses nothing then (C28): every valid schedule is dominated. -/
theorem C84_complete {b : Nat} (hP : P.WF) (h1 : OneFirst P b) {env : Env F σ} (he : env.OK) {args : Args F}
    (hs : args.doSearch = true) (hn : 2 ≤ args.nthreads) (hp : args.probabilistic = none) (ht : args.timeout = none)
    {out : List Path} (h : run env P.graph P.order args = .ok (some out)) :
    ∀ S, P.Valid S → ∃ p ∈ out, p.time ≤ S.length ∧ p.space ≤ P.peak S := by
  obtain ⟨N, hN⟩ := C84_same hP h1 hs hn hp ht h
  have hb : P.bits ≠ [] := List.ne_nil_of_mem h1.1
  exact C07_exhaustive (env := { env with fuel := N }) (args := { args with nthreads := 1 }) hP hb he
    ⟨hs, Nat.lt_succ_self 1, hp, Or.inl ht⟩ (hN N (Nat.le_refl _))

theorem free_iff {P : Problem} {c : Nat} : (∀ d, ¬ P.Needs c d) ↔ ∀ e ∈ P.entries, e.1 = c → e.2 = [] := by
  constructor
  · rintro h ⟨_, ds⟩ he rfl
    exact List.eq_nil_iff_forall_not_mem.2 fun d hd => h d ⟨ds, he, hd⟩
  · rintro h d ⟨ds, he, hd⟩
    have h1 : ds = [] := h _ he rfl
    rw [h1] at hd
    exact nomatch hd

/-- **C84** refuted for two: with exactly two qubits that wait for nothing the result with two threads can differ from the
result with one, even in the costs. -/
theorem C84_two_refuted : ¬ ∀ (P : Problem) (moves : List (Nat × Bool)) (out : List Path), P.WF →
    (∃ b ∈ P.bits, ∃ c ∈ P.bits, b ≠ c ∧ ∀ d ∈ P.bits, (∀ e, ¬ P.Needs d e) ↔ d = b ∨ d = c) →
    possible (demo 0 moves) P.graph P.order { doSearch := true, nthreads := 2 } = .ok true →
    run (demo 0 moves) P.graph P.order { doSearch := true, nthreads := 2 } = .ok (some out) →
    ∃ N, ∃ out', run (demo N []) P.graph P.order { doSearch := true, nthreads := 1 } = .ok (some out') ∧
      out.map (fun p => (p.time, p.space)) = out'.map (fun p => (p.time, p.space)) := by
  intro h
  obtain ⟨N, out', h1, h2⟩ := h twoSix _ _ twoSix_wf ⟨0, by decide, 1, by decide, by decide, by
    simp only [free_iff]
    decide +kernel⟩ twoSix_possible twoSix_run
  obtain ⟨p, hp, h3, h4⟩ := C07_exhaustive twoSix_wf (by decide) (demo_ok _ _) ⟨rfl, Nat.lt_succ_self 1, rfl, Or.inl rfl⟩ h1
    [[0, 1], [2, 3, 4], [5, 6, 7]] (valid_of_check (by decide +kernel))
  have h5 : (p.time, p.space) ∈ out'.map (fun p => (p.time, p.space)) := List.mem_map_of_mem hp
  have h6 : twoSix.peak [[0, 1], [2, 3, 4], [5, 6, 7]] = 3 := by decide +kernel
  rw [h6] at h4
  rw [← h2] at h5
  simp at h5 h3
  omega

/-- A single qubit. -/
def single : Problem := ⟨[[]], [[(0, [])]]⟩

theorem single_first : single.WF ∧ OneFirst single 0 := by
  refine ⟨wf_of_check (by decide +kernel), by decide, ?_⟩
  simp only [free_iff]
  decide +kernel

/-- **C84** refuted for the approximate search: with an accept function that rejects everything the search without threads
returns nothing, but with threads the first steps are made without asking, and a task whose first step is already a schedule
returns it. -/
theorem C84_approximate_refuted : ¬ ∀ (P : Problem) (b : Nat) (accept : Accept Bool) (moves : List (Nat × Bool))
    (out : List Path), P.WF → OneFirst P b →
    run (demo 0 moves) P.graph P.order { doSearch := true, nthreads := 2, probabilistic := some (accept, none) } =
      .ok (some out) →
    ∃ N, run (demo N []) P.graph P.order { doSearch := true, nthreads := 1, probabilistic := some (accept, none) } =
      .ok (some out) := by
  intro h
  obtain ⟨N, hN⟩ := h single 0 (fun _ _ _ _ _ _ _ => false) (inOrder 3 9) [⟨1, 1, [[0]]⟩] single_first.1 single_first.2
    (by decide +kernel)
  have h1 : run (demo 9 []) single.graph single.order
      { doSearch := true, nthreads := 1, probabilistic := some (fun _ _ _ _ _ _ _ => false, none) } = .ok (some []) := by
    decide +kernel
  have h2 := run_fuel (Or.inr (Nat.lt_succ_self 1)) h1 (Nat.le_max_left 9 N)
  have h3 := run_fuel (Or.inr (Nat.lt_succ_self 1)) hN (Nat.le_max_right 9 N)
  exact absurd (h2.symm.trans h3) (by simp)

/-- One qubit, then three more in any order. -/
def fan : Problem := ⟨List.replicate 4 [], [[(0, [])], [(1, [0]), (2, [0]), (3, [0])]]⟩

/-- Both kinds of search return the same three paths. -/
example : fan.WF ∧ OneFirst fan 0 ∧
    run (demo 0 (roundRobin 2 30)) fan.graph fan.order { doSearch := true, nthreads := 2 } =
      .ok (some [⟨2, 3, [[0], [1, 2, 3]]⟩, ⟨3, 2, [[0], [2, 3], [1]]⟩, ⟨4, 1, [[0], [3], [2], [1]]⟩]) ∧
    run (demo 40 []) fan.graph fan.order { doSearch := true } =
      .ok (some [⟨2, 3, [[0], [1, 2, 3]]⟩, ⟨3, 2, [[0], [2, 3], [1]]⟩, ⟨4, 1, [[0], [3], [2], [1]]⟩]) := by
  refine ⟨wf_of_check (by decide +kernel), ⟨by decide, ?_⟩, by decide +kernel, by decide +kernel⟩
  simp only [free_iff]
  decide +kernel

end Verif
