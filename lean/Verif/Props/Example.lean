import Verif.Proofs.RunAll
import Verif.Proofs.Pool
/-!
# A concrete input used for the non-vacuity examples

The example of the documentation (xdocs/scheduler.md): a square graph `0-1, 0-2, 1-3, 3-2` with the
ordering `0 → 3 → 2`, `0 → 1`.
-/

namespace Verif.Example

open Spec Search Search.Threaded

/-- The documentation's example. -/
def docs : Problem :=
  ⟨[[1, 2], [0, 3], [0, 3], [1, 2]], [[(0, [])], [(3, [0]), (1, [0])], [(2, [3])]]⟩

/-- An input with a real trade-off: a star with three leaves, no dependencies. -/
def star : Problem :=
  ⟨[[1, 2, 3], [0], [0], [0]], [[(1, []), (2, []), (3, []), (0, [])]]⟩

/-- An edge, nothing to measure. -/
def emptyOrder : Problem := ⟨[[1], [0]], []⟩

/-- A checkable form of well-formedness. -/
def checkWF (P : Problem) : Bool :=
  decide P.bits.Nodup && P.bits.all (fun b => decide (b < P.n)) &&
  P.graph.all (fun l => l.all fun v => decide (v < P.n)) &&
  (List.range P.order.length).all (fun i => ((P.order[i]?).getD []).all fun e =>
    (decide (i = 0) == decide (e.2 = [])) && decide e.2.Nodup &&
    e.2.all fun d => (List.range i).any fun j => ((P.order[j]?).getD []).any fun e' => e'.1 == d) &&
  decide (P.n < 2 ^ 64 - 1)

theorem wf_of_check {P : Problem} (h : checkWF P = true) : P.WF := by
  simp only [checkWF, Bool.and_eq_true, decide_eq_true_eq, List.all_eq_true, List.mem_range,
    List.any_eq_true, beq_iff_eq] at h
  obtain ⟨⟨⟨⟨h1, h2⟩, h3⟩, h4⟩, h5⟩ := h
  refine ⟨h1, h2, h3, ?_, h5⟩
  intro i layer hl e he
  have hi := (List.getElem?_eq_some_iff.1 hl).1
  have h6 := h4 i hi e (by rw [hl]; exact he)
  obtain ⟨⟨h7, h8⟩, h9⟩ := h6
  refine ⟨by simpa using h7, h8, ?_⟩
  intro d hd
  obtain ⟨j, hj, e', he', hd'⟩ := h9 d hd
  have hjl : j < P.order.length := by omega
  refine ⟨j, hj, P.order[j], by simp [hjl], e', ?_, hd'⟩
  simpa [hjl] using he'

theorem docs_wf : docs.WF := wf_of_check (by decide +kernel)
theorem star_wf : star.WF := wf_of_check (by decide +kernel)
theorem emptyOrder_wf : emptyOrder.WF := wf_of_check (by decide +kernel)

/-- A checkable form of validity. -/
def checkValid (P : Problem) (S : Schedule) : Bool :=
  S.all (fun s => !s.isEmpty) && decide (S.flatten.Perm P.bits) &&
  (List.range S.length).all fun i => ((S[i]?).getD []).all fun b =>
    P.entries.all fun e => !(e.1 == b) || e.2.all fun d => (S.take i).flatten.contains d

theorem valid_of_check {P : Problem} {S : Schedule} (h : checkValid P S = true) : P.Valid S := by
  simp only [checkValid, Bool.and_eq_true, List.all_eq_true, decide_eq_true_eq, List.mem_range,
    Bool.or_eq_true, Bool.not_eq_true', beq_eq_false_iff_ne, List.contains_iff_mem] at h
  obtain ⟨⟨h1, h2⟩, h3⟩ := h
  refine ⟨fun s hs => by simpa using h1 s hs, h2, ?_⟩
  intro i s hs b hb d ⟨ds, hds, hd⟩
  have hi := (List.getElem?_eq_some_iff.1 hs).1
  rcases h3 i hi b (by rw [hs]; exact hb) (b, ds) hds with h4 | h4
  · exact (h4 rfl).elim
  · have := h4 d hd
    obtain ⟨j, s', hj, hds'⟩ := mem_flatten_iff.1 this
    rw [List.getElem?_take] at hj
    split at hj
    · exact ⟨j, s', by omega, hj, hds'⟩
    · simp at hj

/-- A toy float for the examples: an accept function answers "always" or "never". -/
instance : FloatOps Bool := ⟨fun _ => true, id, fun _ a => a⟩

/-- An environment: debug build, insertion order, the timer does not fire, one task after the other
in the pool. -/
def demo (fuel : Nat) (moves : List (Nat × Bool)) : Env Bool Unit where
  prof := .debug
  hashIter := id
  timer := fun _ => false
  seedRng := fun _ => ()
  gen := ⟨fun _ => (true, ())⟩
  drawSeed := fun s => (0, s)
  moves := moves
  fuel := fuel

theorem demo_ok (fuel : Nat) (moves : List (Nat × Bool)) : (demo fuel moves).OK :=
  fun m => List.Perm.refl m

/-- Each of `k` tasks moves `r` times, round robin. -/
def roundRobin (k r : Nat) : List (Nat × Bool) :=
  (List.range r).flatMap fun _ => (List.range k).map fun i => (i, false)

/-- Each of `k` tasks moves `r` times, one task after the other. -/
def inOrder (k r : Nat) : List (Nat × Bool) := (List.range k).flatMap fun i => List.replicate r (i, false)

/-- As `inOrder`, for `2 * k` tasks, but the two tasks of each pair the other way around: two workers can do that. -/
def swapped (k r : Nat) : List (Nat × Bool) :=
  (List.range k).flatMap fun i => List.replicate r (2 * i + 1, false) ++ List.replicate r (2 * i, false)

theorem inOrder_sorted (k r : Nat) : ((inOrder k r).map (·.1)).Pairwise (· ≤ ·) := by
  unfold inOrder
  rw [List.map_flatMap]
  simp only [List.map_replicate]
  rw [List.pairwise_flatMap]
  refine ⟨fun i _ => List.pairwise_replicate.2 (Or.inr (Nat.le_refl i)), ?_⟩
  refine List.pairwise_lt_range.imp fun {a b} hab x hx y hy => ?_
  rw [List.eq_of_mem_replicate hx, List.eq_of_mem_replicate hy]
  exact Nat.le_of_lt hab

theorem docs_run : run (demo 100 []) docs.graph docs.order { doSearch := true } =
    .ok (some [⟨3, 3, [[0], [3, 1], [2]]⟩]) := by decide +kernel

theorem star_run : run (demo 1000 []) star.graph star.order { doSearch := true } =
    .ok (some [⟨1, 4, [[1, 2, 3, 0]]⟩, ⟨2, 3, [[2, 3], [1, 0]]⟩, ⟨3, 2, [[3], [2], [1, 0]]⟩]) := by
  decide +kernel

theorem star_run_threads : run (demo 0 (swapped 8 60)) star.graph star.order
      { doSearch := true, nthreads := 4 } =
    .ok (some [⟨1, 4, [[1, 2, 3, 0]]⟩, ⟨2, 3, [[2, 3], [1, 0]]⟩, ⟨3, 2, [[2], [3], [1, 0]]⟩]) := by
  decide +kernel

theorem star_possible : possible (demo 0 (swapped 8 60)) star.graph star.order { doSearch := true, nthreads := 2 } =
    .ok true := by decide +kernel

end Verif.Example
