import Verif.Proofs.Sound
import Verif.Proofs.Profile
import Verif.Props.NeighbourProps
/-!
# Inputs about which nothing is known

Qubits may be repeated in the ordering, the numbers may be anything, the dependencies too.
-/

namespace Verif

open Spec Problem Search Search.Threaded Example

/-- `b` has an entry that lists `d`, in a layer after all layers with `d`. -/
def Spec.Problem.DependsOn (P : Problem) (b d : Nat) : Prop :=
  ∃ pre layer post ds, P.order = pre ++ layer :: post ∧ d ∈ layer.map (·.1) ∧ d ∉ post.flatten.map (·.1) ∧
    (b, ds) ∈ post.flatten ∧ d ∈ ds

/-- The qubits of the first layer. -/
def Spec.Problem.firstLayer (P : Problem) : List Nat := (P.order.headD []).map (·.1)

/-- Clipping the neighbour lists does not change the costs of schedules. -/
theorem clipped_peak (P : Problem) (S : Schedule) : P.clipped.peak S = P.peak S := by
  have hn : P.clipped.n = P.n := by simp [Spec.Problem.clipped, Problem.n]
  have hnb : ∀ u v, v < P.n → (v ∈ P.clipped.nbrs u ↔ v ∈ P.nbrs u) := by
    intro u v hv
    simp only [Spec.Problem.clipped, Problem.nbrs, List.getD_eq_getElem?_getD, List.getElem?_map]
    cases P.graph[u]? with
    | none => simp
    | some l => simp [hv]
  unfold Problem.peak
  congr 1
  refine List.map_congr_left fun k _ => ?_
  unfold Problem.memAt
  rw [hn]
  congr 1
  refine List.filter_congr fun v hv => ?_
  rw [List.mem_range] at hv
  unfold Problem.inMemory
  simp only
  congr 2
  rw [Bool.eq_iff_iff]
  simp only [List.any_eq_true, List.contains_iff_mem, hnb _ v hv]

section

variable {F σ : Type} [FloatOps F] {P : Problem} {env : Env F σ} {args : Args F} {out : List Path}

theorem clipped_sound (he : env.OK) (h : run env P.graph P.order args = .ok (some out)) :
    (∀ p ∈ out, Trace.Sound P.clipped env.prof p) ∧ out.Pairwise fun a b => a.time < b.time ∧ b.space < a.space :=
  Trace.run_sound (P := P.clipped) (by
    intro l hl v hv
    simp only [Spec.Problem.clipped, List.mem_map] at hl
    obtain ⟨l', _, rfl⟩ := hl
    simp only [List.mem_filter, decide_eq_true_eq] at hv
    simpa [Spec.Problem.clipped, Problem.n] using hv.2) env he args _ (C61_no_difference h).1 out rfl

/-- **C62** Nothing is assumed about the input. In every mode and both build profiles: the time is the number of steps, no
step is empty, only nodes that the ordering mentions are measured, the list is strictly monotone, and the space is exact if
no qubit is measured twice. -/
theorem C62_paths (he : env.OK) (h : run env P.graph P.order args = .ok (some out)) :
    (∀ p ∈ out, p.time = p.steps.length ∧ (∀ s ∈ p.steps, s ≠ []) ∧
      (∀ b ∈ p.steps.flatten, b ∈ P.bits ∧ b < P.n) ∧ (p.steps.flatten.Nodup → p.space = P.peak p.steps)) ∧
      out.Pairwise fun a b => a.time < b.time ∧ b.space < a.space := by
  obtain ⟨h1, h2⟩ := clipped_sound he h
  refine ⟨fun p hp => ?_, h2⟩
  obtain ⟨a1, a2, a3, a4, _, _⟩ := h1 p hp
  refine ⟨a1, a2, fun b hb => ⟨(a3 b hb).1, ?_⟩, fun hn => ?_⟩
  · have := (a3 b hb).2
    simpa [Spec.Problem.clipped, Problem.n] using this
  · rw [← clipped_peak]
    exact a4 hn

/-- **C62** A debug build never returns a path in which a qubit is measured twice, and never a wrong space. -/
theorem C62_debug (he : env.OK) (hd : env.prof = .debug) (h : run env P.graph P.order args = .ok (some out)) :
    ∀ p ∈ out, p.steps.flatten.Nodup ∧ p.space = P.peak p.steps := by
  intro p hp
  have hn := ((clipped_sound he h).1 p hp).debug hd
  exact ⟨hn, ((C62_paths he h).1 p hp).2.2.2 hn⟩

/-- **C62** In both build profiles: a qubit that is not in the first layer is measured after all qubits that it depends on
(as far as they are measured in the path at all). -/
theorem C62_order (he : env.OK) (h : run env P.graph P.order args = .ok (some out)) {b d : Nat}
    (hbd : P.DependsOn b d) (hf : b ∉ P.firstLayer) : ∀ p ∈ out, ∀ (i j : Nat) (s s' : List Nat),
    p.steps[i]? = some s → p.steps[j]? = some s' → b ∈ s → d ∈ s' → j < i :=
  fun p hp i j s s' hi hj hb hd => ((clipped_sound he h).1 p hp).order i j s s' b d hi hj hb hd hbd hf

/-- **C63** Nothing is assumed about the input: what a debug build returns, a release build returns too. -/
theorem C63_debug_release (env : Env F σ) (L : List (List Nat)) (order : OrderGraph) (args : Args F)
    {r : Option (List Path)} (h : run { env with prof := .debug } L order args = .ok r) :
    run { env with prof := .release } L order args = .ok r := Refine.run_le env L order args r h

/-- **C63** If a release build panics, then so does a debug build. -/
theorem C63_panic (env : Env F σ) (L : List (List Nat)) (order : OrderGraph) (args : Args F) {e : Panic}
    (h : run { env with prof := .release } L order args = .error e) :
    ∃ e', run { env with prof := .debug } L order args = .error e' := by
  cases hd : run { env with prof := .debug } L order args with
  | error e' => exact ⟨e', rfl⟩
  | ok r =>
    rw [C63_debug_release env L order args hd] at h
    cases h

/-- **C63** If a debug build does not panic, then the paths of a release build are right. -/
theorem C63_release (he : env.OK) {r : Option (List Path)}
    (hd : run { env with prof := .debug } P.graph P.order args = .ok r)
    (h : run { env with prof := .release } P.graph P.order args = .ok (some out)) :
    ∀ p ∈ out, p.steps.flatten.Nodup ∧ p.space = P.peak p.steps := by
  have := C63_debug_release env _ _ _ hd
  rw [h] at this
  cases this
  exact C62_debug (env := { env with prof := .debug }) he rfl hd

end

/-- The release version of `demo`. -/
def demoRelease (fuel : Nat) (moves : List (Nat × Bool)) : Env Bool Unit := { demo fuel moves with prof := .release }

/-- Qubit 0 is twice in the first layer. -/
def twiceFirst : Problem :=
  ⟨[[1, 2, 3, 4], [0, 5, 6], [0], [0], [0], [1], [1]], [[(0, []), (0, [])], [(1, [0, 0])]]⟩

/-- Qubit 1 is repeated in the second layer. -/
def twiceLater : Problem := ⟨[[1], [0, 2], [1]], [[(0, [])], [(1, [0]), (1, [0, 0])], [(2, [1])]]⟩

/-- Qubit 1 is in the first layer and once more later. -/
def twiceLayers : Problem := ⟨[[1], [0, 2], [1], []], [[(0, []), (1, [])], [(1, [0, 3])]]⟩

-- ill-formed inputs on which a debug build returns paths
example : ¬ twiceLater.bits.Nodup ∧ twiceLater.DependsOn 1 0 ∧ 1 ∉ twiceLater.firstLayer ∧
    (∀ args : Args Bool, args = { doSearch := false } ∨ args = { doSearch := true } →
      run (demo 100 []) twiceLater.graph twiceLater.order args = .ok (some [⟨3, 2, [[0], [1], [2]]⟩])) ∧
    run (demo 100 []) twiceLayers.graph twiceLayers.order { doSearch := true } =
      .ok (some [⟨1, 3, [[0, 1]]⟩, ⟨2, 2, [[0], [1]]⟩]) := by
  refine ⟨by decide, ⟨[], [(0, [])], _, [0], rfl, by decide, by decide, by decide, by decide⟩, by decide, ?_,
    by decide +kernel⟩
  rintro args (rfl | rfl) <;> decide +kernel

/-- **C62** A release build can measure a qubit twice and report a space that is too small, in every mode. -/
theorem C62_release_refuted : ∀ (env : Env Bool Unit) (args : Args Bool),
    (env, args) = (demoRelease 100 [], { doSearch := false }) ∨ (env, args) = (demoRelease 100 [], { doSearch := true }) ∨
      (env, args) = (demoRelease 0 (inOrder 5 80), { doSearch := true, nthreads := 2 }) →
    ∃ p, possible env twiceFirst.graph twiceFirst.order args = .ok true ∧
      run env twiceFirst.graph twiceFirst.order args = .ok (some [p]) ∧ ¬ p.steps.flatten.Nodup ∧
      p.space < twiceFirst.peak p.steps := by
  intro env args h
  refine ⟨⟨2, 5, [[0, 0], [1]]⟩, ?_, ?_, by decide, by decide +kernel⟩ <;>
  · rcases h with h | h | h <;> cases h <;> decide +kernel

/-- **C62** The condition on the first layer is needed: qubit 1 depends on qubit 0, and both are measured in one step. -/
theorem C62_first_layer_refuted : ¬ ∀ (P : Problem) (env : Env Bool Unit) (args : Args Bool) (out : List Path) (b d : Nat),
    env.OK → run env P.graph P.order args = .ok (some out) → P.DependsOn b d → ∀ p ∈ out,
    ∀ (i j : Nat) (s s' : List Nat), p.steps[i]? = some s → p.steps[j]? = some s' → b ∈ s → d ∈ s' → j < i := by
  intro h
  have := h twiceLayers (demo 100 []) { doSearch := false } [⟨1, 3, [[0, 1]]⟩] 1 0 (demo_ok 100 []) (by decide +kernel)
    ⟨[], _, _, [0, 3], rfl, by decide, by decide, by decide, by decide⟩ _ (List.mem_singleton.2 rfl) 0 0 [0, 1] [0, 1] rfl rfl
    (by simp) (by simp)
  omega

/-- **C63** The converse is false: a debug build can panic where a release build returns a path. -/
theorem C63_converse_refuted : ¬ ∀ (env : Env Bool Unit) (L : List (List Nat)) (order : OrderGraph) (args : Args Bool)
    (r : Option (List Path)), run { env with prof := .release } L order args = .ok r →
    run { env with prof := .debug } L order args = .ok r := by
  intro h
  have := h (demo 100 []) twiceFirst.graph twiceFirst.order { doSearch := false } (some [⟨2, 5, [[0, 0], [1]]⟩])
    (by decide +kernel)
  revert this
  decide +kernel

-- hypotheses of C63 on an ill-formed input; and both builds panic
example : run { demo 100 [] with prof := .debug } twiceLater.graph twiceLater.order { doSearch := true } =
      .ok (some [⟨3, 2, [[0], [1], [2]]⟩]) ∧
    run { demo 100 [] with prof := .release } [[]] [[(1, [])]] { doSearch := true } = .error .indexOutOfBounds := by
  refine ⟨?_, ?_⟩ <;> decide +kernel

end Verif
