import Verif.Proofs.ClipRun
import Verif.Props.Malformed
import Verif.Props.MinTimeProps
/-!
# Neighbours that are not nodes

The adjacency lists of an input may contain numbers that are no nodes here.
-/

namespace Verif

open Spec Problem Search Search.Threaded Example Clip

/-- The problem without the neighbours that are no nodes. -/
def Spec.Problem.clipped (P : Problem) : Problem := ⟨P.graph.map fun l => l.filter fun v => decide (v < P.n), P.order⟩

/-- A qubit that has to be measured has a neighbour that is not a node. -/
def Spec.Problem.Stray (P : Problem) (b : Nat) : Prop := b ∈ P.bits ∧ ∃ v ∈ P.nbrs b, P.n ≤ v

theorem stray_iff {P : Problem} {b : Nat} : P.Stray b ↔ b ∈ P.bits ∧ ¬ GoodBit P.graph b := by
  unfold Spec.Problem.Stray GoodBit Problem.nbrs Problem.n
  refine and_congr_right fun _ => ?_
  constructor
  · rintro ⟨v, hv, h⟩ hg
    exact absurd (hg v hv) (by omega)
  · intro h
    by_contra hc
    exact h fun v hv => by
      by_contra hlt
      exact hc ⟨v, hv, by omega⟩

section

variable {F σ : Type} [FloatOps F] {P : Problem} {env : Env F σ} {args : Args F} {out : List Path}

theorem run_clipped (P : Problem) (env : Env F σ) (args : Args F) :
    Rel (∃ b, P.Stray b)
      (fun r => env.OK → ∀ out, r = some out → ∀ p ∈ out, ∀ b ∈ p.steps.flatten, GoodBit P.graph b) id
      (run env P.graph P.order args) (run env P.clipped.graph P.clipped.order args) := by
  rcases run_clip env P.graph P.order args with ⟨⟨b, hb, hg⟩, h⟩ | h | h
  · exact Or.inl ⟨⟨b, stray_iff.2 ⟨hb, hg⟩⟩, h⟩
  · exact Or.inr (Or.inl h)
  · exact Or.inr (Or.inr h)

/-- **C61** For all inputs whatsoever and in every mode: if there is no panic, then the numbers that are no nodes make no
difference, and no qubit of a returned path has such a neighbour. So there is never a wrong answer. -/
theorem C61_no_difference {r : Option (List Path)} (h : run env P.graph P.order args = .ok r) :
    run env P.clipped.graph P.clipped.order args = .ok r ∧
      (env.OK → ∀ out, r = some out → ∀ p ∈ out, ∀ b ∈ p.steps.flatten, ∀ v ∈ P.nbrs b, v < P.n) := by
  rcases run_clipped P env args with ⟨_, h'⟩ | ⟨v, h1, h2, h3⟩ | ⟨e, h', _⟩
  · rw [h] at h'; simp at h'
  · rw [h] at h1
    injection h1 with h1
    subst h1
    exact ⟨h2, h3⟩
  · rw [h] at h'; simp at h'

/-- **C61** The lists of the nodes that are not measured are free: without a stray neighbour of a qubit of the ordering
the runs are equal (also if they panic). -/
theorem C61_outputs (hs : ∀ b, ¬ P.Stray b) (env : Env F σ) (args : Args F) :
    run env P.graph P.order args = run env P.clipped.graph P.clipped.order args := by
  rcases run_clipped P env args with ⟨⟨b, hb⟩, _⟩ | ⟨v, h1, h2, _⟩ | ⟨e, h1, h2⟩
  · exact (hs b hb).elim
  · rw [h1, h2]; rfl
  · rw [h1, h2]

/-- **C61** If the qubits of the ordering are distinct nodes, then a panic is an index out of bounds, and there is a qubit
with a stray neighbour. -/
theorem C61_cause (hP : P.clipped.Loose) (he : env.OK) {e : Panic} (h : run env P.graph P.order args = .error e) :
    e = .indexOutOfBounds ∧ ∃ b, P.Stray b := by
  rcases run_clipped P env args with ⟨hb, h'⟩ | ⟨v, h1, _⟩ | ⟨e', h1, h2⟩
  · rw [h] at h'
    injection h' with h'
    exact ⟨h', hb⟩
  · rw [h] at h1; simp at h1
  · obtain ⟨r, hr⟩ := C54_no_panic hP env args
    have := hr env.prof env.hashIter he
    rw [h2] at this
    simp at this

/-- **C61** A qubit that can be measured and has a stray neighbour: in every mode the answer is a panic unless
the search does not find a single path. -/
theorem C61_panic_or_empty (hP : P.clipped.Loose) (he : env.OK) {b : Nat} (hb : b ∈ (part P).bits)
    (hs : P.Stray b) : run env P.graph P.order args = .error .indexOutOfBounds ∨
      run env P.graph P.order args = .ok (some []) ∨ run env P.graph P.order args = .ok none := by
  cases h : run env P.graph P.order args with
  | error e => rw [(C61_cause hP he h).1]; exact Or.inl rfl
  | ok r =>
    right
    cases r with
    | none => exact Or.inr rfl
    | some out =>
      left
      obtain ⟨h1, h2⟩ := C61_no_difference h
      cases out with
      | nil => rfl
      | cons p out =>
        exfalso
        obtain ⟨v, hv, hlt⟩ := hs.2
        have hp := ((C54_paths hP he h1).1 p (by simp)).1
        have : b ∈ p.steps.flatten := hp.perm.mem_iff.2 hb
        exact absurd (h2 he _ rfl p (by simp) b this v hv) (by omega)

theorem part_bits_of_wf (hP : P.clipped.WF) : (part P).bits = P.bits := by
  refine (C54_dropped (P := P.clipped) hP.loose).2 ?_
  intro i layer hl e hel
  obtain ⟨h1, h2, h3⟩ := hP.layers (i + 1) layer hl e hel
  exact ⟨fun h => absurd (h1.2 h) (by omega), h2, h3⟩

/-- **C61** Without search, in an exhaustive search and in a multi-threaded one without accept function and timeout, on
an input that is well-formed otherwise: there is a panic exactly if a qubit has a stray neighbour. -/
theorem C61_exactly (hP : P.clipped.WF) (he : env.OK)
    (hm : args.doSearch = false ∨ Exhaustive env args ∨
      args.doSearch = true ∧ 2 ≤ args.nthreads ∧ args.probabilistic = none ∧ args.timeout = none)
    (hf : run env P.graph P.order args ≠ .ok none) :
    run env P.graph P.order args = .error .indexOutOfBounds ↔ ∃ b, P.Stray b := by
  constructor
  · exact fun h => (C61_cause hP.loose he h).2
  · rintro ⟨b, hb⟩
    rcases C61_panic_or_empty (env := env) (args := args) hP.loose he
      (b := b) (by rw [part_bits_of_wf hP]; exact hb.1) hb with h | h | h
    · exact h
    · exfalso
      obtain ⟨h1, _⟩ := C61_no_difference h
      have hne : P.clipped.bits ≠ [] := by
        intro h0
        have h0' : P.bits = [] := h0
        have := hb.1
        rw [h0'] at this
        simp at this
      rcases hm with hm | hm | ⟨m1, m2, m3, m4⟩
      · obtain ⟨p, hp, _⟩ := C54_time_optimal hP.loose hm h1
        simp at hp
      · obtain ⟨f, l, hf', _⟩ := C10_first_last hP hne he hm h1
        simp at hf'
      · obtain ⟨p, hp, _⟩ := C51_min_time hP hne he m1 m2 m3 m4 h1
        simp at hp
    · exact (hf h).elim

end

/-- Node 1, that is not measured, has neighbour 7; the measured nodes have proper neighbours. -/
def strayOutput : Problem := ⟨[[1], [0, 7], []], [[(0, [])], [(2, [0])]]⟩

/-- Node 2, that is measured, has neighbour 3. -/
def strayInput : Problem := ⟨[[1], [0], [3]], [[(0, [])], [(2, [0])]]⟩

theorem strayOutput_none : ∀ b, ¬ strayOutput.Stray b := by
  rintro b ⟨hb, v, hv, hlt⟩
  have : b ∈ [0, 2] := hb
  simp only [List.mem_cons, List.not_mem_nil, or_false] at this
  rcases this with rfl | rfl <;> simp [strayOutput, Problem.nbrs, Problem.n] at hv hlt; omega

theorem strayInput_stray : strayInput.Stray 2 := ⟨by decide, 3, by decide, by decide⟩

theorem clipped_wf : strayOutput.clipped.WF ∧ strayInput.clipped.WF :=
  ⟨wf_of_check (by decide +kernel), wf_of_check (by decide +kernel)⟩

-- not well-formed, but the answer is that of the clipped graph
example : ¬ strayOutput.WF ∧ strayOutput.clipped.graph = [[1], [0], []] ∧
    run (demo 100 []) strayOutput.graph strayOutput.order { doSearch := true } =
      .ok (some [⟨2, 2, [[0], [2]]⟩]) := by
  refine ⟨fun h => ?_, by decide, by decide +kernel⟩
  exact absurd (h.nbrs_lt [0, 7] (by decide) 7 (by decide)) (by decide)

-- an index out of bounds in all modes
example : run (demo 100 []) strayInput.graph strayInput.order { doSearch := false } = .error .indexOutOfBounds ∧
    run (demo 100 []) strayInput.graph strayInput.order { doSearch := true } = .error .indexOutOfBounds ∧
    run (demo 0 (roundRobin 3 60)) strayInput.graph strayInput.order { doSearch := true, nthreads := 2 } =
      .error .indexOutOfBounds := by
  refine ⟨?_, ?_, ?_⟩ <;> decide +kernel

/-- **C61** The exception is real: with a timeout a search can end without a path before it reaches the neighbour. -/
theorem C61_timeout_refuted : ¬ ∀ (P : Problem) (env : Env Bool Unit) (args : Args Bool), P.clipped.WF → env.OK →
    (∃ b, P.Stray b) → run env P.graph P.order args = .ok none ∨
      run env P.graph P.order args = .error .indexOutOfBounds := by
  intro h
  have := h strayInput { demo 100 [] with timer := fun _ => true } { doSearch := true, timeout := some 1 }
    clipped_wf.2 (demo_ok 100 []) ⟨2, strayInput_stray⟩
  revert this
  decide +kernel

end Verif
