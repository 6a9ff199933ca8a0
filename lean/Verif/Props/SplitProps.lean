import Verif.Proofs.Split
import Verif.Props.SweepProps
/-!
# Properties of the documented recipe for parallelisation
-/

namespace Verif

open Spec Search

section

variable {P : Problem}

theorem mapM_chunks (hP : P.WF) (prof : Profile) {cs : List (List TimeStep)}
    {parts : List (List Schedule)} (h : List.Forall₂ (Split.Chunk P) cs parts) :
    cs.mapM (fun c => Split.instructed prof c (Graph.new P.graph) [] []) =
      .ok (parts.map fun part => part.map fun S => (S.length, P.peak S, S)) := by
  induction h with
  | nil => rfl
  | cons hc _ ih =>
    obtain ⟨b, q, hw⟩ := hc
    have := hw.instructed hP prof (Graph.new P.graph) [] (graphFor_new P) rfl (by simp)
      (prefix_nil P)
    rw [List.mapM_cons, this, ih]
    rfl

/-- The paths `E` of a scheduler's sweep and the results `parts` of the recipe with `k` tasks. -/
theorem recipe_spec (hP : P.WF) {k : Nat} (hk : 0 < k) :
    ∃ (E : List (Schedule × Nat)) (parts : List (List Schedule)) (N : Nat),
    (∀ e ∈ E, P.Valid e.1 ∧ e.2 = P.peak e.1) ∧
    (∀ fuel, N ≤ fuel → ∀ prof, allPaths prof fuel P = .ok (some E) ∧
      Split.recipe prof fuel P.graph P.order k =
        .ok (some (parts.map fun part => part.map fun S => (S.length, P.peak S, S)))) ∧
    parts.flatten = E.map (·.1) ∧ parts.length = (if E.length < k then 1 else k) ∧
    (k ≤ E.length → ∀ part ∈ parts, part.length = E.length / k ∨ part.length = E.length / k + 1) := by
  obtain ⟨s, r, N, h1, h2, h3, h4, h5⟩ := allPaths_below hP fun _ => false
  obtain ⟨s', h1', _, _, h6⟩ := mkScheduler_start hP
  rw [h1] at h1'
  injection h1' with h1'
  subst h1'
  obtain ⟨instr, b, N', hw, hc⟩ := Split.collect_spec h4
  obtain ⟨cs, parts, g1, g2, g3, g4, g5⟩ := Split.splitInstructions_spec hw hk
  rw [List.length_map] at g4 g5
  refine ⟨r, parts, max N N', fun e he => ⟨(h4.sound hP e he).1, (h4.sound hP e he).2.1⟩,
    fun fuel hf prof => ⟨(h5 fuel (by omega) prof).1, ?_⟩, g3,
    by rw [← g2.length_eq, g4], g5⟩
  simp only [Split.recipe, h6, bind, Except.bind, hc fuel (by omega) prof, g1,
    mapM_chunks hP prof g2]
  rfl

/-- **C56** The documented recipe for parallelisation: the steps of a sweep over a `PathGenerator` are
split into `k` tasks, and in each task an own copy of the `Graph` follows its steps. No task panics; the
results of the tasks, one after the other, are the paths of a sweep over the `Scheduler`, in the same order
and with the same memory; so they are all valid schedules, each exactly once (steps compared as sets), with
its exact peak memory. There are `k` tasks, unless there are fewer paths than that: then there is one. The
numbers of paths in two tasks differ by at most one. -/
theorem C56_split (hP : P.WF) (hb : P.bits ≠ []) {k : Nat} (hk : 0 < k) :
    ∃ (E : List (Schedule × Nat)) (results : List (List (Nat × Nat × Schedule))) (N : Nat),
    (∀ fuel, N ≤ fuel → ∀ prof, allPaths prof fuel P = .ok (some E) ∧
      Split.recipe prof fuel P.graph P.order k = .ok (some results)) ∧
    results.flatten = E.map (fun e => (e.1.length, e.2, e.1)) ∧
    (∀ x ∈ results.flatten, P.Valid x.2.2 ∧ x.2.1 = P.peak x.2.2 ∧ x.1 = x.2.2.length) ∧
    (results.flatten.Pairwise fun x y => ¬ List.Forall₂ List.Perm x.2.2 y.2.2) ∧
    (∀ S, P.Valid S → ∃ x ∈ results.flatten, List.Forall₂ List.Perm x.2.2 S) ∧
    results.length = (if E.length < k then 1 else k) ∧
    ∀ a ∈ results, ∀ b ∈ results, a.length ≤ b.length + 1 := by
  obtain ⟨E, parts, N, h1, h2, h3, h4, h5⟩ := recipe_spec hP hk
  obtain ⟨E', N', g1, g2, g3, g4⟩ := C19_enumerates hP hb
  have hE : E' = E := by
    have a := (h2 (max N N') (by omega) .debug).1
    rw [(g1 (max N N') (by omega) .debug).1] at a
    injection a with a
    injection a
  subst hE
  have hflat : (parts.map fun part => part.map fun S => (S.length, P.peak S, S)).flatten =
      E'.map (fun e => (e.1.length, e.2, e.1)) := by
    rw [← List.map_flatten, h3, List.map_map]
    refine List.map_congr_left fun e he => ?_
    simp [(h1 e he).2]
  refine ⟨E', _, N, h2, hflat, ?_, ?_, ?_, by rw [List.length_map, h4], ?_⟩
  · rw [hflat]
    intro x hx
    obtain ⟨e, he, rfl⟩ := List.mem_map.1 hx
    exact ⟨(h1 e he).1, (h1 e he).2, rfl⟩
  · rw [hflat, List.pairwise_map]
    exact g3
  · intro S hS
    obtain ⟨e, he, hes⟩ := g4 S hS
    rw [hflat]
    exact ⟨_, List.mem_map_of_mem he, hes⟩
  · intro a ha b hb
    obtain ⟨a', ha', rfl⟩ := List.mem_map.1 ha
    obtain ⟨b', hb', rfl⟩ := List.mem_map.1 hb
    rw [List.length_map, List.length_map]
    by_cases hlt : E'.length < k
    · rw [if_pos hlt] at h4
      obtain ⟨c, hc⟩ := List.length_eq_one_iff.1 h4
      rw [hc, List.mem_singleton] at ha' hb'
      rw [ha', hb']
      omega
    · have h6 := h5 (by omega) a' ha'
      have h7 := h5 (by omega) b' hb'
      omega

/-- **C56** Asking for no task at all is a division by zero. -/
theorem C56_no_task (hP : P.WF) : ∃ N, ∀ fuel, N ≤ fuel → ∀ prof,
    Split.recipe prof fuel P.graph P.order 0 = .error .divisionByZero := by
  obtain ⟨s, r, N, h1, h2, h3, h4, h5⟩ := allPaths_below hP fun _ => false
  obtain ⟨s', h1', _, _, h6⟩ := mkScheduler_start hP
  rw [h1] at h1'
  injection h1' with h1'
  subst h1'
  obtain ⟨instr, b, N', hw, hc⟩ := Split.collect_spec h4
  refine ⟨N', fun fuel hf prof => ?_⟩
  simp only [Split.recipe, h6, bind, Except.bind, hc fuel hf prof, Split.splitInstructions]
  rfl

set_option synthInstance.maxSize 1000 in
-- five paths in two tasks; the second task starts with the steps that lead back to where the first ended
example : Split.recipe .debug 100 Example.docs.graph Example.docs.order 2 = .ok (some
    [[(3, 3, [[0], [3, 1], [2]]), (4, 3, [[0], [1], [3], [2]])],
     [(3, 3, [[0], [3], [1, 2]]), (4, 3, [[0], [3], [2], [1]]), (4, 3, [[0], [3], [1], [2]])]]) := by
  decide +kernel

example : Example.docs.WF ∧ Example.docs.bits ≠ [] := ⟨Example.docs_wf, by decide⟩

-- the test uses four tasks; the star has more paths than that
example : ((Split.recipe .release 1000 Example.star.graph Example.star.order 4).toOption.join.map
    (List.map List.length)) = some [18, 19, 19, 19] := by decide +kernel

end
end Verif
