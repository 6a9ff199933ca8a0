import Verif.Props.BufferProps
import Verif.Props.SplitProps
import Verif.Props.FirstProps
import Verif.Proofs.Roundtrip
/-!
# The project's own property test

`mbqc_scheduling/tests/roundtrip.rs` draws random inputs with up to seven nodes and compares three ways of
going through the tree of paths: all paths, a branch-and-bound search, and the split recipe.
-/

namespace Verif

open Spec Search Example

section

variable {P : Problem}

/-- The two maps that the test compares are the same. -/
theorem roundtrip_filters (hP : P.WF) {s : Scheduler Partitioner} {E : List (Schedule × Nat)}
    (hs : StateFor P [] s) (hf : Fresh s) (hE : Below P (fun _ => false) [] s E) :
    ∃ (R a b : MappedPaths) (N : Nat), (∀ fuel, N ≤ fuel → ∀ prof, Roundtrip.skipLoop prof fuel
        ⟨Sweep.new s, [], List.replicate (P.n + 1) (P.n + 1), []⟩ = .ok (some R)) ∧
      Roundtrip.finalFilter P.n R = .ok a ∧
      Roundtrip.finalFilter P.n ((E.map Roundtrip.entry).foldl Roundtrip.keepBest []) = .ok b ∧
      Roundtrip.mapEq a b = true ∧ ∀ t m S, a.get t = some (m, S) ↔ OnCurve E t m S := by
  have hsize : P.n < usizeMax := hP.size
  have hval : ∀ e ∈ E, P.Valid e.1 ∧ e.2 = P.peak e.1 := fun e he =>
    ⟨(hE.sound hP e he).1, (hE.sound hP e he).2.1⟩
  have hinit := init_inv hs hf
  obtain ⟨lf, e1, e2, _⟩ := searchLoop_spec hP.lax (fun _ => false) (potential P (Loc.init s P.n)) 0
    (Loc.init s P.n) hinit (Nat.le_refl _)
  have h0 : PInv P E [] (Loc.init s P.n) :=
    ⟨⟨E, .base hE, rfl⟩, by intro t m S hg; simp [Loc.init] at hg, by intro i e hi; simp at hi⟩
  obtain ⟨_, passed, f2, f3⟩ := searchLoop_first hP (fun _ => false) _ 0 _ lf [] .debug hinit h0 (e1 .debug)
  have := f3 fun _ => rfl
  subst this
  obtain ⟨out, _, g2⟩ := postprocess_spec id (fun m => List.Perm.refl m) P.n lf.results
  have hc := g2.onCurve hP e2 f2 hval
  obtain ⟨a, a1, a2, a3⟩ := Roundtrip.finalFilter_spec hsize (paths := lf.results) (by
    intro t r hr
    have := (hval _ (f2.found t r.1 r.2 hr)).2
    simp only at this
    rw [this]
    exact peak_le_n P _)
  have hk := Roundtrip.kept_fold passed
  obtain ⟨b, b1, b2, b3⟩ := Roundtrip.finalFilter_spec hsize
    (paths := (passed.map Roundtrip.entry).foldl Roundtrip.keepBest []) (by
    intro t r hr
    obtain ⟨pre, post, h1, _⟩ := hk.found t r.1 r.2 hr
    have := (hval (r.2, r.1) (by rw [h1]; simp)).2
    simp only at this
    rw [this]
    exact peak_le_n P _)
  have hlen : ∀ e ∈ passed, e.1.length ≤ P.n := by
    intro e he
    have hpre := (hval e he).1.prefix hP.bits_nodup
    have := hpre.length_le
    have := nodup_length_le_n hP.lax hpre.nodup hpre.sub
    omega
  have ha : ∀ t m S, a.get t = some (m, S) ↔ OnCurve passed t m S := by
    intro t m S
    rw [a2, ← hc ⟨t, m, S⟩, g2.mem]
    constructor
    · rintro ⟨x, y, z⟩
      refine ⟨x, y, ?_, z⟩
      have := (hval _ (f2.found t m S y)).2
      simp only at this ⊢
      rw [this]
      exact peak_lt_max hP _
    · rintro ⟨x, y, _, z⟩
      exact ⟨x, y, z⟩
  refine ⟨lf.results, a, b, potential P (Loc.init s P.n), ?_, a1, b1, ?_, ha⟩
  · intro fuel hfu prof
    have h1 := Roundtrip.skipLoop_eq hP prof fuel 0 (Loc.init s P.n) hinit.ok
    have h2 := searchLoop_mono (e1 prof) hfu
    rw [h2] at h1
    simp only [Roundtrip.skipper, Loc.init, List.map_replicate,
      show min (P.n + 1) usizeMax = P.n + 1 by omega] at h1
    exact h1
  · apply Roundtrip.mapEq_of_get a3 b3
    intro t r
    obtain ⟨m, S⟩ := r
    rw [ha, b2]
    exact (hk.onCurve hlen t m S).symm

theorem roundtrip_ok (hP : P.WF) {edges : List (Nat × Nat)} (hg : GraphBuffer.new edges P.n none true = .ok P.graph) :
    ∃ N, ∀ fuel, N ≤ fuel → ∀ prof, Roundtrip.roundtrip prof fuel edges P.n P.order = .ok (some ()) := by
  obtain ⟨s, E, N1, h1, h2, h3, h4, h5⟩ := allPaths_below hP fun _ => false
  obtain ⟨s', h1', _, _, h6⟩ := mkScheduler_start hP
  rw [h1] at h1'
  injection h1' with h1'
  subst h1'
  have hsp : s = ⟨s.time, Graph.new P.graph⟩ := by
    simp only [mkScheduler, h6, bind, Except.bind, pure, Except.pure, Except.ok.injEq] at h1
    exact h1.symm
  obtain ⟨R, a, b, N2, r1, r2, r3, r4, _⟩ := roundtrip_filters hP h2 h3 h4
  obtain ⟨E', parts, N3, _, q2, q3, _, _⟩ := recipe_spec hP (k := 4) (by omega)
  have hEE : E' = E := by
    have x1 := (h5 (max N1 N3) (by omega) .debug).1
    have x2 := (q2 (max N1 N3) (by omega) .debug).1
    rw [x1] at x2
    simpa using x2.symm
  subst hEE
  have hnd : (E'.map Roundtrip.entry).Nodup := by
    rw [List.nodup_map_iff_inj_on]
    · intro x _ y _ h
      exact Roundtrip.entry_inj h
    · exact (h4.nodup hP h2 h3.iterOK).imp fun {a b} h heq => h (by rw [heq]; exact StepEq.refl _)
  have hparts : (parts.map fun part => part.map fun S => (S.length, P.peak S, S)).flatten =
      E'.map Roundtrip.entry := by
    rw [← List.map_flatten, q3, List.map_map]
    apply List.map_congr_left
    intro e he
    simp [Roundtrip.entry, (h4.sound hP e he).2.1]
  refine ⟨max N1 (max N2 N3), fun fuel hfu prof => ?_⟩
  have x1 := (h5 fuel (by omega) prof).1
  simp only [allPaths, h1, bind, Except.bind] at x1
  have x2 := Roundtrip.collectPaths_eq prof fuel (Sweep.new s) []
  rw [x1] at x2
  have x3 := r1 fuel (by omega) prof
  have x4 := (q2 fuel (by omega) prof).2
  simp only [Split.recipe, h6, bind, Except.bind] at x4
  have hlen : P.graph.length = P.n := rfl
  rw [hlen] at h6
  rw [hsp] at x2 x3
  have i1 := Roundtrip.insertAll_spec (E'.map Roundtrip.entry) [] (by simpa using hnd)
  rw [List.nil_append] at i1
  cases hc : Sweep.collect (PathGenerator.focusIter prof) fuel (Sweep.new s.time) with
  | error e => rw [hc] at x4; simp at x4
  | ok o =>
    rw [hc] at x4
    cases o with
    | none => simp [pure, Except.pure] at x4
    | some instr =>
      simp only at x4
      cases hsi : Split.splitInstructions instr 4 with
      | error e => rw [hsi] at x4; simp at x4
      | ok cs =>
        rw [hsi] at x4
        simp only at x4
        cases hm : cs.mapM fun split => Split.instructed prof split (Graph.new P.graph) [] [] with
        | error e => rw [hm] at x4; simp at x4
        | ok results =>
          rw [hm] at x4
          simp only [pure, Except.pure, Except.ok.injEq, Option.some.injEq] at x4
          rw [← x4] at hparts
          simp only [Roundtrip.roundtrip, h6, hg, bind, Except.bind, x2, Except.map, Option.map, x3, r2, r3, r4,
            Bool.not_true, hc, hsi, hm, hparts, i1, Roundtrip.setEq_refl, pure, Except.pure]
          rfl

end

/-- **C73** The property test of the project passes for every input of its kind, of any size: for
every list of edges between `n` nodes, with loops and repetitions, and every well-formed time ordering of these
nodes. No index is out of bounds, no `unwrap` fails, and all four assertions hold, in both build profiles:
the branch-and-bound loop and the filter over all paths lead to the same map, costs and paths; no path
occurs twice; and the split tasks together find exactly the paths of the single sweep, with the same memory. -/
theorem C73_passes {n : Nat} {edges : List (Nat × Nat)} {order : List (List (Nat × List Nat))}
    (hr : ∀ e ∈ edges, e.1 < n ∧ e.2 < n) (hP : (⟨List.replicate n [], order⟩ : Problem).WF) :
    ∃ N, ∀ fuel, N ≤ fuel → ∀ prof, Roundtrip.roundtrip prof fuel edges n order = .ok (some ()) := by
  obtain ⟨adj, h1, h2⟩ := C25_checked hr
  have hn : ∀ {g : List (List Nat)}, (⟨g, order⟩ : Problem).n = g.length := rfl
  have hw : (⟨adj, order⟩ : Problem).WF := by
    refine ⟨hP.bits_nodup, ?_, ?_, hP.layers, ?_⟩
    · intro b hb
      have := hP.bits_lt b hb
      rw [hn] at this ⊢
      rw [h2.length]
      simpa using this
    · exact (C25_symmetric hr h1).2.2
    · have := hP.size
      rw [hn] at this ⊢
      rw [h2.length]
      simpa using this
  have := roundtrip_ok hw (edges := edges) (by rw [hn, h2.length]; exact h1)
  rw [hn, h2.length] at this
  exact this

-- five nodes, a loop and a repeated edge, three layers
example : (⟨List.replicate 5 [], [[(0, []), (3, [])], [(1, [0])], [(2, [1, 3])]]⟩ : Problem).WF :=
  wf_of_check (by decide +kernel)

example : Roundtrip.roundtrip .debug 200 [(0, 1), (1, 0), (2, 2), (1, 2), (3, 2), (4, 0)] 5
    [[(0, []), (3, [])], [(1, [0])], [(2, [1, 3])]] = .ok (some ()) := by decide +kernel

-- the test can fail: if a qubit occurs twice in the ordering, a task cannot measure it again
example : Roundtrip.roundtrip .debug 100 [(0, 1)] 2 [[(0, []), (0, [])]] = .error .unwrapFailed := by
  decide +kernel

section

variable {F σ : Type} [FloatOps F] {P : Problem} {env : Env F σ} {args : Args F} {out : List Path}

/-- **C73** The test contains its own copy of the search loop, with another initial table, and of the filter. What the
copy computes is what the library's search returns if it is not interrupted: the same costs and the same paths. -/
theorem C73_copy (hP : P.WF) (he : env.OK) (hs : args.doSearch = true) (hn : args.nthreads < 2)
    (ha : args.probabilistic = none) (ht : args.timeout = none ∨ ∀ k, env.timer k = false)
    (h : run env P.graph P.order args = .ok (some out)) :
    ∃ (s : Scheduler Partitioner) (results filtered : MappedPaths) (N : Nat), mkScheduler P.graph P.order = .ok s ∧
      (∀ fuel, N ≤ fuel → ∀ prof, Roundtrip.skipLoop prof fuel
        ⟨Sweep.new s, [], List.replicate (P.n + 1) (P.n + 1), []⟩ = .ok (some results)) ∧
      Roundtrip.finalFilter P.n results = .ok filtered ∧
      ∀ p : Path, p ∈ out ↔ filtered.get p.time = some (p.space, p.steps) := by
  obtain ⟨s, E, N1, h1, h2, h3, h4, h5⟩ := allPaths_below hP fun _ => false
  obtain ⟨R, a, b, N2, r1, r2, _, _, r5⟩ := roundtrip_filters hP h2 h3 h4
  obtain ⟨E', pre, N, c1, _, c3, _, c5⟩ := C55_first hP he hs hn ha h
  have hEE : E' = E := by
    have x1 := (h5 (max N1 N) (by omega) .debug).1
    have x2 := c1 (max N1 N) (by omega) .debug
    rw [x1] at x2
    simpa using x2.symm
  subst hEE
  refine ⟨s, R, a, N2, h1, r1, r2, fun p => ?_⟩
  rw [c5, c3 ht, r5]

end

-- the curve of the star has two entries
example : star.WF ∧ ∃ out, run (demo 1000 []) star.graph star.order { doSearch := true } = .ok (some out) ∧
    (⟨2, 3, [[2, 3], [1, 0]]⟩ : Path) ∈ out := ⟨star_wf, _, star_run, by simp⟩

end Verif
