import Verif.Props.Example
import Verif.Props.SweepProps
import Verif.Proofs.First
/-!
# Which paths the deterministic search returns

The costs on the returned curve are the subject of C09; here it is about the paths themselves. The
reference is the list of all paths in the order in which a plain sweep over the scheduler reports them.
-/

namespace Verif

open Spec Search Example

section

variable {F σ : Type} [FloatOps F] {P : Problem} {env : Env F σ} {args : Args F} {out : List Path}

/-- **C55** The single-threaded deterministic search returns the curve of the paths that a plain
sweep reports: for every cost on the curve the first path in the order of the sweep that has it. If the
search is interrupted, it is the curve of the paths reported up to some moment. -/
theorem C55_first (hP : P.WF) (he : env.OK) (hs : args.doSearch = true) (hn : args.nthreads < 2)
    (ha : args.probabilistic = none) (h : run env P.graph P.order args = .ok (some out)) :
    ∃ (E pre : List (Schedule × Nat)) (N : Nat),
      (∀ fuel, N ≤ fuel → ∀ prof, allPaths prof fuel P = .ok (some E)) ∧
      pre <+: E ∧ (args.timeout = none ∨ (∀ k, env.timer k = false) → pre = E) ∧
      (out.Pairwise fun a b => a.time < b.time) ∧
      ∀ p : Path, p ∈ out ↔ OnCurve pre p.time p.space p.steps := by
  obtain ⟨s, E, N, h1, h2, h3, h4, h5⟩ := allPaths_below hP fun _ => false
  rw [run, hs, Bool.not_true, if_neg (by simp), Verif.search.eq_def, if_pos hn, ha] at h
  simp only [searchDet, h1, bind, Except.bind, Search.doSearch] at h
  generalize htm : (fun k => args.timeout.isSome && env.timer k) = timer at h
  have h0 : PInv P E [] (Loc.init s P.n) :=
    ⟨⟨E, .base h4, rfl⟩, by intro t m S hg; simp [Loc.init] at hg, by intro i e hi; simp at hi⟩
  cases hl : searchLoop env.prof timer env.fuel 0 (Loc.init s P.graph.length) with
  | error e => rw [hl] at h; simp at h
  | ok o =>
    rw [hl] at h
    cases o with
    | none => simp [pure, Except.pure] at h
    | some l' =>
      obtain ⟨a1, passed, a2, a3⟩ := searchLoop_first hP timer env.fuel 0 _ l' [] env.prof
        (init_inv h2 h3) h0 hl
      obtain ⟨out', b1, b2⟩ := postprocess_spec env.hashIter he P.n l'.results
      have b1' : postprocess env.hashIter P.graph.length l'.results = .ok out' := b1
      simp only [b1', pure, Except.pure, Except.ok.injEq, Option.some.injEq] at h
      subst h
      obtain ⟨todo, c1, c2⟩ := a2.split
      refine ⟨E, passed, N, fun fuel hf prof => (h5 fuel hf prof).1, ⟨todo, c2.symm⟩, ?_, b2.sorted, ?_⟩
      · intro ht
        apply a3
        intro j
        rw [← htm]
        rcases ht with ht | ht <;> simp [ht]
      · apply b2.onCurve hP a1 a2
        intro e hm
        have := h4.sound hP e (by rw [c2]; exact List.mem_append_left _ hm)
        exact ⟨this.1, this.2.1⟩

end

-- the second entry of the curve of the star: two schedules of length two and space three are before and
-- after the returned one in the enumeration, and only the first is returned
example : star.WF ∧ ∃ out, run (demo 1000 []) star.graph star.order { doSearch := true } = .ok (some out) ∧
    (⟨2, 3, [[2, 3], [1, 0]]⟩ : Path) ∈ out ∧ (⟨2, 3, [[1, 3], [2, 0]]⟩ : Path) ∉ out ∧
    star.Valid [[1, 3], [2, 0]] ∧ star.peak [[1, 3], [2, 0]] = 3 :=
  ⟨star_wf, _, star_run, by simp, by simp, valid_of_check (by decide +kernel), by decide +kernel⟩

/-- **C55** With several threads, even where the costs are the same (C28), the paths need not be the ones that the
single-threaded search returns. Two workers are enough for that. -/
theorem C55_threads_refuted : ∀ k, 2 ≤ k → ¬ ∀ (P : Problem) (e e' : Env Bool Unit) (o o' : List Path),
    P.WF → e.OK → e'.OK → run e P.graph P.order { doSearch := true } = .ok (some o) →
    possible e' P.graph P.order { doSearch := true, nthreads := k } = .ok true →
    run e' P.graph P.order { doSearch := true, nthreads := k } = .ok (some o') → o = o' := by
  intro k hk h
  have := h star _ _ _ _ star_wf (demo_ok _ _) (demo_ok _ _) star_run (possible_workers (Nat.le_refl _) hk star_possible)
    ((run_workers (args := { doSearch := true, nthreads := 4 }) (by decide) hk).trans star_run_threads)
  simp at this

end Verif
