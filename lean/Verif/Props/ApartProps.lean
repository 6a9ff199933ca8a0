import Verif.Props.AnyOrderProps
import Verif.Proofs.Pool
import Verif.Props.OrderProps
/-!
# Nothing is lost if the tasks work one after another

C28 (false in general) holds if no two tasks overlap.
-/

namespace Verif

open Spec Search Search.Threaded Example Log AnyOrder

variable {F σ : Type} [FloatOps F] {P : Problem}

/-- Something on the curve is at least as good as a given member of the list. -/
theorem onCurve_covers (E : List (Schedule × Nat)) : ∀ (k : Nat) (e : Schedule × Nat), e ∈ E → e.1.length + e.2 ≤ k →
    ∃ t m S, OnCurve E t m S ∧ t ≤ e.1.length ∧ m ≤ e.2 := by
  intro k
  induction k using Nat.strong_induction_on with
  | _ k ih =>
    intro e he hk
    by_cases hb : ∃ e' ∈ E, e'.1.length ≤ e.1.length ∧ e'.2 ≤ e.2 ∧ e'.1.length + e'.2 < e.1.length + e.2
    · obtain ⟨e', h1, h2, h3, h4⟩ := hb
      obtain ⟨t, m, S, h5, h6, h7⟩ := ih (e'.1.length + e'.2) (by omega) e' h1 (Nat.le_refl _)
      exact ⟨t, m, S, h5, by omega, by omega⟩
    · simp only [not_exists, not_and, not_lt] at hb
      -- the first one with this cost
      obtain ⟨pre, x, post, h1, h2, h3⟩ : ∃ pre x post, E = pre ++ x :: post ∧ (x.1.length = e.1.length ∧ x.2 = e.2) ∧
          ∀ y ∈ pre, ¬ (y.1.length = e.1.length ∧ y.2 = e.2) := by
        clear hb ih hk
        induction E with
        | nil => simp at he
        | cons a E ihE =>
          by_cases ha : a.1.length = e.1.length ∧ a.2 = e.2
          · exact ⟨[], a, E, rfl, ha, by simp⟩
          · rcases List.mem_cons.1 he with rfl | he
            · simp at ha
            · obtain ⟨pre, x, post, h1, h2, h3⟩ := ihE he
              refine ⟨a :: pre, x, post, by rw [h1]; rfl, h2, ?_⟩
              intro y hy
              rcases List.mem_cons.1 hy with rfl | hy
              · exact ha
              · exact h3 y hy
      refine ⟨x.1.length, x.2, x.1, ⟨pre, post, h1, rfl, ?_, ?_, ?_⟩, by omega, by omega⟩
      · intro y hy hle
        by_contra hlt
        have := hb y hy (by omega) (by omega)
        omega
      · intro y hy hle
        by_contra hlt
        have := hb y hy (by omega) (by omega)
        omega
      · intro y hy hyl
        by_contra hlt
        have hyE : y ∈ E := by rw [h1]; simp [hy]
        have := hb y hyE (by omega) (by omega)
        exact h3 y hy ⟨by omega, by omega⟩

/-- Every task moves. -/
theorem all_move {env : Env F σ} {args : Args F} (hs : args.doSearch = true)
    (hn : 2 ≤ args.nthreads) (hp : args.probabilistic = none) {out : List Path}
    (h : run env P.graph P.order args = .ok (some out)) {starts : List StartLine}
    (hl : startLog env P.graph P.order args = .ok starts) : ∀ k < starts.length, k ∈ env.moves.map (·.1) := by
  rw [run, hs, Bool.not_true, if_neg (by simp), Verif.search.eq_def, if_neg (by omega), hp] at h
  obtain ⟨tb, htb⟩ : ∃ tb, (args.taskBound.map fun b => (b : Int)).getD 100000 = tb := ⟨_, rfl⟩
  rw [htb] at h
  obtain ⟨s, g, g', a1, a2, a3, a4, _⟩ := searchThreaded_ok h
  unfold startLog startThreaded at hl
  rw [hs, htb, hp] at hl
  simp only [Bool.not_true, Bool.false_or, decide_eq_true_eq, if_neg (show ¬ args.nthreads < 2 by omega), a1, bind,
    Except.bind, Option.bind, pure, Except.pure] at hl
  simp only [a2, Except.ok.injEq] at hl
  subst hl
  intro k hk
  rw [List.length_mapIdx] at hk
  by_contra hno
  have hd := done_of_other (j := k) a3 a4 (by simpa [List.map_map, Function.comp_def] using hno) (List.getElem?_eq_getElem hk)
  -- at first no task is done
  unfold initGlobal spawn at a2
  cases hsp : spawnLoop env.prof tb (s.time.measurable.iter.length + 1) s 0 with
  | error e => simp [hsp, bind, Except.bind] at a2
  | ok x =>
    simp only [hsp, bind, Except.bind, pure, Except.pure, Except.ok.injEq] at a2
    subst a2
    simp only at hd
    rw [List.getElem_append] at hd
    split at hd <;> simp [TaskState.isDone] at hd

/-- **C90** If the tasks of an exhaustive search with threads work one after another, whatever their order, every valid
schedule whose task is not interrupted is matched: its task is the one whose line `START` (C87) names its first step, or the
last one if there is none. -/
theorem C90_task (hP : P.WF) (hb : P.bits ≠ []) {env : Env F σ} (he : env.OK) {args : Args F} (hs : args.doSearch = true)
    (hn : 2 ≤ args.nthreads) (hp : args.probabilistic = none)
    (hm : ∀ a b, a ≠ b → ¬ [a, b, a].Sublist (env.moves.map (·.1))) {out : List Path}
    (h : run env P.graph P.order args = .ok (some out)) {starts : List StartLine}
    (hl : startLog env P.graph P.order args = .ok starts) {S : Schedule} (hS : P.Valid S) :
    ∃ k s a, starts[k]? = some s ∧ S.head? = some a ∧
      (match s.measure with
        | some m => a.Perm m
        | none => ∀ s' ∈ starts, ∀ m, s'.measure = some m → ¬ a.Perm m) ∧
      (args.timeout = none ∨ (k, true) ∉ env.moves → ∃ p ∈ out, p.time ≤ S.length ∧ p.space ≤ P.peak S) := by
  obtain ⟨M, E, N, Q, h1, h2, h3, h4, h5⟩ := C89_interrupted hP he hs hn hp hm h
  obtain ⟨E', N', c1, c2, c3, c4⟩ := C19_enumerates hP hb
  have hE : E = E' := by
    have := (h2 (max N N') (Nat.le_max_left _ _) .debug).symm.trans (c1 (max N N') (Nat.le_max_right _ _) .debug).1
    simpa using this
  subst hE
  rw [hl] at h1
  simp only [Except.ok.injEq] at h1
  subst h1
  have hmv := all_move hs hn hp h hl
  obtain ⟨e, he1, he2⟩ := c4 S hS
  obtain ⟨a, b, ha, hbh, hab⟩ : ∃ a b, S.head? = some a ∧ e.1.head? = some b ∧ a.Perm b := by
    cases hS0 : S with
    | nil =>
      exfalso
      have := hS.perm
      rw [hS0] at this
      exact hb (List.perm_nil.1 (by simpa using this.symm))
    | cons a S' =>
      rw [hS0] at he2
      cases h6 : e.1 with
      | nil => rw [h6] at he2; cases he2
      | cons b T =>
        rw [h6] at he2
        cases he2 with
        | cons hba _ => exact ⟨a, b, rfl, rfl, hba.symm⟩
  -- what a complete part gives
  have fin : ∀ k, k < M.length + 1 → e ∈ (blocks M E)[k]?.getD [] → args.timeout = none ∨ (k, true) ∉ env.moves →
      ∃ p ∈ out, p.time ≤ S.length ∧ p.space ≤ P.peak S := by
    intro k hk hek hc
    have hkm : k ∈ (env.moves.map (·.1)).dedup := List.mem_dedup.2 (hmv k (by simpa using hk))
    obtain ⟨i, hi, hik⟩ := List.getElem_of_mem hkm
    have hi' : i < Q.length := h3.length_eq ▸ hi
    have hq := List.forall₂_iff_get.1 h3 |>.2 i hi hi'
    simp only [List.get_eq_getElem, hik] at hq
    have heQ : e ∈ Q.flatten := List.mem_flatten.2 ⟨Q[i], List.getElem_mem hi', by rw [hq.2 hc]; exact hek⟩
    obtain ⟨t, m, S', g1, g2, g3⟩ := onCurve_covers _ _ e heQ (Nat.le_refl _)
    have hlen : S'.length = t := by obtain ⟨_, _, _, hh, _⟩ := g1; exact hh
    refine ⟨⟨t, m, S'⟩, (h5 ⟨t, m, S'⟩).2 g1, ?_, ?_⟩
    · rw [← he2.length_eq]; exact g2
    · rw [← StepEq.peak P he2, ← (c2 e he1).2]; exact g3
  by_cases hbM : b ∈ M
  · obtain ⟨k, hk, rfl⟩ := List.getElem_of_mem hbM
    refine ⟨k, ⟨(k : Int), some M[k]⟩, a, ?_, ha, hab, fin k (by omega) ?_⟩
    · rw [List.getElem?_append_left (by simpa using hk)]
      simp [hk]
    · unfold blocks
      rw [List.getElem?_append_left (by simpa using hk)]
      simp [hk, he1, hbh]
  · refine ⟨M.length, ⟨-1, none⟩, a, ?_, ha, ?_, fin M.length (by omega) ?_⟩
    · rw [List.getElem?_append_right (by simp)]
      simp
    · intro s' hs' m hm' ham
      obtain ⟨M', d1, d2, _⟩ := C87_starts (env := env) hP hb hs hn
      rw [hl] at d1
      simp only [Except.ok.injEq] at d1
      have hmM' : m ∈ M' := by
        rw [d1] at hs'
        rcases List.mem_append.1 hs' with h6 | h6
        · obtain ⟨k, hk, rfl⟩ := List.mem_mapIdx.1 h6
          simp only [Option.some.injEq] at hm'
          exact hm' ▸ List.getElem_mem hk
        · rw [List.mem_singleton.1 h6] at hm'
          simp at hm'
      have hmM : m ∈ M := by
        rcases List.mem_append.1 hs' with h6 | h6
        · obtain ⟨k, hk, rfl⟩ := List.mem_mapIdx.1 h6
          simp only [Option.some.injEq] at hm'
          exact hm' ▸ List.getElem_mem hk
        · rw [List.mem_singleton.1 h6] at hm'
          simp at hm'
      obtain ⟨E', N', f1, _, _, f4, _⟩ := tried_all hP hb
      have hE : E = E' := by
        have := (h2 (max N N') (Nat.le_max_left _ _) .debug).symm.trans (f1 (max N N') (Nat.le_max_right _ _) .debug)
        simpa using this
      subst hE
      obtain ⟨f5, f6, _⟩ := f4 e he1 0 b (by rw [← List.head?_eq_getElem?]; exact hbh)
      rw [List.take_zero] at f5 f6
      exact hbM (sublist_eq_of_perm _ b m f6 f5 (d2 m hmM').2 (hab.symm.trans ham) ▸ hmM)
    · unfold blocks
      rw [List.getElem?_append_right (by simp)]
      simp only [List.length_map, Nat.sub_self, List.getElem?_cons_zero, Option.getD_some, List.mem_filter, he1, true_and,
        decide_eq_true_eq]
      intro m hmM hh
      rw [hbh] at hh
      simp only [Option.some.injEq] at hh
      exact hbM (hh ▸ hmM)

/-- **C90** So an uninterrupted exhaustive search whose tasks work one after another misses nothing (C28) and returns exactly
the Pareto front (C09). -/
theorem C90_front (hP : P.WF) (hb : P.bits ≠ []) {env : Env F σ} (he : env.OK) {args : Args F} (hs : args.doSearch = true)
    (hn : 2 ≤ args.nthreads) (hp : args.probabilistic = none) (ht : args.timeout = none ∨ ∀ m ∈ env.moves, m.2 = false)
    (hm : ∀ a b, a ≠ b → ¬ [a, b, a].Sublist (env.moves.map (·.1))) {out : List Path}
    (h : run env P.graph P.order args = .ok (some out)) :
    (∀ S, P.Valid S → ∃ p ∈ out, p.time ≤ S.length ∧ p.space ≤ P.peak S) ∧
      ∀ t m, (∃ p ∈ out, p.time = t ∧ p.space = m) ↔ ParetoOptimal P t m := by
  have hc : ∀ S, P.Valid S → ∃ p ∈ out, p.time ≤ S.length ∧ p.space ≤ P.peak S := by
    intro S hS
    obtain ⟨M, hl, _⟩ := C87_starts (env := env) hP hb hs hn
    obtain ⟨k, _, _, _, _, _, h1⟩ := C90_task hP hb he hs hn hp hm h hl hS
    refine h1 (ht.imp id fun h2 hmem => ?_)
    simpa using h2 _ hmem
  exact ⟨hc, fun t m => ((run_sound hP he h).pareto hc t m).symm⟩

/-- Not in the order of the queue, but one after the other. -/
example : ParetoOptimal star 2 3 ∧ ∀ S, star.Valid S → ∃ p ∈ ([⟨1, 4, [[1, 2, 3, 0]]⟩, ⟨2, 3, [[2, 3], [1, 0]]⟩,
    ⟨3, 2, [[2], [3], [1, 0]]⟩] : List Path), p.time ≤ S.length ∧ p.space ≤ star.peak S := by
  have h := C90_front star_wf (by decide) (demo_ok 0 (swapped 8 60)) rfl (by decide) rfl (.inl rfl) swapped_apart star_run_threads
  exact ⟨(h.2 2 3).1 ⟨⟨2, 3, [[2, 3], [1, 0]]⟩, by simp, rfl, rfl⟩, h.1⟩

/-- A timeout that comes when all but one of the tasks have returned. -/
example : ∃ out, run (demo 0 (swapped 7 60 ++ List.replicate 60 (15, true) ++ List.replicate 60 (14, true))) star.graph star.order
    { doSearch := true, nthreads := 4, timeout := some 1 } = .ok (some out) :=
  ⟨[⟨1, 4, [[1, 2, 3, 0]]⟩, ⟨2, 3, [[2, 3], [1, 0]]⟩, ⟨3, 2, [[2], [3], [1, 0]]⟩], by decide +kernel⟩

end Verif
