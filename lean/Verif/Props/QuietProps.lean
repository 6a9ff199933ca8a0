import Verif.Props.SizeProps
import Verif.Proofs.SizeQuiet
/-!
# Multi-threaded searches that are too small for a refresh
-/

namespace Verif

open Spec Search Search.Threaded Example

section

variable {P : Problem} {E : List Schedule} {F σ : Type} [FloatOps F]

theorem complete_of_short (hP : P.WF) (hb : P.bits ≠ []) {env : Env F σ} (he : env.OK) {args : Args F}
    (hs : args.doSearch = true) (ht : 2 ≤ args.nthreads) (hp : args.probabilistic = none)
    (hshort : ∀ s (seeds : Nat → σ) g, mkScheduler P.graph P.order = .ok s → StateFor P [] s → Fresh s →
      initGlobal env.prof ((args.taskBound.map fun b : Nat => (b : Int)).getD 100000) seeds s P.n = .ok g →
      ∀ t ∈ g.tasks, Short P t)
    {out : List Path} (h : run env P.graph P.order args = .ok (some out)) :
    ∀ S, P.Valid S → ∃ p ∈ out, p.time ≤ S.length ∧ p.space ≤ P.peak S := by
  have htb' : ((args.taskBound.map fun b => (b : Int)).getD 100000) =
      (args.taskBound.map fun b : Nat => (b : Int)).getD 100000 := by
    cases args.taskBound <;> rfl
  rw [run, hs, Bool.not_true, if_neg (by simp), Verif.search.eq_def, if_neg (by omega), hp, htb'] at h
  refine searchThreaded_complete hP hb _ _ _ env.prof env.hashIter he out ?_ h
  intro s g e1 e2
  obtain ⟨s', e1', hs, hf⟩ := mkScheduler_spec hP
  rw [e1] at e1'
  simp only [Except.ok.injEq] at e1'
  subst e1'
  obtain ⟨g1, e3, hg⟩ := initGlobal_spec hP.lax _ _ hs hf
  have := e3 env.prof
  rw [e2] at this
  simp only [Except.ok.injEq] at this
  subst this
  exact short_quietRun hP _ g hg (hshort s _ g e1 hs hf e2)

/-- **C28** for inputs with few schedules. The full claim - an uninterrupted multi-threaded deterministic search weakly
dominates every valid schedule - is false, see `C28_refuted`. It holds if no task reaches the refresh interval of 1000
loop iterations, see `C28_no_refresh`; this is the case, for every interleaving, every number of threads and every task
bound, if the valid schedules have less than 500 different beginnings. -/
theorem C28_few (hP : P.WF) (hb : P.bits ≠ []) (hE : Beginnings P E) (hlen : E.length < 500) {env : Env F σ}
    (he : env.OK) {args : Args F} (hs : args.doSearch = true) (ht : 2 ≤ args.nthreads)
    (hp : args.probabilistic = none) {out : List Path} (h : run env P.graph P.order args = .ok (some out)) :
    ∀ S, P.Valid S → ∃ p ∈ out, p.time ≤ S.length ∧ p.space ≤ P.peak S := by
  refine complete_of_short hP hb he hs ht hp ?_ h
  intro s seeds g e1 hs hf e2
  obtain ⟨s', E', h1, h2, h3, h4, h5⟩ := exists_beginnings hP
  rw [e1] at h1
  simp only [Except.ok.injEq] at h1
  subst h1
  rw [hE.length_eq h5] at hlen
  refine short_init hP.lax _ hs hf h4 ?_ seeds e2
  unfold updateInterval
  omega

/-- The task bound does not stop the splitting: it is the default one, zero or large. -/
theorem splits_all (hl : P.bits.length ≤ 16) {tb : Option Nat}
    (h : tb = none ∨ tb = some 0 ∨ ∃ b, tb = some b ∧ 2 ^ P.bits.length < b) :
    (tb.map fun b : Nat => (b : Int)).getD 100000 ≤ 0 ∨
      ((2 ^ P.bits.length : Nat) : Int) < (tb.map fun b : Nat => (b : Int)).getD 100000 := by
  have : 2 ^ P.bits.length ≤ 2 ^ 16 := Nat.pow_le_pow_right (by omega) hl
  rcases h with rfl | rfl | ⟨b, rfl, hb⟩
  · right
    change ((2 ^ P.bits.length : Nat) : Int) < 100000
    omega
  · left
    exact Int.le_refl 0
  · right
    change ((2 ^ P.bits.length : Nat) : Int) < (b : Int)
    omega

/-- **C28** for inputs with few schedules for each first step: with at most 16 qubits and a task bound that lets every
possible first step become a task of its own (the default one does), at most 500 different beginnings for each first
step are enough. -/
theorem C28_few_each (hP : P.WF) (hb : P.bits ≠ []) (hl : P.bits.length ≤ 16)
    (hlen : ∀ (m : List Nat) (K : List Schedule), (∀ S ∈ K, ∃ rest, S = m :: rest ∧ ∃ rest', P.Valid (S ++ rest')) →
      (K.Pairwise fun a b => ¬ List.Forall₂ List.Perm a b) → K.length ≤ 500)
    {env : Env F σ} (he : env.OK) {args : Args F} (hs : args.doSearch = true) (ht : 2 ≤ args.nthreads)
    (hp : args.probabilistic = none)
    (htb : args.taskBound = none ∨ args.taskBound = some 0 ∨ ∃ b, args.taskBound = some b ∧ 2 ^ P.bits.length < b)
    {out : List Path} (h : run env P.graph P.order args = .ok (some out)) :
    ∀ S, P.Valid S → ∃ p ∈ out, p.time ≤ S.length ∧ p.space ≤ P.peak S := by
  refine complete_of_short hP hb he hs ht hp ?_ h
  intro s seeds g e1 hs hf e2
  refine short_init_split hP.lax (splits_all hl htb) hs hf ?_ seeds e2
  intro c m r hc hcf hm hr
  have h1 := hlen m ([m] :: r) ?_ ?_
  · rw [List.length_cons] at h1
    unfold updateInterval
    omega
  · intro S hS
    rcases List.mem_cons.1 hS with rfl | hS
    · exact ⟨[], rfl, hc.pre.extend hP⟩
    · obtain ⟨h2, h3, _⟩ := hr.sound S hS
      cases S with
      | nil => simp at h3
      | cons a S =>
        simp only [List.length_cons, List.length_nil, List.take_succ_cons, List.take_zero, List.cons.injEq, and_true] at h3
        exact ⟨S, by rw [h3], h2.extend hP⟩
  · refine List.pairwise_cons.2 ⟨?_, hr.nodup hc hcf.iterOK⟩
    intro S hS hp
    have := hp.length_eq
    obtain ⟨_, _, l, m', h4, _⟩ := hr.sound S hS
    have := (List.getElem?_eq_some_iff.1 h4).1
    simp only [List.length_cons, List.length_nil] at *
    omega

/-- **C28** for small inputs: for every interleaving, if there are at most 4 qubits, or at most 5 with the default task
bound. -/
theorem C28_small (hP : P.WF) (hb : P.bits ≠ []) {env : Env F σ}
    (he : env.OK) {args : Args F} (hs : args.doSearch = true) (ht : 2 ≤ args.nthreads)
    (hp : args.probabilistic = none)
    (hsmall : P.bits.length ≤ 4 ∨ (P.bits.length ≤ 5 ∧ args.taskBound = none))
    {out : List Path} (h : run env P.graph P.order args = .ok (some out)) :
    ∀ S, P.Valid S → ∃ p ∈ out, p.time ≤ S.length ∧ p.space ≤ P.peak S := by
  rcases hsmall with h1 | ⟨h1, h2⟩
  · obtain ⟨E, hE⟩ := C67_exists hP
    refine C28_few hP hb hE ?_ he hs ht hp h
    have h3 := (C67_count hP hb hE).1
    have h4 : P.bits.length = 0 ∨ P.bits.length = 1 ∨ P.bits.length = 2 ∨ P.bits.length = 3 ∨ P.bits.length = 4 := by
      omega
    have h5 : orderedBell P.bits.length ≤ 75 := by
      rcases h4 with h4 | h4 | h4 | h4 | h4 <;> rw [h4] <;> decide
    omega
  · refine complete_of_short hP hb he hs ht hp ?_ h
    intro s seeds g e1 hs hf e2
    refine short_init_split hP.lax (splits_all (by omega) (Or.inl h2)) hs hf ?_ seeds e2
    intro c m r hc hcf hm hr
    have ht := partials_bell (a := orderedBell) rfl orderedBell_succ
    have h3 := hr.length_le ht
    rw [hcf.rem] at h3
    have h4 := ht.le (set_length_le hc)
    have h5 : unmeasured P [m] ≤ 4 := by
      have := List.length_pos_iff.2 hm
      simp only [unmeasured, List.flatten_cons, List.flatten_nil, List.append_nil]
      omega
    have h6 : unmeasured P [m] = 0 ∨ unmeasured P [m] = 1 ∨ unmeasured P [m] = 2 ∨ unmeasured P [m] = 3 ∨
        unmeasured P [m] = 4 := by
      omega
    have h7 : (if unmeasured P [m] = 0 then 1 else 2 * orderedBell (unmeasured P [m])) ≤ 150 := by
      rcases h6 with h6 | h6 | h6 | h6 | h6 <;> rw [h6] <;> decide
    unfold updateInterval
    omega

end

/-- `n` nodes in a row, each of them but the first to be measured after the one before. -/
def row (n : Nat) : Problem :=
  ⟨(List.range n).map fun i => (if i = 0 then [] else [i - 1]) ++ if i + 1 < n then [i + 1] else [],
    (List.range n).map fun i => [(i, if i = 0 then [] else [i - 1])]⟩

theorem row_wf : (row 12).WF := wf_of_check (by decide +kernel)

theorem row_few : ∀ E, Beginnings (row 12) E → E.length < 500 := by
  intro E hE
  have h : ∃ out, allPaths .debug 25 (row 12) = .ok (some out) := 
    ⟨[((List.range 12).map fun i => [i], 2)], by decide +kernel⟩
  have := (C67_sweep row_wf hE .debug 25).1.1 h
  omega

-- twelve qubits, but few schedules
example : (row 12).WF ∧ (row 12).bits.length = 12 ∧ (∃ E, Beginnings (row 12) E ∧ E.length < 500) ∧
    (demo 0 (roundRobin 2 26)).OK ∧ (run (demo 0 (roundRobin 2 26)) (row 12).graph (row 12).order
      { doSearch := true, nthreads := 2, taskBound := some 1 }).map
      (Option.map fun o => o.map fun p => (p.time, p.space)) = .ok (some [(12, 2)]) := by
  obtain ⟨E, hE⟩ := C67_exists row_wf
  exact ⟨row_wf, by decide +kernel, ⟨E, hE, row_few E hE⟩, demo_ok _ _, by decide +kernel⟩

example : ∀ (m : List Nat) (K : List Schedule), (∀ S ∈ K, ∃ rest, S = m :: rest ∧ ∃ rest', (row 12).Valid (S ++ rest')) →
    (K.Pairwise fun a b => ¬ List.Forall₂ List.Perm a b) → K.length ≤ 500 := by
  intro m K hK hd
  obtain ⟨E, hE⟩ := C67_exists row_wf
  have h1 := hE.bound (E := K) (fun S hS h => by obtain ⟨rest, h2, _⟩ := hK S hS; rw [h2] at h; cases h)
    (fun S hS => (hK S hS).choose_spec.2) hd
  have h2 := row_few E hE
  omega

/-- Five qubits around one that is not measured. -/
def wheel : Problem :=
  ⟨[[1, 2, 3, 4, 5], [0, 2], [0, 1], [0], [0], [0]], [[(1, []), (2, []), (3, []), (4, [])], [(5, [1])]]⟩

-- four qubits with a task bound, five qubits with the default one
example : star.WF ∧ star.bits.length = 4 ∧ (run (demo 0 (roundRobin 2 300)) star.graph star.order
      { doSearch := true, nthreads := 2, taskBound := some 1 }).map
      (Option.map fun o => o.map fun p => (p.time, p.space)) = .ok (some [(1, 4), (2, 3), (3, 2)]) ∧
    wheel.WF ∧ wheel.bits.length = 5 ∧ (run (demo 0 (roundRobin 16 60)) wheel.graph wheel.order
      { doSearch := true, nthreads := 4 }).map
      (Option.map fun o => o.map fun p => (p.time, p.space)) = .ok (some [(2, 4), (3, 3)]) :=
  ⟨star_wf, rfl, by decide +kernel, wf_of_check (by decide +kernel), rfl, by decide +kernel⟩

end Verif
