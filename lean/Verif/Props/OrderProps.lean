import Verif.Proofs.Tried
import Verif.Props.FirstProps
/-!
# In which order the patterns are tried (C75)

"Note that the algorithm always first tries the more time optimal patterns" (interface.rs:69, lib.rs:156). What is
true is that at every point the larger steps are tried first; the schedules do not come in the order of their length.
-/

namespace Verif

open Spec Search Example

section

variable {P : Problem}

theorem tried_all (hP : P.WF) (hb : P.bits ≠ []) : ∃ (E : List (Schedule × Nat)) (N : Nat),
    (∀ fuel, N ≤ fuel → ∀ prof, allPaths prof fuel P = .ok (some E)) ∧
    (E.Pairwise fun a b => TriedBefore P a.1 b.1) ∧
    (∀ S m, (S, m) ∈ E ↔ P.Valid S ∧ Canonical P S ∧ m = P.peak S) ∧
    (∀ e ∈ E, ∀ k m, e.1[k]? = some m → m.Sublist (P.readyList (e.1.take k)) ∧
      (P.readyList (e.1.take k)).Nodup ∧ ∀ b, b ∈ P.readyList (e.1.take k) ↔ Ready P (e.1.take k).flatten b) ∧
    (∀ S, P.Valid S → ∃ e ∈ E, StepEq e.1 S) := by
  obtain ⟨s, h1, h2, h3, h4⟩ := mkScheduler_start hP
  obtain ⟨s', E, N, g1, g2, g3, g4, g5⟩ := allPaths_below hP fun _ => false
  rw [h1] at g1
  cases g1
  obtain ⟨i1, i2⟩ := g4.tried hP h2 h3.iterOK (listed_start hP h4)
  have i2' := fun e he k m hm => i2 e he k m (Nat.zero_le _) hm
  have hcomplete : ∀ S, P.Valid S → ∃ e ∈ E, StepEq e.1 S := by
    intro S hS
    refine g4.complete hP h2 h3.iterOK S hS (extends_nil S) ?_
    rcases (fresh_pendAt hP h2 h3 hS (extends_nil S)).2 with h | ⟨h, _⟩
    · exact h
    · exact (hb ((leaf_valid hP h2 h).perm.symm.eq_nil)).elim
  refine ⟨E, N, fun fuel hf prof => (g5 fuel hf prof).1, i1, ?_, i2', hcomplete⟩
  intro S m
  constructor
  · intro h
    have := g4.sound hP _ h
    exact ⟨this.1, fun k m' hm => (i2' _ h k m' hm).1, this.2.1⟩
  · rintro ⟨hS, hc, rfl⟩
    obtain ⟨e, he, hes⟩ := hcomplete S hS
    have : e.1 = S := canonical_eq hes (fun k m' hm => ⟨(i2' e he k m' hm).1, (i2' e he k m' hm).2.1⟩) hc
    have h2 := (g4.sound hP e he).2.1
    rw [this] at h2
    rw [← h2, ← this]
    exact he

/-- **C75** The sweep goes through the valid schedules in the order of `TriedBefore`: of two schedules the one with
the larger step at the first point where they differ comes first, and of two steps of the same size the one that
leaves out the first bit on which they differ. Each valid schedule is there once, its steps in the order of
the list of ready bits. -/
theorem C75_order (hP : P.WF) (hb : P.bits ≠ []) : ∃ (E : List (Schedule × Nat)) (N : Nat),
    (∀ fuel, N ≤ fuel → ∀ prof, allPaths prof fuel P = .ok (some E)) ∧
    (E.Pairwise fun a b => TriedBefore P a.1 b.1) ∧
    (∀ S m, (S, m) ∈ E ↔ P.Valid S ∧ Canonical P S ∧ m = P.peak S) ∧
    (∀ S, P.Valid S → ∃ S', Canonical P S' ∧ List.Forall₂ List.Perm S' S ∧ (S', P.peak S') ∈ E) := by
  obtain ⟨E, N, h1, h2, h3, h4, h5⟩ := tried_all hP hb
  refine ⟨E, N, h1, h2, h3, fun S hS => ?_⟩
  obtain ⟨⟨S', m⟩, he, hes⟩ := h5 S hS
  obtain ⟨h6, h7, rfl⟩ := (h3 _ _).1 he
  exact ⟨S', h7, hes, he⟩

-- in the documentation's example: the first bit is 0, then 3 and 1 are ready, in this order; the step `[3, 1]` is the
-- largest, `[1]` leaves out the first ready bit and comes before `[3]`
example : docs.WF ∧ docs.bits ≠ [] ∧ docs.readyList [] = [0] ∧ docs.readyList [[0]] = [3, 1] ∧
    docs.readyList [[0], [3]] = [1, 2] ∧ Sooner [3, 1] [3, 1] [1] ∧ Sooner [3, 1] [1] [3] :=
  ⟨docs_wf, by decide, by decide +kernel, by decide +kernel, by decide +kernel, Or.inl (by decide),
    Or.inr ⟨rfl, [], 3, [1], rfl, by simp, by decide, by decide⟩⟩

-- bits that become ready stand behind the ones that are left over, also if they are earlier in the input; and in the
-- order in which the measured bits release them
def orderly : Problem := ⟨[[], [], [], [], []], [[(4, []), (3, [])], [(0, [3]), (1, [4]), (2, [3])]]⟩

example : orderly.WF ∧ orderly.readyList [] = [4, 3] ∧ orderly.readyList [[3]] = [4, 0, 2] ∧
    orderly.readyList [[4, 3]] = [1, 0, 2] ∧ orderly.readyList [[3], [0, 4]] = [2, 1] :=
  ⟨wf_of_check (by decide +kernel), by decide +kernel, by decide +kernel, by decide +kernel, by decide +kernel⟩

/-- **C75** The first schedule with a given beginning is the shortest one with this beginning. -/
theorem C75_shortest (hP : P.WF) (hb : P.bits ≠ []) : ∃ (E : List (Schedule × Nat)) (N : Nat),
    (∀ fuel, N ≤ fuel → ∀ prof, allPaths prof fuel P = .ok (some E)) ∧
    ∀ (pre post : List (Schedule × Nat)) (e : Schedule × Nat) (k : Nat), E = pre ++ e :: post →
      (∀ x ∈ pre, x.1.take k ≠ e.1.take k) → ∀ S, P.Valid S → S.take k = e.1.take k → e.1.length ≤ S.length := by
  obtain ⟨E, N, h1, h2, h3, h4, h5⟩ := tried_all hP hb
  refine ⟨E, N, h1, ?_⟩
  intro pre post e k hE hpre S hS hk
  have heE : e ∈ E := by rw [hE]; simp
  obtain ⟨hev, hec, hem⟩ := (h3 e.1 e.2).1 heE
  refine length_le_of_all_ready hP hev hS hk.symm ?_
  intro j m hj hm b hb'
  obtain ⟨g1, g2, g3⟩ := h4 e heE j m hm
  by_contra hbm
  have hbR : b ∈ P.readyList (e.1.take j) := (g3 b).2 hb'
  have hlt : m.length < (P.readyList (e.1.take j)).length := by
    rcases Nat.lt_or_ge m.length (P.readyList (e.1.take j)).length with h | h
    · exact h
    · rw [g1.eq_of_length_le h] at hbm
      exact (hbm hbR).elim
  have hpf : Prefix P (e.1.take j ++ [P.readyList (e.1.take j)]) :=
    prefix_snoc (prefix_take (hev.prefix hP.bits_nodup) j) (List.ne_nil_of_mem hbR) g2 fun x hx => (g3 x).1 hx
  obtain ⟨rest, hrest⟩ := hpf.extend hP
  obtain ⟨e', he', hes⟩ := h5 _ hrest
  have hlen : (e.1.take j).length = j := by
    rw [List.length_take]
    have := (List.getElem?_eq_some_iff.1 hm).1
    omega
  -- the collected representative begins in the same way
  obtain ⟨_, hec', _⟩ := (h3 e'.1 e'.2).1 he'
  have hstep : e'.1.take j = e.1.take j := by
    refine (canonical_take ?_ (fun i m' hm' => ⟨(h4 e heE i m' hm').1, (h4 e heE i m' hm').2.1⟩) hec').symm
    have := StepEq.take hes j
    rw [List.append_assoc, List.take_append_of_le_length (by omega), List.take_take, Nat.min_self] at this
    exact this.symm
  have hj' : j < e'.1.length := by
    have hl := hes.length_eq
    simp only [List.length_append, hlen, List.length_singleton] at hl
    omega
  have hR : e'.1[j]? = some (P.readyList (e.1.take j)) := by
    have hp := (List.forall₂_iff_get.1 hes).2 j hj' (by simp [hlen])
    simp only [List.get_eq_getElem] at hp
    rw [List.getElem_append_left (by simp [hlen]), List.getElem_append_right (by omega)] at hp
    simp only [hlen, Nat.sub_self, List.getElem_cons_zero] at hp
    obtain ⟨q1, q2, _⟩ := h4 e' he' j _ (List.getElem?_eq_getElem hj')
    rw [hstep] at q1 q2
    rw [List.getElem?_eq_getElem hj', sublist_eq_of_perm _ _ _ q2 q1 (List.Sublist.refl _) hp]
  have hne : m ≠ P.readyList (e.1.take j) := by
    intro h
    rw [← h] at hlt
    omega
  rw [hE, List.mem_append, List.mem_cons] at he'
  rcases he' with he' | he' | he'
  · refine hpre e' he' ?_
    have := congrArg (List.take k) hstep
    rwa [List.take_take, List.take_take, Nat.min_eq_left hj] at this
  · subst he'
    rw [hm, Option.some.injEq] at hR
    exact hne hR
  · rw [hE, List.pairwise_append] at h2
    have h6 := (List.pairwise_cons.1 h2.2.1).1 e' he'
    have := h6.at hstep.symm hm hR hne
    rcases this with h | ⟨h, _⟩ <;> omega

-- the first schedule of the documentation that begins with 0 and then only 3
example : allPaths .debug 100 docs = .ok (some ([([[0], [3, 1], [2]], 3), ([[0], [1], [3], [2]], 3)] ++
    ([[0], [3], [1, 2]], 3) :: [([[0], [3], [2], [1]], 3), ([[0], [3], [1], [2]], 3)])) ∧
    (∀ x ∈ [(([[0], [3, 1], [2]] : Schedule), 3), ([[0], [1], [3], [2]], 3)],
      x.1.take 2 ≠ ([[0], [3], [1, 2]] : Schedule).take 2) ∧
    docs.Valid [[0], [3], [2], [1]] :=
  ⟨by decide +kernel, by decide, valid_of_check (by decide +kernel)⟩

variable {F σ : Type} [FloatOps F] {env : Env F σ} {args : Args F} {out : List Path}

/-- **C75** The path that an exhaustive, single-threaded, uninterrupted search returns for a cost is, of all valid
schedules of this cost, the one that is tried first. -/
theorem C75_returned (hP : P.WF) (hb : P.bits ≠ []) (he : env.OK) (hs : args.doSearch = true) (hn : args.nthreads < 2)
    (ha : args.probabilistic = none) (ht : args.timeout = none ∨ (∀ k, env.timer k = false))
    (h : run env P.graph P.order args = .ok (some out)) {p : Path} (hp : p ∈ out) :
    P.Valid p.steps ∧ Canonical P p.steps ∧ ∀ S, P.Valid S → S.length = p.time → P.peak S = p.space →
      ∃ S', Canonical P S' ∧ List.Forall₂ List.Perm S' S ∧ (S' = p.steps ∨ TriedBefore P p.steps S') := by
  obtain ⟨E, N, h1, h2, h3, h4, h5⟩ := tried_all hP hb
  obtain ⟨E', pre, N', g1, _, g3, _, g5⟩ := C55_first hP he hs hn ha h
  have hEE : E' = E := by
    have a1 := h1 (max N N') (by omega) .debug
    rw [g1 (max N N') (by omega) .debug] at a1
    simpa using a1
  subst hEE
  rw [g3 ht] at g5
  obtain ⟨pr, po, q1, q2, q3, q4, q5⟩ := (g5 p).1 hp
  have hpE := (h3 p.steps p.space).1 (by rw [q1]; simp)
  refine ⟨hpE.1, hpE.2.1, ?_⟩
  intro S hS hl hm
  obtain ⟨⟨S', m⟩, he', hes⟩ := h5 S hS
  obtain ⟨v1, v2, rfl⟩ := (h3 _ _).1 he'
  refine ⟨S', v2, hes, ?_⟩
  have hpk : P.peak S' = p.space := by
    rw [← hm]
    exact hes.peak P
  have hl' : S'.length = p.time := by rw [← hl]; exact hes.length_eq
  rw [q1, List.mem_append, List.mem_cons] at he'
  rcases he' with he' | he' | he'
  · have := q5 _ he' hl'
    simp only at this
    omega
  · left
    injection he'
  · right
    rw [q1, List.pairwise_append] at h2
    exact (List.pairwise_cons.1 h2.2.1).1 _ he'

/-- **C75** In particular it is greedy: no valid schedule with the same costs that begins with the same steps goes on
with a larger one. -/
theorem C75_greedy (hP : P.WF) (hb : P.bits ≠ []) (he : env.OK) (hs : args.doSearch = true) (hn : args.nthreads < 2)
    (ha : args.probabilistic = none) (ht : args.timeout = none ∨ (∀ k, env.timer k = false))
    (h : run env P.graph P.order args = .ok (some out)) {p : Path} (hp : p ∈ out) {S : Schedule} (hS : P.Valid S)
    (hl : S.length = p.time) (hm : P.peak S = p.space) {k : Nat} {m m' : List Nat} (hk : S.take k = p.steps.take k)
    (h1 : p.steps[k]? = some m) (h2 : S[k]? = some m') : m'.length ≤ m.length := by
  obtain ⟨hv, hc, hall⟩ := C75_returned hP hb he hs hn ha ht h hp
  obtain ⟨E, N, _, _, h3, h4, _⟩ := tried_all hP hb
  have hpE : (p.steps, P.peak p.steps) ∈ E := (h3 _ _).2 ⟨hv, hc, rfl⟩
  obtain ⟨S', hc', hes, hor⟩ := hall S hS hl hm
  have hk' : p.steps.take k = S'.take k := by
    refine canonical_take ?_ (fun i n hn => ⟨(h4 _ hpE i n hn).1, (h4 _ hpE i n hn).2.1⟩) hc'
    rw [← hk]
    exact (StepEq.take hes k).symm
  have hlt := (List.getElem?_eq_some_iff.1 h2).1
  have hlt' : k < S'.length := by rw [hes.length_eq]; exact hlt
  have hlen : S'[k].length = m'.length := by
    have := (List.forall₂_iff_get.1 hes).2 k hlt' hlt
    simp only [List.get_eq_getElem] at this
    rw [this.length_eq, (List.getElem?_eq_some_iff.1 h2).2]
  have h2' : S'[k]? = some S'[k] := List.getElem?_eq_getElem hlt'
  rw [← hlen]
  by_cases hne : m = S'[k]
  · rw [hne]
  · rcases hor with hor | hor
    · have h5 := congrArg (·[k]?) hor
      simp only [h1, h2', Option.some.injEq] at h5
      exact (hne h5.symm).elim
    · rcases hor.at hk' h1 h2' hne with h | ⟨h, _⟩ <;> omega

end

-- the star: of the schedules with two steps and space three, the returned one leaves out the first bit it can
example : star.WF ∧ star.bits ≠ [] ∧ ∃ out, run (demo 1000 []) star.graph star.order { doSearch := true } = .ok (some out) ∧
    (⟨2, 3, [[2, 3], [1, 0]]⟩ : Path) ∈ out ∧ star.Valid [[1, 3], [2, 0]] ∧ star.peak [[1, 3], [2, 0]] = 3 ∧
    TriedBefore star [[2, 3], [1, 0]] [[1, 3], [2, 0]] ∧ star.Valid [[1], [2, 3, 0]] ∧ star.Valid [[1, 2, 3], [0]] :=
  ⟨star_wf, by decide, _, star_run, by simp, valid_of_check (by decide +kernel), by decide +kernel,
    ⟨0, [2, 3], [1, 3], rfl, rfl, rfl, Or.inr ⟨rfl, [], 1, [2, 3, 0], by decide +kernel, by simp, by decide, by decide⟩⟩,
    valid_of_check (by decide +kernel), valid_of_check (by decide +kernel)⟩

/-- **C75** The schedules are not tried in the order of their length ("always first tries the more time optimal
patterns"): in the example of the documentation a schedule of four steps comes before one of three steps. -/
theorem C75_length_refuted : ¬ ∀ (P : Problem) (fuel : Nat) (E : List (Schedule × Nat)), P.WF →
    allPaths .debug fuel P = .ok (some E) → E.Pairwise fun a b => a.1.length ≤ b.1.length := by
  intro h
  have := h docs 100 [([[0], [3, 1], [2]], 3), ([[0], [1], [3], [2]], 3), ([[0], [3], [1, 2]], 3),
    ([[0], [3], [2], [1]], 3), ([[0], [3], [1], [2]], 3)] docs_wf (by decide +kernel)
  simp at this

end Verif
