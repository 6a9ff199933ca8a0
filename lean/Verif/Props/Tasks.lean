import Verif.Proofs.ThreadedOpt
import Verif.Props.SweepProps
/-!
# How the multi-threaded search splits the work
-/

namespace Verif

open Spec Search Search.Threaded

/-- All first steps that a scheduler still offers, by calling `next_and_focus` until it returns
`None`. -/
def offers (prof : Profile) : Nat → Scheduler Partitioner → R (List (List Nat))
  | 0, _ => pure []
  | fuel + 1, s => do
    let (s', r) ← s.nextAndFocus prof
    match r with
    | none => pure []
    | some (_, m) => do
      let ms ← offers prof fuel s'
      pure (m :: ms)

theorem offers_eq {P : Problem} (hP : P.WF) {p : Schedule} (prof : Profile) (fuel : Nat) :
    ∀ s : Scheduler Partitioner, StateFor P p s → IterOK s → s.time.measurable.iter.length ≤ fuel →
    offers prof fuel s = .ok (((rem s).map (·.2)).filter fun m => !m.isEmpty) := by
  induction fuel with
  | zero =>
    intro s _ _ h
    have : s.time.measurable.iter = [] := List.eq_nil_of_length_eq_zero (by omega)
    simp [offers, rem, this, pure, Except.pure]
  | succ fuel ih =>
    intro s hs hi h
    rcases nextAndFocus_spec hP.lax hs hi with ⟨s', hn, _, _⟩ | ⟨s', c, l, m, hn⟩
    · simp only [offers, hn.eq prof, bind, Except.bind, pure, Except.pure]
      rcases hn.rem with h | h <;> simp [h]
    · have hl := hn.len
      have := ih s' hn.state' hn.iter' (by omega)
      have hne : m.isEmpty = false := by
        cases m with
        | nil => exact (hn.ne rfl).elim
        | cons => rfl
      simp only [offers, hn.eq prof, bind, Except.bind, this, pure, Except.pure, hn.rem,
        List.map_cons, List.filter_cons, hne, Bool.not_false, if_true]

/-- If fewer tasks than allowed were started, there is nothing left for the task for the rest. -/
theorem spawnLoop_rest {P : Problem} (hP : P.WF) (tb : Int) (prof : Profile) :
    ∀ (fuel : Nat) (s : Scheduler Partitioner) (k : Int) (ts rest), StateFor P [] s → IterOK s →
    s.time.measurable.iter.length < fuel → spawnLoop prof tb fuel s k = .ok (ts, rest) →
    (ts.length : Int) + k ≠ tb → rest.time.measurable.iter = [] := by
  intro fuel
  induction fuel with
  | zero => intro s k _ _ _ _ h; omega
  | succ fuel ih =>
    intro s k ts rest hs hi hf he hne
    rcases nextAndFocus_spec hP.lax hs hi with ⟨s', hn, hs', hi'⟩ | ⟨s', c, l, m, hn⟩
    · simp [spawnLoop, hn.eq prof, bind, Except.bind, pure, Except.pure] at he
      rw [← he.2]
      exact hn.done
    · have hlen := hn.len
      by_cases hb : k + 1 = tb
      · simp [spawnLoop, hn.eq prof, hb, bind, Except.bind, pure, Except.pure] at he
        rw [← he.1] at hne
        simp at hne
        omega
      · obtain ⟨ts', rest', f1, _⟩ := spawnLoop_spec hP.lax tb fuel s' (k + 1) hn.state' hn.iter' (by omega)
        simp [spawnLoop, hn.eq prof, hb, f1 prof, bind, Except.bind, pure, Except.pure] at he
        rw [← he.1] at hne
        simp at hne
        rw [← he.2]
        exact ih s' (k + 1) ts' rest' hn.state' hn.iter' (by omega) (f1 prof) (by omega)

section

variable {P : Problem} {s : Scheduler Partitioner}

/-- **C29** The tasks with a fixed first step together with what is left in the task for the rest are
exactly the first steps of the whole search, in the same order; these are all non-empty sets of
qubits without dependencies, each once. With a task bound `b ≥ 1` at most `b` tasks with a fixed
first step are started, all later ones fall to the task for the rest. -/
theorem C29_split (hP : P.WF) (hs : mkScheduler P.graph P.order = .ok s) (prof : Profile) (b : Int) :
    ∃ (ts : List (Scheduler Partitioner × List Nat)) (rest : Scheduler Partitioner)
      (all left : List (List Nat)) (N : Nat),
      spawnLoop prof b (s.time.measurable.iter.length + 1) s 0 = .ok (ts, rest) ∧
      (∀ fuel, N ≤ fuel → offers prof fuel s = .ok all ∧ offers prof fuel rest = .ok left) ∧
      all = ts.map (·.2) ++ left ∧
      (1 ≤ b → (ts.length : Int) ≤ b) ∧
      ((b ≤ 0 ∨ (all.length : Int) < b) → left = []) ∧
      (all.Pairwise fun x y => ¬ x.Perm y) ∧
      (∀ x, (∃ y ∈ all, y.Perm x) ↔ x ≠ [] ∧ x.Nodup ∧ ∀ q ∈ x, q ∈ P.bits ∧ ∀ d, ¬ P.Needs q d) := by
  obtain ⟨s', h1, h2, h3, _⟩ := mkScheduler_start hP
  rw [hs] at h1
  injection h1 with h1
  subst h1
  obtain ⟨ts, rest, e, r1, r2, r3, r4, ⟨tail, r5, r6⟩, r7, r8, r9⟩ := spawnLoop_spec hP.lax b
    (s.time.measurable.iter.length + 1) s 0 h2 h3.iterOK (by omega)
  have hfilt : ∀ l : List (List Nat), (∀ m ∈ l, m ≠ []) → l.filter (fun m => !m.isEmpty) = l := by
    intro l hl
    rw [List.filter_eq_self]
    intro m hm
    cases m with
    | nil => exact (hl _ hm rfl).elim
    | cons => rfl
  have hts : ∀ m ∈ ts.map (·.2), m ≠ [] := by
    intro m hm
    obtain ⟨t, ht, rfl⟩ := List.mem_map.1 hm
    exact (r3 t ht).2.2
  have hall : ((rem s).map (·.2)).filter (fun m => !m.isEmpty) =
      ts.map (·.2) ++ ((rem rest).map (·.2)).filter fun m => !m.isEmpty := by
    rw [r5, List.filter_append, hfilt _ hts]
    congr 1
    rcases r6 with r6 | ⟨r6, r6'⟩
    · rw [r6]
    · rw [r6]
      simp only [List.map_nil, List.filter_nil, List.filter_eq_nil_iff]
      intro m hm
      rw [r6' m hm]
      simp
  have hmem : ∀ m, m ∈ ((rem s).map (·.2)).filter (fun m => !m.isEmpty) ↔
      m ≠ [] ∧ m.Sublist s.time.measurable.set := by
    intro m
    rw [h3.rem, List.mem_filter, List.mem_map]
    constructor
    · rintro ⟨⟨⟨l, m'⟩, hm, rfl⟩, hne⟩
      exact ⟨by simpa using hne, (mem_items hm).2.2⟩
    · rintro ⟨hne, hsub⟩
      obtain ⟨l, hl⟩ := exists_items_of_sublist hsub
      exact ⟨⟨_, hl, rfl⟩, by simpa using hne⟩
  refine ⟨ts, rest, _, _, s.time.measurable.iter.length, e prof, ?_, hall, ?_, ?_, ?_, ?_⟩
  · intro fuel hf
    exact ⟨offers_eq hP prof fuel s h2 h3.iterOK hf, offers_eq hP prof fuel rest r1 r2 (by omega)⟩
  · intro hb
    have := r7 (by omega)
    omega
  · intro hb
    have h7 := congrArg List.length hall
    rw [List.length_append, List.length_map] at h7
    have : rest.time.measurable.iter = [] := by
      rcases hb with hb | hb
      · exact r9 (Or.inl hb)
      · exact spawnLoop_rest hP b prof _ s 0 ts rest h2 h3.iterOK (by omega) (e prof) (by omega)
    simp [rem, this]
  · have hn := items_snd_nodup h2.time.set_nodup
    have h4 : ((rem s).map (·.2)).Nodup := by rw [h3.rem]; exact hn
    refine List.Pairwise.imp_of_mem ?_ (h4.filter _)
    intro x y hx hy hxy hp
    have hx' := ((hmem x).1 hx).2
    have hy' := ((hmem y).1 hy).2
    exact hxy (sublist_eq_of_perm _ x y h2.time.set_nodup hx' hy' hp)
  · intro x
    have hset : ∀ q, q ∈ s.time.measurable.set ↔ q ∈ P.bits ∧ ∀ d, ¬ P.Needs q d := by
      intro q
      have := h2.time.set_mem q
      change q ∈ s.time.measurable.set ↔ _ at this
      rw [this]
      constructor
      · intro h; exact ⟨h.bit, fun d hd => by simpa using h.deps d hd⟩
      · intro h; exact ⟨h.1, by simp, fun d hd => (h.2 d hd).elim⟩
    have hsn : s.time.measurable.set.Nodup := h2.time.set_nodup
    constructor
    · rintro ⟨y, hy, hyx⟩
      obtain ⟨h5, h6⟩ := (hmem y).1 hy
      refine ⟨fun h => h5 ?_, hyx.nodup_iff.1 (h6.nodup hsn), fun q hq => ?_⟩
      · rw [h] at hyx
        exact hyx.eq_nil
      · exact (hset q).1 (h6.subset (hyx.mem_iff.2 hq))
    · rintro ⟨h5, h6, h7⟩
      refine ⟨s.time.measurable.set.filter fun q => decide (q ∈ x), (hmem _).2 ⟨?_, List.filter_sublist⟩, ?_⟩
      · intro h0
        obtain ⟨q, hq⟩ := List.exists_mem_of_ne_nil x h5
        have : q ∈ s.time.measurable.set.filter fun q => decide (q ∈ x) :=
          List.mem_filter.2 ⟨(hset q).2 (h7 q hq), by simpa using hq⟩
        rw [h0] at this
        cases this
      · refine (List.perm_ext_iff_of_nodup (hsn.filter _) h6).2 fun q => ?_
        rw [List.mem_filter, decide_eq_true_eq]
        exact ⟨fun h => h.2, fun h => ⟨(hset q).2 (h7 q h), h⟩⟩

/-- With the bound 2, two of the seven first steps of three independent qubits get their own task and
five are left for the last one. -/
example : ∃ s, mkScheduler [[], [], []] [[(0, []), (1, []), (2, [])]] = .ok s ∧
    (spawnLoop .debug 2 9 s 0).map (fun r => (r.1.map (·.2), (offers .debug 9 r.2).toOption)) =
      .ok ([[0, 1, 2], [1, 2]], some [[0, 2], [0, 1], [2], [1], [0]]) := by
  refine ⟨_, rfl, ?_⟩
  decide +kernel

/-- **C29** The documentation of `run` calls the bound "the maximum number of tasks to start in the
search" (`interface.rs` 56-57). With the bound 0 there is no bound: every one of the first steps gets its
own task and nothing is left for the last one. -/
theorem C29_zero_unbounded (hP : P.WF) (hs : mkScheduler P.graph P.order = .ok s) (prof : Profile) :
    ∃ (ts : List (Scheduler Partitioner × List Nat)) (rest : Scheduler Partitioner)
      (all : List (List Nat)) (N : Nat),
      spawnLoop prof 0 (s.time.measurable.iter.length + 1) s 0 = .ok (ts, rest) ∧
      (∀ fuel, N ≤ fuel → offers prof fuel s = .ok all ∧ offers prof fuel rest = .ok []) ∧
      ts.map (·.2) = all := by
  obtain ⟨ts, rest, all, left, N, h1, h2, h3, _, h5, _⟩ := C29_split hP hs prof 0
  have := h5 (Or.inl (by omega))
  subst this
  exact ⟨ts, rest, all, N, h1, h2, by simpa using h3.symm⟩

end

end Verif
