import Verif.Proofs.Terminate
import Verif.Proofs.Filter
/-!
# Whole runs of the single-threaded searches
-/

namespace Verif

open Spec Search

/-- The deterministic loop ends, without a panic, the same way in both profiles. -/
theorem searchLoop_spec {P : Problem} (hP : Lax P) {p0 : Schedule} {b0 : List Nat}
    (timer : Nat → Bool) :
    ∀ (fuel k : Nat) (l : Loc), LInv P p0 b0 l → potential P l ≤ fuel →
    ∃ l', (∀ prof, searchLoop prof timer fuel k l = .ok (some l')) ∧ LInv P p0 b0 l' ∧
      ((∀ j, timer j = false) → ¬ Maximal P p0 → ∀ S δ, Maximal P S → MinLen P δ S →
        (DomS P δ l.best S ∨ Pending S l.path l.sweep.current l.sweep.stack) → DomS P δ l'.best S) := by
  intro fuel
  induction fuel with
  | zero => intro k l _ h; have := potential_pos P l; omega
  | succ fuel ih =>
    intro k l hl hp
    obtain ⟨l1, stop, e1, e2⟩ := searchIter_spec hP hl.ok
    have hinv := (e2.inv hl).1
    cases hstop : stop with
    | true =>
      refine ⟨l1, ?_, hinv, ?_⟩
      · intro prof
        simp [searchLoop, e1 prof, hstop, bind, Except.bind, pure, Except.pure]
      · intro _ hr S δ hS hδ hc
        rcases (e2.cov1_slack hP hl hS hδ hc).2 hstop with h | ⟨h, _⟩
        · exact h
        · exact (hr h).elim
    | false =>
      cases ht : timer k with
      | true =>
        refine ⟨l1, ?_, hinv, ?_⟩
        · intro prof
          simp [searchLoop, e1 prof, hstop, ht, bind, Except.bind, pure, Except.pure]
        · intro h; rw [h k] at ht; simp at ht
      | false =>
        have hlt := e2.potential hstop
        obtain ⟨l2, f1, f2, f3⟩ := ih (k + 1) l1 hinv (by omega)
        refine ⟨l2, ?_, f2, ?_⟩
        · intro prof
          simp only [searchLoop, e1 prof, hstop, ht, bind, Except.bind]
          simpa using f1 prof
        · intro h hr S δ hS hδ hc
          exact f3 h hr S δ hS hδ ((e2.cov1_slack hP hl hS hδ hc).1 hstop)

/-- More fuel does not change a finished run. -/
theorem searchLoop_mono {prof : Profile} {timer : Nat → Bool} :
    ∀ {fuel fuel' k : Nat} {l l' : Loc}, searchLoop prof timer fuel k l = .ok (some l') →
    fuel ≤ fuel' → searchLoop prof timer fuel' k l = .ok (some l') := by
  intro fuel
  induction fuel with
  | zero => intro fuel' k l l' h; simp [searchLoop, pure, Except.pure] at h
  | succ fuel ih =>
    intro fuel' k l l' h hle
    obtain ⟨f, rfl⟩ : ∃ f, fuel' = f + 1 := ⟨fuel' - 1, by omega⟩
    simp only [searchLoop, bind, Except.bind] at h ⊢
    cases hi : searchIter prof l with
    | error e => simp [hi] at h
    | ok r =>
      obtain ⟨l1, stop⟩ := r
      simp only [hi] at h ⊢
      split at h
      · rename_i hs; simpa only [hs, ↓reduceIte] using h
      · split at h
        · rename_i hs ht; rw [if_neg hs, if_pos ht]; exact h
        · rename_i hs ht
          rw [if_neg hs, if_neg ht]
          exact ih h (by omega)

/-- The probabilistic loop ends, without a panic, the same way in both profiles. -/
theorem probLoop_spec {F σ : Type} [FloatOps F] (accept : Accept F) (gen : Rng F σ)
    {P : Problem} (hP : Lax P) {p0 : Schedule} {b0 : List Nat} (timer : Nat → Bool) :
    ∀ (fuel k : Nat) (l : Loc) (rng : σ), LInv P p0 b0 l → potential P l ≤ fuel →
    ∃ l' rng', (∀ prof, probLoop prof accept gen timer fuel k l rng = .ok (some (l', rng'))) ∧
      LInv P p0 b0 l' := by
  intro fuel
  induction fuel with
  | zero => intro k l _ _ h; have := potential_pos P l; omega
  | succ fuel ih =>
    intro k l rng hl hp
    obtain ⟨l1, rng1, stop, e1, e2⟩ := probIter_spec accept gen rng hP hl.ok
    have hinv := (e2.inv hl).1
    cases hstop : stop with
    | true =>
      refine ⟨l1, rng1, ?_, hinv⟩
      intro prof
      simp [probLoop, e1 prof, hstop, bind, Except.bind, pure, Except.pure]
    | false =>
      cases ht : timer k with
      | true =>
        refine ⟨l1, rng1, ?_, hinv⟩
        intro prof
        simp [probLoop, e1 prof, hstop, ht, bind, Except.bind, pure, Except.pure]
      | false =>
        have hlt := e2.potential hstop
        obtain ⟨l2, rng2, f1, f2⟩ := ih (k + 1) l1 rng1 hinv (by omega)
        refine ⟨l2, rng2, ?_, f2⟩
        intro prof
        simp only [probLoop, e1 prof, hstop, ht, bind, Except.bind]
        simpa using f1 prof

theorem probLoop_mono {F σ : Type} [FloatOps F] {accept : Accept F} {gen : Rng F σ}
    {prof : Profile} {timer : Nat → Bool} :
    ∀ {fuel fuel' k : Nat} {l : Loc} {rng : σ} {r : Loc × σ},
    probLoop prof accept gen timer fuel k l rng = .ok (some r) →
    fuel ≤ fuel' → probLoop prof accept gen timer fuel' k l rng = .ok (some r) := by
  intro fuel
  induction fuel with
  | zero => intro fuel' k l rng r h; simp [probLoop, pure, Except.pure] at h
  | succ fuel ih =>
    intro fuel' k l rng r h hle
    obtain ⟨f, rfl⟩ : ∃ f, fuel' = f + 1 := ⟨fuel' - 1, by omega⟩
    simp only [probLoop, bind, Except.bind] at h ⊢
    cases hi : probIter prof accept gen l rng with
    | error e => simp [hi] at h
    | ok x =>
      obtain ⟨l1, rng1, stop⟩ := x
      simp only [hi] at h ⊢
      split at h
      · rename_i hs; simpa only [hs, ↓reduceIte] using h
      · split at h
        · rename_i hs ht; rw [if_neg hs, if_pos ht]; exact h
        · rename_i hs ht
          rw [if_neg hs, if_neg ht]
          exact ih h (by omega)

/-- The table at the beginning. -/
abbrev best0 (P : Problem) : List Nat := List.replicate (P.n + 1) usizeMax

theorem mkScheduler_loose {P : Problem} (hP : P.Loose) :
    ∃ s, mkScheduler P.graph P.order = .ok s ∧ StateFor (eff P) [] s ∧ Fresh s := by
  obtain ⟨set, deps, look, e1, e2⟩ := mkState_loose (T := Partitioner) hP set_init_partition rfl
    (dependencyBufferNew P.graph.length) (by simp [dependencyBufferNew, Problem.n])
  refine ⟨_, ?_, e2, rfl⟩
  simp [mkScheduler, e1, bind, Except.bind, pure, Except.pure]

theorem mkScheduler_spec {P : Problem} (hP : P.WF) :
    ∃ s, mkScheduler P.graph P.order = .ok s ∧ StateFor P [] s ∧ Fresh s := by
  have h := mkScheduler_loose hP.loose
  rwa [eff_of_wf hP] at h

theorem init_inv {P : Problem} {s : Scheduler Partitioner} (hs : StateFor P [] s)
    (hf : Fresh s) : LInv P [] (best0 P) (Loc.init s P.n) := by
  refine ⟨⟨.base hs hf.iterOK, by simp [Loc.init]⟩, resultsOK_nil P, anti_replicate _ _,
    fun t => Nat.le_refl _, fun t => Or.inl rfl, ?_, ?_, ?_⟩
  · intro t m S h; simp [Loc.init] at h
  · intro t m S h; simp [Loc.init] at h
  · intro h; simp [Loc.init, Sweep.new] at h

theorem init_pending {P : Problem} {s : Scheduler Partitioner} (hs : StateFor P [] s)
    (hf : Fresh s) {S : Schedule} (hS : Maximal P S) : Pending S (Loc.init s P.n).path
      (Loc.init s P.n).sweep.current (Loc.init s P.n).sweep.stack :=
  Pending.head (fresh_pendAt_max hs hf hS (extends_nil S))

/-- The bound is at most one step too large. -/
theorem minLen_one {P : Problem} {S : Schedule} (hS : Maximal P S) : MinLen P 1 S := by
  intro p m c hc he
  have hle := he.le
  simp only [List.length_append, List.length_singleton] at hle
  unfold minimumPathLength
  split
  · omega
  · rename_i hleaf
    rw [atLeaf_isSome] at hleaf
    have hlt : p.length + 1 ≠ S.length := by
      intro heq
      apply hleaf
      refine (leaf_maximal hc).2 ⟨hc.pre, fun b hb => hS.none b ((ready_congr fun v => ?_).1 hb)⟩
      rw [he.mem v]
      simp only [List.length_append, List.length_singleton]
      rw [heq, List.take_length]
    split <;> omega

/-- The bound is right if everything can be measured. -/
theorem minLen_zero {P : Problem} (hP : P.bits.Nodup) {S : Schedule} (hS : P.Valid S) : MinLen P 0 S :=
  fun _ _ _ hc he => minimumPathLength_le_of_extends hP hc hS he

theorem init_cov {P : Problem} (hP : P.WF) {s : Scheduler Partitioner} (hs : StateFor P [] s)
    (hf : Fresh s) : Cov P [] (Loc.init s P.n) := by
  intro S hS hE
  exact Or.inr (Pending.head (fresh_pendAt hP hs hf hS hE))

theorem init_potential {P : Problem} {s : Scheduler Partitioner} (hs : StateFor P [] s)
    (hf : Fresh s) : potential P (Loc.init s P.n) ≤ searchBound P.bits.length := by
  have := levelCost_fresh hs hf
  simpa [potential, Loc.init, Sweep.new, levels, unmeasured] using this

theorem not_valid_nil {P : Problem} (h : P.bits ≠ []) : ¬ P.Valid [] := by
  intro hv
  have := hv.perm
  simp only [List.flatten_nil] at this
  exact h (List.Perm.eq_nil this.symm)

theorem Spec.Problem.Valid.length_le {P : Problem} (hP : P.WF) {S : Schedule} (h : P.Valid S) :
    S.length ≤ P.n := by
  have h1 := (h.prefix hP.bits_nodup)
  have := h1.length_le
  have := nodup_length_le_n hP.lax h1.nodup h1.sub
  omega

theorem peak_lt_max {P : Problem} (hP : P.WF) (S : Schedule) : P.peak S < usizeMax := by
  have h1 := peak_le_n P S
  have h2 := hP.size
  have h3 : usizeMax = 2 ^ 64 - 1 := rfl
  omega

/-- What every search guarantees about its output. -/
structure Sound (P : Problem) (out : List Path) : Prop where
  valid : ∀ p ∈ out, P.Valid p.steps ∧ p.time = p.steps.length ∧ p.space = P.peak p.steps
  strict : out.Pairwise fun a b => a.time < b.time ∧ b.space < a.space

/-- What a finished exhaustive search guarantees in addition. -/
def Complete (P : Problem) (out : List Path) : Prop :=
  ∀ S, P.Valid S → ∃ p ∈ out, p.time ≤ S.length ∧ p.space ≤ P.peak S

/-- The same for the schedules that cannot be continued. -/
structure SoundMax (P : Problem) (out : List Path) : Prop where
  maximal : ∀ p ∈ out, Maximal P p.steps ∧ p.time = p.steps.length ∧ p.space = P.peak p.steps
  strict : out.Pairwise fun a b => a.time < b.time ∧ b.space < a.space

theorem SoundMax.sound {P : Problem} (hP : P.WF) {out : List Path} (h : SoundMax P out) : Sound P out :=
  ⟨fun p hp => ⟨(maximal_iff hP).1 (h.maximal p hp).1, (h.maximal p hp).2⟩, h.strict⟩

theorem Post.sound {P : Problem} {results : MappedPaths} {n : Nat} {out : List Path}
    (h : Post results n out) (hr : ResultsOK P results) : SoundMax P out := by
  refine ⟨?_, h.strict⟩
  intro p hp
  obtain ⟨h1, h2, h3⟩ := hr _ _ _ ((h.mem p).1 hp).2.1
  exact ⟨h1, h2.symm, h3.symm⟩

theorem Post.complete {P : Problem} (hP : Lax P) {l : Loc} {out : List Path}
    (h : Post l.results P.n out) (hl : LInv P [] (best0 P) l) {S : Schedule} {δ : Nat}
    (h1 : DomS P δ l.best S) : ∃ p ∈ out, p.time ≤ S.length + δ ∧ p.space ≤ P.peak S := by
  have hpk : P.peak S < usizeMax := by
    have h1 := peak_le_n P S
    have h2 := hP.size
    have h3 : usizeMax = 2 ^ 64 - 1 := rfl
    omega
  unfold DomS at h1
  rcases hl.b2 (min (S.length + δ) P.n) with h2 | ⟨t', m, T, h2, h3, h4⟩
  · rw [at0_replicate, if_pos (by omega)] at h2
    omega
  · obtain ⟨p, hp, h5, h6⟩ := h.dominates (t := t') (by omega) h3 (by simp only; omega)
    simp only at h6
    exact ⟨p, hp, by omega, by omega⟩

/-- The single-threaded deterministic search. -/
theorem searchDet_loose {P : Problem} (hP : P.Loose) (timer : Nat → Bool) :
    ∃ out, (∀ prof hashIter fuel, (∀ m, (hashIter m).Perm m) → searchBound P.bits.length ≤ fuel →
        searchDet prof hashIter timer fuel P.graph P.order = .ok (some out)) ∧
      SoundMax (eff P) out ∧ (P.bits = [] → out = []) ∧
      ((∀ j, timer j = false) → ¬ Maximal (eff P) [] → ∀ S δ, Maximal (eff P) S → MinLen (eff P) δ S →
        ∃ p ∈ out, p.time ≤ S.length + δ ∧ p.space ≤ P.peak S) := by
  obtain ⟨s, e1, hs, hf⟩ := mkScheduler_loose hP
  have hinit := init_inv hs hf
  have hpot := init_potential hs hf
  rw [eff_bits] at hpot
  obtain ⟨l', f1, f2, f3⟩ := searchLoop_spec hP.lax timer (searchBound P.bits.length) 0 _ hinit hpot
  obtain ⟨out, g1, g2⟩ := postprocess_spec id (fun m => List.Perm.refl m) P.n l'.results
  refine ⟨out, ?_, g2.sound f2.sound, ?_, ?_⟩
  · intro prof hashIter fuel hh hfuel
    have h1 := searchLoop_mono (f1 prof) hfuel
    obtain ⟨out', k1, k2⟩ := postprocess_spec hashIter hh P.n l'.results
    have := k2.unique g2
    subst this
    have k1' : postprocess hashIter P.graph.length l'.results = .ok out' := k1
    have h1' : searchLoop prof timer fuel 0 (Loc.init s P.graph.length) = .ok (some l') := h1
    simp [searchDet, e1, doSearch, h1', k1', bind, Except.bind, pure, Except.pure]
  · intro hb
    rw [List.eq_nil_iff_forall_not_mem]
    intro p hp
    -- with nothing to measure the first call of `next` ends the loop
    have hset : s.time.measurable.set = [] := (leaf_maximal hs).2
      ⟨⟨by simp, by simp, by simp, by simp⟩, fun b h => by have := h.bit; rw [eff_bits, hb] at this; simp at this⟩
    have hl' : l'.results = [] := by
      obtain ⟨l1, stop, i1, i2⟩ := searchIter_spec hP.lax hinit.ok
      have := f1 .debug
      obtain ⟨f, hfu⟩ : ∃ f, searchBound P.bits.length = f + 1 :=
        ⟨_, by unfold searchBound; rw [Nat.add_comm]⟩
      rw [hfu] at this
      simp only [searchLoop, i1 .debug, bind, Except.bind] at this
      cases i2 with
      | stop hst hn hs1 hi1 =>
        simp only [↓reduceIte, pure, Except.pure, Except.ok.injEq, Option.some.injEq] at this
        subst this; rfl
      | backLeaf hst => simp [Loc.init, Sweep.new] at hst
      | backInner hst => simp [Loc.init, Sweep.new] at hst
      | skip hn hb' hd =>
        have := hn.set_ne
        rw [hn.set] at this
        exact (this hset).elim
      | push hn hb' hlt =>
        have := hn.set_ne
        rw [hn.set] at this
        exact (this hset).elim
    have := ((g2.mem p).1 hp).2.1
    rw [hl'] at this
    simp at this
  · intro ht hb S δ hS hδ
    exact g2.complete hP.lax f2 (f3 ht hb S δ hS hδ (Or.inr (init_pending hs hf hS)))

theorem searchDet_spec {P : Problem} (hP : P.WF) (timer : Nat → Bool) :
    ∃ out, (∀ prof hashIter fuel, (∀ m, (hashIter m).Perm m) → searchBound P.bits.length ≤ fuel →
        searchDet prof hashIter timer fuel P.graph P.order = .ok (some out)) ∧
      Sound P out ∧ (P.bits = [] → out = []) ∧
      ((∀ j, timer j = false) → P.bits ≠ [] → Complete P out) := by
  obtain ⟨out, h1, h2, h3, h4⟩ := searchDet_loose hP.loose timer
  rw [eff_of_wf hP] at h2
  refine ⟨out, h1, h2.sound hP, h3, fun ht hb S hS => ?_⟩
  rw [eff_of_wf hP] at h4
  exact h4 ht (fun h => not_valid_nil hb ((maximal_iff hP).1 h)) S 0 ((maximal_iff hP).2 hS)
    (minLen_zero hP.bits_nodup hS)

/-- The single-threaded probabilistic search. -/
theorem searchProb_loose {F σ : Type} [FloatOps F] (accept : Accept F) (gen : Rng F σ) (rng : σ)
    {P : Problem} (hP : P.Loose) (timer : Nat → Bool) :
    ∃ out, (∀ prof hashIter fuel, (∀ m, (hashIter m).Perm m) → searchBound P.bits.length ≤ fuel →
        searchProb prof hashIter accept gen rng timer fuel P.graph P.order = .ok (some out)) ∧
      SoundMax (eff P) out := by
  obtain ⟨s, e1, hs, hf⟩ := mkScheduler_loose hP
  have hpot := init_potential hs hf
  rw [eff_bits] at hpot
  obtain ⟨l', rng', f1, f2⟩ := probLoop_spec accept gen hP.lax timer (searchBound P.bits.length) 0 _ rng
    (init_inv hs hf) hpot
  obtain ⟨out, g1, g2⟩ := postprocess_spec id (fun m => List.Perm.refl m) P.n l'.results
  refine ⟨out, ?_, g2.sound f2.sound⟩
  intro prof hashIter fuel hh hfuel
  have h1 := probLoop_mono (f1 prof) hfuel
  obtain ⟨out', k1, k2⟩ := postprocess_spec hashIter hh P.n l'.results
  have := k2.unique g2
  subst this
  have k1' : postprocess hashIter P.graph.length l'.results = .ok out' := k1
  have h1' : probLoop prof accept gen timer fuel 0 (Loc.init s P.graph.length) rng =
    .ok (some (l', rng')) := h1
  simp [searchProb, e1, doProbabilisticSearch, h1', k1', bind, Except.bind, pure, Except.pure]

theorem searchProb_spec {F σ : Type} [FloatOps F] (accept : Accept F) (gen : Rng F σ) (rng : σ)
    {P : Problem} (hP : P.WF) (timer : Nat → Bool) :
    ∃ out, (∀ prof hashIter fuel, (∀ m, (hashIter m).Perm m) → searchBound P.bits.length ≤ fuel →
        searchProb prof hashIter accept gen rng timer fuel P.graph P.order = .ok (some out)) ∧
      Sound P out := by
  obtain ⟨out, h1, h2⟩ := searchProb_loose accept gen rng hP.loose timer
  rw [eff_of_wf hP] at h2
  exact ⟨out, h1, h2.sound hP⟩

/-- The output of a sound and complete search is exactly the Pareto front. -/
theorem Sound.pareto {P : Problem} {out : List Path} (hs : Sound P out) (hc : Complete P out)
    (t m : Nat) : ParetoOptimal P t m ↔ ∃ p ∈ out, p.time = t ∧ p.space = m := by
  constructor
  · rintro ⟨⟨S, hS, rfl, rfl⟩, hopt⟩
    obtain ⟨p, hp, h1, h2⟩ := hc S hS
    obtain ⟨hv, h3, h4⟩ := hs.valid p hp
    have := hopt p.time p.space ⟨p.steps, hv, h3.symm, h4.symm⟩ h1 h2
    exact ⟨p, hp, this.1, this.2⟩
  · rintro ⟨p, hp, rfl, rfl⟩
    obtain ⟨hv, h3, h4⟩ := hs.valid p hp
    refine ⟨⟨p.steps, hv, h3.symm, h4.symm⟩, ?_⟩
    rintro t' m' ⟨S, hS, rfl, rfl⟩ h1 h2
    obtain ⟨q, hq, h5, h6⟩ := hc S hS
    have hpq : q.time = p.time ∧ q.space = p.space := by
      rcases Classical.em (q = p) with h | h
      · rw [h]; exact ⟨rfl, rfl⟩
      · obtain ⟨i, hi, rfl⟩ := List.getElem_of_mem hp
        obtain ⟨j, hj, rfl⟩ := List.getElem_of_mem hq
        rcases Nat.lt_trichotomy i j with hij | hij | hij
        · have := List.pairwise_iff_getElem.1 hs.strict i j hi hj hij
          omega
        · subst hij; exact ⟨rfl, rfl⟩
        · have := List.pairwise_iff_getElem.1 hs.strict j i hj hi hij
          omega
    omega

end Verif
