import Verif.Proofs.AcceptCall
/-!
# What the approximate search finds if the steps of a schedule are accepted
-/

namespace Verif

open Spec Search

/-- The memory that is held after a step was needed during the step. -/
theorem held_le_peak (P : Problem) (p : Schedule) (m : List Nat) : P.held (p ++ [m]) ≤ P.peak (p ++ [m]) := by
  refine Nat.le_trans ?_ (memAt_le_peak P (p ++ [m]) p.length (by simp))
  unfold Problem.held Problem.memAt
  rw [← List.countP_eq_length_filter, ← List.countP_eq_length_filter]
  refine List.countP_mono_left fun v _ h => ?_
  simp only [Bool.and_eq_true, Bool.not_eq_true'] at h
  have e1 : (p ++ [m]).take (p.length + 1) = p ++ [m] := List.take_of_length_le (by simp)
  have e2 : (p ++ [m]).take p.length = p := by simp
  have h3 : p.flatten.contains v = false := by
    have h1 := h.1
    rw [← Bool.not_eq_true, List.contains_iff_mem] at h1 ⊢
    exact fun hv => h1 (by rw [List.flatten_append]; exact List.mem_append_left _ hv)
  simp only [Problem.inMemory, e1, e2, h.2, h3, Bool.or_true, Bool.not_false, Bool.and_self]

theorem LeastFound.unique {found : MappedPaths} {t v v' : Nat} (h : LeastFound found t v)
    (h' : LeastFound found t v') : v = v' := by
  rcases h.mem with ⟨h1, h2⟩ | ⟨t1, S1, h1, h2⟩ <;> rcases h'.mem with ⟨h3, h4⟩ | ⟨t3, S3, h3, h4⟩
  · rw [h1, h3]
  · exact (h2 _ _ h3 h4).elim
  · exact (h4 _ _ h1 h2).elim
  · exact Nat.le_antisymm (h.le _ _ _ h3 h4) (h'.le _ _ _ h1 h2)

/-- Every question about a step of `S` is answered so that the step is taken, as long as every recorded
path needs more memory than `S`. -/
def Kind {F σ : Type} [FloatOps F] (P : Problem) (accept : Accept F) (gen : Rng F σ) (S : Schedule) : Prop :=
  ∀ found p m q rng, Asked P found p m q → Extends (p ++ [m]) S → P.peak S < q.minimal →
    FloatOps.geOne (q.ask accept) = true ∨ FloatOps.lt (gen.sample rng).1 (q.ask accept) = true

/-- One iteration of the probabilistic search keeps the schedule ahead or records one that needs no
more memory. -/
theorem probIter_kind {F σ : Type} [FloatOps F] {accept : Accept F} {gen : Rng F σ} {P : Problem} (hP : P.WF)
    {S : Schedule} (hS : P.Valid S) (hA : Kind P accept gen S) (hb : P.bits ≠ []) {l l' : Loc} {rng rng' : σ} {prof : Profile}
    {stop : Bool} (hl : LInv P [] (best0 P) l) (h : probIter prof accept gen l rng = .ok (l', rng', stop))
    (hc : DomS P P.n l.best S ∨ Pending S l.path l.sweep.current l.sweep.stack) :
    DomS P P.n l'.best S ∨ (stop = false ∧ Pending S l'.path l'.sweep.current l'.sweep.stack) := by
  have det : ∀ {l1 : Loc} {stop1 : Bool}, (∀ prof, searchIter prof l = .ok (l1, stop1)) →
      DomS P P.n l1.best S ∨ (stop1 = false ∧ Pending S l1.path l1.sweep.current l1.sweep.stack) := by
    intro l1 stop1 h1
    obtain ⟨l2, stop2, e1, e2⟩ := searchIter_spec hP.lax hl.ok
    have := (e1 .debug).symm.trans (h1 .debug)
    simp only [Except.ok.injEq, Prod.mk.injEq] at this
    obtain ⟨rfl, rfl⟩ := this
    have := e2.cov1_slack hP.lax hl ((maximal_iff hP).2 hS) (δ := P.n)
      (fun p m c hc _ => Nat.le_trans (minimumPathLength_le hP.lax hc) (Nat.le_add_left _ _)) hc
    cases hst : stop2 with
    | false => exact (this.1 hst).imp id fun h => ⟨rfl, h⟩
    | true =>
      rcases this.2 hst with h | ⟨h, _⟩
      · exact Or.inl h
      · exact (not_valid_nil hb ((maximal_iff hP).1 h)).elim
  rcases probIter_asked hP hl with ⟨l1, stop1, g1, g2⟩ | ⟨s', c, m, q, hq, g1, g2⟩
  · rw [g2] at h
    simp only [Except.ok.injEq, Prod.mk.injEq] at h
    obtain ⟨rfl, rfl, rfl⟩ := h
    exact det g1
  · by_cases hacc : FloatOps.geOne (q.ask accept) = true ∨ FloatOps.lt (gen.sample rng).1 (q.ask accept) = true
    · have : l' = { l with sweep := ⟨c, s' :: l.sweep.stack⟩, path := l.path ++ [m] } ∧ stop = false := by
        rw [g2] at h
        simp only [Except.ok.injEq] at h
        split at h
        · cases h; exact ⟨rfl, rfl⟩
        · rename_i hg
          rw [if_pos (hacc.resolve_left hg)] at h
          cases h; exact ⟨rfl, rfl⟩
      obtain ⟨rfl, rfl⟩ := this
      exact det g1
    · have : l' = { l with sweep := ⟨s', l.sweep.stack⟩ } ∧ stop = false := by
        rw [g2] at h
        simp only [Except.ok.injEq] at h
        rw [if_neg fun h => hacc (Or.inl h), if_neg fun h => hacc (Or.inr h)] at h
        cases h; exact ⟨rfl, rfl⟩
      obtain ⟨rfl, rfl⟩ := this
      rcases hc with hd | hp
      · exact Or.inl hd
      obtain ⟨l2, stop2, e1, e2⟩ := searchIter_spec hP.lax hl.ok
      have heq := (e1 .debug).symm.trans (g1 .debug)
      simp only [Except.ok.injEq, Prod.mk.injEq] at heq
      obtain ⟨heq, rfl⟩ := heq
      obtain ⟨k, hn⟩ : ∃ k, NextSome P l.path l.sweep.current s' c k m := by
        cases e2 with
        | backLeaf => have := congrArg (fun l => l.path.length) heq; simp at this
        | backInner => have := congrArg (fun l => l.path.length) heq; simp at this
        | skip => have := congrArg (fun l => l.path.length) heq; simp at this
        | push hn =>
          simp only [Loc.mk.injEq, Sweep.mk.injEq, List.append_cancel_left_eq, List.cons.injEq, and_true] at heq
          obtain ⟨⟨rfl, rfl⟩, rfl⟩ := heq
          exact ⟨_, hn⟩
      rcases hp.replace (c' := s') with ⟨hE', hp⟩ | hp
      · rcases hp with ⟨s1, k', m', hs1, hm, hne, hpm⟩ | ⟨h0, hlenS⟩
        · rw [hn.rem, List.mem_cons] at hm
          rcases hm with hm | hm
          · left
            simp only [Prod.mk.injEq] at hm
            obtain ⟨rfl, rfl⟩ := hm
            have hE2 := extends_snoc hE' hs1 hpm
            have hle : q.minimal ≤ P.peak S := by
              apply Classical.byContradiction
              intro hlt
              exact hacc (hA _ _ _ _ rng hq hE2 (Nat.lt_of_not_le hlt))
            have h1 := hl.least hP (Nat.le_refl P.n)
            unfold DomS
            rw [Nat.min_eq_right (Nat.le_add_left _ _)]
            exact Nat.le_trans (Nat.le_of_eq (h1.unique hq.minimal)) hle
          · exact Or.inr ⟨rfl, Pending.head ⟨hE', Or.inl ⟨s1, k', m', hs1, hm, hne, hpm⟩⟩⟩
        · exact Or.inr ⟨rfl, Pending.head ⟨hE', Or.inr ⟨by rw [hn.set]; exact h0, hlenS⟩⟩⟩
      · exact Or.inr ⟨rfl, hp⟩

theorem probLoop_kind {F σ : Type} [FloatOps F] {accept : Accept F} {gen : Rng F σ} {P : Problem} (hP : P.WF)
    {S : Schedule} (hS : P.Valid S) (hA : Kind P accept gen S) (hb : P.bits ≠ []) {prof : Profile} {timer : Nat → Bool}
    (ht : ∀ j, timer j = false) :
    ∀ (fuel k : Nat) (l : Loc) (rng : σ) (l' : Loc) (rng' : σ), LInv P [] (best0 P) l →
      (DomS P P.n l.best S ∨ Pending S l.path l.sweep.current l.sweep.stack) →
      probLoop prof accept gen timer fuel k l rng = .ok (some (l', rng')) →
      LInv P [] (best0 P) l' ∧ DomS P P.n l'.best S := by
  intro fuel
  induction fuel with
  | zero => intro k l rng l' rng' _ _ h; simp [probLoop, pure, Except.pure] at h
  | succ fuel ih =>
    intro k l rng l' rng' hl hc h
    obtain ⟨l1, rng1, stop, e1, e2⟩ := probIter_spec accept gen rng hP.lax hl.ok
    have hk := probIter_kind hP hS hA hb hl (e1 prof) hc
    have hinv := (e2.inv hl).1
    simp only [probLoop, e1 prof, bind, Except.bind, ht, pure, Except.pure] at h
    cases hst : stop with
    | true =>
      rw [hst] at h hk
      simp only [if_true, Except.ok.injEq, Option.some.injEq, Prod.mk.injEq] at h
      obtain ⟨rfl, rfl⟩ := h
      exact ⟨hinv, hk.resolve_right (by simp)⟩
    | false =>
      rw [hst] at h
      exact ih _ _ _ _ _ hinv (hk.imp id fun h => h.2) (by simpa using h)

/-- If the steps of `S` are accepted as long as everything recorded needs more memory, then an uninterrupted
search returns a path that needs no more memory than `S`. -/
theorem searchProb_kind {F σ : Type} [FloatOps F] {accept : Accept F} {gen : Rng F σ} (rng : σ)
    {P : Problem} (hP : P.WF) (hb : P.bits ≠ []) {S : Schedule} (hS : P.Valid S) (hA : Kind P accept gen S) {prof : Profile}
    {hashIter : MappedPaths → MappedPaths} (hh : ∀ m, (hashIter m).Perm m)
    {timer : Nat → Bool} (ht : ∀ j, timer j = false) {fuel : Nat} {out : List Path}
    (h : searchProb prof hashIter accept gen rng timer fuel P.graph P.order = .ok (some out)) :
    ∃ p ∈ out, p.space ≤ P.peak S := by
  obtain ⟨s, e1, e2, e3⟩ := mkScheduler_spec hP
  unfold searchProb at h
  rw [e1] at h
  simp only [bind, Except.bind] at h
  cases hd : doProbabilisticSearch prof accept gen timer fuel s P.graph.length rng with
  | error e => rw [hd] at h; simp at h
  | ok r =>
    rw [hd] at h
    cases r with
    | none => simp [pure, Except.pure] at h
    | some r =>
      obtain ⟨l', rng'⟩ := r
      simp only at h
      obtain ⟨h1, h2⟩ := probLoop_kind hP hS hA hb ht fuel 0 _ rng l' rng' (init_inv e2 e3)
        (Or.inr (Pending.head (fresh_pendAt hP e2 e3 hS (extends_nil S)))) hd
      obtain ⟨o, p1, p2⟩ := postprocess_spec hashIter hh P.graph.length l'.results
      rw [p1] at h
      simp only [pure, Except.pure, Except.ok.injEq, Option.some.injEq] at h
      subst h
      unfold DomS at h2
      rw [Nat.min_eq_right (Nat.le_add_left _ _)] at h2
      have hlt := peak_lt_max hP S
      rcases (h1.entry (Nat.le_refl P.n)).2 with h5 | ⟨t', S', _, h5⟩
      · omega
      · obtain ⟨v, hl, hm⟩ := h1.sound _ _ _ h5
        obtain ⟨p, hp, _, hsp⟩ := p2.dominates (t := t') (by rw [← hl]; exact ((maximal_iff hP).1 v).length_le hP) h5
          (by show at0 l'.best P.n < _; omega)
        exact ⟨p, hp, Nat.le_trans hsp h2⟩

/-! ## Only the decisions matter -/

/-- The step is taken. -/
def Takes {F σ : Type} [FloatOps F] (accept : Accept F) (gen : Rng F σ) (rng : σ) (q : Query) : Prop :=
  FloatOps.geOne (q.ask accept) = true ∨ FloatOps.lt (gen.sample rng).1 (q.ask accept) = true

theorem probIter_takes {F σ F' σ' : Type} [FloatOps F] [FloatOps F'] {accept : Accept F} {gen : Rng F σ}
    {accept' : Accept F'} {gen' : Rng F' σ'} {P : Problem} (hP : P.WF)
    (hD : ∀ found p m q rng rng', Asked P found p m q → (Takes accept gen rng q ↔ Takes accept' gen' rng' q))
    {l : Loc} (hl : LInv P [] (best0 P) l) (prof : Profile) (rng : σ) (rng' : σ') :
    ∃ l' stop r r', probIter prof accept gen l rng = .ok (l', r, stop) ∧
      probIter prof accept' gen' l rng' = .ok (l', r', stop) := by
  rcases probIter_asked hP hl with ⟨l1, stop1, _, g2⟩ | ⟨s', c, m, q, hq, _, g2⟩
  · exact ⟨l1, stop1, rng, rng', g2 _ _ _ _, g2 _ _ _ _⟩
  · have h := hD _ _ _ _ rng rng' hq
    rw [g2 accept gen rng prof, g2 accept' gen' rng' prof]
    by_cases ht : Takes accept gen rng q
    · have ht' := h.1 ht
      refine ⟨{ l with sweep := ⟨c, s' :: l.sweep.stack⟩, path := l.path ++ [m] }, false,
        if FloatOps.geOne (q.ask accept) then rng else (gen.sample rng).2,
        if FloatOps.geOne (q.ask accept') then rng' else (gen'.sample rng').2, ?_, ?_⟩
      · split
        · rfl
        · rename_i hg; rw [if_pos (ht.resolve_left hg)]
      · split
        · rfl
        · rename_i hg; rw [if_pos (ht'.resolve_left hg)]
    · have ht' := fun h' => ht (h.2 h')
      refine ⟨{ l with sweep := ⟨s', l.sweep.stack⟩ }, false, (gen.sample rng).2, (gen'.sample rng').2, ?_, ?_⟩
      · rw [if_neg fun h => ht (Or.inl h), if_neg fun h => ht (Or.inr h)]
      · rw [if_neg fun h => ht' (Or.inl h), if_neg fun h => ht' (Or.inr h)]

theorem probLoop_takes {F σ F' σ' : Type} [FloatOps F] [FloatOps F'] {accept : Accept F} {gen : Rng F σ}
    {accept' : Accept F'} {gen' : Rng F' σ'} {P : Problem} (hP : P.WF)
    (hD : ∀ found p m q rng rng', Asked P found p m q → (Takes accept gen rng q ↔ Takes accept' gen' rng' q))
    (prof : Profile) (timer : Nat → Bool) :
    ∀ (fuel k : Nat) (l : Loc) (rng : σ) (rng' : σ'), LInv P [] (best0 P) l →
      (probLoop prof accept gen timer fuel k l rng).map (·.map (·.1)) =
        (probLoop prof accept' gen' timer fuel k l rng').map (·.map (·.1)) := by
  intro fuel
  induction fuel with
  | zero => intro k l rng rng' _; rfl
  | succ fuel ih =>
    intro k l rng rng' hl
    obtain ⟨l', stop, r, r', e1, e2⟩ := probIter_takes hP hD hl prof rng rng'
    obtain ⟨l2, r2, stop2, f1, f2⟩ := probIter_spec accept gen rng hP.lax hl.ok
    have := (f1 prof).symm.trans e1
    simp only [Except.ok.injEq, Prod.mk.injEq] at this
    obtain ⟨rfl, rfl, rfl⟩ := this
    have hinv := (f2.inv hl).1
    simp only [probLoop, e1, e2, bind, Except.bind, pure, Except.pure]
    cases stop2 with
    | true => rfl
    | false =>
      cases htk : timer k with
      | true => rfl
      | false => exact ih _ _ _ _ hinv

theorem searchProb_takes {F σ F' σ' : Type} [FloatOps F] [FloatOps F'] {accept : Accept F} {gen : Rng F σ}
    {accept' : Accept F'} {gen' : Rng F' σ'} {P : Problem} (hP : P.WF)
    (hD : ∀ found p m q rng rng', Asked P found p m q → (Takes accept gen rng q ↔ Takes accept' gen' rng' q))
    (prof : Profile) (hashIter : MappedPaths → MappedPaths) (timer : Nat → Bool) (fuel : Nat) (rng : σ) (rng' : σ') :
    searchProb prof hashIter accept gen rng timer fuel P.graph P.order =
      searchProb prof hashIter accept' gen' rng' timer fuel P.graph P.order := by
  obtain ⟨s, e1, e2, e3⟩ := mkScheduler_spec hP
  have h := probLoop_takes hP hD prof timer fuel 0 (Loc.init s P.graph.length) rng rng' (init_inv e2 e3)
  unfold searchProb doProbabilisticSearch
  rw [e1]
  simp only [bind, Except.bind]
  cases h1 : probLoop prof accept gen timer fuel 0 (Loc.init s P.graph.length) rng with
  | error e =>
    cases h2 : probLoop prof accept' gen' timer fuel 0 (Loc.init s P.graph.length) rng' with
    | error e' => rw [h1, h2] at h; simp [Except.map] at h; simp [h]
    | ok r => rw [h1, h2] at h; simp [Except.map] at h
  | ok r =>
    cases h2 : probLoop prof accept' gen' timer fuel 0 (Loc.init s P.graph.length) rng' with
    | error e' => rw [h1, h2] at h; simp [Except.map] at h
    | ok r' =>
      rw [h1, h2] at h
      simp only [Except.map, Except.ok.injEq] at h
      cases r <;> cases r' <;> simp_all

end Verif
