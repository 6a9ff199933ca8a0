import Verif.Proofs.ThreadedOpt
import Verif.Proofs.Alone
/-!
# The multi-threaded search when only undisturbed tasks refresh the shared table: nothing is lost

A refresh publishes values whose paths are still with the task. So the shared table is backed by the shared results together
with the results that the tasks hold.
-/

namespace Verif
namespace Undisturbed

open Spec Search Search.Threaded

/-- The results that a task holds. -/
def own {σ : Type} : TaskState σ → MappedPaths
  | .running loc _ _ _ => loc.results
  | .finishing loc => loc.results
  | _ => []

/-- There is a path in `R` with at most `t` steps and space `v`. -/
def Backed (R : MappedPaths) (t v : Nat) : Prop := ∃ t' m S, t' ≤ t ∧ R.get t' = some (m, S) ∧ m ≤ v

theorem not_backed_nil {t v : Nat} : ¬ Backed [] t v := by
  rintro ⟨_, _, _, _, h, _⟩
  simp at h

theorem Backed.insert {R : MappedPaths} {t v k m : Nat} {S : Schedule} (h : Backed R t v)
    (hm : ∀ m' S', R.get k = some (m', S') → m ≤ m') : Backed (R.insert k (m, S)) t v := by
  obtain ⟨t', m', S', h1, h2, h3⟩ := h
  by_cases hk : t' = k
  · subst hk
    exact ⟨t', m, S, h1, by rw [AMap.get_insert]; simp, Nat.le_trans (hm _ _ h2) h3⟩
  · exact ⟨t', m', S', h1, by rw [AMap.get_insert, if_neg hk]; exact h2, h3⟩

/-- The invariant of the shared table and the results. -/
structure SharedInv (P : Problem) {σ : Type} (g : Global σ) : Prop where
  len : g.best.length = P.n + 1
  sound : ResultsOK P g.results
  anti : Anti g.best
  g2 : ∀ t ≤ P.n, at0 g.best t = usizeMax ∨ Backed g.results t (at0 g.best t) ∨
    ∃ (i : Nat) (a : TaskState σ), g.tasks[i]? = some a ∧ Backed (own a) t (at0 g.best t)
  g3 : ∀ t m S, g.results.get t = some (m, S) → at0 g.best t ≤ m

structure PoolInv (P : Problem) {σ : Type} (g : Global σ) : Prop where
  shared : SharedInv P g
  tasks : ∀ t ∈ g.tasks, TaskInv P g.best t
  cov : ∀ S, P.Valid S → Dom P g.best S ∨ ∃ (i : Nat) (t : TaskState σ), g.tasks[i]? = some t ∧ TaskCov P S t

/-- Changing one task and the table. -/
theorem PoolInv.set {P : Problem} {σ : Type} {g : Global σ} (h : PoolInv P g) {i : Nat}
    {t t' : TaskState σ} (ht : g.tasks[i]? = some t) {best' : List Nat} {results' : MappedPaths}
    (hsh : SharedInv P ⟨best', results', g.tasks.set i t'⟩) (hle : ∀ t, at0 best' t ≤ at0 g.best t)
    (ht' : TaskInv P best' t')
    (hcov : ∀ S, P.Valid S → TaskCov P S t → Dom P best' S ∨ TaskCov P S t') :
    PoolInv P ⟨best', results', g.tasks.set i t'⟩ := by
  refine ⟨hsh, ?_, ?_⟩
  · intro a ha
    rcases List.mem_or_eq_of_mem_set ha with h1 | h1
    · exact (h.tasks a h1).mono hle
    · exact h1 ▸ ht'
  · intro S hS
    rcases h.cov S hS with hd | ⟨j, a, hj, ha⟩
    · exact Or.inl (Nat.le_trans (hle S.length) hd)
    · by_cases hij : j = i
      · subst hij
        rw [ht] at hj
        simp only [Option.some.injEq] at hj
        subst hj
        rcases hcov S hS ha with h1 | h1
        · exact Or.inl h1
        · refine Or.inr ⟨j, t', ?_, h1⟩
          simp [(List.getElem?_eq_some_iff.1 ht).1]
      · refine Or.inr ⟨j, a, ?_, ha⟩
        simp only
        rw [List.getElem?_set_ne (fun h => hij h.symm)]
        exact hj

/-- Changing one task only, which holds at least as good results afterwards. -/
theorem SharedInv.keep {P : Problem} {σ : Type} {g : Global σ} (h : SharedInv P g) {i : Nat} {t t' : TaskState σ}
    (ht : g.tasks[i]? = some t) (ho : ∀ k v, Backed (own t) k v → Backed (own t') k v) :
    SharedInv P ⟨g.best, g.results, g.tasks.set i t'⟩ := by
  refine ⟨h.len, h.sound, h.anti, fun k hk => ?_, h.g3⟩
  rcases h.g2 k hk with h1 | h1 | ⟨j, a, hj, ha⟩
  · exact .inl h1
  · exact .inr (.inl h1)
  · right; right
    by_cases hij : j = i
    · subst hij
      rw [ht] at hj
      simp only [Option.some.injEq] at hj
      subst hj
      exact ⟨j, t', by simp [(List.getElem?_eq_some_iff.1 ht).1], ho _ _ ha⟩
    · exact ⟨j, a, by simp only; rw [List.getElem?_set_ne (fun h => hij h.symm)]; exact hj, ha⟩

theorem IterStep.backed {P : Problem} {Det : Prop} {p0 : Schedule} {b0 : List Nat} {l l' : Loc} {stop : Bool}
    (h : IterStep P Det l l' stop) (hl : LInv P p0 b0 l) {t v : Nat} (hb : Backed l.results t v) : Backed l'.results t v := by
  cases h with
  | backLeaf hst hn hleaf hlen =>
    refine hb.insert fun m' S' hg => ?_
    have h1 := hl.leaf (by rw [hst]; simp) hleaf
    have h2 := hl.b3 _ _ _ hg
    omega
  | stop => exact hb
  | backInner => exact hb
  | skip => exact hb
  | push => exact hb

/-- What a task holds is sound. -/
theorem own_sound {P : Problem} {σ : Type} {B : List Nat} {a : TaskState σ} (h : TaskInv P B a) : ResultsOK P (own a) := by
  cases h with
  | ready => exact resultsOK_nil P
  | running p0 b0 hl => exact hl.sound
  | finishing b0 hrec => exact hrec.sound
  | done => exact resultsOK_nil P

/-- The merge at the end of a task. -/
theorem merge_inv {P : Problem} {σ : Type} {g : Global σ} {i : Nat} {loc : Loc} {b0 : List Nat} (hg : SharedInv P g)
    (hi : g.tasks[i]? = some (.finishing loc)) (hs : Snap g.best b0) (ht : LRec P b0 loc.best loc.results) :
    SharedInv P ⟨(mergeLoop 0 g.best loc.best loc.results g.results).1, (mergeLoop 0 g.best loc.best loc.results g.results).2,
      g.tasks.set i .done⟩ ∧
    ∀ t, at0 (mergeLoop 0 g.best loc.best loc.results g.results).1 t = min (at0 g.best t) (at0 loc.best t) := by
  obtain ⟨m1, m2, m3⟩ := mergeLoop_spec g.best loc.best 0 loc.results g.results (by rw [hg.len, ht.len])
  generalize hb' : (mergeLoop 0 g.best loc.best loc.results g.results).1 = best' at *
  generalize hr' : (mergeLoop 0 g.best loc.best loc.results g.results).2 = results' at *
  simp only [Nat.zero_le, Nat.zero_add, Nat.sub_zero, true_and] at m3
  have hin : ∀ k m S, k ≤ P.n → loc.results.get k = some (m, S) → at0 loc.best k ≤ at0 g.best k →
      results'.get k = some (m, S) := by
    intro k m S hk h1 h2
    rw [m3 k, if_pos ⟨by rw [hg.len]; omega, h2, by simp [h1]⟩, h1]
  have hout : ∀ k, (¬ at0 loc.best k ≤ at0 g.best k ∨ loc.results.get k = none) → results'.get k = g.results.get k := by
    intro k h
    rw [m3 k, if_neg]
    rintro ⟨_, h2, h3⟩
    rcases h with h | h
    · exact h h2
    · rw [h] at h3; simp at h3
  -- what the task holds and what is not worse than the shared value is taken over
  have hlocal : ∀ t v, t ≤ P.n → Backed loc.results t v → v ≤ at0 g.best t → Backed results' t v := by
    rintro t v htn ⟨t', m, S, h1, h2, h3⟩ h4
    have h5 := ht.b3 t' m S h2
    have h6 := hg.anti t' t h1
    exact ⟨t', m, S, h1, hin t' m S (by omega) h2 (by omega), h3⟩
  -- where the task holds a path, its table is backed by what it holds
  have hgood : ∀ t m S, loc.results.get t = some (m, S) → Backed loc.results t (at0 loc.best t) := by
    intro t m S h
    rcases ht.b2 t with h1 | ⟨t', m', S', h1⟩
    · exact ⟨t, m, S, Nat.le_refl _, h, by rw [h1]; exact ht.b4 t m S h⟩
    · exact ⟨t', m', S', h1⟩
  refine ⟨⟨by rw [← hg.len, ← m1], ?_, ?_, ?_, ?_⟩, m2⟩
  · intro t m S h
    simp only at h
    rw [m3 t] at h
    split at h
    · exact ht.sound t m S h
    · exact hg.sound t m S h
  · intro a b hab
    simp only
    rw [m2, m2]
    have := hg.anti a b hab
    have := ht.anti a b hab
    omega
  · intro t htn
    simp only
    rw [m2]
    by_cases hlt : at0 loc.best t < at0 g.best t
    · rw [Nat.min_eq_right (by omega)]
      rcases ht.b2 t with h1 | h1
      · have := hs.le t
        omega
      · exact .inr (.inl (hlocal t _ htn h1 (by omega)))
    · rw [Nat.min_eq_left (by omega)]
      rcases hg.g2 t htn with h1 | ⟨t', m, S, h1, h2, h3⟩ | ⟨j, a, hj, ha⟩
      · exact .inl h1
      · right; left
        by_cases hc : at0 loc.best t' ≤ at0 g.best t'
        · cases hnew : loc.results.get t' with
          | none => exact ⟨t', m, S, h1, by rw [hout t' (.inr hnew)]; exact h2, h3⟩
          | some r =>
            obtain ⟨t2, m2', S2, c1, c2, c3⟩ := hgood t' r.1 r.2 hnew
            have h4 := hg.g3 t' m S h2
            exact hlocal t _ htn ⟨t2, m2', S2, by omega, c2, by omega⟩ (Nat.le_refl _)
        · exact ⟨t', m, S, h1, by rw [hout t' (.inl hc)]; exact h2, h3⟩
      · by_cases hij : j = i
        · subst hij
          rw [hi] at hj
          simp only [Option.some.injEq] at hj
          subst hj
          exact .inr (.inl (hlocal t _ htn ha (Nat.le_refl _)))
        · exact .inr (.inr ⟨j, a, by rw [List.getElem?_set_ne (fun h => hij h.symm)]; exact hj, ha⟩)
  · intro t m S h
    simp only at h ⊢
    rw [m2]
    rw [m3 t] at h
    split at h
    · have := ht.b3 t m S h; omega
    · have := hg.g3 t m S h; omega

/-- The condition on a move: if it refreshes the tables then the local one is nowhere worse, and the time is not up. -/
def Calm {σ : Type} (g : Global σ) (i : Nat) (tb : Bool) : Prop :=
  ∀ loc rng c w, g.tasks[i]? = some (.running loc rng c w) → c ≠ updateInterval ∨
    tb = false ∧ ∀ t, at0 loc.best t ≤ at0 g.best t

theorem move_inv {F σ : Type} [FloatOps F] {P : Problem} (hP : P.WF) (hb : P.bits ≠ [])
    {g g' : Global σ} (hg : PoolInv P g) {i : Nat} {tb : Bool} {prof : Profile} (hq : Calm g i tb)
    (hm : move (.det : Mode F σ) prof g i tb = .ok g') : PoolInv P g' := by
  cases ht : g.tasks[i]? with
  | none =>
    simp only [move, ht, pure, Except.pure, Except.ok.injEq] at hm
    exact hm ▸ hg
  | some t =>
    have hok := hg.tasks t (List.mem_of_getElem? ht)
    cases hok with
    | @ready sched init rng hs hi hf =>
      simp only [move, ht, pure, Except.pure, Except.ok.injEq] at hm
      subst hm
      have hl := start_locOK hs hi hg.shared.len
      refine hg.set ht (hg.shared.keep ht fun _ _ h => (not_backed_nil h).elim) (fun t => Nat.le_refl _) ?_ ?_
      · refine .running (startPath init) g.best ?_ ⟨hg.shared.anti, fun t => Nat.le_refl _⟩ ?_ ?_ ?_ ?_ ?_
        · refine ⟨hl, ?_, hg.shared.anti, fun t => Nat.le_refl _, fun t => Or.inl rfl, ?_, ?_, ?_⟩
          · intro t m S h; simp [startLoc] at h
          · intro t m S h; simp [startLoc] at h
          · intro t m S h; simp [startLoc] at h
          · intro h; simp [startLoc, Sweep.new] at h
        · intro _; rfl
        · intro _ hw; exact hf hw
        · intro hw; cases init with
          | none => rfl
          | some m => simp at hw
        · intro h; exact (h rfl).elim
        · cases init <;> simp [startPath]
      · intro S hS hc
        right
        have h1 : (startLoc sched init g.best).path = startPath init := by
          cases init <;> simp [startLoc, startPath]
        right
        rw [h1]
        exact Pending.head hc
    | @running loc rng counter wasInit p0 b0 hl hsnap hc hf hw hnv hp =>
      obtain ⟨l', stop, e1, e2⟩ := searchIter_spec hP.lax hl.ok
      obtain ⟨hinv, hle⟩ := e2.inv hl
      cases stop with
      | true =>
        obtain ⟨_, hcase⟩ := finishLoop_spec hP.lax e2 hl.ok hl.sound (fun a b => ⟨hf a b, hc a⟩)
        rcases hcase with ⟨hn, hfin⟩ | ⟨hc0, hwi, hv, hpath, hbest, hres, hlen, hfin⟩
        · simp only [move, ht, modeIter, e1 prof, bind, Except.bind, pure, Except.pure, ↓reduceIte,
            hfin, Except.ok.injEq] at hm
          subst hm
          have hnv' : ¬ P.Valid p0 := by
            by_cases h0 : counter = 0
            · have : wasInit = false := by
                cases hwb : wasInit with
                | false => rfl
                | true => exact (hn ⟨h0, hwb⟩).elim
              rw [hw this]
              exact not_valid_nil hb
            · exact hnv h0
          refine hg.set ht (hg.shared.keep ht fun _ _ h => IterStep.backed e2 hl h) (fun t => Nat.le_refl _)
            (.finishing b0 hinv.rec' hsnap) ?_
          intro S hS hcv
          right
          rcases (e2.cov1 hP hl hS hcv).2 rfl with h1 | ⟨h1, _⟩
          · exact h1
          · exact (hnv' h1).elim
        · simp only [move, ht, modeIter, e1 prof, bind, Except.bind, pure, Except.pure, ↓reduceIte,
            hfin, Except.ok.injEq] at hm
          subst hm
          rw [maximal_iff hP] at hv
          have hn1 := hv.length_le hP
          -- the entry for one step is not below the only value there is
          have hback : ∀ (R : MappedPaths) v, ResultsOK P R → Backed R p0.length v → P.peak p0 ≤ v := by
            rintro R v hR ⟨t', m, S, h3, h4, h5⟩
            obtain ⟨k1, k2, k3⟩ := hR t' m S h4
            have := peak_of_single hv ((maximal_iff hP).1 k1) hb hp (by omega)
            omega
          have hpk : P.peak p0 ≤ at0 loc.best p0.length := by
            rcases hl.b2 p0.length with h1 | h1
            · rw [h1]
              have h2 := hsnap.le p0.length
              refine Nat.le_trans ?_ h2
              rcases hg.shared.g2 p0.length hn1 with h3 | h3 | ⟨j, a, h3, h4⟩
              · have := peak_lt_max hP p0; omega
              · exact hback _ _ hg.shared.sound h3
              · exact hback _ _ (own_sound (hg.tasks a (List.mem_of_getElem? h3))) h4
            · exact hback _ _ hl.sound h1
          obtain ⟨r1, r2, r3, r4, r5, r6, r7⟩ := record_inv hlen hl.sound ((maximal_iff hP).2 hv) hl.anti hl.le0 hl.b2
            hl.b3 hl.b4 hpk
          refine hg.set ht (hg.shared.keep ht fun _ _ h => ?_) (fun t => Nat.le_refl _) (.finishing b0 ?_ hsnap) ?_
          · refine Backed.insert h fun m' S' hgm => ?_
            have := hl.b3 _ _ _ hgm
            omega
          · exact ⟨by simpa [updateBest] using hl.ok.best, r1, r2, r4, r5, r6, r7⟩
          · intro S hS hcv
            right
            rcases (e2.cov1 hP hl hS hcv).2 rfl with h1 | ⟨h1, h2, h3⟩
            · rw [Dom, hbest] at h1
              exact Nat.le_trans (r3 S.length) h1
            · have hE := h2.peak P
              rw [h3, List.take_length] at hE
              have hS1 : P.peak S = P.peak p0 := hE.symm
              change at0 (updateBest loc.best p0.length (P.peak p0)) S.length ≤ P.peak S
              rw [at0_updateBest hlen, ← h3, hS1]
              simp
      | false =>
        have hnv' : ¬ P.Valid p0 := by
          by_cases h0 : counter = 0
          · have hst := hc h0
            have h1 := hl.ok.chain
            rw [hst] at h1
            have hpath := h1.base_path
            have hstate := hl.ok.chain.state.1
            intro hv
            have hset := (leaf_iff hP hstate).2 (hpath ▸ hv)
            cases e2 with
            | backLeaf hst' => rw [hst] at hst'; simp at hst'
            | backInner hst' => rw [hst] at hst'; simp at hst'
            | skip hn =>
              have := hn.set_ne
              rw [hn.set] at this
              exact this hset
            | push hn =>
              have := hn.set_ne
              rw [hn.set] at this
              exact this hset
          · exact hnv h0
        by_cases hcu : counter = updateInterval
        · rcases hq loc rng counter wasInit ht with h0 | ⟨rfl, h0⟩
          · exact (h0 hcu).elim
          · have hle' : ∀ t, at0 l'.best t ≤ at0 g.best t := fun t => Nat.le_trans (hle t) (h0 t)
            have hex := exchange_le (s := g.best) (t := l'.best) (by rw [hg.shared.len, hinv.ok.best]) hle'
            simp only [move, ht, modeIter, e1 prof, bind, Except.bind, pure, Except.pure,
              Bool.false_eq_true, ↓reduceIte, hcu, hex, Except.ok.injEq] at hm
            subst hm
            have hkeep : SharedInv P ⟨g.best, g.results, g.tasks.set i (.running l' rng 1 wasInit)⟩ :=
              hg.shared.keep ht fun _ _ h => IterStep.backed e2 hl h
            refine hg.set ht ⟨hinv.ok.best, hg.shared.sound, hinv.anti, fun t htn => ?_, fun t m S h => ?_⟩ hle'
              (.running p0 b0 hinv (hsnap.mono hle') (by simp) (by simp) hw (fun _ => hnv') hp) ?_
            · rcases hinv.b2 t with h1 | h1
              · have h2 : at0 l'.best t = at0 g.best t := by
                  have := hsnap.le t
                  have := hle' t
                  omega
                simp only
                rw [h2]
                exact hkeep.g2 t htn
              · exact .inr (.inr ⟨i, .running l' rng 1 wasInit, by simp [(List.getElem?_eq_some_iff.1 ht).1], h1⟩)
            · exact Nat.le_trans (hle' t) (hg.shared.g3 t m S h)
            · intro S hS hcv
              right
              exact (e2.cov1 hP hl hS hcv).1 rfl
        · simp only [move, ht, modeIter, e1 prof, bind, Except.bind, pure, Except.pure,
            Bool.false_eq_true, ↓reduceIte, hcu, Except.ok.injEq] at hm
          subst hm
          refine hg.set ht (hg.shared.keep ht fun _ _ h => IterStep.backed e2 hl h) (fun t => Nat.le_refl _)
            (.running p0 b0 hinv hsnap (by simp) (by simp) hw (fun _ => hnv') hp) ?_
          intro S hS hcv
          right
          exact (e2.cov1 hP hl hS hcv).1 rfl
    | @finishing loc b0 hrec hsnap =>
      cases hemp : loc.results.isEmpty with
      | true =>
        simp only [move, ht, hemp, pure, Except.pure, ↓reduceIte, Except.ok.injEq] at hm
        subst hm
        have hnil : loc.results = [] := by simpa using hemp
        refine hg.set ht (hg.shared.keep ht fun _ _ h => ?_) (fun t => Nat.le_refl _) .done ?_
        · rw [own, hnil] at h
          exact (not_backed_nil h).elim
        intro S hS hcv
        left
        rcases hrec.b2 S.length with h1 | ⟨t', m, T, _, h2, _⟩
        · have := hsnap.le S.length
          have hcv' : at0 loc.best S.length ≤ P.peak S := hcv
          unfold Dom
          omega
        · rw [hnil] at h2; simp at h2
      | false =>
        simp only [move, ht, hemp, pure, Except.pure, Bool.false_eq_true, ↓reduceIte,
          Except.ok.injEq] at hm
        subst hm
        obtain ⟨k1, k2⟩ := merge_inv hg.shared ht hsnap hrec
        refine hg.set ht k1 (fun t => by rw [k2]; omega) .done ?_
        intro S hS hcv
        left
        have hcv' : at0 loc.best S.length ≤ P.peak S := hcv
        unfold Dom
        rw [k2]
        omega
    | done =>
      simp only [move, ht, pure, Except.pure, Except.ok.injEq] at hm
      exact hm ▸ hg

/-! ## The run -/

/-- What is known about a task before the moves `ms`: it has too few of them to refresh, or no other task moves before its
last one. -/
def Tracked {σ : Type} (best : List Nat) (ms : List Nat) (i : Nat) : TaskState σ → Prop
  | .ready _ _ _ => ms.count i ≤ updateInterval + 1 ∨ ∀ b, b ≠ i → ¬ [i, b, i].Sublist ms
  | .running loc _ c _ => c ≤ updateInterval ∧ (c + ms.count i ≤ updateInterval ∨
      (∀ t, at0 loc.best t ≤ at0 best t) ∧ ∀ b, b ≠ i → ¬ [b, i].Sublist ms)
  | _ => True

theorem Tracked.later {σ : Type} {best best' : List Nat} {ms : List Nat} {i j : Nat} {t : TaskState σ} (hij : j ≠ i)
    (h : Tracked best (i :: ms) j t) : Tracked best' ms j t := by
  cases t with
  | ready s o r =>
    rcases h with h | h
    · left
      rwa [List.count_cons_of_ne (fun h => hij h.symm)] at h
    · exact .inr fun b hb hs => h b hb (hs.trans (List.sublist_cons_self _ _))
  | running loc rng c w =>
    obtain ⟨h0, h⟩ := h
    refine ⟨h0, .inl ?_⟩
    rcases h with h | ⟨_, h⟩
    · rwa [List.count_cons_of_ne (fun h => hij h.symm)] at h
    · have hj : j ∉ ms := fun hj => h i (fun h => hij h.symm) (.cons_cons _ (List.singleton_sublist.2 hj))
      rw [List.count_eq_zero_of_not_mem hj]
      exact h0
  | finishing loc => trivial
  | done => trivial

theorem move_tracked {F σ : Type} [FloatOps F] {P : Problem} (hP : P.WF) {g g' : Global σ} (hg : PoolInv P g) {i : Nat}
    {ms : List Nat} {prof : Profile} (h : ∀ (j : Nat) t, g.tasks[j]? = some t → Tracked g.best (i :: ms) j t)
    (hm : move (.det : Mode F σ) prof g i false = .ok g') :
    Calm g i false ∧ ∀ (j : Nat) t, g'.tasks[j]? = some t → Tracked g'.best ms j t := by
  constructor
  · intro loc rng c w ht
    rcases (h i _ ht).2 with h1 | ⟨h1, _⟩
    · left
      rw [List.count_cons_self] at h1
      omega
    · exact .inr ⟨rfl, h1⟩
  -- the others
  have key : ∀ (best : List Nat) (results : MappedPaths) (t' : TaskState σ), Tracked best ms i t' →
      ∀ (j : Nat) t, (⟨best, results, g.tasks.set i t'⟩ : Global σ).tasks[j]? = some t → Tracked best ms j t := by
    intro best results t' ht' j t hj
    by_cases hij : j = i
    · subst hij
      simp only at hj
      by_cases hlt : j < g.tasks.length
      · rw [List.getElem?_set_self hlt, Option.some.injEq] at hj
        exact hj ▸ ht'
      · rw [List.getElem?_eq_none (by simpa using Nat.le_of_not_lt hlt)] at hj
        simp at hj
    · simp only at hj
      rw [List.getElem?_set_ne (fun h => hij h.symm)] at hj
      exact (h j t hj).later hij
  cases ht : g.tasks[i]? with
  | none =>
    simp only [move, ht, pure, Except.pure, Except.ok.injEq] at hm
    subst hm
    intro j t hj
    exact (h j t hj).later (fun hji => by rw [hji, ht] at hj; simp at hj)
  | some t =>
    have hok := hg.tasks t (List.mem_of_getElem? ht)
    have hti := h i t ht
    cases hok with
    | @ready sched init rng hs hi hf =>
      simp only [move, ht, pure, Except.pure, Except.ok.injEq] at hm
      subst hm
      refine key _ _ _ ⟨by simp, ?_⟩
      rcases hti with h1 | h1
      · left
        rw [List.count_cons_self] at h1
        omega
      · exact .inr ⟨fun t => Nat.le_refl _, fun b hb hs => h1 b hb (.cons_cons _ hs)⟩
    | @running loc rng counter wasInit p0 b0 hl hsnap hc hf hw hnv hp =>
      obtain ⟨l', stop, e1, e2⟩ := searchIter_spec hP.lax hl.ok
      obtain ⟨hinv, hle⟩ := e2.inv hl
      cases stop with
      | true =>
        simp only [move, ht, modeIter, e1 prof, bind, Except.bind, pure, Except.pure, ↓reduceIte] at hm
        split at hm
        · simp at hm
        · simp only [Except.ok.injEq] at hm
          subst hm
          exact key _ _ _ trivial
      | false =>
        obtain ⟨hc1, hti⟩ := hti
        by_cases hcu : counter = updateInterval
        · rcases hti with h1 | ⟨h1, h2⟩
          · rw [List.count_cons_self] at h1
            omega
          · have hle' : ∀ t, at0 l'.best t ≤ at0 g.best t := fun t => Nat.le_trans (hle t) (h1 t)
            have hex := exchange_le (s := g.best) (t := l'.best) (by rw [hg.shared.len, hinv.ok.best]) hle'
            simp only [move, ht, modeIter, e1 prof, bind, Except.bind, pure, Except.pure,
              Bool.false_eq_true, ↓reduceIte, hcu, hex, Except.ok.injEq] at hm
            subst hm
            exact key _ _ _ ⟨by unfold updateInterval; omega, .inr ⟨fun t => Nat.le_refl _,
              fun b hb hs => h2 b hb (hs.trans (List.sublist_cons_self _ _))⟩⟩
        · simp only [move, ht, modeIter, e1 prof, bind, Except.bind, pure, Except.pure,
            Bool.false_eq_true, ↓reduceIte, hcu, Except.ok.injEq] at hm
          subst hm
          refine key _ _ _ ⟨by omega, ?_⟩
          rcases hti with h1 | ⟨h1, h2⟩
          · left
            rw [List.count_cons_self] at h1
            omega
          · exact .inr ⟨fun t => Nat.le_trans (hle t) (h1 t), fun b hb hs => h2 b hb (hs.trans (List.sublist_cons_self _ _))⟩
    | @finishing loc b0 hrec hsnap =>
      simp only [move, ht, pure, Except.pure] at hm
      split at hm
      · simp only [Except.ok.injEq] at hm
        subst hm
        exact key _ _ _ trivial
      · simp only [Except.ok.injEq] at hm
        subst hm
        exact key _ _ _ trivial
    | done =>
      simp only [move, ht, pure, Except.pure, Except.ok.injEq] at hm
      subst hm
      intro j t hj
      by_cases hij : j = i
      · subst hij
        rw [ht] at hj
        simp only [Option.some.injEq] at hj
        subst hj
        trivial
      · exact (h j t hj).later hij

theorem runMoves_inv {F σ : Type} [FloatOps F] {P : Problem} (hP : P.WF) (hb : P.bits ≠ []) {prof : Profile} :
    ∀ (moves : List (Nat × Bool)) (g g' : Global σ), PoolInv P g → (∀ m ∈ moves, m.2 = false) →
    (∀ (j : Nat) t, g.tasks[j]? = some t → Tracked g.best (moves.map (·.1)) j t) →
    runMoves (.det : Mode F σ) prof g moves = .ok g' → PoolInv P g' := by
  intro moves
  induction moves with
  | nil =>
    intro g g' hg _ _ h
    simp only [runMoves, pure, Except.pure, Except.ok.injEq] at h
    exact h ▸ hg
  | cons m moves ih =>
    intro g g' hg hbit hq h
    obtain ⟨i, tb⟩ := m
    have : tb = false := hbit (i, tb) (by simp)
    subst this
    cases hm : move (.det : Mode F σ) prof g i false with
    | error e => simp [runMoves, hm, bind, Except.bind] at h
    | ok g1 =>
      simp only [runMoves, hm, bind, Except.bind] at h
      obtain ⟨h1, h2⟩ := move_tracked hP hg hq hm
      exact ih g1 g' (move_inv hP hb hg h1 hm) (fun x hx => hbit x (by simp [hx])) h2 h

/-- The exhaustive multi-threaded search in which the tasks that refresh are undisturbed. -/
theorem searchThreaded_undisturbed {F σ : Type} [FloatOps F] {P : Problem} (hP : P.WF)
    (hb : P.bits ≠ []) (tb : Int) (seeds : Nat → σ) (moves : List (Nat × Bool)) (prof : Profile)
    (hashIter : MappedPaths → MappedPaths) (hh : ∀ m, (hashIter m).Perm m) (out : List Path)
    (hbit : ∀ m ∈ moves, m.2 = false)
    (hq : ∀ i b, i ≠ b → updateInterval + 1 < (moves.map (·.1)).count i → ¬ [i, b, i].Sublist (moves.map (·.1)))
    (hout : searchThreaded (.det : Mode F σ) prof hashIter tb seeds moves P.graph P.order = .ok (some out)) :
    Complete P out := by
  obtain ⟨s, e1, hs, hf⟩ := mkScheduler_spec hP
  obtain ⟨g, e2, hg⟩ := initGlobal_inv hP hb tb seeds hs hf
  have e2' : initGlobal prof tb seeds s P.graph.length = .ok g := e2 prof
  have hready := initGlobal_cost hP.lax tb seeds hs hf (e2 prof)
  simp only [searchThreaded, e1, e2', bind, Except.bind, pure, Except.pure] at hout
  cases hr : runMoves (.det : Mode F σ) prof g moves with
  | error e => simp [hr] at hout
  | ok g' =>
    simp only [hr] at hout
    have hinv := runMoves_inv hP hb moves g g' ⟨⟨hg.shared.len, hg.shared.sound, hg.shared.anti,
        fun t ht => (hg.shared.g2 t ht).imp id .inl, hg.shared.g3⟩, hg.tasks, hg.cov⟩ hbit (by
      intro j t hj
      obtain ⟨sched, init, rng, rfl, _⟩ := hready t (List.mem_of_getElem? hj)
      by_cases hc : updateInterval + 1 < (moves.map (·.1)).count j
      · exact .inr fun b hb => hq j b (fun h => hb h.symm) hc
      · exact .inl (by omega)) hr
    split at hout
    · rename_i hfin
      obtain ⟨out', p1, p2⟩ := postprocess_spec hashIter hh P.n g'.results
      have p1' : postprocess hashIter P.graph.length g'.results = .ok out' := p1
      rw [p1'] at hout
      simp only [Except.ok.injEq, Option.some.injEq] at hout
      have hend : Verif.PoolInv P g' := by
        refine ⟨⟨hinv.shared.len, hinv.shared.sound, hinv.shared.anti, fun t ht => ?_, hinv.shared.g3⟩, hinv.tasks, hinv.cov⟩
        rcases hinv.shared.g2 t ht with h1 | h1 | ⟨i, a, hi, ha⟩
        · exact .inl h1
        · exact .inr h1
        · have := List.all_eq_true.1 hfin a (List.mem_of_getElem? hi)
          cases a <;> simp at this
          exact (not_backed_nil ha).elim
      exact hend.complete hP hfin (hout ▸ p2)
    · simp at hout

end Undisturbed
end Verif
