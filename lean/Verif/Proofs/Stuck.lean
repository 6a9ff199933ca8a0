import Verif.Proofs.Greedy
import Verif.Proofs.Lucky
/-!
# What the approximate search never finds
-/

namespace Verif

open Spec Search

/-- A float without numbers. -/
local instance noFloat : FloatOps Unit := ⟨fun _ => (), fun _ => false, fun _ _ => false⟩

/-- If nothing is accepted no step is taken. -/
theorem probIter_never {prof : Profile} {accept : Accept Unit} {gen : Rng Unit Unit} {l l' : Loc} {stop : Bool}
    (h : probIter prof accept gen l () = .ok (l', (), stop)) : l'.path.length ≤ l.path.length := by
  unfold probIter at h
  simp only [bind, Except.bind] at h
  cases hn : l.sweep.next (Scheduler.focusIter prof) with
  | error e => rw [hn] at h; simp at h
  | ok r =>
    obtain ⟨sw, step⟩ := r
    rw [hn] at h
    simp only at h
    match step with
    | none =>
      simp only [pure, Except.pure, Except.ok.injEq, Prod.mk.injEq] at h
      rw [← h.1]
    | some (.forward m) =>
      simp only [probabilisticForward, bind, Except.bind] at h
      split at h
      · simp at h
      · split at h
        · split at h <;>
          · simp only [pure, Except.pure, Except.ok.injEq, Prod.mk.injEq] at h
            rw [← h.1]
        · split at h
          · simp at h
          · simp only [FloatOps.geOne, FloatOps.lt, Bool.false_eq_true, if_false] at h
            split at h <;>
            · simp only [pure, Except.pure, Except.ok.injEq, Prod.mk.injEq] at h
              rw [← h.1]
    | some (.backward leaf) =>
      simp only [backward] at h
      cases leaf with
      | none =>
        simp only [pure, Except.pure, Except.ok.injEq, Prod.mk.injEq] at h
        rw [← h.1]
        simp
      | some mem =>
        simp only at h
        split at h
        · simp at h
        · rename_i hs
          split at hs
          · simp only [pure, Except.pure, Except.ok.injEq] at h hs
            simp only [Prod.mk.injEq] at h
            rw [← h.1, ← hs]
            simp
          · simp at hs

/-- A step is taken only after a question. -/
theorem probIter_push {F σ : Type} [FloatOps F] {accept : Accept F} {gen : Rng F σ} {P : Problem} (hP : P.WF)
    {l l' : Loc} {rng rng' : σ} {prof : Profile} {stop : Bool} (hl : LInv P [] (best0 P) l)
    (h : probIter prof accept gen l rng = .ok (l', rng', stop)) (hlen : l.path.length < l'.path.length) :
    ∃ m q, Asked P l.results l.path m q ∧ Takes accept gen rng q ∧ l'.path = l.path ++ [m] := by
  rcases probIter_asked hP hl with ⟨l1, stop1, _, g2⟩ | ⟨s', c, m, q, hq, _, g2⟩
  · rw [g2] at h
    simp only [Except.ok.injEq, Prod.mk.injEq] at h
    have := probIter_never (g2 (fun _ _ _ _ _ _ _ => () : Accept Unit) (⟨fun _ => ((), ())⟩ : Rng Unit Unit) () prof)
    rw [h.1] at this
    omega
  · refine ⟨m, q, hq, ?_⟩
    rw [g2] at h
    simp only [Except.ok.injEq] at h
    split at h
    · rename_i hg
      cases h
      exact ⟨Or.inl hg, rfl⟩
    · split at h
      · rename_i hg
        cases h
        exact ⟨Or.inr hg, rfl⟩
      · cases h
        simp at hlen

/-- The situation of a search that has turned down everything below `c`. -/
structure Shut (P : Problem) (c C k : Nat) (l : Loc) : Prop where
  known : at0 l.best P.n ≤ C
  above : ∀ t m S, l.results.get t = some (m, S) → c ≤ m
  path : k ≤ l.path.length → c ≤ P.peak (l.path.take k)

/-- Before the first path is recorded. -/
structure Nothing (P : Problem) (G : Schedule) (l : Loc) : Prop where
  best : l.best = best0 P
  results : l.results = []
  follows : Follows G l

theorem take_dropLast_of_lt {α : Type} {l : List α} {k : Nat} (h : k ≤ l.dropLast.length) :
    l.dropLast.take k = l.take k := by
  rw [List.dropLast_eq_take, List.take_take]
  rw [List.length_dropLast] at h
  congr 1
  omega

theorem peak_take_le (P : Problem) (S : Schedule) (k : Nat) : P.peak (S.take k) ≤ P.peak S := by
  have := peak_le_append P (S.take k) (S.drop k)
  rwa [List.take_append_drop] at this

theorem probIter_shut {F σ : Type} [FloatOps F] {accept : Accept F} {gen : Rng F σ} {P : Problem} (hP : P.WF)
    (hb : P.bits ≠ []) (hA : Bold P accept) {G : Schedule} (hG : P.Valid G) (hg : Greedy P G) {c k : Nat}
    (hk : k ≤ G.length) (hc : c ≤ P.peak (G.take k))
    (hR : ∀ found p m q s, Asked P found p m q → p.length + 1 = k → P.peak (p ++ [m]) < c → c ≤ q.minimal →
      q.minimal ≤ P.peak G → ¬ Takes accept gen s q)
    {l l' : Loc} {rng rng' : σ} {prof : Profile} {stop : Bool} (hl : LInv P [] (best0 P) l)
    (h : probIter prof accept gen l rng = .ok (l', rng', stop))
    (hJ : Nothing P G l ∨ Shut P c (P.peak G) k l) : Nothing P G l' ∨ Shut P c (P.peak G) k l' := by
  obtain ⟨l1, rng1, stop1, e1, e2⟩ := modeIter_spec (.prob accept gen) rng hP.lax hl.ok
  have := (e1 prof).symm.trans h
  simp only [Except.ok.injEq, Prod.mk.injEq] at this
  obtain ⟨rfl, rfl, rfl⟩ := this
  have hs : StateFor P l.path l.sweep.current := hl.ok.chain.state.1
  have hinv : LInv P [] (best0 P) l1 := (e2.inv hl).1
  rcases hJ with hJ | hJ
  · have e3 : IterStep P True l l1 stop1 := by
      obtain ⟨l2, rng2, stop2, f1, f2⟩ := modeIter_blank (mode := .prob accept gen) hA rng hP hl.ok hJ.best
      have := (f1 .debug).symm.trans (e1 .debug)
      simp only [Except.ok.injEq, Prod.mk.injEq] at this
      obtain ⟨rfl, _, rfl⟩ := this
      exact f2
    by_cases hset : l.sweep.current.time.measurable.set = []
    · right
      have hlen := greedy_leaf hP hG hg hs hset hJ.follows.ext
      have hst : l.sweep.stack ≠ [] := by
        intro h0
        have h1 := hl.ok.chain
        rw [h0] at h1
        have := h1.base_path
        have hv := leaf_valid hP hs hset
        rw [this] at hv
        exact not_valid_nil hb hv
      have hE : StepEq l.path G := by
        have := hJ.follows.ext
        unfold Extends at this
        rwa [hlen, List.take_of_length_le (Nat.le_refl _)] at this
      have hpk : P.peak l.path = P.peak G := hE.peak P
      cases e3 with
      | stop h0 => exact (hst h0).elim
      | backLeaf _ _ _ hlt =>
        have hmem : l.sweep.current.space.maxMemory = P.peak G := by rw [leaf_max hs, hpk]
        refine ⟨?_, ?_, ?_⟩
        · have h1 := hinv.b3 l.path.length l.sweep.current.space.maxMemory l.path (by simp [AMap.get_insert])
          have h2 := hinv.anti l.path.length P.n (by rw [hlen]; exact hG.length_le hP)
          rw [← hmem]
          exact Nat.le_trans h2 h1
        · intro t m S hr
          simp only [hJ.results, AMap.get_insert] at hr
          split at hr
          · cases hr
            rw [hmem]
            exact Nat.le_trans hc (peak_take_le P G k)
          · cases hr
        · intro hk'
          simp only at hk' ⊢
          rw [take_dropLast_of_lt hk', (hE.take k).peak P]
          exact hc
      | backInner _ _ h0 => exact (h0 hset).elim
      | skip hn =>
        have := hn.set_ne
        rw [hn.set] at this
        exact (this hset).elim
      | push hn =>
        have := hn.set_ne
        rw [hn.set] at this
        exact (this hset).elim
    · left
      obtain ⟨_, h2, h3, h4 | ⟨h4, _, _⟩⟩ := e3.follows hP hG hg hl.ok hJ.follows hset (by
        intro t ht
        have := hG.length_le hP
        rw [hJ.best, at0_best0 (by omega)])
      · rw [hJ.best, at0_best0 (hG.length_le hP)] at h4
        exact (Nat.lt_irrefl _ h4).elim
      · exact ⟨h2.trans hJ.best, h3.trans hJ.results, h4⟩
  · right
    have hpush := probIter_push hP hl h
    cases e2 with
    | stop => exact ⟨hJ.known, hJ.above, hJ.path⟩
    | skip => exact ⟨hJ.known, hJ.above, hJ.path⟩
    | backInner =>
      refine ⟨hJ.known, hJ.above, fun hk' => ?_⟩
      simp only at hk' ⊢
      rw [take_dropLast_of_lt hk']
      rw [List.length_dropLast] at hk'
      exact hJ.path (by omega)
    | backLeaf hst _ hset hlt =>
      have hv := leaf_valid hP hs hset
      have hlen : k ≤ l.path.length := Nat.le_trans hk (greedy_min hP hG hg hv)
      refine ⟨?_, ?_, fun hk' => ?_⟩
      · have h1 := hl.leaf (by rw [hst]; simp) hset
        simp only
        rw [at0_updateBest hlt]
        have := hJ.known
        split
        · exact this
        · split
          · rename_i h2 h3
            rw [← h3] at h1
            omega
          · omega
      · intro t m S hr
        simp only [AMap.get_insert] at hr
        split at hr
        · cases hr
          rw [leaf_max hs]
          exact Nat.le_trans (hJ.path hlen) (peak_take_le P l.path k)
        · exact hJ.above _ _ _ hr
      · simp only at hk' ⊢
        rw [take_dropLast_of_lt hk']
        exact hJ.path hlen
    | @push s' c' k' m bound hn hbd hlt =>
      refine ⟨hJ.known, hJ.above, fun hk' => ?_⟩
      simp only [List.length_append, List.length_singleton] at hk' ⊢
      rcases Nat.lt_or_eq_of_le hk' with h1 | h1
      · rw [List.take_append_of_le_length (by omega)]
        exact hJ.path (by omega)
      · rw [List.take_of_length_le (by simp [h1])]
        apply Classical.byContradiction
        intro hlt
        obtain ⟨m1, q, hq, ht, hm⟩ := hpush (by simp)
        simp only [List.append_cancel_left_eq, List.cons.injEq, and_true] at hm
        subst hm
        have h2 := (hl.least hP (Nat.le_refl P.n)).unique hq.minimal
        have h3 := hJ.known
        refine hR _ _ _ _ rng hq h1.symm (Nat.lt_of_not_le hlt) ?_ (by omega) ht
        rcases hq.minimal.mem with h4 | ⟨t', S, _, h4⟩
        · have := peak_lt_max hP G
          omega
        · exact hJ.above _ _ _ h4

theorem probLoop_shut {F σ : Type} [FloatOps F] {accept : Accept F} {gen : Rng F σ} {P : Problem} (hP : P.WF)
    (hb : P.bits ≠ []) (hA : Bold P accept) {G : Schedule} (hG : P.Valid G) (hg : Greedy P G) {c k : Nat}
    (hk : k ≤ G.length) (hc : c ≤ P.peak (G.take k))
    (hR : ∀ found p m q s, Asked P found p m q → p.length + 1 = k → P.peak (p ++ [m]) < c → c ≤ q.minimal →
      q.minimal ≤ P.peak G → ¬ Takes accept gen s q) {prof : Profile} {timer : Nat → Bool} :
    ∀ (fuel j : Nat) (l : Loc) (rng : σ) (l' : Loc) (rng' : σ), LInv P [] (best0 P) l →
      (Nothing P G l ∨ Shut P c (P.peak G) k l) →
      probLoop prof accept gen timer fuel j l rng = .ok (some (l', rng')) →
      Nothing P G l' ∨ Shut P c (P.peak G) k l' := by
  intro fuel
  induction fuel with
  | zero => intro j l rng l' rng' _ _ h; simp [probLoop, pure, Except.pure] at h
  | succ fuel ih =>
    intro j l rng l' rng' hl hJ h
    obtain ⟨l1, rng1, stop, e1, e2⟩ := probIter_spec accept gen rng hP.lax hl.ok
    have hJ1 := probIter_shut hP hb hA hG hg hk hc hR hl (e1 prof) hJ
    have hinv := (e2.inv hl).1
    simp only [probLoop, e1 prof, bind, Except.bind, pure, Except.pure] at h
    split at h
    · simp only [Except.ok.injEq, Option.some.injEq, Prod.mk.injEq] at h
      exact h.1 ▸ hJ1
    · split at h
      · simp only [Except.ok.injEq, Option.some.injEq, Prod.mk.injEq] at h
        exact h.1 ▸ hJ1
      · exact ih _ _ _ _ _ hinv hJ1 h

/-- If the steps up to `k` that need less than `c` are turned down as soon as something is known, nothing below `c` is
ever returned. -/
theorem searchProb_shut {F σ : Type} [FloatOps F] {accept : Accept F} {gen : Rng F σ} (rng : σ) {P : Problem} (hP : P.WF)
    (hb : P.bits ≠ []) (hA : Bold P accept) {G : Schedule} (hG : P.Valid G) (hg : Greedy P G) {c k : Nat}
    (hk : k ≤ G.length) (hc : c ≤ P.peak (G.take k))
    (hR : ∀ found p m q s, Asked P found p m q → p.length + 1 = k → P.peak (p ++ [m]) < c → c ≤ q.minimal →
      q.minimal ≤ P.peak G → ¬ Takes accept gen s q) {prof : Profile}
    {hashIter : MappedPaths → MappedPaths} (hh : ∀ m, (hashIter m).Perm m) {timer : Nat → Bool} {fuel : Nat}
    {out : List Path} (h : searchProb prof hashIter accept gen rng timer fuel P.graph P.order = .ok (some out)) :
    ∀ p ∈ out, c ≤ p.space := by
  obtain ⟨s, e1, e2, e3⟩ := mkScheduler_spec hP
  unfold searchProb at h
  rw [e1] at h
  simp only [bind, Except.bind] at h
  cases hd : doProbabilisticSearch prof accept gen timer fuel s P.graph.length rng with
  | error e => rw [hd] at h; simp at h
  | ok r =>
    rw [hd] at h
    cases r with
    | none => simp [pure, Except.pure] at h
    | some r =>
      obtain ⟨l', rng'⟩ := r
      simp only at h
      have h1 := probLoop_shut hP hb hA hG hg hk hc hR fuel 0 _ rng l' rng' (init_inv e2 e3)
        (Or.inl ⟨rfl, rfl, ⟨extends_nil G, e3⟩⟩) hd
      obtain ⟨o, p1, p2⟩ := postprocess_spec hashIter hh P.graph.length l'.results
      rw [p1] at h
      simp only [pure, Except.pure, Except.ok.injEq, Option.some.injEq] at h
      subst h
      intro p hp
      have h2 := ((p2.mem p).1 hp).2.1
      rcases h1 with h1 | h1
      · rw [h1.results] at h2
        cases h2
      · exact h1.above _ _ _ h2

end Verif
