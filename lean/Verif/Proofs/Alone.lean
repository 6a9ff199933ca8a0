import Verif.Proofs.Pool
/-!
# Tasks that work one after another lose nothing
-/

namespace Verif

open Spec Search Search.Threaded

theorem eq_of_at0 : ∀ {a b : List Nat}, a.length = b.length → (∀ t, at0 a t = at0 b t) → a = b
  | [], [], _, _ => rfl
  | x :: a, y :: b, hl, h => by
    have h0 : x = y := by simpa [at0] using h 0
    have := eq_of_at0 (a := a) (b := b) (by simpa using hl) fun t => by simpa [at0] using h (t + 1)
    rw [h0, this]

/-- Exchanging with a table that is nowhere better. -/
theorem exchange_le {s t : List Nat} (hl : s.length = t.length) (h : ∀ i, at0 t i ≤ at0 s i) : exchange s t = (t, t) := by
  have h1 := exchange_at s t hl
  have h2 := exchange_length s t
  refine Prod.ext (eq_of_at0 (by rw [h2.1, hl]) fun i => ?_) (eq_of_at0 h2.2 fun i => ?_)
  · rw [(h1 i).1, Nat.min_eq_right (h i)]
  · rw [(h1 i).2, Nat.min_eq_right (h i)]

/-- A merge into tables that are nowhere better. -/
theorem mergeLoop_le : ∀ {s s' t : List Nat} {k : Nat} {new results : MappedPaths}, s.length = t.length →
    s'.length = t.length → (∀ i, at0 t i ≤ at0 s i) → (∀ i, at0 t i ≤ at0 s' i) →
    mergeLoop k s t new results = mergeLoop k s' t new results
  | [], [], _, _, _, _, _, _, _, _ => rfl
  | a :: s, a' :: s', b :: t, k, new, results, h1, h2, h3, h4 => by
    have e1 : a ≥ b := by simpa [at0] using h3 0
    have e2 : a' ≥ b := by simpa [at0] using h4 0
    have ih : ∀ new results, mergeLoop (k + 1) s t new results = mergeLoop (k + 1) s' t new results := fun new results =>
      mergeLoop_le (by simpa using h1) (by simpa using h2) (fun i => by simpa [at0] using h3 (i + 1))
        fun i => by simpa [at0] using h4 (i + 1)
    simp only [mergeLoop, e1, e2, if_true, ih]
  | [], _ :: _, [], _, _, _, _, h2, _, _ => by simp at h2
  | [], _ :: _, _ :: _, _, _, _, h1, _, _, _ => by simp at h1
  | _ :: _, [], [], _, _, _, h1, _, _, _ => by simp at h1
  | _ :: _, [], _ :: _, _, _, _, _, h2, _, _ => by simp at h2
  | _ :: _, _ :: _, [], _, _, _, h1, _, _, _ => by simp at h1

/-- The tables while one task is at work: `B` is the shared table when it started, `best` the shared table now. -/
structure Between (B best : List Nat) (loc : Loc) : Prop where
  len : best.length = B.length
  len' : loc.best.length = B.length
  lo : ∀ t, at0 loc.best t ≤ at0 best t
  hi : ∀ t, at0 best t ≤ at0 B t
  none : loc.results = [] → loc.best = B

/-- What is known of the task that moves. -/
def Busy {σ : Type} (B best : List Nat) : TaskState σ → Prop
  | .running loc _ _ _ => Between B best loc
  | .finishing loc => Between B best loc
  | _ => best = B

/-- Only task `i` has started and not returned. -/
structure Alone (P : Problem) {σ : Type} (B : List Nat) (i : Nat) (g : Global σ) : Prop where
  pool : PoolInv P (⟨B, g.results, g.tasks⟩ : Global σ)
  busy : ∀ t, g.tasks[i]? = some t → Busy B g.best t
  idle : g.tasks[i]? = none → g.best = B

theorem IterStep.between {P : Problem} {Det : Prop} {p0 : Schedule} {b0 B best : List Nat} {l l' : Loc} {stop : Bool}
    (h : IterStep P Det l l' stop) (hl : LInv P p0 b0 l) (hb : Between B best l) : Between B best l' := by
  obtain ⟨h1, h2⟩ := h.inv hl
  refine ⟨hb.len, by rw [← hb.len', h1.ok.best, hl.ok.best], fun t => Nat.le_trans (h2 t) (hb.lo t), hb.hi, ?_⟩
  cases h with
  | stop => exact hb.none
  | backLeaf => intro h; simp [AMap.insert] at h
  | backInner => exact hb.none
  | skip => exact hb.none
  | push => exact hb.none

/-- A first step that is everything costs at most the entry. -/
theorem single_le {P : Problem} (hP : P.WF) (hb : P.bits ≠ []) {best b0 : List Nat} {results : MappedPaths}
    (hsh : SharedInv P best results) (hsnap : Snap best b0) {p0 : Schedule} {loc : Loc} (hl : LInv P p0 b0 loc)
    (hp : p0.length ≤ 1) (hv : P.Valid p0) : P.peak p0 ≤ at0 loc.best p0.length := by
  have hn1 := hv.length_le hP
  rcases hl.b2 p0.length with h1 | ⟨t', m, S, h1, h2, h3⟩
  · rw [h1]
    have h2 := hsnap.le p0.length
    rcases hsh.g2 p0.length hn1 with h3 | ⟨t', m, S, h3, h4, h5⟩
    · have := peak_lt_max hP p0; omega
    · obtain ⟨k1, k2, k3⟩ := hsh.sound t' m S h4
      have := peak_of_single hv ((maximal_iff hP).1 k1) hb hp (by omega)
      omega
  · obtain ⟨k1, k2, k3⟩ := hl.sound t' m S h2
    have := peak_of_single hv ((maximal_iff hP).1 k1) hb hp (by omega)
    omega

/-- Only whether the counter is zero matters. -/
theorem PoolInv.recount {P : Problem} {σ : Type} {g : Global σ} (h : PoolInv P g) {i : Nat} {loc : Loc} {rng : σ}
    {c : Nat} {w : Bool} (ht : g.tasks[i]? = some (.running loc rng c w)) (hc : c ≠ 0) :
    PoolInv P ⟨g.best, g.results, g.tasks.set i (.running loc rng 1 w)⟩ := by
  refine h.set ht h.shared (fun t => Nat.le_refl _) ?_ fun S _ hS => Or.inr hS
  cases h.tasks _ (List.mem_of_getElem? ht) with
  | running p0 b0 hl hsnap hc' hf hw hnv hp =>
    exact .running p0 b0 hl hsnap (by simp) (by simp) hw (fun _ => hnv hc) hp

theorem Alone.move {F σ : Type} [FloatOps F] {P : Problem} (hP : P.WF) (hb : P.bits ≠ []) {B : List Nat} {i : Nat}
    {g g' : Global σ} {prof : Profile} (h : Alone P B i g) (hm : move (.det : Mode F σ) prof g i false = .ok g') :
    ∃ B', Alone P B' i g' := by
  obtain ⟨hpool, hbusy, hidle⟩ := h
  cases ht : g.tasks[i]? with
  | none =>
    simp only [Threaded.move, ht, pure, Except.pure, Except.ok.injEq] at hm
    subst hm
    exact ⟨B, hpool, hbusy, hidle⟩
  | some t =>
    have hi : i < g.tasks.length := (List.getElem?_eq_some_iff.1 ht).1
    have hset : ∀ t' : TaskState σ, (g.tasks.set i t')[i]? = some t' := fun t' => by simp [hi]
    have hbt := hbusy t ht
    have hti := hpool.tasks t (List.mem_of_getElem? ht)
    have alone : ∀ {B' : List Nat} {g1 : Global σ} {t' : TaskState σ}, PoolInv P (⟨B', g1.results, g1.tasks⟩ : Global σ) →
        g1.tasks = g.tasks.set i t' → Busy B' g1.best t' → Alone P B' i g1 := by
      intro B' g1 t' k1 k2 k3
      refine ⟨k1, ?_, ?_⟩
      · intro a ha
        rw [k2, hset] at ha
        cases ha; exact k3
      · intro hn; rw [k2, hset] at hn; simp at hn
    cases t with
    | ready sched init rng =>
      have hB : g.best = B := hbt
      simp only [Threaded.move, ht, pure, Except.pure, Except.ok.injEq] at hm
      subst hm
      refine ⟨B, alone (t' := .running (startLoc sched init g.best) rng 0 init.isSome) ?_ rfl ?_⟩
      · refine move_inv (F := F) hP hb (g := ⟨B, g.results, g.tasks⟩) hpool (i := i) (tb := false) (prof := prof) ?_ ?_
        · intro loc rng c w hq
          rw [show (⟨B, g.results, g.tasks⟩ : Global σ).tasks[i]? = g.tasks[i]? from rfl, ht] at hq
          simp at hq
        · simp only [Threaded.move, ht, pure, Except.pure, hB]
      · exact ⟨by rw [hB], by simp [startLoc, hB], fun t => by simp [startLoc], fun t => by rw [hB], fun _ => by simp [startLoc, hB]⟩
    | running loc rng counter wasInit =>
      have hbt : Between B g.best loc := hbt
      cases hti with
      | running p0 b0 hl hsnap hc hf hw hnv hp =>
      obtain ⟨l', stop, e1, e2⟩ := searchIter_spec hP.lax hl.ok
      have hbt' := e2.between hl hbt
      -- the same move with `B` as the shared table and without an exchange
      have sim : ∀ (c : Nat) (g1 : Global σ), (counter = 0 ↔ c = 0) → c ≠ updateInterval →
          PoolInv P (⟨B, g.results, g.tasks.set i (.running loc rng c wasInit)⟩ : Global σ) →
          Threaded.move (.det : Mode F σ) prof ⟨B, g.results, g.tasks.set i (.running loc rng c wasInit)⟩ i false = .ok g1 →
          PoolInv P g1 := by
        intro c g1 _ hcu hpi hmv
        refine move_inv (F := F) hP hb hpi (i := i) ?_ hmv
        intro loc2 rng2 c2 w2 hq
        rw [hset] at hq
        simp only [Option.some.injEq, TaskState.running.injEq] at hq
        omega
      obtain ⟨c, hc0, hcu, hpi⟩ : ∃ c, (counter = 0 ↔ c = 0) ∧ c ≠ updateInterval ∧
          PoolInv P (⟨B, g.results, g.tasks.set i (.running loc rng c wasInit)⟩ : Global σ) := by
        by_cases hcu : counter = updateInterval
        · have hc0 : counter ≠ 0 := by rw [hcu]; decide
          exact ⟨1, by omega, by decide, hpool.recount ht hc0⟩
        · refine ⟨counter, Iff.rfl, hcu, ?_⟩
          have : g.tasks.set i (.running loc rng counter wasInit) = g.tasks := by
            apply List.ext_getElem?
            intro j
            by_cases hj : j = i
            · subst hj; rw [hset, ht]
            · rw [List.getElem?_set_ne (fun h => hj h.symm)]
          rw [this]; exact hpool
      cases stop with
      | true =>
        obtain ⟨_, hcase⟩ := finishLoop_spec hP.lax e2 hl.ok hl.sound (fun a b => ⟨hf a b, hc a⟩)
        have hsame : finishLoop l' c wasInit = finishLoop l' counter wasInit := by
          unfold finishLoop
          by_cases h0 : counter = 0
          · rw [h0, hc0.1 h0]
          · rw [if_neg fun h => h0 (hc0.2 h.1), if_neg fun h => h0 h.1]
        obtain ⟨l'', hfin, hbl⟩ : ∃ l'', finishLoop l' counter wasInit = .ok l'' ∧ Between B g.best l'' := by
          rcases hcase with ⟨hn, hfin⟩ | ⟨hz, hwi, hv, hpath, hbest, hres, hlen, hfin⟩
          · exact ⟨l', hfin, hbt'⟩
          · refine ⟨_, hfin, hbt.len, by simpa [updateBest] using hbt.len', ?_, hbt.hi, ?_⟩
            · intro t
              rw [maximal_iff hP] at hv
              have := single_le hP hb hpool.shared hsnap hl hp hv
              have hlo := hbt.lo t
              change at0 (updateBest loc.best p0.length (P.peak p0)) t ≤ _
              rw [at0_updateBest hlen]
              split
              · exact hlo
              · split
                · rename_i heq
                  rw [← heq] at this
                  omega
                · omega
            · intro h; simp [AMap.insert] at h
        simp only [Threaded.move, ht, modeIter, e1 prof, bind, Except.bind, pure, Except.pure, ↓reduceIte, hfin,
          Except.ok.injEq] at hm
        subst hm
        refine ⟨B, alone (t' := .finishing l'') ?_ rfl hbl⟩
        refine sim c _ hc0 hcu hpi ?_
        simp only [Threaded.move, hset, modeIter, e1 prof, bind, Except.bind, pure, Except.pure, ↓reduceIte, hsame, hfin,
          List.set_set]
      | false =>
        have hB : PoolInv P (⟨B, g.results, g.tasks.set i (.running l' rng (c + 1) wasInit)⟩ : Global σ) := by
          refine sim c _ hc0 hcu hpi ?_
          simp only [Threaded.move, hset, modeIter, e1 prof, bind, Except.bind, pure, Except.pure, Bool.false_eq_true,
            ↓reduceIte, hcu, List.set_set]
        -- the counter
        have hB' : ∀ c', c' ≠ 0 → PoolInv P (⟨B, g.results, g.tasks.set i (.running l' rng c' wasInit)⟩ : Global σ) := by
          intro c' hc'
          have := hB
          refine ⟨this.shared, ?_, ?_⟩
          · intro a ha
            rcases List.mem_or_eq_of_mem_set ha with h1 | h1
            · exact hpool.tasks a h1
            · subst h1
              cases this.tasks (.running l' rng (c + 1) wasInit) (List.mem_of_getElem? (hset _)) with
              | running p0 b0 hl hsnap hc hf hw hnv hp =>
                exact .running p0 b0 hl hsnap (fun h => (hc' h).elim) (fun h => (hc' h).elim) hw
                  (fun _ => hnv (by omega)) hp
          · intro S hS
            rcases this.cov S hS with h1 | ⟨j, a, h1, h2⟩
            · exact Or.inl h1
            · by_cases hj : j = i
              · subst hj
                refine Or.inr ⟨j, _, hset _, ?_⟩
                rw [show (⟨B, g.results, g.tasks.set j (.running l' rng (c + 1) wasInit)⟩ : Global σ).tasks[j]? = _ from hset _] at h1
                cases h1; exact h2
              · refine Or.inr ⟨j, a, ?_, h2⟩
                have h1 : (g.tasks.set i (.running l' rng (c + 1) wasInit))[j]? = some a := h1
                rw [List.getElem?_set_ne (fun h => hj h.symm)] at h1
                show (g.tasks.set i _)[j]? = some a
                rw [List.getElem?_set_ne (fun h => hj h.symm), h1]
        by_cases hcu' : counter = updateInterval
        · have hex := exchange_le (s := g.best) (t := l'.best) (by rw [hbt'.len', hbt'.len]) hbt'.lo
          simp only [Threaded.move, ht, modeIter, e1 prof, bind, Except.bind, pure, Except.pure, Bool.false_eq_true,
            ↓reduceIte, hcu', hex, Except.ok.injEq] at hm
          subst hm
          refine ⟨B, alone (t' := .running l' rng 1 wasInit) (hB' 1 (by simp)) rfl ?_⟩
          exact ⟨hbt'.len', hbt'.len', fun t => Nat.le_refl _, fun t => Nat.le_trans (hbt'.lo t) (hbt'.hi t), hbt'.none⟩
        · simp only [Threaded.move, ht, modeIter, e1 prof, bind, Except.bind, pure, Except.pure, Bool.false_eq_true,
            ↓reduceIte, hcu', Except.ok.injEq] at hm
          subst hm
          exact ⟨B, alone (t' := .running l' rng (counter + 1) wasInit) (hB' _ (by simp)) rfl hbt'⟩
    | finishing loc =>
      have hbt : Between B g.best loc := hbt
      have hsim : ∀ g1, Threaded.move (.det : Mode F σ) prof ⟨B, g.results, g.tasks⟩ i false = .ok g1 → PoolInv P g1 := by
        intro g1 hmv
        refine move_inv (F := F) hP hb hpool (i := i) ?_ hmv
        intro loc2 rng2 c2 w2 hq
        rw [show (⟨B, g.results, g.tasks⟩ : Global σ).tasks[i]? = g.tasks[i]? from rfl, ht] at hq
        simp at hq
      cases hemp : loc.results.isEmpty with
      | true =>
        simp only [Threaded.move, ht, hemp, pure, Except.pure, ↓reduceIte, Except.ok.injEq] at hm
        subst hm
        refine ⟨B, alone (t' := .done) ?_ rfl ?_⟩
        · refine hsim _ ?_
          simp only [Threaded.move, ht, hemp, pure, Except.pure, ↓reduceIte]
        · have h1 := hbt.none (by simpa using hemp)
          refine eq_of_at0 hbt.len fun t => ?_
          have h2 := hbt.lo t
          have h3 := hbt.hi t
          rw [h1] at h2
          exact Nat.le_antisymm h3 h2
      | false =>
        have heq := mergeLoop_le (s := g.best) (s' := B) (t := loc.best) (k := 0) (new := loc.results) (results := g.results)
          (by rw [hbt.len, hbt.len']) hbt.len'.symm hbt.lo (fun i => Nat.le_trans (hbt.lo i) (hbt.hi i))
        simp only [Threaded.move, ht, hemp, pure, Except.pure, Bool.false_eq_true, ↓reduceIte, Except.ok.injEq] at hm
        subst hm
        refine ⟨_, alone (t' := .done) ?_ rfl rfl⟩
        refine hsim _ ?_
        simp only [Threaded.move, ht, hemp, pure, Except.pure, Bool.false_eq_true, ↓reduceIte, heq]
    | done =>
      simp only [Threaded.move, ht, pure, Except.pure, Except.ok.injEq] at hm
      subst hm
      exact ⟨B, hpool, hbusy, hidle⟩

/-- The invariant of a run in which no task pauses for another one. -/
theorem Alone.run {F σ : Type} [FloatOps F] {P : Problem} (hP : P.WF) (hb : P.bits ≠ []) {prof : Profile} :
    ∀ {ms : List (Nat × Bool)} {g g' : Global σ} {B : List Nat} {i : Nat}, Alone P B i g →
    (∀ m ∈ ms, m.2 = false) →
    (∀ a b, a ≠ b → ¬ [a, b, a].Sublist (i :: ms.map (·.1))) →
    (∀ j ∈ ms.map (·.1), j ≠ i → ∀ t, g.tasks[j]? = some t → atWork t = false) →
    runMoves (.det : Mode F σ) prof g ms = .ok g' → g'.finished = true → PoolInv P g' := by
  intro ms
  induction ms with
  | nil =>
    intro g g' B i h _ _ _ hr hf
    simp only [runMoves, pure, Except.pure, Except.ok.injEq] at hr
    subst hr
    have : g.best = B := by
      cases ht : g.tasks[i]? with
      | none => exact h.idle ht
      | some t =>
        have h1 := finished_iff.1 hf i t ht
        have h2 := h.busy t ht
        cases t <;> simp [TaskState.isDone] at h1
        exact h2
    have hp := h.pool
    rw [← this] at hp
    exact hp
  | cons m ms ih =>
    intro g g' B i h hbit hsub hoth hr hf
    -- the task that moves is the only one at work
    obtain ⟨B1, h1⟩ : ∃ B1, Alone P B1 m.1 g := by
      by_cases hmi : m.1 = i
      · exact ⟨B, hmi ▸ h⟩
      · refine ⟨B, h.pool, ?_, ?_⟩ <;>
        · have hBi : g.best = B := by
            cases ht : g.tasks[i]? with
            | none => exact h.idle ht
            | some t =>
              have hd := done_of_other hr hf (j := i) (by
                simp only [List.map_cons, List.mem_cons, not_or]
                refine ⟨fun h => hmi h.symm, fun hi => hsub i m.1 (fun h => hmi h.symm) ?_⟩
                exact (List.Sublist.cons_cons _ ((List.singleton_sublist.2 hi).cons_cons _))) ht
              have h2 := h.busy t ht
              cases t <;> simp [TaskState.isDone] at hd
              exact h2
          intro t
          first
          | exact hBi
          | intro ht
            have := hoth m.1 (by simp) hmi t ht
            cases t <;> simp [atWork] at this <;> exact hBi
    obtain ⟨g1, k1, k2⟩ := runMoves_cons hr
    have hm2 := hbit m (by simp)
    rw [hm2] at k1
    obtain ⟨B2, h2⟩ := h1.move hP hb k1
    refine ih h2 (fun x hx => hbit x (List.mem_cons_of_mem _ hx)) ?_ ?_ k2 hf
    · intro a b hab hs
      exact hsub a b hab (hs.cons _)
    · intro j hj hjm t ht
      rw [move_elsewhere k1 hjm] at ht
      by_cases hji : j = i
      · subst hji
        have hmi : m.1 ≠ j := fun h => hjm h.symm
        exact (hsub j m.1 (fun h => hmi h.symm)
          (List.Sublist.cons_cons _ ((List.singleton_sublist.2 hj).cons_cons _))).elim
      · exact hoth j (List.mem_cons_of_mem _ hj) hji t ht

/-- The exhaustive search with several threads returns the trade-off curve if the tasks work one after another. -/
theorem searchThreaded_alone {F σ : Type} [FloatOps F] {P : Problem} (hP : P.WF) (hb : P.bits ≠ []) (tb : Int)
    (seeds : Nat → σ) (moves : List (Nat × Bool)) (prof : Profile) (hashIter : MappedPaths → MappedPaths)
    (hh : ∀ m, (hashIter m).Perm m) (out : List Path) (hbit : ∀ m ∈ moves, m.2 = false)
    (hsub : ∀ a b, a ≠ b → ¬ [a, b, a].Sublist (moves.map (·.1)))
    (hout : searchThreaded (.det : Mode F σ) prof hashIter tb seeds moves P.graph P.order = .ok (some out)) :
    Complete P out := by
  obtain ⟨s, e1, hs, hf⟩ := mkScheduler_spec hP
  obtain ⟨g, e2, hg⟩ := initGlobal_inv hP hb tb seeds hs hf
  have e2' : initGlobal prof tb seeds s P.graph.length = .ok g := e2 prof
  simp only [searchThreaded, e1, e2', bind, Except.bind, pure, Except.pure] at hout
  cases hr : runMoves (.det : Mode F σ) prof g moves with
  | error e => simp [hr] at hout
  | ok g' =>
    simp only [hr] at hout
    split at hout
    · rename_i hfin
      have hinv : PoolInv P g' := by
        cases moves with
        | nil =>
          simp only [runMoves, pure, Except.pure, Except.ok.injEq] at hr
          exact hr ▸ hg
        | cons m ms =>
          have hready : ∀ t ∈ g.tasks, ∃ a b c, t = .ready a b c := by
            intro t ht
            obtain ⟨ts, rest, f1, _⟩ := spawnLoop_spec hP.lax tb (s.time.measurable.iter.length + 1) s 0 hs hf.iterOK (by omega)
            have := e2 prof
            simp only [initGlobal, spawn, f1 prof, bind, Except.bind, pure, Except.pure, Except.ok.injEq] at this
            rw [← this] at ht
            simp only [List.mem_append, List.mem_singleton, List.mem_mapIdx] at ht
            rcases ht with ⟨k, hk, rfl⟩ | rfl
            · exact ⟨_, _, _, rfl⟩
            · exact ⟨_, _, _, rfl⟩
          have h0 : Alone P g.best m.1 g := by
            refine ⟨hg, ?_, fun _ => rfl⟩
            intro t ht
            obtain ⟨a, b, c, rfl⟩ := hready t (List.mem_of_getElem? ht)
            exact rfl
          obtain ⟨g1, k1, k2⟩ := runMoves_cons hr
          rw [hbit m (by simp)] at k1
          obtain ⟨B1, h1⟩ := h0.move hP hb k1
          refine h1.run hP hb (fun x hx => hbit x (List.mem_cons_of_mem _ hx)) (by simpa using hsub) ?_ k2 hfin
          intro j _ hj t ht
          rw [move_elsewhere k1 hj] at ht
          obtain ⟨a, b, c, rfl⟩ := hready t (List.mem_of_getElem? ht)
          rfl
      obtain ⟨out', p1, p2⟩ := postprocess_spec hashIter hh P.n g'.results
      have p1' : postprocess hashIter P.graph.length g'.results = .ok out' := p1
      rw [p1'] at hout
      simp only [Except.ok.injEq, Option.some.injEq] at hout
      exact hinv.complete hP hfin (hout ▸ p2)
    · simp at hout

end Verif
