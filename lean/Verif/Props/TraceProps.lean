import Verif.Props.StatisticsProps
import Verif.Props.DistributionProps
/-!
# The shots of a point: what is searched on what (C57), and their independence (C58)
-/

namespace Verif.Results

open Spec Search Example MeasureTheory

/-- What happens in one shot. -/
structure Outcome where
  problem : Problem
  seed : Nat
  timeOptimal : List Path
  approx : List Path
  full : List Path

/-- The number that a shot contributes to row `j`: length and memory of the time optimal path, of the last
path of the probabilistic search, and of the first and the last path of the exhaustive search. -/
def Outcome.number (o : Outcome) : Nat → Option Nat
  | 0 => o.timeOptimal.head?.map (·.time)
  | 1 => o.timeOptimal.head?.map (·.space)
  | 2 => o.approx.getLast?.map (·.time)
  | 3 => o.approx.getLast?.map (·.space)
  | 4 => o.full.head?.map (·.time)
  | 5 => o.full.head?.map (·.space)
  | 6 => o.full.getLast?.map (·.time)
  | 7 => o.full.getLast?.map (·.space)
  | _ => none

section
variable {F σ τ : Type} [FloatRoot F]

/-- `o` is a possible outcome of a shot that takes the generator from `s` to `s'`: a graph, an order and a
seed are drawn, in this order, and the three searches run on them. -/
structure Outcome.Of (induced : List (List Bool) → List Nat → OrderGraph) (rand : Rand F σ) (size : Nat)
    (edge correction : Density F) (timeout : Nat) (getFull : Bool) (shot : Shot F τ) (s : σ) (o : Outcome)
    (s' : σ) : Prop where
  drawn : ∃ s1 s2, getGraph rand edge size s = .ok (o.problem.graph, s1) ∧
    getOrder induced rand correction size s1 = .ok (o.problem.order, s2) ∧ rand.gen s2 = (o.seed, s')
  timeOptimal : run shot.timeOptimal o.problem.graph o.problem.order { doSearch := false } =
    .ok (some o.timeOptimal)
  approx : run shot.approx o.problem.graph o.problem.order
    { doSearch := true, timeout := some timeout, nthreads := 30,
      probabilistic := some (AcceptFunc.builtinHeavyside.getAcceptFunc, some o.seed) } = .ok (some o.approx)
  full : if getFull then run shot.full o.problem.graph o.problem.order
      { doSearch := true, nthreads := 30 } = .ok (some o.full) else o.full = []

/-- The shots one after the other. -/
inductive Outcomes (induced : List (List Bool) → List Nat → OrderGraph) (rand : Rand F σ) (size : Nat)
    (edge correction : Density F) (timeout : Nat) (getFull : Bool) : List (Shot F τ) → σ → List Outcome → σ → Prop
  | nil (s : σ) : Outcomes induced rand size edge correction timeout getFull [] s [] s
  | cons {shot : Shot F τ} {shots : List (Shot F τ)} {s s' s'' : σ} {o : Outcome} {os : List Outcome} :
    Outcome.Of induced rand size edge correction timeout getFull shot s o s' →
    Outcomes induced rand size edge correction timeout getFull shots s' os s'' →
    Outcomes induced rand size edge correction timeout getFull (shot :: shots) s (o :: os) s''

theorem doShot_trace {induced : List (List Bool) → List Nat → OrderGraph} {rand : Rand F σ} {size : Nat}
    {edge correction : Density F} {timeout : Nat} {getFull : Bool} {shot : Shot F τ} {rows rows' : List (List Nat)}
    {s s' : σ} (hl : (if getFull then 8 else 4) ≤ rows.length)
    (h : doShot induced rand size edge correction timeout getFull shot rows s = .ok (some (rows', s'))) :
    ∃ o, Outcome.Of induced rand size edge correction timeout getFull shot s o s' ∧
      rows'.length = rows.length ∧ ∀ j, rows'.getD j [] = rows.getD j [] ++ (o.number j).toList := by
  unfold doShot at h
  cases e1 : getGraph rand edge size s with
  | error e => simp [e1, bind, Except.bind] at h
  | ok x =>
  obtain ⟨g, s1⟩ := x
  cases e2 : getOrder induced rand correction size s1 with
  | error e => simp [e1, e2, bind, Except.bind] at h
  | ok x =>
  obtain ⟨G, s2⟩ := x
  cases et : run shot.timeOptimal g G { doSearch := false } with
  | error e => simp [e1, e2, et, bind, Except.bind] at h
  | ok rt =>
  cases ea : run shot.approx g G
    { doSearch := true, timeout := some timeout, nthreads := ncpus,
      probabilistic := some (AcceptFunc.builtinHeavyside.getAcceptFunc, some (rand.gen s2).1) } with
  | error e => simp [e1, e2, et, ea, bind, Except.bind] at h
  | ok ra =>
  obtain ⟨rf, ef, hc⟩ : ∃ rf, (if getFull then run shot.full g G { doSearch := true, nthreads := ncpus } = .ok rf
      else rf = some []) ∧ collect getFull rt ra rf rows (rand.gen s2).2 = .ok (some (rows', s')) := by
    cases getFull with
    | false =>
      refine ⟨some [], by simp, ?_⟩
      simp only [e1, e2, et, ea, bind, Except.bind] at h
      exact h
    | true =>
      cases ef : run shot.full g G { doSearch := true, nthreads := ncpus } with
      | error e => simp [e1, e2, et, ea, ef, bind, Except.bind] at h
      | ok rf =>
        refine ⟨rf, by simp, ?_⟩
        simp only [e1, e2, et, ea, ef, if_true, bind, Except.bind] at h
        exact h
  clear h
  unfold collect at hc
  cases rt with
  | none => simp [pure, Except.pure] at hc
  | some t =>
  cases ra with
  | none => simp [pure, Except.pure] at hc
  | some a =>
  cases rf with
  | none => simp [pure, Except.pure] at hc
  | some fl =>
  cases hh : t.head? with
  | none => simp [hh] at hc
  | some p =>
  simp only [hh] at hc
  obtain ⟨rows1, f1, l1, g1⟩ := pushOpt_spec (rows := rows) (some p) (i := 0) (by split at hl <;> omega)
  obtain ⟨rows2, f2, l2, g2⟩ := pushOpt_spec (rows := rows1) a.getLast? (i := 2) (by
    rw [l1]; split at hl <;> omega)
  simp only [f1, f2, bind, Except.bind] at hc
  refine ⟨⟨⟨g, G⟩, (rand.gen s2).1, t, a, fl⟩, ?_⟩
  cases getFull with
  | false =>
    simp only [Bool.false_eq_true, if_false, pure, Except.pure, Except.ok.injEq, Option.some.injEq,
      Prod.mk.injEq] at hc ef
    obtain ⟨rfl, rfl⟩ := hc
    subst ef
    refine ⟨⟨⟨s1, s2, e1, e2, rfl⟩, et, ea, by simp⟩, by rw [l2, l1], fun j => ?_⟩
    rw [g2, g1, List.append_assoc]
    congr 1
    rcases j with _ | _ | _ | _ | _ | _ | _ | _ | j <;> simp [extra, Outcome.number, hh]
  | true =>
    simp only [if_true] at hc ef hl
    obtain ⟨rows3, f3, l3, g3⟩ := pushOpt_spec (rows := rows2) fl.head? (i := 4) (by omega)
    obtain ⟨rows4, f4, l4, g4⟩ := pushOpt_spec (rows := rows3) fl.getLast? (i := 6) (by omega)
    simp only [f3, f4, pure, Except.pure, Except.ok.injEq, Option.some.injEq, Prod.mk.injEq] at hc
    obtain ⟨rfl, rfl⟩ := hc
    refine ⟨⟨⟨s1, s2, e1, e2, rfl⟩, et, ea, by rw [if_pos rfl]; exact ef⟩, by omega, fun j => ?_⟩
    rw [g4, g3, g2, g1, List.append_assoc, List.append_assoc, List.append_assoc]
    congr 1
    rcases j with _ | _ | _ | _ | _ | _ | _ | _ | j <;> simp [extra, Outcome.number, hh]

theorem doShots_trace {induced : List (List Bool) → List Nat → OrderGraph} {rand : Rand F σ} {size : Nat}
    {edge correction : Density F} {timeout : Nat} {getFull : Bool} (shots : List (Shot F τ)) :
    ∀ {rows rows' : List (List Nat)} {s s' : σ}, (if getFull then 8 else 4) ≤ rows.length →
    doShots induced rand size edge correction timeout getFull shots rows s = .ok (some (rows', s')) →
    ∃ os, Outcomes induced rand size edge correction timeout getFull shots s os s' ∧
      rows'.length = rows.length ∧ ∀ j, rows'.getD j [] = rows.getD j [] ++ os.filterMap (·.number j) := by
  induction shots with
  | nil =>
    intro rows rows' s s' _ h
    simp only [doShots, pure, Except.pure, Except.ok.injEq, Option.some.injEq, Prod.mk.injEq] at h
    obtain ⟨rfl, rfl⟩ := h
    exact ⟨[], .nil _, rfl, by simp⟩
  | cons shot shots ih =>
    intro rows rows' s s' hl h
    unfold doShots at h
    cases e : doShot induced rand size edge correction timeout getFull shot rows s with
    | error e' => simp [e, bind, Except.bind] at h
    | ok x =>
      cases x with
      | none => simp [e, bind, Except.bind, pure, Except.pure] at h
      | some x =>
        obtain ⟨rows1, s1⟩ := x
        simp only [e, bind, Except.bind] at h
        obtain ⟨o, h1, h2, h3⟩ := doShot_trace hl e
        obtain ⟨os, h4, h5, h6⟩ := ih (by rw [h2]; exact hl) h
        refine ⟨o :: os, .cons h1 h4, by rw [h5, h2], fun j => ?_⟩
        rw [h6, h3, List.filterMap_cons, List.append_assoc]
        cases o.number j <;> simp

/-- **C57** The numbers collected at a point, shot by shot: row `j` consists of the numbers that the
searches on the instances of the shots yield, in the order of the shots, without gaps. -/
theorem C57_shots {induced : List (List Bool) → List Nat → OrderGraph} {rand : Rand F σ} {size : Nat}
    {edge correction : Density F} {timeout : Nat} {getFull : Bool} {shots : List (Shot F τ)}
    {rows : List (List Nat)} {s s' : σ}
    (h : doIt induced rand size edge correction timeout getFull shots s = .ok (some (rows, s'))) :
    ∃ os, Outcomes induced rand size edge correction timeout getFull shots s os s' ∧
      rows = (List.range (if getFull then 8 else 4)).map fun j => os.filterMap (·.number j) := by
  obtain ⟨os, h1, h2, h3⟩ := doShots_trace shots (by simp) h
  refine ⟨os, h1, ?_⟩
  apply List.ext_getElem
  · simpa using h2
  · intro j hj1 hj2
    have hj : rows[j] = rows.getD j [] := by simp [List.getD_eq_getElem?_getD, hj1]
    have hz : (List.replicate (if getFull then 8 else 4) ([] : List Nat)).getD j [] = [] := by
      rw [List.getD_eq_getElem?_getD, List.getElem?_replicate]
      generalize (if getFull then 8 else 4) = m
      by_cases hm : j < m <;> simp [hm]
    rw [hj, h3, hz]
    simp

end

/-! ## Independence of the shots -/

section
variable {Ω F τ : Type} [FloatRoot F] {f : Ω → F} {r : Nat → Ω → Nat} {g : Ω → Nat}

/-- A random instance: a graph, and an order of the qubits with dependencies. -/
structure Instance where
  graph : List (List Nat)
  order : List Nat
  deps : Nat → Nat → Prop

/-- The instance is possible: a simple graph, an order of all qubits, dependencies on earlier ones. -/
structure Instance.OK (n : Nat) (x : Instance) : Prop where
  graph : Simple n x.graph
  order : x.order.Perm (List.range n)
  deps : Earlier x.order x.deps

/-- The next draws lead to this instance. -/
def Instance.Drawn (f : Ω → F) (r : Nat → Ω → Nat) (g : Ω → Nat) (edge correction : Density F) (n : Nat)
    (x : Instance) (ω : Nat → Ω) : Prop :=
  ∃ s frames s', getGraph (streamRand f r g) edge n ω = .ok (x.graph, s) ∧
    (∀ induced, getOrder induced (streamRand f r g) correction n s = .ok (induced frames x.order, s')) ∧
    ∀ b c, DependsOn frames x.order b c ↔ x.deps b c

/-- The number of draws of one shot: one for every pair of nodes, `n` indices, one for every pair of qubits,
and the seed. -/
def drawsPerShot (n : Nat) : Nat := n * (n - 1) / 2 + (n + n * (n - 1) / 2) + 1

theorem orderDraws_eq (n : Nat) : orderDraws n = n + n * (n - 1) / 2 := by
  induction n with
  | zero => rfl
  | succ n ih =>
    rw [orderDraws, ih, ← length_pairs, ← length_pairs, pairs_succ]
    simp only [List.length_append, List.length_map, List.length_range]
    omega

theorem shot_state {induced : List (List Bool) → List Nat → OrderGraph} {n : Nat}
    {edge correction : Density F} (hr : ∀ n x, 0 < n → r n x < n) {timeout : Nat} {getFull : Bool} {shot : Shot F τ}
    {ω ω' : Nat → Ω} {o : Outcome}
    (h : Outcome.Of induced (streamRand f r g) n edge correction timeout getFull shot ω o ω') :
    ω' = fun k => ω (k + drawsPerShot n) := by
  obtain ⟨s1, s2, h1, h2, h3⟩ := h.drawn
  have e1 : s1 = fun k => ω (k + n * (n - 1) / 2) := by
    unfold getGraph at h1
    split at h1
    · rename_i hn
      subst hn
      simp only [pure, Except.pure, Except.ok.injEq, Prod.mk.injEq] at h1
      rw [← h1.2]
      rfl
    · cases hx : edge.get n with
      | error e => simp [hx, bind, Except.bind] at h1
      | ok x =>
        simp only [hx, bind, Except.bind] at h1
        obtain ⟨G, e, -⟩ := graph_matches f r g x n ω
        rw [e] at h1
        simp only [Except.ok.injEq, Prod.mk.injEq] at h1
        rw [← h1.2, length_pairs]
  have e2 : s2 = fun k => s1 (k + (n + n * (n - 1) / 2)) := by
    unfold getOrder at h2
    split at h2
    · rename_i hn
      subst hn
      simp only [pure, Except.pure, Except.ok.injEq, Prod.mk.injEq] at h2
      rw [← h2.2]
      rfl
    · cases hx : correction.get n with
      | error e => simp [hx, bind, Except.bind] at h2
      | ok y =>
        obtain ⟨frames, π, e, -⟩ := order_event (f := f) hr y n g s1
        simp only [hx, e, bind, Except.bind, pure, Except.pure, Except.ok.injEq, Prod.mk.injEq] at h2
        rw [← h2.2, orderDraws_eq]
  have e3 : ω' = fun k => s2 (k + 1) := by
    have := congrArg Prod.snd h3
    exact this.symm
  rw [e3, e2, e1]
  funext k
  simp only [drawsPerShot]
  congr 1
  omega

/-- **C58** The draws of shot `i` start at a fixed position: whatever happens in the shots before, and
however long the searches take, they do not shift the draws of the later ones. -/
theorem C58_positions {induced : List (List Bool) → List Nat → OrderGraph} {n : Nat}
    {edge correction : Density F} (hr : ∀ n x, 0 < n → r n x < n) {timeout : Nat} {getFull : Bool}
    {shots : List (Shot F τ)} {rows : List (List Nat)} {ω ω' : Nat → Ω}
    (h : doIt induced (streamRand f r g) n edge correction timeout getFull shots ω = .ok (some (rows, ω'))) :
    ∃ os, rows = (List.range (if getFull then 8 else 4)).map (fun j => os.filterMap (·.number j)) ∧
      List.Forall₂ (fun shot (x : Nat × Outcome) => Outcome.Of induced (streamRand f r g) n edge correction timeout
        getFull shot (fun k => ω (k + x.1 * drawsPerShot n)) x.2
        (fun k => ω (k + (x.1 + 1) * drawsPerShot n))) shots ((List.range shots.length).zip os) ∧
      os.length = shots.length ∧ ω' = fun k => ω (k + shots.length * drawsPerShot n) := by
  obtain ⟨os, h1, h2⟩ := C57_shots h
  refine ⟨os, h2, ?_⟩
  clear h2 h
  have key : ∀ (shots : List (Shot F τ)) (os : List Outcome) (s s' : Nat → Ω) (i : Nat),
      Outcomes induced (streamRand f r g) n edge correction timeout getFull shots s os s' →
      s = (fun k => ω (k + i * drawsPerShot n)) →
      List.Forall₂ (fun shot (x : Nat × Outcome) => Outcome.Of induced (streamRand f r g) n edge correction timeout
        getFull shot (fun k => ω (k + x.1 * drawsPerShot n)) x.2
        (fun k => ω (k + (x.1 + 1) * drawsPerShot n))) shots ((List.range' i shots.length).zip os) ∧
      os.length = shots.length ∧ s' = fun k => ω (k + (i + shots.length) * drawsPerShot n) := by
    intro shots os s s' i h
    induction h generalizing i with
    | nil s => intro hs; exact ⟨.nil, rfl, by simpa using hs⟩
    | cons ho _ ih =>
      intro hs
      have hst := shot_state hr ho
      rw [hs] at hst ho
      have hst' : _ = fun k => ω (k + (i + 1) * drawsPerShot n) := hst.trans (by
        funext k
        change ω (k + drawsPerShot n + i * drawsPerShot n) = _
        congr 1
        ring)
      rw [hst'] at ho
      obtain ⟨h1, h2, h3⟩ := ih (i + 1) hst'
      refine ⟨?_, by simp [h2], ?_⟩
      · rw [List.length_cons, List.range'_succ, List.zip_cons_cons]
        exact .cons ho h1
      · rw [h3, List.length_cons, Nat.add_right_comm i 1, Nat.add_assoc]
  have := key shots os ω ω' 0 h1 (by simp)
  rw [List.range_eq_range']
  simpa using this

/-- The instance of a shot is the one that is drawn. -/
theorem C58_problem {induced : List (List Bool) → List Nat → OrderGraph} {n : Nat}
    (hi : ∀ frames map, Causal n frames map →
      Induced (DependsOn frames map) (List.range n) (induced frames map))
    {edge correction : Density F} (hn : n ≠ 0) (hr : ∀ n x, 0 < n → r n x < n) {timeout : Nat} {getFull : Bool}
    {shot : Shot F τ} {ω ω' : Nat → Ω} {o : Outcome}
    (h : Outcome.Of induced (streamRand f r g) n edge correction timeout getFull shot ω o ω') {I : Instance}
    (hI : I.Drawn f r g edge correction n ω) :
    o.problem.graph = I.graph ∧ Induced I.deps (List.range n) o.problem.order := by
  obtain ⟨s1, s2, h1, h2, -⟩ := h.drawn
  obtain ⟨s, frames, s', k1, k2, k3⟩ := hI
  rw [k1] at h1
  simp only [Except.ok.injEq, Prod.mk.injEq] at h1
  obtain ⟨hg, rfl⟩ := h1
  have k4 := k2 induced
  rw [k4] at h2
  simp only [Except.ok.injEq, Prod.mk.injEq] at h2
  refine ⟨hg.symm, ?_⟩
  rw [← h2.1]
  have hD : DependsOn frames I.order = I.deps := by
    funext b c
    exact propext (k3 b c)
  rw [← hD]
  apply hi
  -- the frames are those of `orderWith`
  have k5 := k2 fun a b => if a = frames ∧ b = I.order then [] else [[]]
  simp only [getOrder, if_neg hn] at k5
  cases hy : correction.get n with
  | error e => simp [hy, bind, Except.bind] at k5
  | ok y =>
    obtain ⟨fr, mp, st, e, hc, -⟩ := C46_order (streamRand f r g) (fun n s h => hr n _ h) y n s
    simp only [hy, e, bind, Except.bind, pure, Except.pure, Except.ok.injEq, Prod.mk.injEq, and_self, if_true] at k5
    have : fr = frames ∧ mp = I.order := by
      by_contra hne
      rw [if_neg hne] at k5
      exact absurd k5.1 (by simp)
    obtain ⟨rfl, rfl⟩ := this
    exact hc

variable [MeasurableSpace Ω] {ν : Measure Ω}

/-- The probability of an instance, if edges have probability `p` and dependencies `q`. -/
noncomputable def Instance.prob (n : Nat) (p q : ENNReal) (x : Instance) : ENNReal :=
  (p ^ numEdges n x.graph * (1 - p) ^ (n * (n - 1) / 2 - numEdges n x.graph)) *
    ((n.factorial : ENNReal)⁻¹ *
      (q ^ numDeps x.order x.deps * (1 - q) ^ (n * (n - 1) / 2 - numDeps x.order x.deps)))

/-- The draws that lead to an instance; the last one is the seed, which can be anything. -/
noncomputable def Instance.script (n : Nat) (x y : F) (I : Instance) : List (Draw F) :=
  ((pairs n).map fun p => .below x (some (decide (p.2 ∈ I.graph.getD p.1 [])))) ++
    (orderScript y (wanted I.order I.deps) (List.range n) 0 I.order ++ [.below x none])

omit [MeasurableSpace Ω] in
theorem Instance.drawn_iff (hr : ∀ n x, 0 < n → r n x < n) {edge correction : Density F} {n : Nat} (hn : n ≠ 0)
    {x y : F} (hx : edge.get n = .ok x) (hy : correction.get n = .ok y) {I : Instance} (hI : I.OK n)
    (g : Ω → Nat) (ω : Nat → Ω) :
    I.Drawn f r g edge correction n ω ↔ Matches f r (I.script n x y) ω := by
  rw [Instance.Drawn, instance_event hr hn hx hy hI.graph hI.order hI.deps, Instance.script,
    ← List.append_assoc, matches_append _ _ (_ ++ _)]
  simp [Matches, Draw.set]

omit [FloatRoot F] in
theorem orderScript_length (d : F) (T : Nat → Nat → Option Bool) (target : List Nat) :
    ∀ (pool : List Nat) (k : Nat), target.Perm pool →
      (orderScript d T pool k target).length = orderDraws pool.length := by
  induction target with
  | nil =>
    intro pool k hp
    have : pool = [] := List.nil_perm.1 hp
    subst this
    rfl
  | cons b target ih =>
    intro pool k hp
    have hb : b ∈ pool := hp.mem_iff.1 List.mem_cons_self
    have hi : pool.idxOf b < pool.length := List.idxOf_lt_length_iff.2 hb
    have hperm : (b :: swapRemove pool (pool.idxOf b)).Perm pool :=
      swapRemove_perm' (by rw [List.getElem?_eq_getElem hi, List.getElem_idxOf])
    have hp' : target.Perm (swapRemove pool (pool.idxOf b)) :=
      (List.perm_cons b).1 (hp.trans hperm.symm)
    have hl := hperm.length_eq
    rw [orderScript, List.length_cons, List.length_append, List.length_map, ih _ _ hp', ← hl, List.length_cons,
      orderDraws]
    omega

omit [FloatRoot F] in
/-- One draw after the other. -/
theorem Instance.script_length {n : Nat} (x y : F) {I : Instance} (hI : I.OK n) :
    (I.script n x y).length = drawsPerShot n := by
  rw [Instance.script, List.length_append, List.length_append, List.length_map, length_pairs,
    orderScript_length _ _ _ _ _ hI.order, List.length_range, orderDraws_eq]
  rfl

theorem Instance.script_weight [IsProbabilityMeasure ν] {n : Nat} (x y : F) {I : Instance} (hI : I.OK n) :
    (∀ d ∈ I.script n x y, d.OK) ∧
    ((I.script n x y).map (Draw.weight ν f)).prod = I.prob n (chance ν f x) (chance ν f y) := by
  obtain ⟨h1, h2⟩ := orderScript_weight ν f y (wanted I.order I.deps) I.order (List.range n) 0 hI.order
  have hl : I.order.length = n := by rw [hI.order.length_eq, List.length_range]
  constructor
  · intro d hd
    rcases List.mem_append.1 hd with hd | hd
    · obtain ⟨p, -, rfl⟩ := List.mem_map.1 hd
      trivial
    · rcases List.mem_append.1 hd with hd | hd
      · exact h1 d hd
      · rw [List.mem_singleton.1 hd]
        trivial
  · rw [Instance.script, List.map_append, List.prod_append, List.map_append, List.prod_append, h2, wanted_prod, hl,
      List.map_map, Instance.prob]
    congr 1
    · rw [← length_pairs]
      exact bernoulli_prod (chance ν f x) _ _
    · simp [Draw.weight, bernoulli]

/-- **C58** The shots are independent: the probability that they have given instances, in this order, is
the product of the probabilities. -/
theorem C58_shots [IsProbabilityMeasure ν] (hf : Fair ν f r) {edge correction : Density F} {n : Nat} (hn : n ≠ 0)
    {x y : F} (hx : edge.get n = .ok x) (hy : correction.get n = .ok y) (l : List Instance) (hl : ∀ I ∈ l, I.OK n)
    (g : Ω → Nat) :
    Measure.infinitePi (fun _ : Nat => ν)
      {ω | ∀ (i : Nat) I, l[i]? = some I →
        I.Drawn f r g edge correction n fun k => ω (k + i * drawsPerShot n)} =
      (l.map (Instance.prob n (chance ν f x) (chance ν f y))).prod := by
  have key : ∀ (l : List Instance) (ω : Nat → Ω), (∀ I ∈ l, I.OK n) →
      ((∀ (i : Nat) I, l[i]? = some I → I.Drawn f r g edge correction n fun k => ω (k + i * drawsPerShot n)) ↔
        Matches f r (l.flatMap (Instance.script n x y)) ω) := by
    intro l
    induction l with
    | nil => intro ω _; simp [Matches]
    | cons J l ih =>
      intro ω hl
      have hJ := hl J List.mem_cons_self
      rw [List.flatMap_cons, matches_append, ← Instance.drawn_iff hf.range hn hx hy hJ g,
        Instance.script_length x y hJ, ← ih _ fun I hI => hl I (List.mem_cons_of_mem _ hI)]
      constructor
      · intro h
        refine ⟨by simpa using h 0 J rfl, fun i I hI => ?_⟩
        have := h (i + 1) I hI
        convert this using 3
        ring
      · rintro ⟨h1, h2⟩ i I hI
        cases i with
        | zero =>
          simp only [List.getElem?_cons_zero, Option.some.injEq] at hI
          subst hI
          simpa using h1
        | succ i =>
          have := h2 i I hI
          convert this using 3
          ring
  have hset : {ω : Nat → Ω | ∀ (i : Nat) I, l[i]? = some I →
      I.Drawn f r g edge correction n fun k => ω (k + i * drawsPerShot n)} =
      {ω | Matches f r (l.flatMap (Instance.script n x y)) ω} := by
    ext ω
    exact key l ω hl
  rw [hset, hf.matches]
  · clear hset key
    induction l with
    | nil => simp
    | cons J l ih =>
      rw [List.flatMap_cons, List.map_append, List.prod_append, ih fun I hI => hl I (List.mem_cons_of_mem _ hI),
        (Instance.script_weight x y (hl J List.mem_cons_self)).2, List.map_cons, List.prod_cons]
  · intro d hd
    obtain ⟨I, hI, hd⟩ := List.mem_flatMap.1 hd
    exact (Instance.script_weight (ν := ν) (f := f) x y (hl I hI)).1 d hd

end

/-! ## The hypotheses can be met -/

/-- The path on three nodes, the order 2, 0, 1, and 1 depends on 2. -/
def toyInstance : Instance := ⟨[[1], [0, 2], [1]], [2, 0, 1], fun b c => b = 1 ∧ c = 2⟩

theorem toyInstance_ok : toyInstance.OK 3 :=
  ⟨simple_path, by decide, by rintro c d ⟨rfl, rfl⟩; exact ⟨0, 2, by decide, rfl, rfl⟩⟩

/-- Two shots with the same instance. -/
example (g : ℝ → Nat) : Measure.infinitePi (fun _ : Nat => unit)
      {ω | ∀ (i : Nat) I, [toyInstance, toyInstance][i]? = some I →
        I.Drawn id scaled g (.constant (1 / 2)) (.constant (1 / 2)) 3 fun k => ω (k + i * drawsPerShot 3)} =
      toyInstance.prob 3 (ENNReal.ofReal (1 / 2)) (ENNReal.ofReal (1 / 2)) ^ 2 := by
  have h : ∀ I ∈ [toyInstance, toyInstance], I.OK 3 := by
    intro I hI
    simp only [List.mem_cons, List.not_mem_nil, or_false, or_self] at hI
    rw [hI]
    exact toyInstance_ok
  have := C58_shots fair_unit (edge := .constant (1 / 2)) (correction := .constant (1 / 2)) (by decide : 3 ≠ 0)
    rfl rfl _ h g
  rw [chance_unit (by norm_num)] at this
  rw [this]
  simp [pow_two]

local instance toyArith : FloatRoot Nat where
  ofUsize := id
  lt a b := a < b
  geOne a := 100 ≤ a
  zero := 0
  sub a b := a - b
  mul a b := a * b
  div a b := a / b
  neg a := a
  fmax a b := max a b
  powi a _ := a
  exp a := a
  one := 100
  sqrt a := a
  le a b := a ≤ b

/-- Numbers below 100 and indices made of natural numbers. -/
def toyStream : Rand Nat (Nat → Nat) := streamRand (· % 100) (fun n x => x % n) id

/-- Two shots on three qubits that complete. -/
example : ∃ rows ω', doIt reference toyStream 3 (.constant 50) (.constant 50) 0 true
    [⟨toyEnv [], toyEnv (roundRobin 40 60), toyEnv (roundRobin 40 60)⟩,
      ⟨toyEnv [], toyEnv (roundRobin 40 60), toyEnv (roundRobin 40 60)⟩] (fun k => k * k * 37 + 5) =
    .ok (some (rows, ω')) := by
  have h : (match doIt reference toyStream 3 (.constant 50) (.constant 50) 0 true
    [⟨toyEnv [], toyEnv (roundRobin 40 60), toyEnv (roundRobin 40 60)⟩,
      ⟨toyEnv [], toyEnv (roundRobin 40 60), toyEnv (roundRobin 40 60)⟩] (fun k => k * k * 37 + 5) with
    | .ok (some _) => true
    | _ => false) = true := by decide +kernel
  revert h
  cases doIt reference toyStream 3 (.constant 50) (.constant 50) 0 true
    [⟨toyEnv [], toyEnv (roundRobin 40 60), toyEnv (roundRobin 40 60)⟩,
      ⟨toyEnv [], toyEnv (roundRobin 40 60), toyEnv (roundRobin 40 60)⟩] (fun k => k * k * 37 + 5) with
  | error e => simp
  | ok r =>
    cases r with
    | none => simp
    | some x => exact fun _ => ⟨x.1, x.2, rfl⟩

end Verif.Results
