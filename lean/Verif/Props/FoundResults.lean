import Verif.Props.Completes
import Verif.Props.TraceProps
/-!
# The approximate search contributes to the published data in every shot (C70)
-/

namespace Verif.Results

open Spec Search Example

/-- The instance of an outcome. -/
theorem Outcome.Of.instance {F σ τ : Type} [FloatRoot F] {rand : Rand F σ} (hr : rand.OK) {size : Nat}
    (hs : size < 2 ^ 64 - 1) {d d' : Density F} (hd : d.Defined size) (hd' : d'.Defined size)
    {induced : List (List Bool) → List Nat → OrderGraph}
    (hi : ∀ frames map, Causal size frames map →
      Induced (DependsOn frames map) (List.range size) (induced frames map)) {timeout : Nat} {getFull : Bool}
    {shot : Shot F τ} {s s' : σ} {o : Outcome} (h : Outcome.Of induced rand size d d' timeout getFull shot s o s') :
    o.problem.WF ∧ o.problem.n = size ∧ o.problem.bits.Perm (List.range size) := by
  obtain ⟨g, s1, G, s2, e1, e2, hwf, hbits, hlen⟩ := C46_instance rand hr hs hd hd' hi s
  obtain ⟨t1, t2, f1, f2, -⟩ := h.drawn
  rw [e1] at f1
  simp only [Except.ok.injEq, Prod.mk.injEq] at f1
  obtain ⟨hg, rfl⟩ := f1
  rw [e2] at f2
  simp only [Except.ok.injEq, Prod.mk.injEq] at f2
  obtain ⟨hG, -⟩ := f2
  have : o.problem = ⟨g, G⟩ := by
    cases hp : o.problem with
    | mk a b => rw [hp] at hg hG; rw [hg, hG]
  rw [this]
  exact ⟨hwf, hlen, hbits⟩

/-- The two rows of path `f` of the outcomes. -/
theorem zip_numbers {os : List Outcome} {f : Outcome → Option Path} {i j : Nat}
    (hi : ∀ o : Outcome, o.number i = (f o).map (·.time)) (hj : ∀ o : Outcome, o.number j = (f o).map (·.space))
    {R : Outcome → Nat × Nat → Prop} (h : ∀ o ∈ os, ∃ p, f o = some p ∧ R o (p.time, p.space)) :
    List.Forall₂ R os ((os.filterMap (·.number i)).zip (os.filterMap (·.number j))) ∧
    (os.filterMap (·.number i)).length = os.length ∧ (os.filterMap (·.number j)).length = os.length := by
  induction os with
  | nil => exact ⟨.nil, rfl, rfl⟩
  | cons o os ih =>
    obtain ⟨p, h1, h2⟩ := h o List.mem_cons_self
    obtain ⟨k1, k2, k3⟩ := ih fun o ho => h o (List.mem_cons_of_mem _ ho)
    have e1 : o.number i = some p.time := by rw [hi, h1]; rfl
    have e2 : o.number j = some p.space := by rw [hj, h1]; rfl
    rw [List.filterMap_cons_some (f := fun o : Outcome => o.number i) e1, List.filterMap_cons_some (f := fun o : Outcome => o.number j) e2]
    exact ⟨.cons h2 k1, by simp [k2], by simp [k3]⟩

/-- **C70** The data of one point, with `f64` and at most 1001 qubits: every shot contributes to the rows 2 and 3 as well, a
schedule of the same instance, which takes at least as long as the time-optimal one. So the four rows have one number per
shot, whatever the timeout, the random numbers and the interleavings are. -/
theorem C70_do_it {σ τ : Type} {rand : Rand F64 σ} (hr : rand.OK) {size : Nat} (h0 : size ≠ 0) (hs : size ≤ 1001)
    {d d' : Density F64} (hd : d.Defined size) (hd' : d'.Defined size)
    {induced : List (List Bool) → List Nat → OrderGraph}
    (hi : ∀ frames map, Causal size frames map →
      Induced (DependsOn frames map) (List.range size) (induced frames map))
    {timeout : Nat} {getFull : Bool} {shots : List (Shot F64 τ)}
    (hok : ∀ shot ∈ shots, shot.timeOptimal.OK ∧ shot.approx.OK ∧ shot.full.OK) {s s' : σ} {rows : List (List Nat)}
    (h : doIt induced rand size d d' timeout getFull shots s = .ok (some (rows, s'))) :
    (∀ j, j < 4 → (rows.getD j []).length = shots.length) ∧
    List.Forall₂ (· ≤ ·) (rows.getD 0 []) (rows.getD 2 []) ∧
    ∃ Ps : List Problem, Ps.length = shots.length ∧
      (∀ P ∈ Ps, P.WF ∧ P.n = size ∧ P.bits.Perm (List.range size)) ∧
      List.Forall₂ (fun P x => Achievable P x.1 x.2 ∧ ∀ t m, Achievable P t m → x.1 ≤ t) Ps
        ((rows.getD 0 []).zip (rows.getD 1 [])) ∧
      List.Forall₂ (fun P x => Achievable P x.1 x.2) Ps ((rows.getD 2 []).zip (rows.getD 3 [])) := by
  obtain ⟨os, hos, rfl⟩ := C57_shots h
  have hrow : ∀ j, j < 4 → ((List.range (if getFull then 8 else 4)).map fun j => os.filterMap (·.number j)).getD j [] =
      os.filterMap (·.number j) := by
    intro j hj
    have : j < if getFull then 8 else 4 := by split <;> omega
    simp [List.getD_eq_getElem?_getD, List.getElem?_range this]
  have key : ∀ (shots : List (Shot F64 τ)) (s s' : σ) (os : List Outcome),
      (∀ shot ∈ shots, shot.timeOptimal.OK ∧ shot.approx.OK ∧ shot.full.OK) →
      Outcomes induced rand size d d' timeout getFull shots s os s' →
      os.length = shots.length ∧ ∀ o ∈ os, (o.problem.WF ∧ o.problem.n = size ∧ o.problem.bits.Perm (List.range size)) ∧
        (∃ p, o.timeOptimal.head? = some p ∧ Achievable o.problem p.time p.space ∧
          ∀ t m, Achievable o.problem t m → p.time ≤ t) ∧
        ∃ p, o.approx.getLast? = some p ∧ Achievable o.problem p.time p.space := by
    intro shots
    induction shots with
    | nil => intro s s' os _ h; cases h; exact ⟨rfl, by simp⟩
    | cons shot shots ih =>
      intro s s' os hok h
      cases h with
      | @cons _ _ _ s1 _ o os ho hrest =>
        obtain ⟨k1, k2⟩ := ih _ _ _ (fun x hx => hok x (List.mem_cons_of_mem _ hx)) hrest
        refine ⟨by simp [k1], ?_⟩
        intro o' ho'
        rcases List.mem_cons.1 ho' with rfl | ho'
        · obtain ⟨-, h2, -⟩ := hok shot List.mem_cons_self
          have hP := ho.instance hr (by omega) hd hd' hi
          have hbl : o'.problem.bits.length = size := by rw [hP.2.2.length_eq]; simp
          obtain ⟨p, e, hv, ht, hsp, hmin⟩ := C05_time_optimal hP.1 rfl ho.timeOptimal
          refine ⟨hP, ⟨p, by rw [e]; rfl, ⟨p.steps, hv, ht.symm, hsp.symm⟩, ?_⟩, ?_⟩
          · rintro t m ⟨S, q1, rfl, rfl⟩; exact hmin S q1
          · have hne := C70_builtin F64.laws hP.1 (by rw [hP.2.1]; omega)
              (by intro hb; rw [hb] at hbl; exact h0 hbl.symm)
              ⟨p.steps, hv, by have := hv.length_le hP.1; rw [hP.2.1] at this; omega⟩ h2 rfl (by simp) rfl ho.approx
            have hlast := List.getLast?_eq_some_getLast hne
            exact ⟨_, hlast, path_achievable hP.1 h2 ho.approx (List.mem_of_getLast? hlast)⟩
        · exact k2 o' ho'
  obtain ⟨hlen, hall⟩ := key shots s s' os hok hos
  obtain ⟨a1, a2, a3⟩ := zip_numbers (os := os) (f := fun o => o.timeOptimal.head?) (i := 0) (j := 1)
    (R := fun o x => Achievable o.problem x.1 x.2 ∧ ∀ t m, Achievable o.problem t m → x.1 ≤ t)
    (fun _ => rfl) (fun _ => rfl) fun o ho => (hall o ho).2.1
  obtain ⟨b1, b2, b3⟩ := zip_numbers (os := os) (f := fun o => o.approx.getLast?) (i := 2) (j := 3)
    (R := fun o x => Achievable o.problem x.1 x.2)
    (fun _ => rfl) (fun _ => rfl) fun o ho => (hall o ho).2.2
  rw [hrow 0 (by omega), hrow 1 (by omega), hrow 2 (by omega), hrow 3 (by omega)]
  refine ⟨?_, ?_, os.map (·.problem), by rw [List.length_map, hlen], ?_, ?_, ?_⟩
  · intro j hj
    rw [hrow j hj, ← hlen]
    have : j = 0 ∨ j = 1 ∨ j = 2 ∨ j = 3 := by omega
    rcases this with rfl | rfl | rfl | rfl <;> assumption
  · clear hrow hos hlen a1 a2 a3 b1 b2 b3 h
    induction os with
    | nil => exact .nil
    | cons o os ih =>
      obtain ⟨-, ⟨p, p1, p2, p3⟩, q, q1, q2⟩ := hall o List.mem_cons_self
      have e1 : o.number 0 = some p.time := by simp [Outcome.number, p1]
      have e2 : o.number 2 = some q.time := by simp [Outcome.number, q1]
      rw [List.filterMap_cons_some (f := fun o : Outcome => o.number 0) e1, List.filterMap_cons_some (f := fun o : Outcome => o.number 2) e2]
      exact .cons (p3 _ _ q2) (ih fun o ho => hall o (List.mem_cons_of_mem _ ho))
  · intro P hP
    obtain ⟨o, ho, rfl⟩ := List.mem_map.1 hP
    exact (hall o ho).1
  · exact List.forall₂_map_left_iff.2 a1
  · exact List.forall₂_map_left_iff.2 b1

/-- **C70** So the script for the images never fails for lack of numbers: run the sweep over the densities as in
`C69_densities`, with at least one shot per point. Then every pixel is the mean of its numbers, one per shot, and the
colours cover exactly their range. -/
theorem C70_images {σ τ : Type} (rand : Rand F64 σ) (hr : rand.OK)
    {induced : List (List Bool) → List Nat → OrderGraph}
    (hi : ∀ size frames map, Causal size frames map →
      Induced (DependsOn frames map) (List.range size) (induced frames map))
    (sweep : Nat) (shots : Nat → Nat → List (Shot F64 τ))
    (hs : ∀ e k, ∀ shot ∈ shots e k, shot.timeOptimal.OK ∧ shot.approx.OK ∧ shot.full.OK)
    (hne : ∀ e k, shots e k ≠ [])
    (hb : ∀ e k, (shots e k).length * 20 ^ 2 ≤ 2 ^ 53) (s : Nat → σ) (rows : Nat → List (List F64))
    (hrun : ∀ e, 1 ≤ e → e ≤ 21 → densityRun induced rand 20 (FloatOps.ofUsize e) (DensitySweep.timeouts sweep)
      (shots e) (s e) = .ok (some (rows e))) :
    ∃ (g : Nat → Nat → List (List Nat)) (st : Nat → Nat → σ) (vmin vmax : ℝ),
      (∀ e k : Nat, 1 ≤ e → e ≤ 21 → 1 ≤ k → k ≤ 21 →
        doIt induced rand 20 (.constant (.fin (rnd ((e : ℝ) / 22)))) (.constant (.fin (rnd ((k : ℝ) / 22))))
          ((DensitySweep.timeouts sweep).getD k 0) false (shots e k) (st e k) = .ok (some (g e k, st e (k + 1))) ∧
        ∀ i, i < 4 → ((g e k).getD i []).length = (shots e k).length) ∧
      Plot.densities (fun a b : ℝ => ltb a b) 20 0 ((List.range' 1 21).map fun e => (rows e).map (·.map jsonNumber)) =
        .ok ((List.range 4).map (fun i => (List.range' 1 21).map fun e => (List.range' 1 21).map fun k =>
          some (rnd ((((g e k).getD i []).sum : ℝ) / ((g e k).getD i []).length))), vmin, vmax) ∧
      (∀ e k i, 1 ≤ e → e ≤ 21 → 1 ≤ k → k ≤ 21 → i < 4 →
        vmin ≤ rnd ((((g e k).getD i []).sum : ℝ) / ((g e k).getD i []).length) ∧
        rnd ((((g e k).getD i []).sum : ℝ) / ((g e k).getD i []).length) ≤ vmax) ∧ 0 ≤ vmin ∧ vmax ≤ 20 := by
  obtain ⟨g, st, h1, -, h3⟩ := C69_densities rand hr hi sweep shots hs hb s rows hrun
  have hlen : ∀ e k, 1 ≤ e → e ≤ 21 → 1 ≤ k → k ≤ 21 → ∀ i, i < 4 →
      ((g e k).2.getD i []).length = (shots e k).length := fun e k e1 e2 k1 k2 =>
    (C70_do_it hr (by omega) (by omega) (d := .constant _) (d' := .constant _) trivial trivial (hi 20) (hs e k)
      (h1 e k e1 e2 k1 k2).1).1
  obtain ⟨vmin, vmax, k1, k2, -, -, k5, k6⟩ := h3 (by
    intro e k i e1 e2 k1 k2 hi4 hnil
    have := hlen e k e1 e2 k1 k2 i hi4
    rw [hnil] at this
    exact hne e k (List.length_eq_zero_iff.1 this.symm))
  exact ⟨fun e k => (g e k).2, st, vmin, vmax, fun e k e1 e2 m1 m2 => ⟨(h1 e k e1 e2 m1 m2).1, hlen e k e1 e2 m1 m2⟩,
    k1, k2, k5, k6⟩

/-- **C70** The file of the sweep over the number of qubits contains numbers only, no NaN: with at least one shot per size,
all means and deviations of all 16 rows are between 0 and 45, and in every column the mean time of the approximate search
(row 4) is at least that of the time-optimal one (row 0). -/
theorem C70_node {σ τ : Type} (rand : Rand F64 σ) (hr : rand.OK)
    {induced : List (List Bool) → List Nat → OrderGraph}
    (hi : ∀ size frames map, Causal size frames map →
      Induced (DependsOn frames map) (List.range size) (induced frames map))
    {eTy cTy : String} {e c : F64} {edge correction : Density F64} (he : newDensity eTy e = .ok edge)
    (hc : newDensity cTy c = .ok correction) {timeouts : List Nat} (ht : timeouts.length = 46)
    (shots : Nat → List (Shot F64 τ))
    (hs : ∀ size, ∀ shot ∈ shots size, shot.timeOptimal.OK ∧ shot.approx.OK ∧ shot.full.OK)
    (hne : ∀ size, shots size ≠ []) (hb : ∀ size, (shots size).length * 45 ^ 2 ≤ 2 ^ 53) (s : σ)
    {rows : List (List F64)} (hrun : nodeRun induced rand e eTy c cTy timeouts shots s = .ok (some rows)) :
    (∀ j, j < 16 → (rows.getD j []).length = (if j < 8 then 44 else 19) ∧
      ∀ x ∈ rows.getD j [], ∃ r : ℝ, x = .fin r ∧ 0 ≤ r ∧ r ≤ 45) ∧
    ∀ k, k < 44 → ∃ a b : ℝ, (rows.getD 0 [])[k]? = some (.fin a) ∧ (rows.getD 4 [])[k]? = some (.fin b) ∧ a ≤ b := by
  obtain ⟨r, er, h⟩ := C57_node rand hr hi he hc ht shots hs s
  rw [hrun] at er
  injection er with er
  obtain ⟨-, g, st, -, h1, h2⟩ := h rows er.symm
  have hdo : ∀ size, 2 ≤ size → size ≤ 45 → _ := fun size a b =>
    C70_do_it hr (by omega) (by omega) (newDensity_defined he (by omega)) (newDensity_defined hc (by omega)) (hi size)
      (hs size) (h1 size a b).1
  have hlen : ∀ size i, 2 ≤ size → size ≤ 45 → (i < 4 ∨ (i < 8 ∧ size ≤ 20)) →
      ((g size).2.getD i []).length = (shots size).length := by
    intro size i a b hcase
    by_cases h4 : i < 4
    · exact (hdo size a b).1 i h4
    · exact ((h1 size a b).2.row_length (by omega) i).2 (Or.inr ⟨by omega, by omega, by simp; omega⟩)
  have cell : ∀ size i, 2 ≤ size → size ≤ 45 → (i < 4 ∨ (i < 8 ∧ size ≤ 20)) →
      (g size).2.getD i [] ≠ [] ∧ ((g size).2.getD i []).sum ≤ 2 ^ 53 ∧ ((g size).2.getD i []).length ≤ 2 ^ 53 ∧
      ∃ m d : ℝ, (statistics ((g size).2.getD i []) : F64 × F64) = (.fin m, .fin d) ∧ 0 ≤ m ∧ m ≤ 45 ∧ 0 ≤ d ∧ d ≤ 45 := by
    intro size i a b hcase
    have hl := hlen size i a b hcase
    have hnil : (g size).2.getD i [] ≠ [] := by
      intro hn
      rw [hn] at hl
      exact hne size (List.length_eq_zero_iff.1 hl.symm)
    have hbd : ∀ x ∈ (g size).2.getD i [], x ≤ 45 := fun x hx =>
      le_trans ((h1 size a b).2.collected.bounded i x hx) b
    have hB := hb size
    rw [← hl] at hB
    obtain ⟨m, d, e1, -, e3, e4, e5, e6, -⟩ := C57_statistics hnil (lo := 0) (hi := 45)
      (fun x hx => ⟨Nat.zero_le _, hbd x hx⟩) (by omega) hB
    have hsum := sum_le_mul hbd
    exact ⟨hnil, by omega, by omega, m, d, e1, by simpa using e3, by simpa using e4, e5, by simpa using e6⟩
  have hmem : ∀ i, i < 8 → ∀ size ∈ List.range' 2 (if i < 4 then 44 else 19), 2 ≤ size ∧ size ≤ 45 ∧
      (i < 4 ∨ (i < 8 ∧ size ≤ 20)) := by
    intro i hi8 size hsz
    rw [List.mem_range'_1] at hsz
    split at hsz <;> omega
  refine ⟨?_, ?_⟩
  · intro j hj
    obtain ⟨i, hji⟩ : ∃ i, j = 2 * i ∨ j = 2 * i + 1 := ⟨j / 2, by omega⟩
    have hi8 : i < 8 := by omega
    obtain ⟨r1, r2⟩ := h2 i hi8
    have hlt : (j < 8) = (i < 4) := by apply propext; omega
    simp only [hlt]
    rcases hji with rfl | rfl
    · rw [r1]
      refine ⟨by simp, fun x hx => ?_⟩
      obtain ⟨size, hsz, rfl⟩ := List.mem_map.1 hx
      obtain ⟨q1, q2, q3⟩ := hmem i hi8 size hsz
      obtain ⟨-, -, -, m, d, e1, e2, e3, -, -⟩ := cell size i q1 q2 q3
      exact ⟨m, by rw [e1], e2, e3⟩
    · rw [r2]
      refine ⟨by simp, fun x hx => ?_⟩
      obtain ⟨size, hsz, rfl⟩ := List.mem_map.1 hx
      obtain ⟨q1, q2, q3⟩ := hmem i hi8 size hsz
      obtain ⟨-, -, -, m, d, e1, -, -, e2, e3⟩ := cell size i q1 q2 q3
      exact ⟨d, by rw [e1], e2, e3⟩
  · intro k hk
    have get : ∀ i, i < 4 → (rows.getD (2 * i) [])[k]? = some (statistics ((g (k + 2)).2.getD i []) : F64 × F64).1 := by
      intro i hi4
      rw [(h2 i (by omega)).1, if_pos hi4, List.getElem?_map, List.getElem?_range' hk, Option.map_some]
      congr 3
      rw [Nat.one_mul, Nat.add_comm]
    obtain ⟨n0, s0, l0, -⟩ := cell (k + 2) 0 (by omega) (by omega) (by omega)
    obtain ⟨n2, s2, l2, -⟩ := cell (k + 2) 2 (by omega) (by omega) (by omega)
    refine ⟨_, _, by rw [get 0 (by omega), statistics_fst n0 s0 l0], by rw [get 2 (by omega), statistics_fst n2 s2 l2], ?_⟩
    exact rnd_mono (mean_mono (hdo (k + 2) (by omega) (by omega)).2.1)

/-- The hypotheses of `C70_node`, with 3000 shots per size: there is a complete run. Those of `C70_images` are in
Props/Completes.lean. -/
example : ∃ (shots : Nat → List (Shot F64 Unit)) (rows : List (List F64)), halfRand.OK ∧
    (∀ size, (shots size).length = 3000) ∧ (∀ size, (shots size).length * 45 ^ 2 ≤ 2 ^ 53) ∧
    (∀ size, ∀ shot ∈ shots size, shot.timeOptimal.OK ∧ shot.approx.OK ∧ shot.full.OK) ∧
    newDensity "constant" (F64.fin (1 / 2)) = .ok (.constant (.fin (1 / 2))) ∧
    nodeRun reference halfRand (.fin (1 / 2)) "constant" (.fin (1 / 2)) "constant"
      (NodeSweep.timeouts NodeSweep.realSweep NodeSweep.maxSize) shots () = .ok (some rows) := by
  obtain ⟨N, hN⟩ := C57_node_completes
  have hr : halfRand.OK := fun n s h => h
  have hd : newDensity "constant" (F64.fin (1 / 2)) = .ok (.constant (.fin (1 / 2))) := by
    simp only [newDensity, newFactor_f64 (x := 1 / 2) (by norm_num) (by norm_num), bind, Except.bind, pure, Except.pure]
  have ok : ∀ size, ∀ shot ∈ List.replicate 3000 (⟨halfEnv N size, halfEnv N size, halfEnv N size⟩ : Shot F64 Unit),
      (shot.timeOptimal.OK ∧ shot.approx.OK ∧ shot.full.OK) ∧ shot.Enough N size := by
    intro size shot h
    rw [List.eq_of_mem_replicate h]
    exact ⟨⟨fun m => .refl m, fun m => .refl m, fun m => .refl m⟩,
      halfEnv_enough N size, halfEnv_enough N size, halfEnv_enough N size⟩
  obtain ⟨rows, h⟩ := hN halfRand hr (induced := reference) (fun _ _ _ h => C46_induced_exists h) hd hd
    (timeouts := NodeSweep.timeouts NodeSweep.realSweep NodeSweep.maxSize)
    (by simp [NodeSweep.timeouts, NodeSweep.maxSize])
    (fun size => List.replicate 3000 ⟨halfEnv N size, halfEnv N size, halfEnv N size⟩)
    (fun size shot h => (ok size shot h).1) (fun size shot h => (ok size shot h).2) ()
  exact ⟨_, rows, hr, fun _ => List.length_replicate, fun _ => by simp only [List.length_replicate]; norm_num,
    fun size shot h => (ok size shot h).1, hd, h⟩

end Verif.Results
