import Verif.Proofs.ParamAnswer
import Verif.Props.LuckyProps
import Verif.Props.FoundProps
/-!
# Which parametrised accept functions find a path (C77)
-/

namespace Verif

open Spec Search Example

variable {σ : Type} {M : Libm}

/-- A finite cutoff of at most 2⁶³, and exponents of the exponential function like those of the built-in one: the
number of all nodes and of the blocked ones together not more than three times the distance. -/
structure Moderate (param : HeavysideParameters (Double M)) : Prop where
  cutoff : ∃ c : ℝ, param.cutoff.val c ∧ c ≤ 2 ^ 63
  total : 0 ≤ param.expNumTotalNodesExp
  remaining : 1 ≤ param.expNumRemainingNodesExp
  diff : param.expNumTotalNodesExp + param.expNumRemainingNodesExp ≤ 3 * param.expDiffExp
  diff_le : param.expDiffExp ≤ 3
  measured : 0 ≤ param.expNumMeasuredNodesExp
  measured_le : param.expNumMeasuredNodesExp ≤ 2

/-- The parameters of the built-in function. -/
theorem moderate_builtin (lin : Int) : Moderate (⟨FloatArith.zero, lin, 1, 1, 3, 1⟩ : HeavysideParameters (Double M)) :=
  ⟨⟨0, (Double.laws M).zero, by norm_num⟩, by norm_num, by norm_num, by norm_num, by norm_num, by norm_num, by norm_num⟩

/-- **C33** For all of `f64`: with these parameters it is the built-in function. -/
theorem C33_binary64 : (AcceptFunc.parametrizedHeavyside ⟨FloatArith.zero, 2, 1, 1, 3, 1⟩ : AcceptFunc (Double M)).getAcceptFunc =
    (AcceptFunc.default : AcceptFunc (Double M)).getAcceptFunc := C33_same M.powi_first

section
variable {P : Problem} {param : HeavysideParameters (Double M)}

theorem asked_unknown {p : Schedule} {m : List Nat} {q : Query} (hq : Asked P [] p m q) (accept : Accept (Double M)) :
    q.lastMax ≤ P.n ∧ q.cur ≤ P.n ∧ q.ask accept = accept (FloatOps.ofUsize q.bound) (FloatOps.ofUsize usizeMax)
      (FloatOps.ofUsize q.lastMax) (FloatOps.ofUsize q.lastCur) (FloatOps.ofUsize q.cur) (FloatOps.ofUsize q.remaining)
      (FloatOps.ofUsize P.n) := by
  have h1 : q.minimal = usizeMax := by
    rcases hq.minimal.mem with h | ⟨t', S, _, h⟩
    · exact h.1
    · cases h
  refine ⟨by rw [hq.lastMax]; exact peak_le_n _ _, by rw [hq.cur]; exact held_le _ _, ?_⟩
  unfold Query.ask
  rw [h1, hq.total]

/-- **C77** With moderate parameters and an exponent from 1 to 12 in front, the answer to every question is at least
1 as long as no path is recorded (at most 2²⁰ nodes). -/
theorem C77_unknown (hP : P.WF) (hn : P.n ≤ 2 ^ 20) (hm : Moderate param) (l1 : 1 ≤ param.linNumTotalNodesExp)
    (l2 : param.linNumTotalNodesExp ≤ 12) {p : Schedule} {m : List Nat} {q : Query} (hq : Asked P [] p m q) :
    FloatOps.geOne (q.ask (AcceptFunc.parametrizedHeavyside param).getAcceptFunc) = true := by
  obtain ⟨h1, h2, h3⟩ := asked_unknown hq (AcceptFunc.parametrizedHeavyside param).getAcceptFunc
  obtain ⟨c, c1, c2⟩ := hm.cutoff
  obtain ⟨hm1, hm2, hm3, hm4, hm5, hm6⟩ := (⟨hm.total, hm.remaining, hm.diff, hm.diff_le, hm.measured, hm.measured_le⟩ : _ ∧ _ ∧ _ ∧ _ ∧ _ ∧ _)
  rw [h3]
  obtain ⟨a, ha⟩ := Int.eq_ofNat_of_zero_le hm1
  obtain ⟨b, hb⟩ := Int.eq_ofNat_of_zero_le (by omega : 0 ≤ param.expNumRemainingNodesExp)
  obtain ⟨e, he⟩ := Int.eq_ofNat_of_zero_le (by omega : 0 ≤ param.expDiffExp)
  obtain ⟨d, hd⟩ := Int.eq_ofNat_of_zero_le hm5
  obtain ⟨k, hk⟩ := Int.eq_ofNat_of_zero_le (by omega : 0 ≤ param.linNumTotalNodesExp)
  exact (Double.param_unknown (FloatOps.ofUsize q.bound) (FloatOps.ofUsize q.lastCur) c1 c2 hn h1 h2 (hq.remaining_lt hP)
    ha hb he hd (by omega) (by omega) (by omega) (by omega)).1 k hk (by omega) (by omega)

/-- **C77** So an uninterrupted single-threaded search returns at least one path, whatever the random numbers are. -/
theorem C77_finds (hP : P.WF) (hn : P.n ≤ 2 ^ 20) (hb : P.bits ≠ []) (hm : Moderate param)
    (l1 : 1 ≤ param.linNumTotalNodesExp) (l2 : param.linNumTotalNodesExp ≤ 12) {env : Env (Double M) σ} (he : env.OK)
    {args : Args (Double M)} {seed : Option Nat} (hs : args.doSearch = true) (ht : args.nthreads < 2)
    (htimer : args.timeout = none ∨ ∀ k, env.timer k = false)
    (hp : args.probabilistic = some ((AcceptFunc.parametrizedHeavyside param).getAcceptFunc, seed)) {out : List Path}
    (h : run env P.graph P.order args = .ok (some out)) : out ≠ [] := by
  rw [run, hs, Bool.not_true, if_neg (by simp), Verif.search.eq_def, if_pos ht, hp] at h
  refine searchProb_finds _ _ hP hb (fun p m q hq => C77_unknown hP hn hm l1 l2 hq) he ?_ h
  intro j
  rcases htimer with h | h <;> simp [h]

/-- **C77** And a multi-threaded one, with a timeout or without, if there is a schedule with at most 1001 steps. -/
theorem C77_threads (hP : P.WF) (hn : P.n ≤ 2 ^ 20) (hb : P.bits ≠ []) (hS : ∃ S, P.Valid S ∧ S.length ≤ 1001)
    (hm : Moderate param) (l1 : 1 ≤ param.linNumTotalNodesExp) (l2 : param.linNumTotalNodesExp ≤ 12)
    {env : Env (Double M) σ} (he : env.OK) {args : Args (Double M)} {seed : Option Nat} (hs : args.doSearch = true)
    (ht : 2 ≤ args.nthreads)
    (hp : args.probabilistic = some ((AcceptFunc.parametrizedHeavyside param).getAcceptFunc, seed)) {out : List Path}
    (h : run env P.graph P.order args = .ok (some out)) : out ≠ [] := by
  refine C70_finds hP hb he hs ht (Or.inl hS) ?_ h
  intro accept seed' ha p m q hq
  rw [hp] at ha
  simp only [Option.some.injEq, Prod.mk.injEq] at ha
  rw [← ha.1]
  exact C77_unknown hP hn hm l1 l2 hq

/-- A search with a parametrised function. -/
noncomputable def paramArgs (param : HeavysideParameters (Double M)) : Args (Double M) where
  doSearch := true
  probabilistic := some ((AcceptFunc.parametrizedHeavyside param).getAcceptFunc, none)

/-- The hypotheses are met on the star; the search ends. -/
example : ∃ out, run luckyEnv star.graph star.order (paramArgs ⟨FloatArith.zero, 1, 1, 1, 3, 1⟩) = .ok (some out) ∧
    out ≠ [] := by
  obtain ⟨out, h, _⟩ := searchProb_spec
    (AcceptFunc.parametrizedHeavyside (⟨FloatArith.zero, 1, 1, 1, 3, 1⟩ : HeavysideParameters (Double Libm.exact))).getAcceptFunc
    luckyEnv.gen () star_wf fun _ => false
  have h' : run luckyEnv star.graph star.order (paramArgs ⟨FloatArith.zero, 1, 1, 1, 3, 1⟩) = .ok (some out) :=
    h .release id (searchBound 49) (fun _ => List.Perm.refl _) (by decide +kernel)
  exact ⟨out, h', C77_finds star_wf (by decide) (by decide) (moderate_builtin 1) (by decide) (by decide) luckyEnv_ok rfl
    (by decide) (Or.inl rfl) rfl h'⟩

/-! ## Other parameters -/

/-- A search in which every answer on the way is too small returns nothing. -/
theorem run_closed (hP : P.WF) {accept : Accept (Double M)} {env : Env (Double M) σ} (he : env.OK)
    {X : Schedule → Prop} (h0 : X []) (hX : ∀ p m q rng, X p → Asked P [] p m q → Takes accept env.gen rng q → X (p ++ [m]))
    (hno : ∀ S, S ≠ [] → P.Valid S → ¬ X S) {args : Args (Double M)} {seed : Option Nat} (hs : args.doSearch = true)
    (ht : args.nthreads < 2) (hp : args.probabilistic = some (accept, seed)) {out : List Path}
    (h : run env P.graph P.order args = .ok (some out)) : out = [] := by
  rw [run, hs, Bool.not_true, if_neg (by simp), Verif.search.eq_def, if_pos ht, hp] at h
  exact searchProb_closed _ hP h0 hX hno he h

theorem not_takes {accept : Accept (Double M)} {gen : Rng (Double M) σ} {s : σ} {q : Query} {r x : ℝ}
    (h : Double.val (q.ask accept) r) (hr : r < 1) (hx : Double.val (gen.sample s).1 x) (hrx : r ≤ x) :
    ¬ Takes accept gen s q := by
  rintro (h' | h')
  · have := ((Double.laws M).geOne h).1 h'
    linarith
  · have := ((Double.laws M).lt hx h).1 h'
    linarith

/-- **C77** FALSE: that every parametrised function finds a path. With a cutoff above 2⁶⁵ nothing is accepted and the
search returns nothing, for all exponents, all random numbers and every timeout. -/
theorem C77_cutoff_refuted (hP : P.WF) (hn : P.n ≤ 2 ^ 53) {c : ℝ} (hc : param.cutoff.val c) (hc' : 2 ^ 65 < c)
    {env : Env (Double M) σ} (he : env.OK) (hz : ∀ s, ∃ r : ℝ, 0 ≤ r ∧ Double.val (env.gen.sample s).1 r)
    {args : Args (Double M)} {seed : Option Nat} (hs : args.doSearch = true) (ht : args.nthreads < 2)
    (hp : args.probabilistic = some ((AcceptFunc.parametrizedHeavyside param).getAcceptFunc, seed)) {out : List Path}
    (h : run env P.graph P.order args = .ok (some out)) : out = [] := by
  refine run_closed hP he (X := fun p => p = []) rfl ?_ (fun S h1 _ h2 => h1 h2) hs ht hp h
  rintro p m q s rfl hq htake
  obtain ⟨x, x1, x2⟩ := hz s
  obtain ⟨h1, h2, h3⟩ := asked_unknown hq (AcceptFunc.parametrizedHeavyside param).getAcceptFunc
  refine (not_takes (r := 0) ?_ (by norm_num) x2 x1 htake).elim
  rw [h3]
  exact Double.param_cutoff (FloatOps.ofUsize q.bound) (FloatOps.ofUsize q.lastCur) hc hc' hn h1 h2 _ _

/-- **C77** Nor with a negative exponent of the number of blocked bits: the last step of a path is answered with
0 · … · exp(-∞) = 0, so no path is ever completed. -/
theorem C77_remaining_refuted (hP : P.WF) (hn : P.n ≤ 2 ^ 20) {c : ℝ} (hc : param.cutoff.val c) (hc' : c ≤ 2 ^ 63)
    (l : |param.linNumTotalNodesExp| ≤ 12) (a0 : 0 ≤ param.expNumTotalNodesExp) (a1 : param.expNumTotalNodesExp ≤ 12)
    (hb : param.expNumRemainingNodesExp < 0) (e0 : 0 ≤ param.expDiffExp) (e1 : param.expDiffExp ≤ 3)
    (d0 : 0 ≤ param.expNumMeasuredNodesExp) (d1 : param.expNumMeasuredNodesExp ≤ 12)
    {env : Env (Double M) σ} (he : env.OK) (hz : ∀ s, ∃ r : ℝ, 0 ≤ r ∧ Double.val (env.gen.sample s).1 r)
    {args : Args (Double M)} {seed : Option Nat} (hs : args.doSearch = true) (ht : args.nthreads < 2)
    (hp : args.probabilistic = some ((AcceptFunc.parametrizedHeavyside param).getAcceptFunc, seed)) {out : List Path}
    (h : run env P.graph P.order args = .ok (some out)) : out = [] := by
  refine run_closed hP he (X := fun p => p = [] ∨ P.blocked p ≠ 0) (Or.inl rfl) ?_ ?_ hs ht hp h
  · intro p m q s _ hq htake
    right
    intro h0
    obtain ⟨x, x1, x2⟩ := hz s
    obtain ⟨h1, h2, h3⟩ := asked_unknown hq (AcceptFunc.parametrizedHeavyside param).getAcceptFunc
    refine not_takes (r := 0) ?_ (by norm_num) x2 x1 htake
    obtain ⟨a, ha⟩ := Int.eq_ofNat_of_zero_le a0
    obtain ⟨e, he⟩ := Int.eq_ofNat_of_zero_le e0
    obtain ⟨d, hd⟩ := Int.eq_ofNat_of_zero_le d0
    have := hq.remaining_lt hP
    rw [h3, hq.remaining, h0]
    exact Double.param_remaining (FloatOps.ofUsize q.bound) (FloatOps.ofUsize q.lastCur) hc hc' (by omega) hn h1 h2 ha hb he hd (by omega) (by omega) (by omega) l
  · rintro S h1 hv (h2 | h2)
    · exact h1 h2
    · apply h2
      rw [Problem.blocked, List.length_eq_zero_iff, List.filter_eq_nil_iff]
      intro e he' hany
      obtain ⟨d, hd, hd'⟩ := List.any_eq_true.1 hany
      have hmem : e.1 ∈ S.flatten := hv.perm.mem_iff.2 (List.mem_map_of_mem he')
      obtain ⟨s, hs', hes⟩ := List.mem_flatten.1 hmem
      obtain ⟨i, hi, rfl⟩ := List.mem_iff_getElem.1 hs'
      obtain ⟨j, s', _, hs'', hdm⟩ := hv.deps i _ (List.getElem?_eq_getElem hi) e.1 hes d ⟨e.2, he', hd⟩
      rw [Bool.not_eq_true', ← Bool.not_eq_true, List.contains_iff_mem] at hd'
      exact hd' (List.mem_flatten.2 ⟨s', List.mem_of_getElem? hs'', hdm⟩)

/-- **C77** Nor with a negative exponent of the distance, if some qubit needs another one that needs a third one:
every first step leaves a blocked bit and its answer underflows to 0. -/
theorem C77_diff_refuted (hP : P.WF) (hn : P.n ≤ 2 ^ 20) (hdeep : ∃ b d d', P.Needs b d ∧ P.Needs d d') {c : ℝ}
    (hc : param.cutoff.val c) (hc' : c ≤ 2 ^ 63) (l : |param.linNumTotalNodesExp| ≤ 12)
    (a0 : 0 ≤ param.expNumTotalNodesExp) (b0 : 0 ≤ param.expNumRemainingNodesExp)
    (ab : param.expNumTotalNodesExp + param.expNumRemainingNodesExp ≤ 3)
    (e0 : param.expDiffExp = -1 ∨ param.expDiffExp = -2)
    (d0 : 0 ≤ param.expNumMeasuredNodesExp) (d1 : param.expNumMeasuredNodesExp ≤ 2)
    {env : Env (Double M) σ} (he : env.OK) (hz : ∀ s, ∃ r : ℝ, 0 ≤ r ∧ Double.val (env.gen.sample s).1 r)
    {args : Args (Double M)} {seed : Option Nat} (hs : args.doSearch = true) (ht : args.nthreads < 2)
    (hp : args.probabilistic = some ((AcceptFunc.parametrizedHeavyside param).getAcceptFunc, seed)) {out : List Path}
    (h : run env P.graph P.order args = .ok (some out)) : out = [] := by
  refine run_closed hP he (X := fun p => p = []) rfl ?_ (fun S h1 _ h2 => h1 h2) hs ht hp h
  rintro p m q s rfl hq htake
  obtain ⟨x, x1, x2⟩ := hz s
  obtain ⟨h1, h2, h3⟩ := asked_unknown hq (AcceptFunc.parametrizedHeavyside param).getAcceptFunc
  refine (not_takes (r := 0) ?_ (by norm_num) x2 x1 htake).elim
  have hrem : 1 ≤ q.remaining := by
    obtain ⟨b, d, d', ⟨ds, hbd, hd⟩, hdd⟩ := hdeep
    obtain ⟨rest, hv⟩ := hq.starts
    rw [hq.remaining, Problem.blocked]
    refine List.length_pos_iff_exists_mem.2 ⟨(b, ds), List.mem_filter.2 ⟨hbd, List.any_eq_true.2 ⟨d, hd, ?_⟩⟩⟩
    rw [Bool.not_eq_true', ← Bool.not_eq_true, List.contains_iff_mem]
    intro hdm
    simp only [List.nil_append, List.flatten_cons, List.flatten_nil, List.append_nil] at hdm
    obtain ⟨j, s', hj, _⟩ := hv.deps 0 m (by simp) d hdm d' hdd
    omega
  obtain ⟨a, ha⟩ := Int.eq_ofNat_of_zero_le a0
  obtain ⟨b, hb⟩ := Int.eq_ofNat_of_zero_le b0
  obtain ⟨d, hd⟩ := Int.eq_ofNat_of_zero_le d0
  rw [h3]
  rcases e0 with e0 | e0
  · exact Double.param_diff (e := 1) (FloatOps.ofUsize q.bound) (FloatOps.ofUsize q.lastCur) hc hc' hn h1 h2 (hq.remaining_lt hP) hrem ha hb e0 hd (by omega) (by omega)
      (by omega) (by omega) l
  · exact Double.param_diff (e := 2) (FloatOps.ofUsize q.bound) (FloatOps.ofUsize q.lastCur) hc hc' hn h1 h2 (hq.remaining_lt hP) hrem ha hb e0 hd (by omega) (by omega)
      (by omega) (by omega) l

/-- **C77** With a negative exponent in front, two nodes or more and no random number below 0.6 the search returns
nothing. -/
theorem C77_linear_refuted (hP : P.WF) (hn2 : 2 ≤ P.n) (hn : P.n ≤ 2 ^ 20) (hm : Moderate param)
    (l1 : param.linNumTotalNodesExp ≤ -1) (l2 : -12 ≤ param.linNumTotalNodesExp)
    {env : Env (Double M) σ} (he : env.OK) (hz : ∀ s, ∃ r : ℝ, 0.6 ≤ r ∧ Double.val (env.gen.sample s).1 r)
    {args : Args (Double M)} {seed : Option Nat} (hs : args.doSearch = true) (ht : args.nthreads < 2)
    (hp : args.probabilistic = some ((AcceptFunc.parametrizedHeavyside param).getAcceptFunc, seed)) {out : List Path}
    (h : run env P.graph P.order args = .ok (some out)) : out = [] := by
  refine run_closed hP he (X := fun p => p = []) rfl ?_ (fun S h1 _ h2 => h1 h2) hs ht hp h
  rintro p m q s rfl hq htake
  obtain ⟨x, x1, x2⟩ := hz s
  obtain ⟨h1, h2, h3⟩ := asked_unknown hq (AcceptFunc.parametrizedHeavyside param).getAcceptFunc
  obtain ⟨c, c1, c2⟩ := hm.cutoff
  obtain ⟨hm1, hm2, hm3, hm4, hm5, hm6⟩ := (⟨hm.total, hm.remaining, hm.diff, hm.diff_le, hm.measured, hm.measured_le⟩ : _ ∧ _ ∧ _ ∧ _ ∧ _ ∧ _)
  obtain ⟨a, ha⟩ := Int.eq_ofNat_of_zero_le hm1
  obtain ⟨b, hb⟩ := Int.eq_ofNat_of_zero_le (by omega : 0 ≤ param.expNumRemainingNodesExp)
  obtain ⟨e, he⟩ := Int.eq_ofNat_of_zero_le (by omega : 0 ≤ param.expDiffExp)
  obtain ⟨d, hd⟩ := Int.eq_ofNat_of_zero_le hm5
  obtain ⟨k, hk⟩ := Int.eq_ofNat_of_zero_le (by omega : 0 ≤ -param.linNumTotalNodesExp)
  obtain ⟨r, r1, _, r3⟩ := (Double.param_unknown (FloatOps.ofUsize q.bound) (FloatOps.ofUsize q.lastCur) c1 c2 hn h1 h2
    (hq.remaining_lt hP) ha hb he hd (by omega) (by omega) (by omega) (by omega)).2 k (by omega) (by omega) (by omega) hn2
  refine (not_takes (r := r) ?_ (by norm_num at r3 ⊢; linarith) x2 (by linarith) htake).elim
  rw [h3]
  exact r1

end

/-! ## Examples -/

/-- A search with any parameters ends. -/
theorem param_search (param : HeavysideParameters (Double Libm.exact)) {P : Problem} (hP : P.WF)
    (hb : searchBound P.bits.length ≤ searchBound 49) :
    ∃ out, run luckyEnv P.graph P.order (paramArgs param) = .ok (some out) := by
  obtain ⟨out, h, _⟩ := searchProb_spec (AcceptFunc.parametrizedHeavyside param).getAcceptFunc luckyEnv.gen () hP fun _ => false
  exact ⟨out, h .release id (searchBound 49) (fun _ => List.Perm.refl _) hb⟩

/-- Even the luckiest search on the star returns nothing with the cutoff 2⁶⁶. -/
example : run luckyEnv star.graph star.order (paramArgs ⟨B64.ofReal false (2 ^ 66 : ℝ), 2, 1, 1, 3, 1⟩) =
    .ok (some []) := by
  obtain ⟨out, h⟩ := param_search ⟨B64.ofReal false (2 ^ 66 : ℝ), 2, 1, 1, 3, 1⟩ star_wf (by decide +kernel)
  have hrep : Rep (2 ^ 66 : ℝ) := by
    refine ⟨2 ^ 52, 14, by norm_num, by norm_num, ?_⟩
    norm_num
  have hv := B64.val_ofReal (s := false) (x := (2 ^ 66 : ℝ)) (by
    rw [rnd64_of_rep hrep, abs_of_pos (by positivity)]
    have h1 : (2 : ℝ) ^ (66 : ℤ) < 2 ^ (1024 : ℤ) := zpow_lt_zpow_right₀ (by norm_num) (by norm_num)
    rwa [zpow_ofNat] at h1)
  rw [rnd64_of_rep hrep] at hv
  rw [h, C77_cutoff_refuted (M := Libm.exact) (param := ⟨B64.ofReal false (2 ^ 66 : ℝ), 2, 1, 1, 3, 1⟩) star_wf (by decide) hv (by norm_num) luckyEnv_ok (fun s => ⟨0, le_refl 0, luckyEnv_zero s⟩)
    rfl (by decide) rfl h]

/-- Nor with the exponent -1 of the number of blocked bits. -/
example : run luckyEnv star.graph star.order (paramArgs ⟨FloatArith.zero, 2, 1, -1, 3, 1⟩) = .ok (some []) := by
  obtain ⟨out, h⟩ := param_search ⟨FloatArith.zero, 2, 1, -1, 3, 1⟩ star_wf (by decide +kernel)
  rw [h, C77_remaining_refuted star_wf (by decide) (Double.laws _).zero (by norm_num) (by norm_num) (by norm_num) (by norm_num)
    (by norm_num) (by norm_num) (by norm_num) (by norm_num) (by norm_num) luckyEnv_ok
    (fun s => ⟨0, le_refl 0, luckyEnv_zero s⟩) rfl (by decide) rfl h]

/-- Nor on a row of four qubits with the exponent -1 of the distance. -/
example : run luckyEnv (row 4).graph (row 4).order (paramArgs ⟨FloatArith.zero, 2, 1, 1, -1, 1⟩) = .ok (some []) := by
  obtain ⟨out, h⟩ := param_search ⟨FloatArith.zero, 2, 1, 1, -1, 1⟩ (row_wf' (n := 4) (by decide)) (by decide +kernel)
  rw [h, C77_diff_refuted (row_wf' (n := 4) (by decide)) (by decide)
    ⟨2, 1, 0, ⟨[1], by decide, by decide⟩, ⟨[0], by decide, by decide⟩⟩
    (Double.laws _).zero (by norm_num) (by norm_num) (by norm_num) (by norm_num) (by norm_num) (Or.inl rfl)
    (by norm_num) (by norm_num) luckyEnv_ok (fun s => ⟨0, le_refl 0, luckyEnv_zero s⟩) rfl (by decide) rfl h]

/-- Random numbers that are never below 0.6: always 1. -/
noncomputable def unluckyEnv : Env (Double Libm.exact) Unit := { luckyEnv with gen := ⟨fun _ => (FloatOps.ofUsize 1, ())⟩ }

/-- Then the exponent -1 in front finds nothing. -/
example : run unluckyEnv star.graph star.order (paramArgs ⟨FloatArith.zero, -1, 1, 1, 3, 1⟩) = .ok (some []) := by
  obtain ⟨out, h, _⟩ := searchProb_spec
    (AcceptFunc.parametrizedHeavyside (⟨FloatArith.zero, -1, 1, 1, 3, 1⟩ : HeavysideParameters (Double Libm.exact))).getAcceptFunc
    unluckyEnv.gen () star_wf fun _ => false
  have h' : run unluckyEnv star.graph star.order (paramArgs ⟨FloatArith.zero, -1, 1, 1, 3, 1⟩) = .ok (some out) :=
    h .release id (searchBound 49) (fun _ => List.Perm.refl _) (by decide +kernel)
  rw [h', C77_linear_refuted star_wf (by decide) (by decide) (moderate_builtin (-1)) (by decide) (by decide)
    (fun _ => List.Perm.refl _) (fun s => ⟨((1 : Nat) : ℝ), by norm_num, Double.ofUsize (by norm_num)⟩) rfl (by decide) rfl h']

end Verif
