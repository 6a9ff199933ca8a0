import Verif.Props.LuckyProps
import Verif.Props.SizeProps
import Verif.Props.QuietProps
import Verif.Proofs.ChanceUp
import Mathlib.Algebra.Order.Field.Rat
import Mathlib.Tactic.Positivity
/-!
# C79: how likely the approximate search finds a schedule
-/

namespace Verif

open Spec Search Search.Threaded

open Classical in
/-- The part of all sequences of `N` elements of `Ω` that have the property: its probability if the elements are drawn
independently and uniformly. -/
noncomputable def chance (Ω : Type) [Fintype Ω] (N : Nat) (A : (Fin N → Ω) → Prop) : ℚ :=
  (Finset.univ.filter A).card / (Fintype.card Ω : ℚ) ^ N

/-- The environment in which the random numbers of a search are the ones in the list. -/
def Env.withNumbers {Ω F σ : Type} (env : Env F σ) (f : Ω → F) (d : F) (xs : List Ω) : Env F (List Ω) where
  prof := env.prof
  hashIter := env.hashIter
  timer := env.timer
  seedRng := fun _ => xs
  gen := listRng f d
  drawSeed := fun s => (0, s)
  moves := env.moves
  fuel := env.fuel

section
variable {Ω F σ : Type} [Fintype Ω] [FloatOps F] {P : Problem} {E : List Schedule} {S : Schedule}
  {accept : Accept F} {f : Ω → F} {env : Env F σ} {args : Args F} {seed : Option Nat} {N : Nat}

theorem chance_eq (A : List Ω → Prop) :
    chance Ω N (fun ω => A (List.ofFn ω)) = countSeq Ω N A / (Fintype.card Ω : ℚ) ^ N := by
  classical
  unfold chance countSeq
  congr 3

theorem chance_mono {A B : (Fin N → Ω) → Prop} (h : ∀ ω, A ω → B ω) : chance Ω N A ≤ chance Ω N B := by
  classical
  unfold chance
  refine div_le_div_of_nonneg_right ?_ (by positivity)
  refine Nat.cast_le.2 (Finset.card_le_card fun ω => ?_)
  simp only [Finset.mem_filter, Finset.mem_univ, true_and]
  exact h ω

theorem chance_le_one {Ω : Type} [Fintype Ω] [Nonempty Ω] {N : Nat} {A : (Fin N → Ω) → Prop} : chance Ω N A ≤ 1 := by
  classical
  have hC : (0 : ℚ) < Fintype.card Ω := by exact_mod_cast Fintype.card_pos
  unfold chance
  rw [div_le_one (by positivity)]
  have := Finset.card_le_univ (Finset.univ.filter A)
  rw [Fintype.card_fun, Fintype.card_fin] at this
  exact_mod_cast this

/-- Independent repetitions. -/
theorem chance_some {Ω : Type} [Fintype Ω] [Nonempty Ω] {N : Nat} (A : (Fin N → Ω) → Prop) (K : Nat) :
    (chance (Fin N → Ω) K fun runs => ∃ k, A (runs k)) = 1 - (1 - chance Ω N A) ^ K := by
  classical
  have hC : (0 : ℚ) < Fintype.card Ω := by exact_mod_cast Fintype.card_pos
  have h1 : (Finset.univ.filter A).card + (Finset.univ.filter fun ω => ¬ A ω).card = Fintype.card Ω ^ N := by
    rw [Finset.card_filter_add_card_filter_not, Finset.card_univ, Fintype.card_fun, Fintype.card_fin]
  obtain ⟨B, hB⟩ : ∃ B : (Fin K → Fin N → Ω) → Prop, B = fun runs => ∃ k, A (runs k) := ⟨_, rfl⟩
  have h2 : (Finset.univ.filter B).card + (Finset.univ.filter fun ω => ¬ A ω).card ^ K = (Fintype.card Ω ^ N) ^ K := by
    have h3 : (Finset.univ.filter fun runs => ¬ B runs).card = (Finset.univ.filter fun ω => ¬ A ω).card ^ K := by
      have : (Finset.univ.filter fun runs => ¬ B runs) =
          Fintype.piFinset fun _ : Fin K => Finset.univ.filter fun ω => ¬ A ω := by
        ext runs
        simp [hB]
      rw [this, Fintype.card_piFinset]
      simp
    rw [← h3, Finset.card_filter_add_card_filter_not, Finset.card_univ, Fintype.card_fun, Fintype.card_fin,
      Fintype.card_fun, Fintype.card_fin]
  have e1 : ((Finset.univ.filter A).card : ℚ) = (Fintype.card Ω : ℚ) ^ N - (Finset.univ.filter fun ω => ¬ A ω).card := by
    rw [eq_sub_iff_add_eq]; exact_mod_cast h1
  have e2 : ((Finset.univ.filter B).card : ℚ) =
      ((Fintype.card Ω : ℚ) ^ N) ^ K - ((Finset.univ.filter fun ω => ¬ A ω).card : ℚ) ^ K := by
    rw [eq_sub_iff_add_eq]; exact_mod_cast h2
  have e3 : (Fintype.card (Fin N → Ω) : ℚ) = (Fintype.card Ω : ℚ) ^ N := by
    rw [Fintype.card_fun, Fintype.card_fin]; push_cast; rfl
  rw [← hB]
  unfold chance
  rw [e3, e1, e2, sub_div, sub_div, div_self (by positivity), div_self (by positivity), sub_sub_cancel, div_pow]

omit [Fintype Ω] in
theorem run_numbers (d : F) (xs : List Ω) (hs : args.doSearch = true) (ht : args.nthreads < 2)
    (hp : args.probabilistic = some (accept, seed)) :
    run (env.withNumbers f d xs) P.graph P.order args = searchProb env.prof env.hashIter accept (listRng f d) xs
      (fun k => args.timeout.isSome && env.timer k) env.fuel P.graph P.order := by
  rw [run, hs, Bool.not_true, if_neg (by simp), Verif.search.eq_def, if_pos ht, hp]
  rfl

/-- **C79** A lower bound. The random numbers are `f x` with `x` drawn uniformly from `Ω`. Suppose every question about a
step of `S` (the bits of a step in any order) is answered with 1 or more, or such that at least `z` of the
elements of `Ω` lead to the step, as long as no path was found with at most `T` steps that needs no more memory
than `S`. Then an uninterrupted single-threaded approximate search returns a path with at most `T` steps that needs no
more memory than `S` with a probability of at least `(z / |Ω|) ^ |S|`, whatever the answers to other questions.
(`N` random numbers are enough.) -/
theorem C79_often [Nonempty Ω] (hP : P.WF) (hb : P.bits ≠ []) (hE : Beginnings P E) (hS : P.Valid S) {T z : Nat}
    (hT : S.length ≤ T) (hz : z ≤ Fintype.card Ω)
    (hA : ∀ found p m q, Asked P found p m q → List.Forall₂ List.Perm (p ++ [m]) (S.take (p.length + 1)) →
      (∀ t' m' S', found.get t' = some (m', S') → t' ≤ T → P.peak S < m') →
      FloatOps.geOne (q.ask accept) = true ∨
        z ≤ (Finset.univ.filter fun x : Ω => FloatOps.lt (f x) (q.ask accept) = true).card)
    (he : env.OK) (hf : 2 * E.length + 1 ≤ env.fuel) (hN : 2 * E.length + 1 ≤ N) (d : F)
    (hs : args.doSearch = true) (ht : args.nthreads < 2) (htimer : args.timeout = none ∨ ∀ k, env.timer k = false)
    (hp : args.probabilistic = some (accept, seed)) :
    ((z : ℚ) / Fintype.card Ω) ^ S.length ≤ chance Ω N fun ω => ∃ out,
      run (env.withNumbers f d (List.ofFn ω)) P.graph P.order args = .ok (some out) ∧
      ∃ p ∈ out, p.time ≤ T ∧ p.space ≤ P.peak S := by
  obtain ⟨s, E', e1, e2, e3, e4, e5⟩ := exists_beginnings hP
  rw [hE.length_eq e5] at hf hN
  have hOften : Often P accept f z T S := by
    intro found p m q hq hE' hfree
    refine hA found p m q hq ?_ hfree
    have : Extends (p ++ [m]) S := hE'
    unfold Extends at this
    rwa [List.length_append] at this
  have htodo : Todos P (levels (Loc.init s P.n).path (Loc.init s P.n).sweep.current (Loc.init s P.n).sweep.stack)
      (1 + 2 * E'.length + 0) := .cons e4 .nil
  have htm : ∀ j, (args.timeout.isSome && env.timer j) = false := by
    intro j
    rcases htimer with h | h <;> simp [h]
  have key := chance_loop (δ := T - S.length) (prof := env.prof) (d := d) hP hb hS (by omega) hOften hz htm env.fuel 0
    (Loc.init s P.n) _ N S.length (init_inv e2 e3) htodo (by omega) (by omega)
    (Or.inr (PendR.head (fresh_pendAt hP e2 e3 hS (extends_nil S)) (by simp)))
  have hC : (0 : ℚ) < Fintype.card Ω := by exact_mod_cast Fintype.card_pos
  refine le_trans ?_ (chance_mono (A := fun ω => Hit P S (T - S.length) env.prof accept f d
    (fun j => args.timeout.isSome && env.timer j) env.fuel 0 (Loc.init s P.n) (List.ofFn ω)) ?_)
  · rw [chance_eq, div_pow, div_le_div_iff₀ (by positivity) (by positivity)]
    exact_mod_cast key
  · rintro ω ⟨l', xs', h1, h2, h3⟩
    obtain ⟨o, p1, p2⟩ := postprocess_spec env.hashIter he P.n l'.results
    refine ⟨o, ?_, ?_⟩
    · rw [run_numbers d _ hs ht hp]
      have h1' : probLoop env.prof accept (listRng f d) (fun k => args.timeout.isSome && env.timer k) env.fuel 0
        (Loc.init s P.graph.length) (List.ofFn ω) = .ok (some (l', xs')) := h1
      have p1' : postprocess env.hashIter P.graph.length l'.results = .ok o := p1
      simp [searchProb, e1, doProbabilisticSearch, h1', p1', bind, Except.bind, pure, Except.pure]
    · unfold DomS at h3
      have hlt := peak_lt_max hP S
      rcases (h2.entry (Nat.min_le_right (S.length + (T - S.length)) P.n)).2 with h5 | ⟨t', S', h6, h5⟩
      · omega
      · obtain ⟨v, hl, _⟩ := h2.sound _ _ _ h5
        obtain ⟨p, hp, htp, hsp⟩ := p2.dominates (t := t') (by rw [← hl]; exact ((maximal_iff hP).1 v).length_le hP) h5
          (by simp only; omega)
        exact ⟨p, hp, by omega, Nat.le_trans hsp h3⟩

/-- **C79** An upper bound. If every question about a step of `S` is answered below 1 and such that at most `w`
elements of `Ω` lead to the step, then `S` is returned with a probability of at most `(w / |Ω|) ^ |S|`, with or
without a timeout. -/
theorem C79_seldom [Nonempty Ω] (hP : P.WF) (hE : Beginnings P E) (S : Schedule) {w : Nat}
    (hA : ∀ found p m q, Asked P found p m q → List.Forall₂ List.Perm (p ++ [m]) (S.take (p.length + 1)) →
      FloatOps.geOne (q.ask accept) = false ∧
        (Finset.univ.filter fun x : Ω => FloatOps.lt (f x) (q.ask accept) = true).card ≤ w)
    (he : env.OK) (hN : 2 * E.length + 1 ≤ N) (d : F)
    (hs : args.doSearch = true) (ht : args.nthreads < 2) (hp : args.probabilistic = some (accept, seed)) :
    (chance Ω N fun ω => ∃ out, run (env.withNumbers f d (List.ofFn ω)) P.graph P.order args = .ok (some out) ∧
      ∃ p ∈ out, List.Forall₂ List.Perm p.steps S) ≤ ((w : ℚ) / Fintype.card Ω) ^ S.length := by
  obtain ⟨s, E', e1, e2, e3, e4, e5⟩ := exists_beginnings hP
  rw [hE.length_eq e5] at hN
  have hSeldom : Seldom P accept f w S := by
    intro found p m q hq hE'
    refine hA found p m q hq ?_
    have : Extends (p ++ [m]) S := hE'
    unfold Extends at this
    rwa [List.length_append] at this
  have htodo : Todos P (levels (Loc.init s P.n).path (Loc.init s P.n).sweep.current (Loc.init s P.n).sweep.stack)
      (1 + 2 * E'.length + 0) := .cons e4 .nil
  have key := seldom_loop (prof := env.prof) (d := d) (timer := fun j => args.timeout.isSome && env.timer j) hP hSeldom
    env.fuel 0 (Loc.init s P.n) _ N S.length (init_inv e2 e3) htodo (by omega)
    (by rintro ⟨t, m, S', h, _⟩; simp [Loc.init] at h)
    ⟨by
      intro lv hlv _
      have : lv = ([], s) := by simpa [Loc.init, Sweep.new, levels] using hlv
      rw [this]
      simp, by simp [Loc.init, Sweep.new, levels]⟩
  have hC : (0 : ℚ) < Fintype.card Ω := by exact_mod_cast Fintype.card_pos
  refine le_trans (chance_mono (B := fun ω => HitS S env.prof accept f d
    (fun j => args.timeout.isSome && env.timer j) env.fuel 0 (Loc.init s P.n) (List.ofFn ω)) ?_) ?_
  · rintro ω ⟨out, h1, p, h2, h3⟩
    rw [run_numbers d _ hs ht hp] at h1
    unfold searchProb at h1
    rw [e1] at h1
    simp only [bind, Except.bind] at h1
    cases hd : doProbabilisticSearch env.prof accept (listRng f d) (fun k => args.timeout.isSome && env.timer k) env.fuel s
        P.graph.length (List.ofFn ω) with
    | error e => rw [hd] at h1; simp at h1
    | ok r =>
      rw [hd] at h1
      cases r with
      | none => simp [pure, Except.pure] at h1
      | some r =>
        obtain ⟨l', xs'⟩ := r
        simp only at h1
        obtain ⟨o, p1, p2⟩ := postprocess_spec env.hashIter he P.graph.length l'.results
        rw [p1] at h1
        simp only [pure, Except.pure, Except.ok.injEq, Option.some.injEq] at h1
        subst h1
        exact ⟨l', xs', hd, p.time, p.space, p.steps, ((p2.mem p).1 h2).2.1, h3⟩
  · rw [chance_eq, div_pow, div_le_div_iff₀ (by positivity) (by positivity)]
    exact_mod_cast key

/-- **C79** So for an accept function that always answers the same number below 1, and an input with a single
schedule `S`, the search returns nothing but with the probability `(z / |Ω|) ^ |S|`. -/
theorem C79_single [Nonempty Ω] (hP : P.WF) (hb : P.bits ≠ []) (hE : Beginnings P E) (hS : P.Valid S)
    (hone : ∀ S', P.Valid S' → List.Forall₂ List.Perm S' S) {c : F} (hc : FloatOps.geOne c = false)
    (he : env.OK) (hf : 2 * E.length + 1 ≤ env.fuel) (hN : 2 * E.length + 1 ≤ N) (d : F)
    (hs : args.doSearch = true) (ht : args.nthreads < 2) (htimer : args.timeout = none ∨ ∀ k, env.timer k = false)
    (hp : args.probabilistic = some (fun _ _ _ _ _ _ _ => c, seed)) :
    (chance Ω N fun ω => ∃ out, run (env.withNumbers f d (List.ofFn ω)) P.graph P.order args = .ok (some out) ∧
      out ≠ []) =
      (((Finset.univ.filter fun x : Ω => FloatOps.lt (f x) c = true).card : ℚ) / Fintype.card Ω) ^ S.length := by
  refine le_antisymm (le_trans (chance_mono ?_) (C79_seldom (f := f) (env := env) (N := N) hP hE S
    (w := (Finset.univ.filter fun x : Ω => FloatOps.lt (f x) c = true).card) ?_ he hN d hs ht hp))
    (le_trans (C79_often (f := f) (env := env) (N := N) (T := S.length) hP hb hE hS (Nat.le_refl _)
      (Finset.card_le_univ _) ?_ he hf hN d hs ht htimer hp) (chance_mono ?_))
  · rintro ω ⟨out, h1, h2⟩
    obtain ⟨p, hp'⟩ := List.exists_mem_of_ne_nil _ h2
    exact ⟨out, h1, p, hp', hone _ (C01_valid hP (env := env.withNumbers f d (List.ofFn ω)) he h1 p hp')⟩
  · intro found p m q _ _
    exact ⟨hc, Nat.le_refl _⟩
  · intro found p m q _ _ _
    exact Or.inr (Nat.le_refl _)
  · rintro ω ⟨out, h1, p, h2, _⟩
    exact ⟨out, h1, List.ne_nil_of_mem h2⟩

/-- **C79** Independent runs: the probability that one of `K` runs finds such a path is at least
`1 - (1 - (z / |Ω|) ^ |S|) ^ K`. -/
theorem C79_repeat [Nonempty Ω] (hP : P.WF) (hb : P.bits ≠ []) (hE : Beginnings P E) (hS : P.Valid S) {T z : Nat}
    (hT : S.length ≤ T) (hz : z ≤ Fintype.card Ω)
    (hA : ∀ found p m q, Asked P found p m q → List.Forall₂ List.Perm (p ++ [m]) (S.take (p.length + 1)) →
      (∀ t' m' S', found.get t' = some (m', S') → t' ≤ T → P.peak S < m') →
      FloatOps.geOne (q.ask accept) = true ∨
        z ≤ (Finset.univ.filter fun x : Ω => FloatOps.lt (f x) (q.ask accept) = true).card)
    (he : env.OK) (hf : 2 * E.length + 1 ≤ env.fuel) (hN : 2 * E.length + 1 ≤ N) (d : F)
    (hs : args.doSearch = true) (ht : args.nthreads < 2) (htimer : args.timeout = none ∨ ∀ k, env.timer k = false)
    (hp : args.probabilistic = some (accept, seed)) (K : Nat) :
    1 - (1 - ((z : ℚ) / Fintype.card Ω) ^ S.length) ^ K ≤ chance (Fin N → Ω) K fun runs => ∃ k out,
      run (env.withNumbers f d (List.ofFn (runs k))) P.graph P.order args = .ok (some out) ∧
      ∃ p ∈ out, p.time ≤ T ∧ p.space ≤ P.peak S := by
  have h1 := C79_often (f := f) (env := env) (N := N) hP hb hE hS hT hz hA he hf hN d hs ht htimer hp
  rw [chance_some fun ω : Fin N → Ω => ∃ out,
      run (env.withNumbers f d (List.ofFn ω)) P.graph P.order args = .ok (some out) ∧
      ∃ p ∈ out, p.time ≤ T ∧ p.space ≤ P.peak S]
  exact sub_le_sub_left (pow_le_pow_left₀ (sub_nonneg.2 chance_le_one) (sub_le_sub_left h1 1) K) 1

end

section Uniform
variable {M : Libm} {σ : Type}

/-- The numbers `Uniform::new(0., 1.)` yields, search.rs:241, 311: the multiples of `2 ^ -52` in `[0, 1)`, each of them
from the same number of 64-bit words (`UniformFloat<f64>::sample` of `rand` 0.8, which is not part of the repository,
puts 52 random bits into the fraction of a number in `[1, 2)` and subtracts 1). -/
noncomputable def uniform52 (k : Fin (2 ^ 52)) : Double M := B64.ofReal false ((k.1 : ℝ) / 2 ^ 52)

theorem uniform52_val (k : Fin (2 ^ 52)) : Double.val (uniform52 k : Double M) ((k.1 : ℝ) / 2 ^ 52) := by
  have hk : ((k.1 : ℝ)) < 2 ^ 52 := by exact_mod_cast k.2
  have hrep : rnd64 ((k.1 : ℝ) / 2 ^ 52) = (k.1 : ℝ) / 2 ^ 52 := by
    refine rnd64_of_rep ⟨k.1, -52, ?_, by norm_num, by norm_num, ?_⟩
    · rw [abs_of_nonneg (by positivity)]
      have := k.2
      have h2 : k.1 < 2 ^ 53 := by omega
      exact_mod_cast h2
    · rw [zpow_neg, div_eq_mul_inv]
      norm_cast
  have := B64.val_ofReal (s := false) (x := (k.1 : ℝ) / 2 ^ 52) (by
    rw [hrep, abs_of_nonneg (by positivity)]
    refine lt_of_lt_of_le (b := 1) ?_ (one_le_zpow₀ (by norm_num) (by norm_num))
    rw [div_lt_one (by norm_num)]
    exact hk)
  rw [hrep] at this
  exact this

/-- How many of the numbers are below `r`. -/
theorem uniform52_card {c : Double M} {r : ℝ} (hc : Double.val c r) (h1 : r < 1) :
    (Finset.univ.filter fun k : Fin (2 ^ 52) => FloatOps.lt (uniform52 k) c = true).card = ⌈r * 2 ^ 52⌉₊ := by
  have hlt : ⌈r * 2 ^ 52⌉₊ ≤ 2 ^ 52 := by
    refine Nat.ceil_le.2 ?_
    push_cast
    nlinarith [show (0 : ℝ) < 2 ^ 52 by positivity]
  have : (Finset.univ.filter fun k : Fin (2 ^ 52) => FloatOps.lt (uniform52 k) c = true) =
      Finset.univ.filter fun k : Fin (2 ^ 52) => k.1 < ⌈r * 2 ^ 52⌉₊ := by
    ext k
    simp only [Finset.mem_filter, Finset.mem_univ, true_and]
    rw [(Double.laws M).lt (uniform52_val k) hc, div_lt_iff₀ (by positivity), Nat.lt_ceil]
  rw [this, Fin.card_filter_val_lt, Nat.min_eq_right hlt]

variable {P : Problem} {E : List Schedule} {S : Schedule} {env : Env (Double M) σ} {args : Args (Double M)}
  {seed : Option Nat} {N : Nat}

/-- **C79** An accept function that always answers `r` (the example in `python_lib/tests/main.py:31-40` answers 0.5), and
the numbers of `rand`: a path that is as good as `S` in both respects is returned with a probability of at least
`q ^ |S|`, and `S` itself with a probability of at most that, where `q` is `r` rounded up to a multiple of `2 ^ -52`. -/
theorem C79_custom (hP : P.WF) (hb : P.bits ≠ []) (hE : Beginnings P E) (hS : P.Valid S) {c : Double M} {r : ℝ}
    (hc : Double.val c r) (h1 : r < 1) (he : env.OK) (hf : 2 * E.length + 1 ≤ env.fuel) (hN : 2 * E.length + 1 ≤ N)
    (d : Double M) (hs : args.doSearch = true) (ht : args.nthreads < 2)
    (htimer : args.timeout = none ∨ ∀ k, env.timer k = false)
    (hp : args.probabilistic = some (fun _ _ _ _ _ _ _ => c, seed)) :
    ((⌈r * 2 ^ 52⌉₊ : ℚ) / 2 ^ 52) ^ S.length ≤ (chance (Fin (2 ^ 52)) N fun ω => ∃ out,
      run (env.withNumbers uniform52 d (List.ofFn ω)) P.graph P.order args = .ok (some out) ∧
      ∃ p ∈ out, p.time ≤ S.length ∧ p.space ≤ P.peak S) ∧
    (chance (Fin (2 ^ 52)) N fun ω => ∃ out,
      run (env.withNumbers uniform52 d (List.ofFn ω)) P.graph P.order args = .ok (some out) ∧
      ∃ p ∈ out, List.Forall₂ List.Perm p.steps S) ≤ ((⌈r * 2 ^ 52⌉₊ : ℚ) / 2 ^ 52) ^ S.length := by
  have : Nonempty (Fin (2 ^ 52)) := ⟨⟨0, by positivity⟩⟩
  have hg : FloatOps.geOne c = false := by
    rw [Bool.eq_false_iff]
    intro h
    have := ((Double.laws M).geOne hc).1 h
    linarith
  have hcard := uniform52_card hc h1
  have hC : ((Fintype.card (Fin (2 ^ 52)) : Nat) : ℚ) = 2 ^ 52 := by rw [Fintype.card_fin]; norm_num
  have k1 := C79_often (f := (uniform52 : _ → Double M)) (env := env) (N := N) (T := S.length) (z := ⌈r * 2 ^ 52⌉₊)
    (accept := fun _ _ _ _ _ _ _ => c) hP hb hE hS (Nat.le_refl _) (hcard ▸ Finset.card_le_univ _)
    (fun _ _ _ _ _ _ _ => Or.inr (Nat.le_of_eq hcard.symm)) he hf hN d hs ht htimer hp
  have k2 := C79_seldom (f := (uniform52 : _ → Double M)) (env := env) (N := N) (w := ⌈r * 2 ^ 52⌉₊)
    (accept := fun _ _ _ _ _ _ _ => c) hP hE S
    (fun _ _ _ _ _ _ => ⟨hg, Nat.le_of_eq hcard⟩) he hN d hs ht hp
  rw [hC] at k1 k2
  exact ⟨k1, k2⟩

/-- **C79** The same for `K` independent runs. -/
theorem C79_custom_repeat (hP : P.WF) (hb : P.bits ≠ []) (hE : Beginnings P E) (hS : P.Valid S) {c : Double M} {r : ℝ}
    (hc : Double.val c r) (h1 : r < 1) (he : env.OK) (hf : 2 * E.length + 1 ≤ env.fuel) (hN : 2 * E.length + 1 ≤ N)
    (d : Double M) (hs : args.doSearch = true) (ht : args.nthreads < 2)
    (htimer : args.timeout = none ∨ ∀ k, env.timer k = false)
    (hp : args.probabilistic = some (fun _ _ _ _ _ _ _ => c, seed)) (K : Nat) :
    1 - (1 - ((⌈r * 2 ^ 52⌉₊ : ℚ) / 2 ^ 52) ^ S.length) ^ K ≤ chance (Fin N → Fin (2 ^ 52)) K fun runs => ∃ k out,
      run (env.withNumbers uniform52 d (List.ofFn (runs k))) P.graph P.order args = .ok (some out) ∧
      ∃ p ∈ out, p.time ≤ S.length ∧ p.space ≤ P.peak S := by
  have : Nonempty (Fin (2 ^ 52)) := ⟨⟨0, by positivity⟩⟩
  have hcard := uniform52_card hc h1
  have hC : ((Fintype.card (Fin (2 ^ 52)) : Nat) : ℚ) = 2 ^ 52 := by rw [Fintype.card_fin]; norm_num
  have k1 := C79_repeat (f := (uniform52 : _ → Double M)) (env := env) (N := N) (T := S.length) (z := ⌈r * 2 ^ 52⌉₊)
    (accept := fun _ _ _ _ _ _ _ => c) hP hb hE hS (Nat.le_refl _) (hcard ▸ Finset.card_le_univ _)
    (fun _ _ _ _ _ _ _ => Or.inr (Nat.le_of_eq hcard.symm)) he hf hN d hs ht htimer hp K
  rw [hC] at k1
  exact k1

/-- **C79** With the built-in accept function and at most 48 nodes every schedule is matched in memory with a probability of
at least `2 ^ (-52 |S|)`; so the least memory is found with some random numbers. -/
theorem C79_builtin (hP : P.WF) (hb : P.bits ≠ []) (hn : P.n ≤ 48) (hE : Beginnings P E) (hS : P.Valid S)
    (he : env.OK) (hf : 2 * E.length + 1 ≤ env.fuel) (hN : 2 * E.length + 1 ≤ N)
    (d : Double M) (hs : args.doSearch = true) (ht : args.nthreads < 2)
    (htimer : args.timeout = none ∨ ∀ k, env.timer k = false)
    (hp : args.probabilistic = some (AcceptFunc.builtinHeavyside.getAcceptFunc, seed)) :
    (1 / 2 ^ 52 : ℚ) ^ S.length ≤ chance (Fin (2 ^ 52)) N fun ω => ∃ out,
      run (env.withNumbers uniform52 d (List.ofFn ω)) P.graph P.order args = .ok (some out) ∧
      ∃ p ∈ out, p.space ≤ P.peak S := by
  have : Nonempty (Fin (2 ^ 52)) := ⟨⟨0, by positivity⟩⟩
  have hC : ((Fintype.card (Fin (2 ^ 52)) : Nat) : ℚ) = 2 ^ 52 := by rw [Fintype.card_fin]; norm_num
  have k1 := C79_often (f := (uniform52 : _ → Double M)) (env := env) (N := N) (T := P.n) (z := 1)
    hP hb hE hS (hS.length_le hP) Fintype.card_pos ?_ he hf hN d hs ht htimer hp
  · rw [hC, Nat.cast_one] at k1
    exact le_trans k1 (chance_mono fun ω ⟨out, g1, p, g2, _, g3⟩ => ⟨out, g1, p, g2, g3⟩)
  · intro found p m q hq hE' hfree
    have hlt : P.peak S < q.minimal := by
      rcases hq.minimal.mem with ⟨h1, _⟩ | ⟨t', S', h1, h2⟩
      · rw [h1]; exact peak_lt_max hP S
      · exact hfree _ _ _ h2 h1
    rcases hq.builtin_pos (M := M) hP hn (S := S) (by unfold Extends; rw [List.length_append]; exact hE') hlt with
      h4 | ⟨r, h4, h5⟩
    · exact Or.inl h4
    · right
      refine Finset.card_pos.2 ⟨⟨0, by positivity⟩, Finset.mem_filter.2 ⟨Finset.mem_univ _, ?_⟩⟩
      rw [(Double.laws M).lt (uniform52_val _) h5]
      simpa using h4

end Uniform

/-! ## A row of qubits, each of which waits for the one before -/

section Row
open Example

variable {n : Nat}

theorem row_entries : (row n).entries = (List.range n).map fun i => (i, if i = 0 then [] else [i - 1]) := by
  unfold Problem.entries row
  generalize List.range n = l
  induction l with
  | nil => rfl
  | cons a l ih => simp only [List.map_cons, List.flatten_cons, ih, List.singleton_append]

theorem row_bits : (row n).bits = List.range n := by
  unfold Problem.bits
  rw [row_entries, List.map_map]
  exact List.map_id _

theorem row_n : (row n).n = n := by simp [Problem.n, row]

theorem row_wf_all (hn : n < 2 ^ 64 - 1) : (row n).WF := by
  refine ⟨by rw [row_bits]; exact List.nodup_range, fun b hb => ?_, fun l hl v hv => ?_, fun i layer hl e he => ?_, ?_⟩
  · rw [row_bits, List.mem_range] at hb
    rwa [row_n]
  · rw [row_n]
    simp only [row, List.mem_map, List.mem_range] at hl
    obtain ⟨i, hi, rfl⟩ := hl
    rw [List.mem_append] at hv
    rcases hv with hv | hv
    · split at hv
      · simp at hv
      · rw [List.mem_singleton] at hv; omega
    · split at hv
      · rw [List.mem_singleton] at hv; omega
      · simp at hv
  · have hi : i < n := by
      have := (List.getElem?_eq_some_iff.1 hl).1
      simpa [row] using this
    have hlayer : ∀ j, j < n → (row n).order[j]? = some [(j, if j = 0 then [] else [j - 1])] := by
      intro j hj
      simp [row, hj]
    rw [hlayer i hi] at hl
    cases hl
    rw [List.mem_singleton] at he
    subst he
    refine ⟨by by_cases h : i = 0 <;> simp [h], by by_cases h : i = 0 <;> simp [h], fun d hd => ?_⟩
    by_cases h : i = 0
    · simp [h] at hd
    · simp only [h, if_false, List.mem_singleton] at hd
      exact ⟨i - 1, by omega, _, hlayer (i - 1) (by omega), _, List.mem_singleton_self _, hd.symm⟩
  · rw [row_n]; exact hn

theorem row_needs {b d : Nat} : (row n).Needs b d ↔ b < n ∧ b = d + 1 := by
  unfold Problem.Needs
  rw [row_entries]
  constructor
  · rintro ⟨ds, h1, h2⟩
    rw [List.mem_map] at h1
    obtain ⟨i, hi, h1⟩ := h1
    simp only [Prod.mk.injEq] at h1
    obtain ⟨rfl, rfl⟩ := h1
    rw [List.mem_range] at hi
    split at h2
    · simp at h2
    · rw [List.mem_singleton] at h2; omega
  · rintro ⟨h1, rfl⟩
    refine ⟨[d], List.mem_map.2 ⟨d + 1, List.mem_range.2 h1, by simp⟩, by simp⟩

theorem row_valid : (row n).Valid ((List.range n).map fun i => [i]) := by
  refine ⟨fun s hs => ?_, ?_, fun i s hs b hb d hd => ?_⟩
  · obtain ⟨i, _, rfl⟩ := List.mem_map.1 hs
    simp
  · rw [row_bits]
    have : ∀ l : List Nat, (l.map fun i => [i]).flatten = l := by
      intro l
      induction l with
      | nil => rfl
      | cons a l ih => simp [ih]
    rw [this]
  · obtain ⟨h1, rfl⟩ := row_needs.1 hd
    have hi : i < n := by simpa using (List.getElem?_eq_some_iff.1 hs).1
    rw [List.getElem?_map, List.getElem?_range hi] at hs
    cases hs
    rw [List.mem_singleton] at hb
    exact ⟨d, [d], by omega, by rw [List.getElem?_map, List.getElem?_range (by omega)]; rfl, by simp⟩

/-- There is nothing else to do with a row than one qubit after the other. -/
theorem row_unique {S : Schedule} (h : (row n).Valid S) : S = (List.range n).map fun i => [i] := by
  have hlen : S.length ≤ n := by
    have h1 := length_le_flatten h.nonempty
    rw [h.perm.length_eq, row_bits, List.length_range] at h1
    exact h1
  have hnd : S.flatten.Nodup := h.perm.nodup_iff.2 (by rw [row_bits]; exact List.nodup_range)
  have low : ∀ (b i : Nat) (s : List Nat), S[i]? = some s → b ∈ s → b ≤ i := by
    intro b
    induction b with
    | zero => intro i s _ _; exact Nat.zero_le _
    | succ b ih =>
      intro i s hs hb
      have hlt : b + 1 < n := by
        have := h.perm.mem_iff.1 (List.mem_flatten.2 ⟨s, List.mem_of_getElem? hs, hb⟩)
        rwa [row_bits, List.mem_range] at this
      obtain ⟨j, s', hj, hs', hd⟩ := h.deps i s hs (b + 1) hb b (row_needs.2 ⟨hlt, rfl⟩)
      have := ih j s' hs' hd
      omega
  have high : ∀ (k b i : Nat) (s : List Nat), b + k + 1 = n → S[i]? = some s → b ∈ s → i ≤ b := by
    intro k
    induction k with
    | zero =>
      intro b i s hk hs _
      have := (List.getElem?_eq_some_iff.1 hs).1
      omega
    | succ k ih =>
      intro b i s hk hs hb
      have hm : b + 1 ∈ S.flatten := h.perm.mem_iff.2 (by rw [row_bits, List.mem_range]; omega)
      obtain ⟨s1, hs1, hb1⟩ := List.mem_flatten.1 hm
      obtain ⟨i1, hi1⟩ := List.getElem?_of_mem hs1
      have h1 := ih (b + 1) i1 s1 (by omega) hi1 hb1
      obtain ⟨j, s', hj, hs', hd⟩ := h.deps i1 s1 hi1 (b + 1) hb1 b (row_needs.2 ⟨by omega, rfl⟩)
      have : i = j := by
        apply Classical.byContradiction
        intro hne
        obtain ⟨hp1, hp2⟩ := List.nodup_flatten.1 hnd
        rw [List.getElem?_eq_some_iff] at hs hs'
        obtain ⟨hi, rfl⟩ := hs
        obtain ⟨hj', rfl⟩ := hs'
        rw [List.pairwise_iff_getElem] at hp2
        rcases Nat.lt_or_gt_of_ne hne with hlt | hlt
        · exact hp2 i j hi hj' hlt hb hd
        · exact hp2 j i hj' hi hlt hd hb
      omega
  have step : ∀ (i : Nat) (s : List Nat), S[i]? = some s → s = [i] := by
    intro i s hs
    have hall : ∀ b ∈ s, b = i := by
      intro b hb
      have hlt : b < n := by
        have := h.perm.mem_iff.1 (List.mem_flatten.2 ⟨s, List.mem_of_getElem? hs, hb⟩)
        rwa [row_bits, List.mem_range] at this
      have h1 := low b i s hs hb
      have h2 := high (n - 1 - b) b i s (by omega) hs hb
      omega
    have hne := h.nonempty s (List.mem_of_getElem? hs)
    have hns : s.Nodup := (List.nodup_flatten.1 hnd).1 s (List.mem_of_getElem? hs)
    match s, hne, hall, hns with
    | [a], _, hall, _ => rw [hall a (by simp)]
    | a :: b :: t, _, hall, hns =>
      have h1 := hall a (by simp)
      have h2 := hall b (by simp)
      rw [h1, h2] at hns
      simp at hns
  have hlen' : S.length = n := by
    apply Classical.byContradiction
    intro hne
    have hm : S.length ∈ S.flatten := h.perm.mem_iff.2 (by rw [row_bits, List.mem_range]; omega)
    obtain ⟨s1, hs1, hb1⟩ := List.mem_flatten.1 hm
    obtain ⟨i1, hi1⟩ := List.getElem?_of_mem hs1
    have := low _ _ _ hi1 hb1
    have := (List.getElem?_eq_some_iff.1 hi1).1
    omega
  refine List.ext_getElem? fun i => ?_
  by_cases hi : i < n
  · rw [List.getElem?_map, List.getElem?_range hi]
    have h1 : S[i]? = some S[i] := List.getElem?_eq_getElem (by omega)
    rw [h1, step i _ h1]
    rfl
  · rw [List.getElem?_eq_none (by omega), List.getElem?_eq_none (by simp; omega)]

variable {M : Libm} {σ : Type}

/-- **C79** For a row of `n` qubits, each of which waits for the one before, an accept function that always answers
`r < 1`, and the numbers of `rand`, the search returns something with the probability `q ^ n` exactly, where `q` is `r`
rounded up to a multiple of `2 ^ -52`: for the example in `python_lib` this is `2 ^ -n`. -/
theorem C79_row (hn0 : n ≠ 0) (hn : n < 2 ^ 64 - 1) {c : Double M} {r : ℝ} (hc : Double.val c r) (h1 : r < 1) :
    ∃ B, ∀ (env : Env (Double M) σ) (N : Nat) (d : Double M) (args : Args (Double M)) (seed : Option Nat), env.OK →
      B ≤ env.fuel → B ≤ N → args.doSearch = true → args.nthreads < 2 →
      (args.timeout = none ∨ ∀ k, env.timer k = false) →
      args.probabilistic = some (fun _ _ _ _ _ _ _ => c, seed) →
      (chance (Fin (2 ^ 52)) N fun ω => ∃ out,
        run (env.withNumbers uniform52 d (List.ofFn ω)) (row n).graph (row n).order args = .ok (some out) ∧ out ≠ []) =
      ((⌈r * 2 ^ 52⌉₊ : ℚ) / 2 ^ 52) ^ n := by
  have : Nonempty (Fin (2 ^ 52)) := ⟨⟨0, by positivity⟩⟩
  obtain ⟨E, hE⟩ := C67_exists (row_wf_all hn)
  refine ⟨2 * E.length + 1, fun env N d args seed he hf hN hs ht htimer hp => ?_⟩
  have hg : FloatOps.geOne c = false := by
    rw [Bool.eq_false_iff]
    intro h
    have := ((Double.laws M).geOne hc).1 h
    linarith
  have hC : ((Fintype.card (Fin (2 ^ 52)) : Nat) : ℚ) = 2 ^ 52 := by rw [Fintype.card_fin]; norm_num
  have key := C79_single (f := (uniform52 : _ → Double M)) (row_wf_all hn) (by
      rw [row_bits]
      intro h
      have := congrArg List.length h
      simp at this
      omega) hE row_valid (fun S' h => by rw [row_unique h]; exact List.forall₂_same.2 fun _ _ => List.Perm.refl _) hg he hf hN d hs ht htimer hp
  rw [hC, uniform52_card hc h1, List.length_map, List.length_range] at key
  exact key

/-- 0.5 as a binary64 number. -/
noncomputable def half : Double M := uniform52 ⟨2 ^ 51, by norm_num⟩

theorem half_val : Double.val (half : Double M) (1 / 2) := by
  have := uniform52_val (M := M) ⟨2 ^ 51, by norm_num⟩
  have h : (((2 ^ 51 : Nat) : ℝ) / 2 ^ 52) = 1 / 2 := by norm_num
  simp only [h] at this
  exact this

theorem half_ceil : ((⌈(1 / 2 : ℝ) * 2 ^ 52⌉₊ : ℚ) / 2 ^ 52) = 1 / 2 := by
  have : (1 / 2 : ℝ) * 2 ^ 52 = ((2 ^ 51 : Nat) : ℝ) := by norm_num
  rw [this, Nat.ceil_natCast]
  norm_num

/-- `luckyEnv` with more fuel. -/
noncomputable def patientEnv (fuel : Nat) : Env (Double Libm.exact) Unit := { luckyEnv with fuel := fuel }

/-- The hypotheses are met: for a row of three qubits and the example in `python_lib` the probability is 1 / 8. -/
example : ∃ N fuel, (chance (Fin (2 ^ 52)) N fun ω => ∃ out,
    run ((patientEnv fuel).withNumbers uniform52 half (List.ofFn ω)) (row 3).graph (row 3).order
      { doSearch := true, probabilistic := some (fun _ _ _ _ _ _ _ => half, none) } = .ok (some out) ∧ out ≠ []) =
    1 / 8 := by
  obtain ⟨B, hB⟩ := C79_row (M := Libm.exact) (σ := Unit) (n := 3) (by decide) (by decide) half_val (by norm_num)
  refine ⟨B, B, ?_⟩
  rw [hB (patientEnv B) B half { doSearch := true, probabilistic := some (fun _ _ _ _ _ _ _ => half, none) } none luckyEnv_ok
    (Nat.le_refl _) (Nat.le_refl _) rfl (by decide) (Or.inl rfl) rfl, half_ceil]
  norm_num

/-- The star: a path that is as good as "all at once, the centre last" comes with a probability of at least 1 / 4, and
one of ten runs finds one with a probability of at least `1 - (3 / 4) ^ 10`. With the built-in function the
probability is positive at least. -/
example : ∃ N fuel,
    (1 / 4 ≤ chance (Fin (2 ^ 52)) N fun ω => ∃ out,
      run ((patientEnv fuel).withNumbers uniform52 half (List.ofFn ω)) star.graph star.order
        { doSearch := true, probabilistic := some (fun _ _ _ _ _ _ _ => half, none) } = .ok (some out) ∧
      ∃ p ∈ out, p.time ≤ 2 ∧ p.space ≤ star.peak [[1, 2, 3], [0]]) ∧
    (1 - (1 - 1 / 4) ^ 10 ≤ chance (Fin N → Fin (2 ^ 52)) 10 fun runs => ∃ k out,
      run ((patientEnv fuel).withNumbers uniform52 half (List.ofFn (runs k))) star.graph star.order
        { doSearch := true, probabilistic := some (fun _ _ _ _ _ _ _ => half, none) } = .ok (some out) ∧
      ∃ p ∈ out, p.time ≤ 2 ∧ p.space ≤ star.peak [[1, 2, 3], [0]]) ∧
    (0 < chance (Fin (2 ^ 52)) N fun ω => ∃ out,
      run ((patientEnv fuel).withNumbers uniform52 half (List.ofFn ω)) star.graph star.order
        { doSearch := true, probabilistic := some (AcceptFunc.builtinHeavyside.getAcceptFunc, none) } = .ok (some out) ∧
      ∃ p ∈ out, p.space ≤ star.peak [[1, 2, 3], [0]]) := by
  have : Nonempty (Fin (2 ^ 52)) := ⟨⟨0, by positivity⟩⟩
  obtain ⟨E, hE⟩ := C67_exists star_wf
  have hv : star.Valid [[1, 2, 3], [0]] := valid_of_check (by decide +kernel)
  refine ⟨2 * E.length + 1, 2 * E.length + 1, ?_, ?_, ?_⟩
  · have := (C79_custom (env := patientEnv (2 * E.length + 1)) (N := 2 * E.length + 1)
      (args := { doSearch := true, probabilistic := some (fun _ _ _ _ _ _ _ => half, none) }) star_wf (by decide) hE hv
      half_val (by norm_num) luckyEnv_ok (Nat.le_refl _) (Nat.le_refl _) half rfl (by decide) (Or.inl rfl) rfl).1
    rw [half_ceil] at this
    exact le_trans (by norm_num) this
  · have := C79_custom_repeat (env := patientEnv (2 * E.length + 1)) (N := 2 * E.length + 1)
      (args := { doSearch := true, probabilistic := some (fun _ _ _ _ _ _ _ => half, none) }) star_wf (by decide) hE hv
      half_val (by norm_num) luckyEnv_ok (Nat.le_refl _) (Nat.le_refl _) half rfl (by decide) (Or.inl rfl) rfl 10
    rw [half_ceil] at this
    exact le_trans (by norm_num) this
  · exact lt_of_lt_of_le (by positivity) (C79_builtin (env := patientEnv (2 * E.length + 1)) (N := 2 * E.length + 1)
      (args := { doSearch := true, probabilistic := some (AcceptFunc.builtinHeavyside.getAcceptFunc, none) }) star_wf
      (by decide) (by decide) hE hv luckyEnv_ok (Nat.le_refl _) (Nat.le_refl _) half rfl (by decide) (Or.inl rfl) rfl)

/-- The lower and the upper bound meet on a row. -/
example : ∃ E, Beginnings (row 3) E ∧ (row 3).Valid [[0], [1], [2]] ∧ FloatOps.geOne (half : Double Libm.exact) = false := by
  obtain ⟨E, hE⟩ := C67_exists (row_wf_all (n := 3) (by decide))
  refine ⟨E, hE, row_valid (n := 3), ?_⟩
  rw [Bool.eq_false_iff]
  intro h
  have := ((Double.laws Libm.exact).geOne half_val).1 h
  norm_num at this

end Row

end Verif
