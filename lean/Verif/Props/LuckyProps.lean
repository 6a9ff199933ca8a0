import Verif.Props.AcceptProps
import Verif.Proofs.Stuck
import Verif.Proofs.Binary64
/-!
# C76: what the approximate search can reach
-/

namespace Verif

open Spec Search Search.Threaded

variable {F σ : Type}

/-- **C76** An uninterrupted single-threaded probabilistic search returns a path that needs no more memory
than `S` if every question about a step of `S` (in the given order, the bits of a step in any order) is
answered so that the step is taken, as long as every path found so far needs more memory than `S`. The
answers to all other questions are arbitrary. -/
theorem C76_least [FloatOps F] {P : Problem} (hP : P.WF) (hb : P.bits ≠ []) {S : Schedule} (hS : P.Valid S)
    {accept : Accept F} {env : Env F σ} (he : env.OK)
    (hA : ∀ found p m q s, Asked P found p m q → List.Forall₂ List.Perm (p ++ [m]) (S.take (p.length + 1)) →
      P.peak S < q.minimal → FloatOps.geOne (q.ask accept) = true ∨
        FloatOps.lt (env.gen.sample s).1 (q.ask accept) = true)
    {args : Args F} {seed : Option Nat} (hs : args.doSearch = true) (ht : args.nthreads < 2)
    (htimer : args.timeout = none ∨ ∀ k, env.timer k = false)
    (hp : args.probabilistic = some (accept, seed)) {out : List Path}
    (h : run env P.graph P.order args = .ok (some out)) : ∃ p ∈ out, p.space ≤ P.peak S := by
  have hrun : run env P.graph P.order args = searchProb env.prof env.hashIter accept env.gen (env.seedRng seed)
      (fun k => args.timeout.isSome && env.timer k) env.fuel P.graph P.order := by
    rw [run, hs, Bool.not_true, if_neg (by simp), Verif.search.eq_def, if_pos ht, hp]
  rw [hrun] at h
  refine searchProb_kind (gen := env.gen) _ hP hb hS ?_ he (timer := fun k => args.timeout.isSome && env.timer k) ?_ h
  · intro found p m q rng hq hE hlt
    refine hA found p m q rng hq ?_ hlt
    have : Extends (p ++ [m]) S := hE
    unfold Extends at this
    rwa [List.length_append] at this
  · intro j
    rcases htimer with h | h <;> simp [h]

/-- The luckiest random numbers: every sample is 0, and the exact functions. -/
noncomputable def luckyEnv : Env (Double Libm.exact) Unit where
  prof := .release
  hashIter := id
  timer := fun _ => false
  seedRng := fun _ => ()
  gen := ⟨fun _ => (FloatArith.zero, ())⟩
  drawSeed := fun s => (0, s)
  moves := []
  fuel := searchBound 49

theorem luckyEnv_ok : luckyEnv.OK := fun _ => List.Perm.refl _

theorem luckyEnv_zero (s : Unit) : Double.val (luckyEnv.gen.sample s).1 0 := (Double.laws Libm.exact).zero

section Arithmetic
variable {M : Libm}

theorem Asked.minimal_le {P : Problem} {found : MappedPaths} {p : Schedule} {m : List Nat}
    {q : Query} (h : Asked P found p m q) : q.minimal = usizeMax ∨ q.minimal ≤ P.n := by
  rcases h.minimal.mem with h1 | ⟨t', S, _, h1⟩
  · exact Or.inl h1.1
  · exact Or.inr ((h.found _ _ _ h1).2.2 ▸ peak_le_n _ _)

/-- A bit that is measured in a step is in memory during the step but not after it. -/
theorem held_lt_peak {P : Problem} (hP : P.WF) {p rest : Schedule} {m : List Nat} (hm : m ≠ [])
    (hv : P.Valid (p ++ m :: rest)) : P.held (p ++ [m]) < P.peak (p ++ [m]) := by
  refine Nat.lt_of_lt_of_le ?_ (memAt_le_peak P (p ++ [m]) p.length (by simp))
  obtain ⟨b, hb⟩ := List.exists_mem_of_ne_nil m hm
  have hpre := prefix_take (hv.prefix hP.bits_nodup) (p.length + 1)
  rw [take_succ_of_getElem? (show (p ++ m :: rest)[p.length]? = some m by simp), List.take_left] at hpre
  obtain ⟨_, _, _, hr⟩ := prefix_of_snoc hpre
  have r := hr b hb
  have e1 : (p ++ [m]).take (p.length + 1) = p ++ [m] := List.take_of_length_le (by simp)
  have e2 : (p ++ [m]).take p.length = p := by simp
  have hbm : b ∈ (p ++ [m]).flatten := by simp [hb]
  unfold Problem.held Problem.memAt
  have : (b :: (List.range P.n).filter fun v => !(p ++ [m]).flatten.contains v &&
      (p ++ [m]).flatten.any fun u => (P.nbrs u).contains v).Subperm
      ((List.range P.n).filter (P.inMemory (p ++ [m]) p.length)) := by
    refine List.Nodup.subperm (List.nodup_cons.2 ⟨?_, List.nodup_range.filter _⟩) ?_
    · rw [List.mem_filter]
      rintro ⟨_, h⟩
      rw [Bool.and_eq_true, Bool.not_eq_true', ← Bool.not_eq_true, List.contains_iff_mem] at h
      exact h.1 hbm
    · intro v hv
      rw [List.mem_cons] at hv
      rcases hv with rfl | hv
      · refine List.mem_filter.2 ⟨List.mem_range.2 (hP.bits_lt v r.bit), ?_⟩
        simp only [Problem.inMemory, e1, e2, Bool.and_eq_true, Bool.or_eq_true, List.contains_iff_mem, Bool.not_eq_true',
          ← Bool.not_eq_true]
        exact ⟨Or.inl hbm, r.fresh⟩
      · obtain ⟨h1, h2⟩ := List.mem_filter.1 hv
        refine List.mem_filter.2 ⟨h1, ?_⟩
        simp only [Bool.and_eq_true, Bool.not_eq_true'] at h2
        have h3 : p.flatten.contains v = false := by
          have h1 := h2.1
          rw [← Bool.not_eq_true, List.contains_iff_mem] at h1 ⊢
          exact fun hv => h1 (by rw [List.flatten_append]; exact List.mem_append_left _ hv)
        simp only [Problem.inMemory, e1, e2, h2.2, h3, Bool.or_true, Bool.not_false, Bool.and_self]
  exact this.length_le

/-- If some bits are blocked then some other one can be measured. -/
theorem blocked_bound {P : Problem} (hP : P.WF) {p : Schedule} (h : Prefix P p) (h0 : P.blocked p ≠ 0) :
    P.blocked p + p.flatten.length + 1 ≤ P.n := by
  unfold Problem.blocked at h0 ⊢
  obtain ⟨e, he⟩ := List.exists_mem_of_length_pos (Nat.pos_of_ne_zero h0)
  obtain ⟨he1, he2⟩ := List.mem_filter.1 he
  obtain ⟨d, hd, hd'⟩ := List.any_eq_true.1 he2
  rw [Bool.not_eq_true', ← Bool.not_eq_true, List.contains_iff_mem] at hd'
  have hblk : ∀ b, b ∈ ((P.entries.filter fun e => e.2.any fun d => !p.flatten.contains d).map (·.1)) →
      ∃ d, P.Needs b d ∧ d ∉ p.flatten := by
    intro b hb
    obtain ⟨e, he, rfl⟩ := List.mem_map.1 hb
    obtain ⟨he1, he2⟩ := List.mem_filter.1 he
    obtain ⟨d, hd, hd'⟩ := List.any_eq_true.1 he2
    rw [Bool.not_eq_true', ← Bool.not_eq_true, List.contains_iff_mem] at hd'
    exact ⟨d, ⟨e.2, he1, hd⟩, hd'⟩
  have hen : e.1 ∉ p.flatten := by
    intro hm
    obtain ⟨s, hs, hes⟩ := List.mem_flatten.1 hm
    obtain ⟨i, hi⟩ := List.getElem?_of_mem hs
    obtain ⟨j, s', _, hs', hds⟩ := h.deps i s hi e.1 hes d ⟨e.2, he1, hd⟩
    exact hd' (List.mem_flatten.2 ⟨s', List.mem_of_getElem? hs', hds⟩)
  obtain ⟨r, hr⟩ := exists_ready hP p.flatten (List.mem_map.2 ⟨e, he1, rfl⟩) hen
  have hsub : (r :: (p.flatten ++ (P.entries.filter fun e => e.2.any fun d => !p.flatten.contains d).map (·.1))).Subperm
      P.bits := by
    refine List.Nodup.subperm (List.nodup_cons.2 ⟨?_, List.nodup_append'.2 ⟨h.nodup, ?_, ?_⟩⟩) ?_
    · rw [List.mem_append]
      rintro (h1 | h1)
      · exact hr.fresh h1
      · obtain ⟨d, hd, hd'⟩ := hblk r h1
        exact hd' (hr.deps d hd)
    · exact hP.bits_nodup.sublist (List.Sublist.map _ List.filter_sublist)
    · intro b h1 h2
      obtain ⟨d, hd, hd'⟩ := hblk b h2
      obtain ⟨s, hs, hes⟩ := List.mem_flatten.1 h1
      obtain ⟨i, hi⟩ := List.getElem?_of_mem hs
      obtain ⟨j, s', _, hs', hds⟩ := h.deps i s hi b hes d hd
      exact hd' (List.mem_flatten.2 ⟨s', List.mem_of_getElem? hs', hds⟩)
    · intro b hb
      rcases List.mem_cons.1 hb with rfl | hb
      · exact hr.bit
      rcases List.mem_append.1 hb with hb | hb
      · exact h.sub b hb
      · obtain ⟨e, he, rfl⟩ := List.mem_map.1 hb
        exact List.mem_map.2 ⟨e, (List.mem_filter.1 he).1, rfl⟩
  have h1 := hsub.length_le
  have h2 : P.bits.length ≤ P.n := by
    have : P.bits.Subperm (List.range P.n) :=
      List.Nodup.subperm hP.bits_nodup fun b hb => List.mem_range.2 (hP.bits_lt b hb)
    simpa using this.length_le
  simp only [List.length_cons, List.length_append, List.length_map] at h1
  omega

/-- The steps so far of a question. -/
theorem Asked.prefix {P : Problem} (hP : P.WF) {found : MappedPaths} {p : Schedule} {m : List Nat} {q : Query}
    (h : Asked P found p m q) : Prefix P (p ++ [m]) := by
  obtain ⟨rest, hv⟩ := h.starts
  have hpre := prefix_take (hv.prefix hP.bits_nodup) (p.length + 1)
  rwa [take_succ_of_getElem? (show (p ++ m :: rest)[p.length]? = some m by simp), List.take_left] at hpre

theorem length_le_flatten : ∀ {p : Schedule}, (∀ s ∈ p, s ≠ []) → p.length ≤ p.flatten.length
  | [], _ => Nat.le_refl _
  | s :: p, h => by
    have h1 := length_le_flatten (p := p) fun s hs => h s (List.mem_cons_of_mem _ hs)
    have h2 := List.length_pos_iff.2 (h s (List.mem_cons_self ..))
    simp only [List.flatten_cons, List.length_append, List.length_cons]
    omega

/-- How many bits can be blocked after a step. -/
theorem Asked.remaining_bound {P : Problem} (hP : P.WF) {found : MappedPaths} {p : Schedule} {m : List Nat} {q : Query}
    (h : Asked P found p m q) : q.remaining = 0 ∨ q.remaining + p.length + 2 ≤ P.n := by
  rcases Nat.eq_zero_or_pos q.remaining with h0 | h0
  · exact Or.inl h0
  · right
    have hpre := h.prefix hP
    have h1 := blocked_bound hP hpre (by rw [← h.remaining]; omega)
    have h2 := length_le_flatten hpre.nonempty
    rw [← h.remaining] at h1
    simp only [List.length_append, List.length_cons, List.length_nil] at h2
    omega

/-- **C76** The answer of the built-in function is positive if the memory held after the step and the peak before it are
below the least memory found so far and not too many bits are blocked: with `d` the difference and `rem` the number of
blocked bits, `n rem ≤ 680 d³ (n - rem)`, or `d = 1` and `n rem ≤ 738 (n - rem)`. Then `f64::exp` does not
underflow. (`M` is any `f64::exp` and `f64::powi` with the accuracy of Proofs/Binary64.lean.) -/
theorem C76_positive {P : Problem} (hP : P.WF) (hn : P.n ≤ 2 ^ 53) {found : MappedPaths} {p : Schedule} {m : List Nat}
    {q : Query} (hq : Asked P found p m q) (hlt : max q.cur q.lastMax < q.minimal)
    (hu : P.n * q.remaining ≤ 680 * (q.minimal - max q.cur q.lastMax) ^ 3 * (P.n - q.remaining) ∨
      (q.minimal - max q.cur q.lastMax = 1 ∧ P.n * q.remaining ≤ 738 * (P.n - q.remaining))) :
    FloatOps.geOne (q.ask (AcceptFunc.builtinHeavyside : AcceptFunc (Double M)).getAcceptFunc) = true ∨
    ∃ r : ℝ, 0 < r ∧ Double.val (q.ask (AcceptFunc.builtinHeavyside : AcceptFunc (Double M)).getAcceptFunc) r := by
  have h1 := hq.remaining_lt hP
  rcases hq.minimal_le with h2 | h2
  · left
    show FloatOps.geOne (q.ask (builtinHeavyside : Accept (Double M))) = true
    unfold Query.ask
    rw [h2, hq.total]
    exact builtin_unknown (Double.laws M) _ _ (by omega) (by rw [hq.lastMax]; exact peak_le_n _ _)
      (by rw [hq.cur]; exact held_le _ _) h1
  · right
    have := Double.builtin_pos (M := M) (FloatOps.ofUsize q.bound) (FloatOps.ofUsize q.lastCur) hn h1 hlt (by omega) hu
    rw [← hq.total] at this
    exact this

/-- With at most 48 nodes the answer to a question about a step of a schedule that needs less memory than everything found
is positive. -/
theorem Asked.builtin_pos {P : Problem} (hP : P.WF) (hn : P.n ≤ 48) {found : MappedPaths} {p : Schedule} {m : List Nat}
    {q : Query} (hq : Asked P found p m q) {S : Schedule} (hE' : Extends (p ++ [m]) S) (hlt : P.peak S < q.minimal) :
    FloatOps.geOne (q.ask (AcceptFunc.builtinHeavyside : AcceptFunc (Double M)).getAcceptFunc) = true ∨
    ∃ r : ℝ, 0 < r ∧ Double.val (q.ask (AcceptFunc.builtinHeavyside : AcceptFunc (Double M)).getAcceptFunc) r := by
  have h1 : P.peak (p ++ [m]) ≤ P.peak S := hE'.peak_le
  obtain ⟨rest, hv⟩ := hq.starts
  have h2 := held_lt_peak hP hq.step hv
  have h3 : P.peak p ≤ P.peak (p ++ [m]) := peak_le_append P p [m]
  have hlt' : max q.cur q.lastMax < q.minimal := by rw [hq.cur, hq.lastMax]; omega
  have h6 := hq.remaining_lt hP
  have h7 := hq.remaining_bound hP
  have hu : P.n * q.remaining ≤ 680 * (q.minimal - max q.cur q.lastMax) ^ 3 * (P.n - q.remaining) ∨
      (q.minimal - max q.cur q.lastMax = 1 ∧ P.n * q.remaining ≤ 738 * (P.n - q.remaining)) := by
    rcases h7 with h7 | h7
    · exact Or.inl (by rw [h7]; omega)
    by_cases hd : q.minimal - max q.cur q.lastMax = 1
    · refine Or.inr ⟨hd, ?_⟩
      have hp0 : p ≠ [] := by
        rintro rfl
        have : q.lastMax = 0 := by rw [hq.lastMax]; rfl
        have := hq.cur
        omega
      have := List.length_pos_iff.2 hp0
      calc P.n * q.remaining ≤ 48 * 45 := Nat.mul_le_mul hn (by omega)
        _ ≤ 738 * 3 := by decide
        _ ≤ 738 * (P.n - q.remaining) := Nat.mul_le_mul_left _ (by omega)
    · left
      calc P.n * q.remaining ≤ 48 * 46 := Nat.mul_le_mul hn (by omega)
        _ ≤ 680 * 2 ^ 3 * 1 := by decide
        _ ≤ 680 * (q.minimal - max q.cur q.lastMax) ^ 3 * (P.n - q.remaining) :=
          Nat.mul_le_mul (Nat.mul_le_mul_left _ (Nat.pow_le_pow_left (by omega) 3)) (by omega)
  exact C76_positive (M := M) hP (by omega) hq hlt' hu

/-- **C76** So with the luckiest random numbers an uninterrupted single-threaded search with the built-in
function finds the least memory of all schedules, for every problem with at most 48 nodes (`results` goes
up to 45). -/
theorem C76_builtin {P : Problem} (hP : P.WF) (hb : P.bits ≠ []) (hn : P.n ≤ 48) {env : Env (Double M) σ} (he : env.OK)
    (hz : ∀ s, Double.val (env.gen.sample s).1 0) {args : Args (Double M)} {seed : Option Nat}
    (hs : args.doSearch = true) (ht : args.nthreads < 2) (htimer : args.timeout = none ∨ ∀ k, env.timer k = false)
    (hp : args.probabilistic = some (AcceptFunc.builtinHeavyside.getAcceptFunc, seed)) {out : List Path}
    (h : run env P.graph P.order args = .ok (some out)) {S : Schedule} (hS : P.Valid S) :
    ∃ p ∈ out, p.space ≤ P.peak S := by
  refine C76_least hP hb hS he ?_ hs ht htimer hp h
  intro found p m q s hq hE hlt
  have hE' : Extends (p ++ [m]) S := by unfold Extends; rw [List.length_append]; exact hE
  rcases hq.builtin_pos (M := M) hP hn hE' hlt with h4 | ⟨r, h4, h5⟩
  · exact Or.inl h4
  · exact Or.inr (((Double.laws M).lt (hz s) h5).2 h4)

/-- The hypotheses are met on the star: there is a result, and it contains a path with the least memory. -/
example : ∃ out, run luckyEnv Example.star.graph Example.star.order
      { doSearch := true, probabilistic := some (AcceptFunc.builtinHeavyside.getAcceptFunc, none) } = .ok (some out) ∧
    ∀ S, Example.star.Valid S → ∃ p ∈ out, p.space ≤ Example.star.peak S := by
  obtain ⟨out, h⟩ := (C32_finds (Double.laws Libm.exact) Example.star_wf (by decide) (by decide) luckyEnv_ok
    (args := { doSearch := true, probabilistic := some (AcceptFunc.builtinHeavyside.getAcceptFunc, none) })
    rfl (by decide) (Or.inl rfl) rfl).1 (by decide +kernel)
  exact ⟨out, h, fun S hS => C76_builtin Example.star_wf (by decide) (by decide) luckyEnv_ok luckyEnv_zero rfl (by decide)
    (Or.inl rfl) rfl h hS⟩

/-- A question to which `C76_positive` applies. -/
example : ∃ found p m q, Asked Example.star found p m q ∧ max q.cur q.lastMax < q.minimal ∧ q.minimal ≠ usizeMax ∧
    Example.star.n * q.remaining ≤ 680 * (q.minimal - max q.cur q.lastMax) ^ 3 * (Example.star.n - q.remaining) :=
  ⟨_, _, _, _, star_asked, by decide, by decide, by decide⟩

/-- **C76** For larger problems the exponential underflows: if `810 d³ (n - rem) ≤ n rem`, or `d = 1` and
`749 (n - rem) ≤ n rem`, where `d` is how much the peak before the step and the memory after it are below the
least memory found so far and `rem` is the number of blocked bits, the answer is exactly 0 and the step is
rejected for every random number. -/
theorem C76_underflow {P : Problem} (hP : P.WF) (hn : P.n ≤ 2 ^ 53) {found : MappedPaths} {p : Schedule} {m : List Nat}
    {q : Query} (hq : Asked P found p m q) (hlt : max q.cur q.lastMax < q.minimal)
    (hu : 810 * (q.minimal - max q.cur q.lastMax) ^ 3 * (P.n - q.remaining) ≤ P.n * q.remaining ∨
      (q.minimal - max q.cur q.lastMax = 1 ∧ 749 * (P.n - q.remaining) ≤ P.n * q.remaining))
    {sample : Double M} {r : ℝ} (hr : sample.val r) (h0 : 0 ≤ r) :
    Double.val (q.ask (AcceptFunc.builtinHeavyside : AcceptFunc (Double M)).getAcceptFunc) 0 ∧
    FloatOps.geOne (q.ask (AcceptFunc.builtinHeavyside : AcceptFunc (Double M)).getAcceptFunc) = false ∧
    FloatOps.lt sample (q.ask (AcceptFunc.builtinHeavyside : AcceptFunc (Double M)).getAcceptFunc) = false := by
  have h1 := hq.remaining_lt hP
  have h2 : q.minimal ≤ P.n := by
    refine hq.minimal_le.resolve_left fun h2 => ?_
    have h3 : q.lastMax ≤ P.n := by rw [hq.lastMax]; exact peak_le_n _ _
    have h4 : q.cur ≤ P.n := by rw [hq.cur]; exact held_le _ _
    have h5 : 2 ^ 53 ≤ q.minimal - max q.cur q.lastMax := by
      have : 2 ^ 54 ≤ usizeMax := by decide
      omega
    have hu := hu.resolve_right (by omega)
    have h6 : (2 ^ 53) ^ 3 ≤ (q.minimal - max q.cur q.lastMax) ^ 3 := Nat.pow_le_pow_left h5 3
    have h7 : P.n * q.remaining ≤ 2 ^ 53 * 2 ^ 53 := Nat.mul_le_mul hn (by omega)
    have h8 : 810 * (q.minimal - max q.cur q.lastMax) ^ 3 * 1 ≤
        810 * (q.minimal - max q.cur q.lastMax) ^ 3 * (P.n - q.remaining) := Nat.mul_le_mul_left _ (by omega)
    omega
  have key : Double.val (q.ask (AcceptFunc.builtinHeavyside : AcceptFunc (Double M)).getAcceptFunc) 0 := by
    have := Double.builtin_underflow (M := M) (FloatOps.ofUsize q.bound) (FloatOps.ofUsize q.lastCur) hn h1 hlt
      (by omega) hu
    rw [← hq.total] at this
    exact this
  refine ⟨key, ?_, ?_⟩
  · rw [Bool.eq_false_iff]
    intro h
    have := ((Double.laws M).geOne key).1 h
    linarith
  · rw [Bool.eq_false_iff]
    intro h
    have := ((Double.laws M).lt hr key).1 h
    linarith

/-- **C32** `C32_equal` for all of `f64`: a step that would merely equal the least memory found so far is never
taken. -/
theorem C32_equal_binary64 {n minimal lastMax cur rem : Nat} (bound lastCur : Double M)
    (hn : n ≤ 2 ^ 53) (hr : rem < n) (h2 : max cur lastMax = minimal) (h3 : minimal ≤ 2 ^ 53)
    {sample : Double M} {r : ℝ} (hs : sample.val r) (h0 : 0 ≤ r) :
    let a := (AcceptFunc.builtinHeavyside : AcceptFunc (Double M)).getAcceptFunc bound
      (FloatOps.ofUsize minimal) (FloatOps.ofUsize lastMax) lastCur
      (FloatOps.ofUsize cur) (FloatOps.ofUsize rem) (FloatOps.ofUsize n)
    (rem = 0 → a = Double.nan M) ∧ (rem ≠ 0 → a.val 0) ∧ FloatOps.geOne a = false ∧ FloatOps.lt sample a = false := by
  intro a
  obtain ⟨h4, h5⟩ : (rem = 0 → a = Double.nan M) ∧ (rem ≠ 0 → a.val 0) :=
    Double.builtin_equal bound lastCur hn hr h2 h3
  refine ⟨h4, h5, ?_⟩
  by_cases h : rem = 0
  · rw [h4 h]
    refine ⟨rfl, ?_⟩
    show B64.ltb sample B64.nan = false
    cases sample <;> rfl
  · have h6 := h5 h
    constructor
    · rw [Bool.eq_false_iff]
      intro h
      have := ((Double.laws M).geOne h6).1 h
      linarith
    · rw [Bool.eq_false_iff]
      intro h
      have := ((Double.laws M).lt hs h6).1 h
      linarith

/-- **C32** `C32_free` for all of `f64`: if no bit is blocked, every step after which less memory is held than
the best path needs is accepted with certainty. -/
theorem C32_free_binary64 {n minimal lastMax cur : Nat} (bound lastCur : Double M)
    (hn : n ≤ 2 ^ 53) (h1 : 1 ≤ n) (h2 : max cur lastMax < minimal) (h3 : minimal ≤ 2 ^ 53) :
    FloatOps.geOne ((AcceptFunc.builtinHeavyside : AcceptFunc (Double M)).getAcceptFunc bound
      (FloatOps.ofUsize minimal) (FloatOps.ofUsize lastMax) lastCur
      (FloatOps.ofUsize cur) (FloatOps.ofUsize 0) (FloatOps.ofUsize n)) = true :=
  Double.builtin_free bound lastCur hn h1 h2 h3

/-- **C76** Which answers of an accept function are a yes, for all of `f64`: if the random number is `s`, from 0 to less than 1,
the step is taken exactly if the answer is plus infinity or a number greater than `s`. NaN, minus infinity, the two zeros and
negative numbers are a no. -/
theorem C76_yes {sample answer : Double M} {s : ℝ} (hs : sample.val s) (h1 : s < 1) :
    (FloatOps.geOne answer = true ∨ FloatOps.lt sample answer = true) ↔
      answer = B64.inf false ∨ ∃ a, answer.val a ∧ s < a := by
  have e1 : FloatOps.geOne answer = B64.geOne answer := rfl
  have e2 : FloatOps.lt sample answer = B64.ltb sample answer := rfl
  have hr : ∀ a : ℝ, (1 ≤ a ∨ s < a) ↔ s < a :=
    fun a => ⟨fun h => h.elim (fun h => lt_of_lt_of_le h1 h) id, Or.inr⟩
  rw [e1, e2]
  change B64.val sample s at hs
  have hv : ∀ a, Double.val answer a ↔ B64.val answer a := fun _ => Iff.rfl
  simp only [hv]
  cases sample with
  | nan => exact hs.elim
  | inf t => exact hs.elim
  | negZero =>
    cases hs
    cases answer <;> simp [B64.geOne, B64.ltb, B64.toReal, B64.val, hr]
    exact ⟨fun h => congrArg B64.inf h, fun h => B64.inf.inj h⟩
  | fin x hx =>
    cases hs
    cases answer <;> simp [B64.geOne, B64.ltb, B64.toReal, B64.val, hr]
    exact ⟨fun h => congrArg B64.inf h, fun h => B64.inf.inj h⟩

-- the random number 0: minus infinity is a no, plus infinity a yes
example {zero bad good : Double M} (hz : zero = B64.zero false) (hb : bad = B64.inf true) (hg : good = B64.inf false) :
    ¬ (FloatOps.geOne bad = true ∨ FloatOps.lt zero bad = true) ∧
      (FloatOps.geOne good = true ∨ FloatOps.lt zero good = true) := by
  have h0 : zero.val 0 := by rw [hz]; exact (rfl : (0 : ℝ) = 0)
  rw [C76_yes h0 one_pos, C76_yes h0 one_pos]
  refine ⟨?_, Or.inl hg⟩
  rintro (h | ⟨a, h, _⟩)
  · exact absurd (B64.inf.inj (hb.symm.trans h)) (by decide)
  · rw [hb] at h
    exact h

/-- **C76** With the luckiest random numbers, and at most 39 nodes, the step is taken exactly if the memory held
after it and the peak before it are below the least memory found so far. -/
theorem C76_decision {P : Problem} (hP : P.WF) (hn : P.n ≤ 39) {found : MappedPaths} {p : Schedule} {m : List Nat}
    {q : Query} (hq : Asked P found p m q) {sample : Double M} (hz : sample.val 0) :
    (FloatOps.geOne (q.ask (AcceptFunc.builtinHeavyside : AcceptFunc (Double M)).getAcceptFunc) = true ∨
      FloatOps.lt sample (q.ask (AcceptFunc.builtinHeavyside : AcceptFunc (Double M)).getAcceptFunc) = true) ↔
    max (P.held (p ++ [m])) (P.peak p) < q.minimal := by
  rw [← hq.cur, ← hq.lastMax]
  have h1 := hq.remaining_lt hP
  have h3 : q.lastMax ≤ P.n := by rw [hq.lastMax]; exact peak_le_n _ _
  have h4 : q.cur ≤ P.n := by rw [hq.cur]; exact held_le _ _
  constructor
  · intro h
    apply Classical.byContradiction
    intro hle
    have h2 : q.minimal ≤ P.n := by omega
    rcases Nat.lt_or_eq_of_le (Nat.le_of_not_lt hle) with hlt | heq
    · have := C32_zero (Double.laws M) (FloatOps.ofUsize q.bound) (FloatOps.ofUsize q.lastCur)
        (FloatOps.ofUsize q.remaining) (FloatOps.ofUsize q.total) hlt (by omega) hz (le_refl 0)
      obtain ⟨_, g1, g2⟩ := this
      rcases h with h | h
      · exact absurd (g1.symm.trans h) (by simp)
      · exact absurd (g2.symm.trans h) (by simp)
    · have := C32_equal_binary64 (M := M) (FloatOps.ofUsize q.bound) (FloatOps.ofUsize q.lastCur)
        (n := P.n) (by omega) h1 heq.symm (by omega) hz (le_refl 0)
      rw [← hq.total] at this
      obtain ⟨_, _, g1, g2⟩ := this
      rcases h with h | h
      · exact absurd (g1.symm.trans h) (by simp)
      · exact absurd (g2.symm.trans h) (by simp)
  · intro hlt
    have hu : P.n * q.remaining ≤ 680 * (q.minimal - max q.cur q.lastMax) ^ 3 * (P.n - q.remaining) ∨
        (q.minimal - max q.cur q.lastMax = 1 ∧ P.n * q.remaining ≤ 738 * (P.n - q.remaining)) := by
      rcases hq.remaining_bound hP with h7 | h7
      · exact Or.inl (by rw [h7]; omega)
      by_cases hd : q.minimal - max q.cur q.lastMax = 1
      · refine Or.inr ⟨hd, ?_⟩
        calc P.n * q.remaining ≤ 39 * 37 := Nat.mul_le_mul hn (by omega)
          _ ≤ 738 * 2 := by decide
          _ ≤ 738 * (P.n - q.remaining) := Nat.mul_le_mul_left _ (by omega)
      · left
        calc P.n * q.remaining ≤ 39 * 37 := Nat.mul_le_mul hn (by omega)
          _ ≤ 680 * 2 ^ 3 * 1 := by decide
          _ ≤ 680 * (q.minimal - max q.cur q.lastMax) ^ 3 * (P.n - q.remaining) :=
            Nat.mul_le_mul (Nat.mul_le_mul_left _ (Nat.pow_le_pow_left (by omega) 3)) (by omega)
    rcases C76_positive (M := M) hP (by omega) hq hlt hu with h | ⟨r, h5, h6⟩
    · exact Or.inl h
    · exact Or.inr (((Double.laws M).lt hz h6).2 h5)

end Arithmetic

/-! ## Not the whole front -/

/-- A toy float for the computation. -/
local instance luckyNat : FloatOps Nat := ⟨id, fun x => decide (1 ≤ x), fun x y => decide (x < y)⟩

/-- The search with the built-in function and the luckiest random numbers is the one that takes exactly the steps
below the least memory found so far. -/
theorem builtin_lucky {M : Libm} {P : Problem} (hP : P.WF) (hn : P.n ≤ 39) {env : Env (Double M) σ}
    (hz : ∀ s, Double.val (env.gen.sample s).1 0) {args : Args (Double M)} {seed : Option Nat}
    (hs : args.doSearch = true) (ht : args.nthreads < 2)
    (hp : args.probabilistic = some (AcceptFunc.builtinHeavyside.getAcceptFunc, seed)) :
    run env P.graph P.order args = searchProb env.prof env.hashIter
      (fun _ mi lm _ c _ _ => if max c lm < mi then 1 else 0 : Accept Nat) (⟨fun _ => (1, ())⟩ : Rng Nat Unit) ()
      (fun k => args.timeout.isSome && env.timer k) env.fuel P.graph P.order := by
  rw [run, hs, Bool.not_true, if_neg (by simp), Verif.search.eq_def, if_pos ht, hp]
  refine searchProb_takes hP ?_ _ _ _ _ _ _
  intro found p m q s _ hq
  refine (C76_decision hP hn hq (hz s)).trans ?_
  rw [← hq.cur, ← hq.lastMax]
  show _ ↔ decide (1 ≤ if max q.cur q.lastMax < q.minimal then 1 else 0) = true ∨
    decide (1 < if max q.cur q.lastMax < q.minimal then 1 else 0) = true
  split <;> simp_all

/-- A problem with four nodes. -/
def slip : Problem := ⟨[[2, 3], [], [0], [0]], [[(0, []), (1, [])], [(2, [0]), (3, [0])]]⟩

theorem slip_wf : slip.WF := Example.wf_of_check (by decide +kernel)

/-- **C76** But not the best path of every length: on this problem every uninterrupted search with the built-in
function and the luckiest random numbers returns two paths, one of 2 steps with 4 qubits and one of 3
steps with 3 qubits, although 2 steps with 3 qubits are possible. -/
theorem C76_front_refuted {M : Libm} {env : Env (Double M) σ} (he : env.OK)
    (hf : searchBound slip.bits.length ≤ env.fuel)
    (hz : ∀ s, Double.val (env.gen.sample s).1 0) {args : Args (Double M)} {seed : Option Nat}
    (hs : args.doSearch = true) (ht : args.nthreads < 2) (htimer : args.timeout = none)
    (hp : args.probabilistic = some (AcceptFunc.builtinHeavyside.getAcceptFunc, seed)) :
    (run env slip.graph slip.order args).map (·.map fun out => out.map fun p => (p.time, p.space)) =
      .ok (some [(2, 4), (3, 3)]) ∧
    slip.Valid [[0], [2, 3, 1]] ∧ slip.peak [[0], [2, 3, 1]] = 3 := by
  refine ⟨?_, Example.valid_of_check (by decide +kernel), by decide +kernel⟩
  rw [builtin_lucky slip_wf (by decide) hz hs ht hp, htimer]
  obtain ⟨out, h, _⟩ := searchProb_spec (fun _ mi lm _ c _ _ => if max c lm < mi then 1 else 0 : Accept Nat)
    (⟨fun _ => (1, ())⟩ : Rng Nat Unit) () slip_wf fun _ => false
  have h1 := h .debug id (searchBound slip.bits.length) (fun _ => List.Perm.refl _) (Nat.le_refl _)
  have h2 : (searchProb .debug id (fun _ mi lm _ c _ _ => if max c lm < mi then 1 else 0 : Accept Nat)
      (⟨fun _ => (1, ())⟩ : Rng Nat Unit) () (fun _ => false) (searchBound slip.bits.length) slip.graph slip.order).map
        (·.map fun out => out.map fun p => (p.time, p.space)) = .ok (some [(2, 4), (3, 3)]) := by decide +kernel
  rw [h1] at h2
  refine Eq.trans ?_ h2
  exact congrArg (Except.map (·.map fun out => out.map fun p => (p.time, p.space))) (h env.prof env.hashIter env.fuel he hf)

/-- There is such a search. -/
example : (run luckyEnv slip.graph slip.order
      { doSearch := true, probabilistic := some (AcceptFunc.builtinHeavyside.getAcceptFunc, none) }).map
        (·.map fun out => out.map fun p => (p.time, p.space)) = .ok (some [(2, 4), (3, 3)]) :=
  (C76_front_refuted luckyEnv_ok (by decide +kernel) luckyEnv_zero rfl (by decide) rfl rfl).1

/-! ## Out of reach -/

/-- A step needs at least the memory of the bits that it measures. -/
theorem step_le_memAt {P : Problem} (hP : P.WF) {S : Schedule} (hS : P.Valid S) {k : Nat} {s : List Nat}
    (hs : S[k]? = some s) : s.length ≤ P.memAt S k := by
  have hpre := prefix_take (hS.prefix hP.bits_nodup) (k + 1)
  rw [take_succ_of_getElem? hs] at hpre
  obtain ⟨_, _, hnd, hr⟩ := prefix_of_snoc hpre
  unfold Problem.memAt
  have : s.Subperm ((List.range P.n).filter (P.inMemory S k)) := by
    refine List.Nodup.subperm hnd fun b hb => List.mem_filter.2 ⟨List.mem_range.2 (hP.bits_lt b (hr b hb).bit), ?_⟩
    simp only [Problem.inMemory, take_succ_of_getElem? hs, List.flatten_append, Bool.and_eq_true, Bool.or_eq_true,
      List.contains_iff_mem, Bool.not_eq_true', ← Bool.not_eq_true]
    exact ⟨Or.inl (by simp [hb]), (hr b hb).fresh⟩
  exact this.length_le

/-- **C76** A gate: let `G` be the schedule that measures everything as early as possible (the first one that the
search meets) and `k` a number of steps after which it has needed `c` qubits. If, whenever the least memory
found so far is between `c` and that of `G`, every `k`-th step after which at most `c - 1` qubits have been needed
is turned down, then the search returns nothing below `c` qubits, with or without timeout. -/
theorem C76_gate [FloatOps F] {P : Problem} (hP : P.WF) (hb : P.bits ≠ []) {accept : Accept F} {env : Env F σ} (he : env.OK)
    (hbold : ∀ p m q, Asked P [] p m q → FloatOps.geOne (q.ask accept) = true)
    {G : Schedule} (hG : P.Valid G)
    (hg : ∀ i s, G[i]? = some s → ∀ b, b ∈ s ↔
      b ∈ P.bits ∧ b ∉ (G.take i).flatten ∧ ∀ d, P.Needs b d → d ∈ (G.take i).flatten)
    {c k : Nat} (hk : k ≤ G.length) (hc : c ≤ P.peak (G.take k))
    (hR : ∀ found p m q s, Asked P found p m q → p.length + 1 = k → P.peak (p ++ [m]) < c → c ≤ q.minimal →
      q.minimal ≤ P.peak G → FloatOps.geOne (q.ask accept) = false ∧
        FloatOps.lt (env.gen.sample s).1 (q.ask accept) = false)
    {args : Args F} {seed : Option Nat} (hs : args.doSearch = true) (ht : args.nthreads < 2)
    (hp : args.probabilistic = some (accept, seed)) {out : List Path}
    (h : run env P.graph P.order args = .ok (some out)) : ∀ p ∈ out, c ≤ p.space := by
  have hrun : run env P.graph P.order args = searchProb env.prof env.hashIter accept env.gen (env.seedRng seed)
      (fun k => args.timeout.isSome && env.timer k) env.fuel P.graph P.order := by
    rw [run, hs, Bool.not_true, if_neg (by simp), Verif.search.eq_def, if_pos ht, hp]
  rw [hrun] at h
  refine searchProb_shut (gen := env.gen) _ hP hb hbold hG ?_ hk hc ?_ he h
  · intro i s hi b
    exact ⟨fun r => (hg i s hi b).2 ⟨r.bit, r.fresh, r.deps⟩, fun hb =>
      let r := (hg i s hi b).1 hb; ⟨r.1, r.2.1, r.2.2⟩⟩
  · intro found p m q s hq h1 h2 h3 h4 ht
    obtain ⟨g1, g2⟩ := hR found p m q s hq h1 h2 h3 h4
    rcases ht with ht | ht
    · rw [g1] at ht; simp at ht
    · rw [g2] at ht; simp at ht

/-- Two bits that can be measured at once and a chain of 47 more, the first of which waits for both and each other
one for the one before; there are no edges. -/
def chain : Problem :=
  ⟨List.replicate 49 [], [(0, []), (1, [])] :: [(2, [0, 1])] :: (List.range 46).map fun i => [(i + 3, [i + 2])]⟩

/-- The schedule that measures everything as early as possible. -/
def chainGreedy : Schedule := [0, 1] :: (List.range 47).map fun i => [i + 2]

theorem chain_wf : chain.WF := Example.wf_of_check (by decide +kernel)

theorem chainGreedy_valid : chain.Valid chainGreedy := Example.valid_of_check (by decide +kernel)

/-- A checkable form. -/
def checkGreedy (P : Problem) (G : Schedule) : Bool :=
  (List.range G.length).all fun i => P.entries.all fun e =>
    ((G[i]?).getD []).contains e.1 == (!(G.take i).flatten.contains e.1 &&
      P.entries.all fun e' => !(e'.1 == e.1) || e'.2.all fun d => (G.take i).flatten.contains d)

theorem greedy_of_check {P : Problem} {G : Schedule} (hG : P.Valid G) (h : checkGreedy P G = true) :
    ∀ i s, G[i]? = some s → ∀ b, b ∈ s ↔
      b ∈ P.bits ∧ b ∉ (G.take i).flatten ∧ ∀ d, P.Needs b d → d ∈ (G.take i).flatten := by
  intro i s hi b
  simp only [checkGreedy, List.all_eq_true, List.mem_range, beq_iff_eq] at h
  have hlt := (List.getElem?_eq_some_iff.1 hi).1
  have key : b ∈ P.bits → (b ∈ s ↔ b ∉ (G.take i).flatten ∧ ∀ d, P.Needs b d → d ∈ (G.take i).flatten) := by
    intro hb
    obtain ⟨e, he, rfl⟩ := List.mem_map.1 hb
    have h1 := h i hlt e he
    rw [hi, Option.getD_some, Bool.eq_iff_iff, List.contains_iff_mem, Bool.and_eq_true, Bool.not_eq_true',
      ← Bool.not_eq_true, List.contains_iff_mem] at h1
    rw [h1]
    refine and_congr_right fun _ => ?_
    simp only [List.all_eq_true, Bool.or_eq_true, Bool.not_eq_true', beq_eq_false_iff_ne, List.contains_iff_mem]
    constructor
    · rintro h2 d ⟨ds, hds, hd⟩
      exact (h2 _ hds).resolve_left (fun h => h rfl) d hd
    · intro h2 e' he'
      by_cases h3 : e'.1 = e.1
      · exact Or.inr fun d hd => h2 d ⟨e'.2, by rw [← h3]; exact he', hd⟩
      · exact Or.inl h3
  constructor
  · intro hb
    have hbit : b ∈ P.bits := hG.perm.mem_iff.1 (List.mem_flatten.2 ⟨s, List.mem_of_getElem? hi, hb⟩)
    exact ⟨hbit, (key hbit).1 hb⟩
  · rintro ⟨h1, h2⟩
    exact (key h1).2 h2

theorem chain_greedy : checkGreedy chain chainGreedy = true := by decide +kernel

/-- What can be measured first. -/
theorem chain_first {b : Nat} (h : b ∈ chain.bits) (hd : ∀ d, ¬ chain.Needs b d) : b = 0 ∨ b = 1 := by
  have hall : ∀ e ∈ chain.entries, e.2 = [] → e.1 = 0 ∨ e.1 = 1 := by decide +kernel
  obtain ⟨e, he, rfl⟩ := List.mem_map.1 h
  refine hall e he (List.eq_nil_iff_forall_not_mem.2 fun d hd' => hd d ⟨e.2, he, hd'⟩)

/-- What can be measured after that. -/
theorem chain_second {a b : Nat} (ha : a = 0 ∨ a = 1) (h : b ∈ chain.bits) (hne : b ≠ a)
    (hd : ∀ d, chain.Needs b d → d = a) : [a, b] = [0, 1] ∨ [a, b] = [1, 0] := by
  have hall : ∀ e ∈ chain.entries, ∀ a ∈ [0, 1], e.1 ≠ a → (∀ d ∈ e.2, d = a) →
      [a, e.1] = [0, 1] ∨ [a, e.1] = [1, 0] := by decide +kernel
  obtain ⟨e, he, rfl⟩ := List.mem_map.1 h
  exact hall e he a (by simpa using ha) hne fun d hd' => hd d ⟨e.2, he, hd'⟩

/-- The second step of a schedule that needs one qubit so far. -/
theorem chain_asked {found : MappedPaths} {p : Schedule} {m : List Nat} {q : Query} (hq : Asked chain found p m q)
    (hp : p.length + 1 = 2) (hpk : chain.peak (p ++ [m]) < 2) :
    p ++ [m] = [[0], [1]] ∨ p ++ [m] = [[1], [0]] := by
  obtain ⟨rest, hv⟩ := hq.starts
  match p, hp with
  | [s], _ =>
    have hpre := prefix_take (hv.prefix chain_wf.bits_nodup) 2
    have e2 : ([s] ++ m :: rest).take 2 = [s] ++ [m] := by simp
    rw [e2] at hpre
    obtain ⟨hpre1, hmne, hmnd, hmr⟩ := prefix_of_snoc hpre
    obtain ⟨_, hsne, hsnd, hsr⟩ := prefix_of_snoc (p := []) (ms := s) (by simpa using hpre1)
    have hmem : ∀ {k : Nat} {t : List Nat}, ([s] ++ m :: rest)[k]? = some t → k < 2 → t.length ≤ 1 := by
      intro k t hk hk2
      have h1 := step_le_memAt chain_wf hv hk
      have h2 := memAt_le_peak chain ([s] ++ [m]) k (by simpa using hk2)
      have h3 : chain.memAt ([s] ++ m :: rest) k = chain.memAt ([s] ++ [m]) k := by
        rw [← e2]
        unfold Problem.memAt Problem.inMemory
        simp only [List.take_take, Nat.min_eq_left (show k + 1 ≤ 2 by omega), Nat.min_eq_left (show k ≤ 2 by omega)]
      omega
    have l1 := hmem (k := 0) (t := s) (by simp) (by omega)
    have l2 := hmem (k := 1) (t := m) (by simp) (by omega)
    obtain ⟨a, rfl⟩ : ∃ a, s = [a] := by
      match s, hsne, l1 with
      | [a], _, _ => exact ⟨a, rfl⟩
    obtain ⟨b, rfl⟩ : ∃ b, m = [b] := by
      match m, hmne, l2 with
      | [b], _, _ => exact ⟨b, rfl⟩
    have r1 := hsr a (by simp)
    have r2 := hmr b (by simp)
    have ha := chain_first r1.bit fun d hd => by have := r1.deps d hd; simp at this
    have := chain_second ha r2.bit (by have := r2.fresh; simpa using this)
      fun d hd => by have := r2.deps d hd; simpa using this
    simpa using this

/-- **C76** For more nodes the underflow closes the way: on this problem with 49 nodes one qubit is enough, but no
search with the built-in function returns a path with less than two, whatever the random numbers, the timeout and
the accuracy of `f64::exp` and `f64::powi` are. -/
theorem C76_chain_refuted {M : Libm} {env : Env (Double M) σ} (he : env.OK)
    (hz : ∀ s, ∃ r : ℝ, 0 ≤ r ∧ Double.val (env.gen.sample s).1 r) {args : Args (Double M)} {seed : Option Nat}
    (hs : args.doSearch = true) (ht : args.nthreads < 2)
    (hp : args.probabilistic = some (AcceptFunc.builtinHeavyside.getAcceptFunc, seed)) {out : List Path}
    (h : run env chain.graph chain.order args = .ok (some out)) :
    (∀ p ∈ out, 2 ≤ p.space) ∧ ∃ S, chain.Valid S ∧ chain.peak S = 1 := by
  refine ⟨?_, (List.range 49).map fun i => [i], Example.valid_of_check (by decide +kernel), by decide +kernel⟩
  refine C76_gate (k := 2) (G := chainGreedy) chain_wf (by decide +kernel) he ?_ chainGreedy_valid
    (greedy_of_check chainGreedy_valid chain_greedy) (by decide) (by decide +kernel) ?_ hs ht hp h
  · exact fun p m q hq => C32_unknown (Double.laws M) chain_wf (by decide +kernel) hq
  · intro found p m q s hq h1 h2 h3 h4
    have hpk : chain.peak chainGreedy = 2 := by decide +kernel
    have hmin : q.minimal = 2 := by omega
    obtain ⟨r, hr, hval⟩ := hz s
    have hn : chain.n = 49 := by decide +kernel
    have key : q.cur = 0 ∧ q.lastMax = 1 ∧ q.remaining = 46 := by
      rw [hq.cur, hq.lastMax, hq.remaining]
      have hcases := chain_asked hq h1 h2
      have hp : p = (p ++ [m]).dropLast := by simp
      have hp' : chain.peak p = chain.peak (p ++ [m]).dropLast := by rw [← hp]
      rw [hp']
      rcases hcases with h5 | h5 <;> rw [h5] <;> decide +kernel
    obtain ⟨k1, k2, k3⟩ := key
    have := C76_underflow (M := M) chain_wf (by rw [hn]; norm_num) hq (by rw [k1, k2, hmin]; decide) (Or.inr (by
      rw [k1, k2, k3, hmin, hn]; decide)) hval hr
    exact ⟨this.2.1, this.2.2⟩

/-- Such a search exists, and returns something. -/
example : ∃ out, run luckyEnv chain.graph chain.order
      { doSearch := true, probabilistic := some (AcceptFunc.builtinHeavyside.getAcceptFunc, none) } = .ok (some out) ∧
    out ≠ [] ∧ ∀ p ∈ out, 2 ≤ p.space := by
  have := C32_finds (Double.laws Libm.exact) chain_wf (by decide +kernel) (by decide +kernel) luckyEnv_ok
    (args := { doSearch := true, probabilistic := some (AcceptFunc.builtinHeavyside.getAcceptFunc, none) })
    rfl (by decide) (Or.inl rfl) rfl
  obtain ⟨out, h⟩ := this.1 (by decide +kernel)
  exact ⟨out, h, this.2 out h, (C76_chain_refuted luckyEnv_ok (fun s => ⟨0, le_refl 0, luckyEnv_zero s⟩) rfl (by decide) rfl h).1⟩

/-- A question whose answer underflows. -/
example : ∃ q, Asked chain [(48, 2, chainGreedy)] [[0]] [1] q ∧ max q.cur q.lastMax < q.minimal ∧
    q.minimal - max q.cur q.lastMax = 1 ∧ 749 * (chain.n - q.remaining) ≤ chain.n * q.remaining := by
  have hget : ∀ {t : Nat} {r : Nat × Schedule},
      AMap.get ([(48, 2, chainGreedy)] : MappedPaths) t = some r → t = 48 ∧ r = (2, chainGreedy) := by
    intro t r h
    rw [show ([(48, 2, chainGreedy)] : MappedPaths) = AMap.insert [] 48 (2, chainGreedy) from rfl, AMap.get_insert] at h
    split at h
    · rename_i h'; cases h; exact ⟨h', rfl⟩
    · cases h
  refine ⟨⟨usizeMax, 2, 1, 0, 0, 46, 49⟩, ⟨⟨?_, ?_⟩, ⟨?_, ?_⟩, by decide +kernel, by decide +kernel, by decide +kernel,
    by decide +kernel, by decide +kernel, ?_, by decide, by decide +kernel, ?_⟩, by decide, by decide, by decide +kernel⟩
  · intro t m S ht h
    obtain ⟨rfl, _⟩ := hget h
    exact absurd ht (by decide +kernel)
  · refine Or.inl ⟨rfl, fun t r ht h => ?_⟩
    obtain ⟨rfl, _⟩ := hget h
    exact absurd ht (by decide +kernel)
  · intro t m S ht h
    obtain ⟨_, h2⟩ := hget h
    cases h2
    exact Nat.le_refl 2
  · exact Or.inr ⟨48, chainGreedy, by decide +kernel, rfl⟩
  · exact ⟨(List.range 47).map fun i => [i + 2], Example.valid_of_check (by decide +kernel)⟩
  · intro t m S h
    obtain ⟨rfl, h2⟩ := hget h
    cases h2
    exact ⟨chainGreedy_valid, by decide +kernel, by decide +kernel⟩

end Verif
