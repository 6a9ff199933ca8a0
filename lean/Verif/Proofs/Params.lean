import Verif.Proofs.Stuck
import Verif.Proofs.Binary64
/-!
# The parametrised accept function while no path is known
-/

namespace Verif

open Spec Search

/-! ## A search that never completes a path -/

section
variable {F σ : Type} [FloatOps F] {accept : Accept F} {gen : Rng F σ} {P : Problem}

/-- As long as nothing is recorded the search stays among the paths with `X`. -/
theorem probIter_closed (hP : P.WF) {X : Schedule → Prop}
    (hX : ∀ p m q rng, X p → Asked P [] p m q → Takes accept gen rng q → X (p ++ [m]))
    (hno : ∀ S, S ≠ [] → P.Valid S → ¬ X S) {l l' : Loc} {rng rng' : σ} {prof : Profile}
    {stop : Bool} (hl : LInv P [] (best0 P) l) (hp : ∀ k, X (l.path.take k)) (hr : l.results = [])
    (h : probIter prof accept gen l rng = .ok (l', rng', stop)) :
    LInv P [] (best0 P) l' ∧ (∀ k, X (l'.path.take k)) ∧ l'.results = [] := by
  have hpush : l.path.length < l'.path.length → ∀ k, X (l'.path.take k) := by
    intro hlt k
    obtain ⟨m, q, hq, ht, e⟩ := probIter_push hP hl h hlt
    rw [hr] at hq
    rw [e]
    by_cases hk : k ≤ l.path.length
    · rw [List.take_append_of_le_length hk]; exact hp k
    · rw [List.take_of_length_le (by simp; omega)]
      have := hp l.path.length
      rw [List.take_length] at this
      exact hX _ _ _ _ this hq ht
  have hback : ∀ k, X (l.path.dropLast.take k) := by
    intro k
    rw [List.dropLast_eq_take, List.take_take]
    exact hp _
  obtain ⟨l1, rng1, stop1, e1, e2⟩ := probIter_spec accept gen rng hP.lax hl.ok
  rw [e1 prof] at h
  simp only [Except.ok.injEq, Prod.mk.injEq] at h
  obtain ⟨rfl, rfl, rfl⟩ := h
  have hl' := (e2.inv hl).1
  refine ⟨hl', ?_⟩
  cases e2 with
  | stop hst' hn hs hi => exact ⟨hp, hr⟩
  | backLeaf hst' hn hleaf hlen =>
    exfalso
    have hne : l.path ≠ [] := by
      have := hl.ok.chain
      rw [hst'] at this
      intro he
      rw [he] at this
      generalize hq : ([] : Schedule) = q at this
      cases this with
      | push => simp at hq
    have hv := hl'.sound l.path.length l.sweep.current.space.maxMemory l.path (by rw [AMap.get_insert, if_pos rfl])
    refine hno l.path hne ((maximal_iff hP).1 hv.1) ?_
    have := hp l.path.length
    rwa [List.take_length] at this
  | backInner hst' => exact ⟨hback, hr⟩
  | skip => exact ⟨hp, hr⟩
  | push => exact ⟨hpush (by simp), hr⟩

theorem probLoop_closed (hP : P.WF) {X : Schedule → Prop}
    (hX : ∀ p m q rng, X p → Asked P [] p m q → Takes accept gen rng q → X (p ++ [m]))
    (hno : ∀ S, S ≠ [] → P.Valid S → ¬ X S) {prof : Profile} {timer : Nat → Bool} :
    ∀ (fuel k : Nat) (l : Loc) (rng : σ) (l' : Loc) (rng' : σ), LInv P [] (best0 P) l → (∀ k, X (l.path.take k)) →
      l.results = [] → probLoop prof accept gen timer fuel k l rng = .ok (some (l', rng')) → l'.results = [] := by
  intro fuel
  induction fuel with
  | zero => intro k l rng l' rng' _ _ _ h; simp [probLoop, pure, Except.pure] at h
  | succ fuel ih =>
    intro k l rng l' rng' hl hp hr h
    obtain ⟨l1, rng1, stop, e1, _⟩ := probIter_spec accept gen rng hP.lax hl.ok
    obtain ⟨g1, g2, g3⟩ := probIter_closed hP hX hno hl hp hr (e1 prof)
    simp only [probLoop, e1 prof, bind, Except.bind, pure, Except.pure] at h
    split at h
    · simp only [Except.ok.injEq, Option.some.injEq, Prod.mk.injEq] at h
      rw [← h.1]; exact g3
    · split at h
      · simp only [Except.ok.injEq, Option.some.injEq, Prod.mk.injEq] at h
        rw [← h.1]; exact g3
      · exact ih _ _ _ _ _ g1 g2 g3 h

/-- If the steps that are taken lead from paths with `X` to such paths and no schedule has `X`, the search
returns nothing. -/
theorem searchProb_closed (rng : σ) (hP : P.WF) {X : Schedule → Prop} (h0 : X [])
    (hX : ∀ p m q rng, X p → Asked P [] p m q → Takes accept gen rng q → X (p ++ [m]))
    (hno : ∀ S, S ≠ [] → P.Valid S → ¬ X S) {prof : Profile}
    {hashIter : MappedPaths → MappedPaths} (hh : ∀ m, (hashIter m).Perm m) {timer : Nat → Bool} {fuel : Nat}
    {out : List Path} (h : searchProb prof hashIter accept gen rng timer fuel P.graph P.order = .ok (some out)) :
    out = [] := by
  obtain ⟨s, e1, e2, e3⟩ := mkScheduler_spec hP
  unfold searchProb at h
  rw [e1] at h
  simp only [bind, Except.bind] at h
  cases hd : doProbabilisticSearch prof accept gen timer fuel s P.graph.length rng with
  | error e => rw [hd] at h; simp at h
  | ok r =>
    rw [hd] at h
    cases r with
    | none => simp [pure, Except.pure] at h
    | some r =>
      obtain ⟨l', rng'⟩ := r
      simp only at h
      have hres := probLoop_closed hP hX hno fuel 0 _ rng l' rng' (init_inv e2 e3)
        (fun k => by show X (List.take k []); rw [List.take_nil]; exact h0) rfl hd
      obtain ⟨o, p1, p2⟩ := postprocess_spec hashIter hh P.graph.length l'.results
      rw [p1] at h
      simp only [pure, Except.pure, Except.ok.injEq, Option.some.injEq] at h
      subst h
      rw [hres] at p2
      apply List.eq_nil_iff_forall_not_mem.2
      intro p hp
      have := ((p2.mem p).1 hp).2.1
      simp [AMap.get_nil] at this

end

/-! ## The numbers -/

namespace Double
variable {M : Libm}

theorem large256 : (2 : ℝ) ^ 256 ≤ 2 ^ (1022 : ℤ) := by
  have : (2 : ℝ) ^ (256 : ℤ) ≤ 2 ^ (1022 : ℤ) := zpow_le_zpow_right₀ (by norm_num) (by norm_num)
  rwa [zpow_ofNat] at this

/-- A power of a positive number. -/
theorem powi_close {x : Double M} {v : ℝ} {k : Int} (hx : x.val v) (hk : |k| ≤ 2 ^ 31) (hv : 0 < v)
    (h1 : 1 / 2 ^ 256 ≤ v ^ k) (h2 : v ^ k ≤ 2 ^ 256) :
    ∃ r, Double.val (FloatArith.powi x k) r ∧ 15 / 16 * v ^ k ≤ r ∧ r ≤ 17 / 16 * v ^ k ∧ (v = 1 → r = 1) := by
  by_cases h : v = 1
  · subst h
    refine ⟨1, M.powi_base_one hx, ?_, ?_, fun _ => rfl⟩ <;> rw [one_zpow] <;> norm_num
  · have hp : 0 < v ^ k := zpow_pos hv k
    obtain ⟨r, r1, r2⟩ := M.powi_normal hx hk (by rw [abs_of_pos hp]; exact le_trans small_le h1)
      (by rw [abs_of_pos hp]; exact le_trans h2 large256)
    exact ⟨r, r1, (r2.pos hp.le).1, (r2.pos hp.le).2, fun h' => (h h').elim⟩

/-- The distance to the least memory while no path is known. -/
theorem unknown {n lastMax cur : Nat} (hn : n ≤ 2 ^ 53) (h1 : lastMax ≤ n) (h2 : cur ≤ n) :
    ∃ D : ℝ, Double.val (FloatArith.sub (FloatOps.ofUsize usizeMax) (FloatArith.fmax (FloatOps.ofUsize cur)
      (FloatOps.ofUsize lastMax)) : Double M) D ∧ 2 ^ 63 ≤ D ∧ D ≤ 2 ^ 65 := by
  have L := Double.laws M
  have c1 : (lastMax : ℝ) ≤ n := by exact_mod_cast h1
  have c2 : (cur : ℝ) ≤ n := by exact_mod_cast h2
  have c4 : (n : ℝ) ≤ 2 ^ 53 := by exact_mod_cast hn
  have p2 : (0 : ℝ) ≤ cur := Nat.cast_nonneg _
  have m1 : max (cur : ℝ) lastMax ≤ 2 ^ 53 := max_le (by linarith) (by linarith)
  have m2 : 0 ≤ max (cur : ℝ) lastMax := le_max_of_le_left p2
  have n1 : (2 : ℝ) ^ 64 - 2 ^ 53 ≥ 1 := by norm_num
  obtain ⟨D, e6, e7⟩ := L.sub L.ofUsize_max (L.fmax (L.ofUsize_small cur (by omega)) (L.ofUsize_small lastMax (by omega)))
    (inRange_of_pos
      (by
        have : (1 : ℝ) / 2 ^ 256 ≤ 1 := by norm_num
        linarith)
      (by
        have : (2 : ℝ) ^ 64 ≤ 2 ^ 256 := by norm_num
        linarith))
  have e8 := e7.pos (by linarith)
  refine ⟨D, e6, ?_, ?_⟩
  · have : 15 / 16 * ((2 : ℝ) ^ 64 - 2 ^ 53) ≥ 2 ^ 63 := by norm_num
    linarith
  · have : 17 / 16 * (2 : ℝ) ^ 64 ≤ 2 ^ 65 := by norm_num
    linarith

/-- The quotient in the exponent. -/
theorem quotient {x1 x2 x3 x4 : Double M} {u v w q : ℝ} (hx1 : x1.val u) (hx2 : x2.val v) (hx3 : x3.val w)
    (hx4 : x4.val q) (hw : 0 < w) (hq : 0 < q) (r1 : 1 / 2 ^ 250 ≤ u * v) (r1' : u * v ≤ 2 ^ 250)
    (r2 : 1 / 2 ^ 250 ≤ u * v / w) (r2' : u * v / w ≤ 2 ^ 250) (r3 : 1 / 2 ^ 250 ≤ u * v / w / q)
    (r3' : u * v / w / q ≤ 2 ^ 250) :
    ∃ y, Double.val (FloatArith.neg (FloatArith.div (FloatArith.div (FloatArith.mul x1 x2) x3) x4) : Double M) (-y) ∧
      0.99 * (u * v / w / q) ≤ y ∧ y ≤ 1.01 * (u * v / w / q) := by
  have n1 : (1 : ℝ) / 2 ^ 256 ≤ 0.99 * (1 / 2 ^ 250) := by norm_num
  have n2 : 1.01 * (2 : ℝ) ^ 250 ≤ 2 ^ 256 := by norm_num
  have n3 : (0 : ℝ) < 1 / 2 ^ 250 := by positivity
  have hR : ∀ t c : ℝ, 1 / 2 ^ 250 ≤ t → t ≤ 2 ^ 250 → 0.99 * t ≤ c → c ≤ 1.01 * t → InRange c := by
    intro t c h1 h2 h3 h4
    exact inRange_of_pos (by nlinarith) (by nlinarith)
  have huv : 0 < u * v := lt_of_lt_of_le n3 r1
  obtain ⟨a, a1, a2, a3⟩ := mul_near hx1 hx2 huv.le (hR _ _ r1 r1' (by linarith) (by linarith))
  have a0 : 0 < a := by nlinarith
  have k0 : 0 < u * v / w := by positivity
  have k1 : 0.999 * (u * v / w) ≤ a / w := by
    rw [← mul_div_assoc]; gcongr
  have k2 : a / w ≤ 1.001 * (u * v / w) := by
    rw [← mul_div_assoc]; gcongr
  obtain ⟨b, b1, b2, b3⟩ := div_near a1 hx3 hw.ne' (by positivity) (hR _ _ r2 r2' (by linarith) (by linarith))
  have b4 : 0.998 * (u * v / w) ≤ b := by nlinarith
  have b5 : b ≤ 1.0021 * (u * v / w) := by nlinarith
  have b0 : 0 < b := by nlinarith
  have k3 : 0.998 * (u * v / w / q) ≤ b / q := by
    rw [← mul_div_assoc]; gcongr
  have k4 : b / q ≤ 1.0021 * (u * v / w / q) := by
    rw [← mul_div_assoc]; gcongr
  have k5 : 0 < u * v / w / q := by positivity
  obtain ⟨c, c1, c2, c3⟩ := div_near b1 hx4 hq.ne' (by positivity) (hR _ _ r3 r3' (by linarith) (by linarith))
  exact ⟨c, B64.val_neg c1, by nlinarith, by nlinarith⟩

/-- The exponent vanishes if no bit is blocked. -/
theorem quotient_zero {x1 x3 x4 : Double M} {u w q : ℝ} {b : Nat} (hb : 0 < b) (hx1 : x1.val u) (hx3 : x3.val w)
    (hx4 : x4.val q) (hw : w ≠ 0) (hq : q ≠ 0) :
    Double.val (FloatArith.neg (FloatArith.div (FloatArith.div (FloatArith.mul x1
      (FloatArith.powi (FloatOps.ofUsize 0) (b : Int))) x3) x4) : Double M) 0 := by
  have L := Double.laws M
  have h0 : Double.val (FloatArith.powi (FloatOps.ofUsize 0 : Double M) (b : Int)) 0 := by
    have : (FloatOps.ofUsize 0 : Double M) = B64.zero false := by
      show B64.ofReal false ((0 : Nat) : ℝ) = _
      rw [Nat.cast_zero, B64.ofReal_zero]
    rw [this]
    show B64.val (M.powi (B64.zero false) b) 0
    rw [M.powi_base_zero hb]
    exact L.zero
  obtain ⟨a, a1, a2, _⟩ := L.mul hx1 h0 (Or.inl (by ring))
  rw [mul_zero] at a2
  have a3 := a2.zero
  subst a3
  obtain ⟨b, b1, b2⟩ := L.div a1 hx3 hw (Or.inl (by simp))
  rw [zero_div] at b2
  have b3 := b2.zero
  subst b3
  obtain ⟨c, c1, c2⟩ := L.div b1 hx4 hq (Or.inl (by simp))
  rw [zero_div] at c2
  have c3 := c2.zero
  subst c3
  simpa using L.neg c1

end Double
end Verif
