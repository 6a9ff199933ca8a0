import Verif.Model.Statistics
import Verif.Props.ResultsProps
/-!
# The layout of the output, and means of `f64`
-/

namespace Verif.Results

open Search Spec FloatArith FloatRoot FloatSum

section
variable {F σ τ : Type} [FloatSum F]

omit [FloatSum F] in
theorem pushRow_ok {rows : List (List F)} {i : Nat} (x : F) (h : i < rows.length) :
    pushRow rows i x = .ok (rows.set i (rows.getD i [] ++ [x])) := by
  simp [pushRow, idx, h, bind, Except.bind, pure, Except.pure]

/-- The number in row `j` of the output that belongs to the statistics `l`. -/
def entry (l : List (F × F)) (j : Nat) : Option F :=
  l[j / 2]?.map fun x => if j % 2 = 0 then x.1 else x.2

omit [FloatSum F] in
theorem pushStatistics_spec (l : List (F × F)) : ∀ (i : Nat) (rows : List (List F)),
    2 * (i + l.length) ≤ rows.length → ∃ rows', pushStatistics i l rows = .ok rows' ∧
      rows'.length = rows.length ∧
      ∀ j, rows'.getD j [] = rows.getD j [] ++ (if 2 * i ≤ j then entry l (j - 2 * i) else none).toList := by
  induction l with
  | nil =>
    intro i rows _
    refine ⟨rows, rfl, rfl, fun j => ?_⟩
    simp [entry]
  | cons x l ih =>
    intro i rows h
    obtain ⟨m, d⟩ := x
    simp only [List.length_cons] at h
    have e1 := pushRow_ok (rows := rows) (i := 2 * i) m (by omega)
    have e2 := pushRow_ok (rows := rows.set (2 * i) (rows.getD (2 * i) [] ++ [m])) (i := 2 * i + 1) d
      (by simp; omega)
    obtain ⟨rows', e3, h1, h2⟩ := ih (i + 1) ((rows.set (2 * i) (rows.getD (2 * i) [] ++ [m])).set
      (2 * i + 1) ((rows.set (2 * i) (rows.getD (2 * i) [] ++ [m])).getD (2 * i + 1) [] ++ [d]))
      (by simp; omega)
    refine ⟨rows', ?_, by simpa using h1, fun j => ?_⟩
    · simp only [pushStatistics, e1, e2, bind, Except.bind]
      exact e3
    · rw [h2 j, getD_set'', getD_set'', getD_set'']
      have l1 : 2 * i < rows.length := by omega
      have l2 : 2 * i + 1 < rows.length := by omega
      by_cases c1 : j = 2 * i
      · subst c1
        simp [l1, entry]
      · by_cases c2 : j = 2 * i + 1
        · subst c2
          simp [l2, entry, show ¬ 2 * (i + 1) ≤ 2 * i + 1 by omega]
        · have c1' : ¬ 2 * i = j := fun h => c1 h.symm
          have c2' : ¬ 2 * i + 1 = j := fun h => c2 h.symm
          simp only [c1', c2', false_and, if_false]
          by_cases c3 : 2 * (i + 1) ≤ j
          · have c4 : 2 * i ≤ j := by omega
            obtain ⟨k, rfl⟩ : ∃ k, j = 2 * (i + 1) + k := ⟨j - 2 * (i + 1), by omega⟩
            rw [if_pos c3, if_pos c4]
            have a1 : 2 * (i + 1) + k - 2 * (i + 1) = k := by omega
            have a2 : 2 * (i + 1) + k - 2 * i = k + 2 := by omega
            have a3 : (k + 2) / 2 = k / 2 + 1 := by omega
            have a4 : (k + 2) % 2 = k % 2 := by omega
            rw [a1, a2]
            simp only [entry, a3, a4, List.getElem?_cons_succ]
          · have c4 : ¬ 2 * i ≤ j := by omega
            rw [if_neg c3, if_neg c4]

/-- A point of a sweep that can be evaluated. -/
structure Point.OK (p : Point F τ) : Prop where
  size : p.size < 2 ^ 64 - 1
  edge : p.edge.Defined p.size
  correction : p.correction.Defined p.size
  shots : ∀ shot ∈ p.shots, shot.timeOptimal.OK ∧ shot.approx.OK ∧ shot.full.OK

/-- `d` are the instances and the numbers collected at a point. -/
structure Point.Data (p : Point F τ) (d : List Problem × List (List Nat)) : Prop where
  count : d.1.length = p.shots.length
  wf : ∀ P ∈ d.1, P.WF ∧ P.n = p.size ∧ P.bits.Perm (List.range p.size)
  collected : Collected p.size p.getFull d.1 d.2

theorem sweepLoop_spec (rand : Rand F σ) (hr : rand.OK)
    {induced : List (List Bool) → List Nat → OrderGraph}
    (hi : ∀ size frames map, Causal size frames map →
      Induced (DependsOn frames map) (List.range size) (induced frames map)) :
    ∀ (ps : List (Point F τ)) (rows : List (List F)) (s : σ), (∀ p ∈ ps, p.OK) →
    (∀ p ∈ ps, (if p.getFull then 16 else 8) ≤ rows.length) →
    ∃ r, sweepLoop induced rand ps rows s = .ok r ∧ ∀ rows' s', r = some (rows', s') →
      rows'.length = rows.length ∧ ∃ ds, List.Forall₂ Point.Data ps ds ∧
        ∀ j, rows'.getD j [] = rows.getD j [] ++ ds.filterMap fun d => entry (d.2.map statistics) j := by
  intro ps
  induction ps with
  | nil =>
    intro rows s _ _
    refine ⟨_, rfl, ?_⟩
    rintro rows' s' h
    injection h with h
    injection h with h h'
    subst h h'
    exact ⟨rfl, [], .nil, fun j => by simp⟩
  | cons p ps ih =>
    intro rows s hok hlen
    have hp := hok p List.mem_cons_self
    obtain ⟨r, e, hr'⟩ := C46_do_it rand hr hp.size hp.edge hp.correction (hi p.size) p.timeout
      p.getFull p.shots hp.shots s
    cases r with
    | none =>
      refine ⟨none, ?_, ?_⟩
      · simp [sweepLoop, e, bind, Except.bind, pure, Except.pure]
      · rintro _ _ ⟨⟩
    | some x =>
      obtain ⟨coll, s1⟩ := x
      obtain ⟨Ps, h1, h2, h3⟩ := hr' coll s1 rfl
      have hl := hlen p List.mem_cons_self
      have hc := h3.count
      obtain ⟨rows1, e1, l1, g1⟩ := pushStatistics_spec (coll.map (statistics (F := F))) 0 rows (by
        rw [List.length_map, hc]
        cases hg : p.getFull <;> rw [hg] at hl <;> simp at hl ⊢ <;> omega)
      obtain ⟨r, e2, h4⟩ := ih rows1 s1 (fun q hq => hok q (List.mem_cons_of_mem _ hq))
        (fun q hq => by rw [l1]; exact hlen q (List.mem_cons_of_mem _ hq))
      refine ⟨r, by simp [sweepLoop, e, e1, e2, bind, Except.bind], ?_⟩
      intro rows' s' hr2
      obtain ⟨l2, ds, h5, h6⟩ := h4 rows' s' hr2
      refine ⟨by rw [l2, l1], (Ps, coll) :: ds, .cons ⟨h1, h2, h3⟩ h5, fun j => ?_⟩
      rw [h6 j, g1 j, List.filterMap_cons]
      simp only [Nat.mul_zero, Nat.zero_le, if_true, Nat.sub_zero]
      cases hent : entry (coll.map (statistics (F := F))) j <;> simp

/-- The generator goes from one point of a sweep to the next. -/
theorem sweepLoop_chain (rand : Rand F σ) {induced : List (List Bool) → List Nat → OrderGraph}
    (f : Nat → Point F τ) {m : Nat} : ∀ (n a : Nat) (rows : List (List F)) (s : σ) (rows' : List (List F)) (s' : σ),
    rows.length = m →
    (∀ k, a ≤ k → k < a + n → ∀ s coll s', doIt induced rand (f k).size (f k).edge (f k).correction (f k).timeout
      (f k).getFull (f k).shots s = .ok (some (coll, s')) → 2 * coll.length ≤ m) →
    sweepLoop induced rand ((List.range' a n).map f) rows s = .ok (some (rows', s')) →
    ∃ (g : Nat → List (List Nat)) (st : Nat → σ), st a = s ∧ st (a + n) = s' ∧
      (∀ k, a ≤ k → k < a + n → doIt induced rand (f k).size (f k).edge (f k).correction (f k).timeout
        (f k).getFull (f k).shots (st k) = .ok (some (g k, st (k + 1)))) ∧
      rows'.length = m ∧
      ∀ j, rows'.getD j [] = rows.getD j [] ++
        (List.range' a n).filterMap fun k => entry ((g k).map (statistics (F := F))) j := by
  intro n
  induction n with
  | zero =>
    intro a rows s rows' s' hm _ h
    simp only [List.range'_zero, List.map_nil, sweepLoop, pure, Except.pure, Except.ok.injEq, Option.some.injEq,
      Prod.mk.injEq] at h
    obtain ⟨rfl, rfl⟩ := h
    exact ⟨fun _ => [], fun _ => s, rfl, rfl, fun k h1 h2 => by omega, hm, fun j => by simp⟩
  | succ n ih =>
    intro a rows s rows' s' hm hc h
    rw [List.range'_succ, List.map_cons, sweepLoop] at h
    cases hd : doIt induced rand (f a).size (f a).edge (f a).correction (f a).timeout (f a).getFull
        (f a).shots s with
    | error e => simp [hd, bind, Except.bind] at h
    | ok r =>
      cases r with
      | none => simp [hd, bind, Except.bind, pure, Except.pure] at h
      | some x =>
        obtain ⟨coll, s1⟩ := x
        obtain ⟨rows1, e1, l1, g1⟩ := pushStatistics_spec (coll.map (statistics (F := F))) 0 rows (by
          rw [List.length_map, hm, Nat.zero_add]
          exact hc a le_rfl (by omega) s coll s1 hd)
        simp only [hd, e1, bind, Except.bind] at h
        obtain ⟨g, st, h1, h2, h3, h4, h5⟩ := ih (a + 1) rows1 s1 rows' s' (by rw [l1, hm])
          (fun k k1 k2 => hc k (by omega) (by omega)) h
        refine ⟨fun k => if k = a then coll else g k, fun k => if k = a then s else st k, by simp, ?_, ?_, h4, ?_⟩
        · dsimp only
          rw [if_neg (by omega), show a + (n + 1) = a + 1 + n by omega]
          exact h2
        · intro k k1 k2
          dsimp only
          rw [if_neg (show ¬ k + 1 = a by omega)]
          by_cases hk : k = a
          · subst hk
            rw [if_pos rfl, if_pos rfl, h1]
            exact hd
          · rw [if_neg hk, if_neg hk]
            exact h3 k (by omega) (by omega)
        · intro j
          rw [h5 j, g1 j, List.range'_succ, List.filterMap_cons]
          have hcong : ((List.range' (a + 1) n).filterMap fun k =>
              entry (((fun k => if k = a then coll else g k) k).map (statistics (F := F))) j) =
              (List.range' (a + 1) n).filterMap fun k => entry ((g k).map (statistics (F := F))) j := by
            apply List.filterMap_congr
            intro k hk
            rw [List.mem_range'_1] at hk
            simp only [if_neg (show ¬ k = a by omega)]
          rw [hcong]
          simp only [if_true, Nat.mul_zero, Nat.zero_le, Nat.sub_zero]
          cases entry (coll.map (statistics (F := F))) j <;> simp

end

end Verif.Results
