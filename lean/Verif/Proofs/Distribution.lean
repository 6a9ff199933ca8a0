import Mathlib.Probability.ProductMeasure
import Mathlib.Tactic.Ring
import Verif.Props.ResultsProps
/-!
# Independent draws, and which of them lead to a given instance
-/

namespace Verif.Results

open Search MeasureTheory

/-- A generator that reads independent draws: `f` turns one into a number of `[0, 1)`, `r n` into an index
below `n`, `g` into a seed. -/
def streamRand {Ω F : Type} (f : Ω → F) (r : Nat → Ω → Nat) (g : Ω → Nat) : Rand F (Nat → Ω) where
  sample ω := (f (ω 0), fun k => ω (k + 1))
  range n ω := (r n (ω 0), fun k => ω (k + 1))
  gen ω := (g (ω 0), fun k => ω (k + 1))

variable {Ω F : Type} [FloatOps F]

/-- What a draw has to satisfy. -/
inductive Draw (F : Type) where
  /-- the number is below the density, or is not, or anything -/
  | below (density : F) (b : Option Bool)
  /-- the index below `n` is `i` -/
  | index (n i : Nat)

section
variable (f : Ω → F) (r : Nat → Ω → Nat)

def Draw.set : Draw F → Set Ω
  | .below d b => {x | ∀ c, b = some c → FloatOps.lt (f x) d = c}
  | .index n i => {x | r n x = i}

/-- The draws satisfy the list. -/
def Matches : List (Draw F) → (Nat → Ω) → Prop
  | [], _ => True
  | d :: L, ω => ω 0 ∈ d.set f r ∧ Matches L fun k => ω (k + 1)

theorem matches_append (L L' : List (Draw F)) : ∀ ω : Nat → Ω,
    Matches f r (L ++ L') ω ↔ Matches f r L ω ∧ Matches f r L' fun k => ω (k + L.length) := by
  induction L with
  | nil => intro ω; simp [Matches]
  | cons d L ih =>
    intro ω
    simp only [List.cons_append, Matches, ih, and_assoc, List.length_cons]
    have : (fun k => ω (k + (L.length + 1))) = fun k => ω (k + L.length + 1) := by
      funext k; congr 1
    rw [this]

theorem matches_iff (L : List (Draw F)) : ∀ ω : Nat → Ω,
    Matches f r L ω ↔ ∀ (k : Nat) d, L[k]? = some d → ω k ∈ d.set f r := by
  induction L with
  | nil => intro ω; simp [Matches]
  | cons d L ih =>
    intro ω
    simp only [Matches, ih]
    constructor
    · rintro ⟨h1, h2⟩ k e hk
      cases k with
      | zero => simp at hk; subst hk; exact h1
      | succ k => exact h2 k e hk
    · intro h
      exact ⟨h 0 d rfl, fun k e hk => h (k + 1) e hk⟩

end

/-- Which probabilities a draw has. -/
structure Fair [MeasurableSpace Ω] (ν : Measure Ω) (f : Ω → F) (r : Nat → Ω → Nat) : Prop where
  below : ∀ d, _root_.MeasurableSet {x | FloatOps.lt (f x) d = true}
  index : ∀ n i, _root_.MeasurableSet {x | r n x = i}
  range : ∀ n x, 0 < n → r n x < n
  uniform : ∀ n i, i < n → ν {x | r n x = i} = (n : ENNReal)⁻¹

section
variable [MeasurableSpace Ω] (ν : Measure Ω) (f : Ω → F) (r : Nat → Ω → Nat)

/-- The probability that a number is below a density. -/
noncomputable def chance (d : F) : ENNReal := ν {x | FloatOps.lt (f x) d = true}

/-- The probability of an outcome: `p` for true, `1 - p` for false. -/
noncomputable def bernoulli (p : ENNReal) : Option Bool → ENNReal
  | none => 1
  | some true => p
  | some false => 1 - p

noncomputable def Draw.weight : Draw F → ENNReal
  | .below d b => bernoulli (chance ν f d) b
  | .index n _ => (n : ENNReal)⁻¹

variable {ν f r}

theorem Fair.measurable (hf : Fair ν f r) (d : Draw F) : _root_.MeasurableSet (d.set f r) := by
  cases d with
  | index n i => exact hf.index n i
  | below d b =>
    cases b with
    | none => simp [Draw.set]
    | some b =>
      cases b with
      | true => simpa [Draw.set] using hf.below d
      | false =>
        have : Draw.set f r (.below d (some false)) = {x | FloatOps.lt (f x) d = true}ᶜ := by
          ext x; simp [Draw.set]
        rw [this]
        exact (hf.below d).compl

/-- The indices are in range. -/
def Draw.OK : Draw F → Prop
  | .below _ _ => True
  | .index n i => i < n

theorem Fair.measure [IsProbabilityMeasure ν] (hf : Fair ν f r) (d : Draw F) (hd : d.OK) :
    ν (d.set f r) = d.weight ν f := by
  cases d with
  | index n i => exact hf.uniform n i hd
  | below d b =>
    cases b with
    | none => simp [Draw.set, Draw.weight, bernoulli]
    | some b =>
      cases b with
      | true => simp [Draw.set, Draw.weight, bernoulli, chance]
      | false =>
        have : Draw.set f r (.below d (some false)) = {x | FloatOps.lt (f x) d = true}ᶜ := by
          ext x; simp [Draw.set]
        rw [this, prob_compl_eq_one_sub (hf.below d)]
        rfl

/-- The probability that independent draws satisfy a list. -/
theorem Fair.matches [IsProbabilityMeasure ν] (hf : Fair ν f r) (L : List (Draw F)) (hL : ∀ d ∈ L, d.OK) :
    Measure.infinitePi (fun _ : Nat => ν) {ω | Matches f r L ω} = (L.map (Draw.weight ν f)).prod := by
  have hset : {ω : Nat → Ω | Matches f r L ω} = Set.pi (Finset.range L.length : Set Nat)
      fun k => {x | ∀ d, L[k]? = some d → x ∈ d.set f r} := by
    ext ω
    simp only [Set.mem_ofPred_eq, matches_iff, Set.mem_pi, Finset.coe_range, Set.mem_Iio]
    constructor
    · intro h k _ d hd
      exact h k d hd
    · intro h k d hd
      exact h k (by
        by_contra hk
        rw [List.getElem?_eq_none (by omega)] at hd
        cases hd) d hd
  have hk : ∀ k, (hk : k < L.length) →
      {x | ∀ d, L[k]? = some d → x ∈ d.set f r} = (L[k]).set f r := by
    intro k hk
    ext x
    simp [List.getElem?_eq_getElem hk]
  rw [hset, Measure.infinitePi_pi]
  · have : (L.map (Draw.weight ν f)).prod = ∏ i : Fin L.length, (L[i]).weight ν f := by
      rw [← List.prod_ofFn]
      congr 1
      apply List.ext_getElem <;> simp
    rw [this, Finset.prod_range]
    refine Finset.prod_congr rfl fun i _ => ?_
    rw [hk i i.2]
    exact hf.measure _ (hL _ (List.getElem_mem _))
  · intro k hk'
    rw [hk k (by simpa using hk')]
    exact hf.measurable _

end

/-! ## Graphs -/

section
variable (f : Ω → F) (r : Nat → Ω → Nat) (g : Ω → Nat)

omit [FloatOps F] in
theorem nth_stream (k : Nat) : ∀ ω : Nat → Ω, nth (streamRand f r g) k ω = f (ω k) := by
  induction k with
  | zero => intro ω; rfl
  | succ k ih => intro ω; exact ih _

theorem addEdges_state (d : F) (ps : List (Nat × Nat)) : ∀ (ret : List (List Nat)) (ω : Nat → Ω) ret' ω',
    addEdges (streamRand f r g) d ps ret ω = .ok (ret', ω') → ω' = fun k => ω (k + ps.length) := by
  induction ps with
  | nil =>
    intro ret ω ret' ω' h
    simp only [addEdges, pure, Except.pure, Except.ok.injEq, Prod.mk.injEq] at h
    rw [← h.2]
    rfl
  | cons p ps ih =>
    intro ret ω ret' ω' h
    have hs : (fun k => ω (k + (p :: ps).length)) =
        fun k => ((streamRand f r g).sample ω).2 (k + ps.length) := by
      funext k
      simp only [streamRand, List.length_cons]
      congr 1
    rw [hs]
    unfold addEdges at h
    split at h
    · cases h1 : GraphBuffer.pushAt ret p.1 p.2 with
      | error e => simp [h1, bind, Except.bind] at h
      | ok r1 =>
        cases h2 : GraphBuffer.pushAt r1 p.2 p.1 with
        | error e => simp [h1, h2, bind, Except.bind] at h
        | ok r2 =>
          simp only [h1, h2, bind, Except.bind] at h
          exact ih _ _ _ _ h
    · exact ih _ _ _ _ h

theorem pairs_nodup (size : Nat) : (pairs size).Nodup := by
  refine (pairs_lex size).imp ?_
  rintro a b h rfl
  omega

/-- The draws that lead to the wanted edges. -/
theorem graph_matches (d : F) (size : Nat) (ω : Nat → Ω) :
    ∃ G, graphWith (streamRand f r g) d size ω = .ok (G, fun k => ω (k + (pairs size).length)) ∧
      G.length = size ∧ (∀ l ∈ G, l.Pairwise (· < ·)) ∧
      (∀ u v, v ∈ G.getD u [] → v < size ∧ v ≠ u ∧ u ∈ G.getD v []) ∧
      (∀ k p, (pairs size)[k]? = some p → (p.2 ∈ G.getD p.1 [] ↔ FloatOps.lt (f (ω k)) d = true)) ∧
      ∀ D : Nat × Nat → Option Bool,
        (∀ p ∈ pairs size, ∀ b, D p = some b → (p.2 ∈ G.getD p.1 [] ↔ b = true)) ↔
          Matches f r ((pairs size).map fun p => .below d (D p)) ω := by
  obtain ⟨G, s', e, h1, h2, h3, h4⟩ := C46_graph (streamRand f r g) d size ω
  have hs : s' = fun k => ω (k + (pairs size).length) := by
    have e' := e
    unfold graphWith at e'
    rw [graphOuter_eq, ← pairs_eq] at e'
    exact addEdges_state f r g d _ _ _ _ _ e'
  have hk : ∀ k p, (pairs size)[k]? = some p → (p.2 ∈ G.getD p.1 [] ↔ FloatOps.lt (f (ω k)) d = true) := by
    intro k p hp
    have hlt := mem_pairs.1 (List.mem_of_getElem? hp)
    rw [h2, Nat.min_eq_left hlt.1.le, Nat.max_eq_right hlt.1.le]
    constructor
    · rintro ⟨k', h5, h6⟩
      obtain ⟨a1, b1⟩ := List.getElem?_eq_some_iff.1 hp
      obtain ⟨a2, b2⟩ := List.getElem?_eq_some_iff.1 h5
      have : k' = k := (List.Nodup.getElem_inj_iff (pairs_nodup size)).1 (b2.trans b1.symm)
      subst this
      rwa [nth_stream] at h6
    · intro h
      exact ⟨k, hp, by rwa [nth_stream]⟩
  refine ⟨G, hs ▸ e, h1, h3, h4, hk, fun D => ?_⟩
  rw [matches_iff]
  constructor
  · intro h k x hx
    rw [List.getElem?_map] at hx
    cases hp : (pairs size)[k]? with
    | none => rw [hp] at hx; cases hx
    | some p =>
      rw [hp] at hx
      simp only [Option.map_some, Option.some.injEq] at hx
      subst hx
      intro b hb
      have := (hk k p hp).symm.trans (h p (List.mem_of_getElem? hp) b hb)
      cases b <;> simp_all
  · intro h p hp b hb
    obtain ⟨k, hk'⟩ := List.mem_iff_getElem?.1 hp
    have := h k (.below d (D p)) (by rw [List.getElem?_map, hk']; rfl) b hb
    rw [hk k p hk', this]

/-! ## Dependencies -/

theorem corrections_matches (d : F) (T : Nat → Option Bool) (pool : List Nat) (hn : pool.Nodup) :
    ∀ ω : Nat → Ω, (corrections (streamRand f r g) d pool ω).2 = (fun k => ω (k + pool.length)) ∧
      ((∀ x ∈ pool, ∀ b, T x = some b → (x ∈ (corrections (streamRand f r g) d pool ω).1 ↔ b = true)) ↔
        Matches f r (pool.map fun x => .below d (T x)) ω) := by
  induction pool with
  | nil => intro ω; exact ⟨rfl, by simp [Matches]⟩
  | cons x pool ih =>
    intro ω
    obtain ⟨hx, hn'⟩ := List.nodup_cons.1 hn
    obtain ⟨h1, h2⟩ := ih hn' fun k => ω (k + 1)
    have hsub := (corrections_sublist (streamRand f r g) d pool fun k => ω (k + 1)).subset
    have hcs : (corrections (streamRand f r g) d (x :: pool) ω) =
        (if FloatOps.lt (f (ω 0)) d then x :: (corrections (streamRand f r g) d pool fun k => ω (k + 1)).1
          else (corrections (streamRand f r g) d pool fun k => ω (k + 1)).1,
          (corrections (streamRand f r g) d pool fun k => ω (k + 1)).2) := rfl
    rw [hcs]
    refine ⟨?_, ?_⟩
    · simp only [h1, List.length_cons]
      funext k
      congr 1
    · have key : ∀ y ∈ pool, (y ∈ (if FloatOps.lt (f (ω 0)) d then
          x :: (corrections (streamRand f r g) d pool fun k => ω (k + 1)).1
          else (corrections (streamRand f r g) d pool fun k => ω (k + 1)).1) ↔
          y ∈ (corrections (streamRand f r g) d pool fun k => ω (k + 1)).1) := by
        intro y hy
        have : y ≠ x := by rintro rfl; exact hx hy
        split <;> simp [this]
      have key' : x ∈ (if FloatOps.lt (f (ω 0)) d then
          x :: (corrections (streamRand f r g) d pool fun k => ω (k + 1)).1
          else (corrections (streamRand f r g) d pool fun k => ω (k + 1)).1) ↔
          FloatOps.lt (f (ω 0)) d = true := by
        split
        · rename_i h; simp [h]
        · rename_i h
          simp only [h]
          exact iff_of_false (fun h' => hx (hsub h')) (by simp)
      simp only [List.map_cons, Matches, ← h2, List.forall_mem_cons]
      refine and_congr ?_ ?_
      · simp only [Draw.set, Set.mem_ofPred_eq, key']
        refine forall_congr' fun b => imp_congr_right fun _ => ?_
        cases b <;> cases FloatOps.lt (f (ω 0)) d <;> simp
      · refine forall_congr' fun y => forall_congr' fun hy => ?_
        simp only [key y hy]

/-- The draws that lead to the wanted order and the wanted dependencies: for every qubit of the order its
index among the remaining ones, and then a number for each of the others. -/
def orderScript (d : F) (T : Nat → Nat → Option Bool) : List Nat → Nat → List Nat → List (Draw F)
  | _, _, [] => []
  | pool, k, b :: target =>
    .index pool.length (pool.idxOf b) ::
      (((swapRemove pool (pool.idxOf b)).map fun x => .below d (T x k)) ++
        orderScript d T (swapRemove pool (pool.idxOf b)) (k + 1) target)

/-- The number of draws. -/
def orderDraws : Nat → Nat
  | 0 => 0
  | m + 1 => orderDraws m + m + 1

theorem orderLoop_matches (hr : ∀ n x, 0 < n → r n x < n) (d : F) (size : Nat) :
    ∀ fuel pool frames map (ω : Nat → Ω), fuel = pool.length → (map ++ pool).Perm (List.range size) →
      frames.length = size → (∀ z ∈ frames, z.length = size) →
      (∀ c k, map.length ≤ k → bitAt frames c k = false) →
      ∃ frames' tail, orderLoop (streamRand f r g) d fuel pool frames map ω =
          .ok (frames', map ++ tail, fun k => ω (k + orderDraws pool.length)) ∧
        tail.Perm pool ∧ (∀ c k, k < map.length → bitAt frames' c k = bitAt frames c k) ∧
        ∀ target (T : Nat → Nat → Option Bool), target.Perm pool →
          (∀ c k, T c (map.length + k) = some true → c ∈ target.drop (k + 1)) →
          ((tail = target ∧ ∀ c k b, T c (map.length + k) = some b →
            (bitAt frames' c (map.length + k) = true ↔ b = true)) ↔
            Matches f r (orderScript d T pool map.length target) ω) := by
  intro fuel
  induction fuel with
  | zero =>
    intro pool frames map ω hf hp h1 h2 h3
    have : pool = [] := List.length_eq_zero_iff.1 hf.symm
    subst this
    refine ⟨frames, [], by simp [orderLoop, pure, Except.pure, orderDraws], .nil, fun _ _ _ => rfl, ?_⟩
    intro target T ht hT
    have : target = [] := List.perm_nil.1 ht
    subst this
    simp only [orderScript, Matches, iff_true, true_and]
    intro c k b hb
    rw [h3 c _ (by omega)]
    cases b
    · simp
    · have := hT c k hb
      simp at this
  | succ fuel ih =>
    intro pool frames map ω hf hp h1 h2 h3
    have hpos : 0 < pool.length := by omega
    have hidx : r pool.length (ω 0) < pool.length := hr _ _ hpos
    set i := r pool.length (ω 0) with hi
    have hget : pool[i]? = some pool[i] := List.getElem?_eq_getElem hidx
    set bit := pool[i] with hbit
    have hperm := swapRemove_perm' hget
    set pool' := swapRemove pool i with hpool'
    have hlen' : pool'.length = fuel := by
      have := hperm.length_eq
      simp only [List.length_cons] at this
      omega
    have hnd : (map ++ pool).Nodup := hp.nodup_iff.2 List.nodup_range
    have hpn : pool.Nodup := (List.nodup_append.1 hnd).2.1
    have hpn' : (bit :: pool').Nodup := hperm.nodup_iff.2 hpn
    have hp' : ((map ++ [bit]) ++ pool').Perm (List.range size) := by
      rw [List.append_assoc]
      exact (List.Perm.append_left map hperm).trans hp
    have hmlen : map.length < size := by
      have := hp.length_eq
      simp only [List.length_append, List.length_range] at this
      omega
    obtain ⟨cs, hcs⟩ : ∃ cs, corrections (streamRand f r g) d pool' (fun k => ω (k + 1)) = cs := ⟨_, rfl⟩
    have hcsub : cs.1.Sublist pool' := hcs ▸ corrections_sublist (streamRand f r g) d pool' _
    have hcm := fun T => corrections_matches f r g d T pool' (List.nodup_cons.1 hpn').2 fun k => ω (k + 1)
    simp only [hcs] at hcm
    have hmem : ∀ c ∈ cs.1, c < size := by
      intro c hc
      have : c ∈ (map ++ [bit]) ++ pool' := List.mem_append_right _ (hcsub.subset hc)
      exact List.mem_range.1 (hp'.mem_iff.1 this)
    obtain ⟨fr, e1, l1, l2, l3⟩ := setBits_spec map.length size hmlen cs.1 frames h1 h2 hmem
    have hml : (map ++ [bit]).length = map.length + 1 := by simp
    have l4 : ∀ c k, map.length + 1 ≤ k → bitAt fr c k = false := by
      intro c k hk
      rw [Bool.eq_false_iff]
      intro h
      rcases (l3 c k).1 h with h | ⟨h, -⟩
      · rw [h3 c k (by omega)] at h; cases h
      · omega
    obtain ⟨frames', tail, e2, q1, q2, q3⟩ := ih pool' fr (map ++ [bit]) cs.2 hlen'.symm hp' l1 l2
      (by rw [hml]; exact l4)
    rw [hml] at q2 q3
    refine ⟨frames', bit :: tail, ?_, (q1.cons bit).trans hperm, ?_, ?_⟩
    · have hne : pool.isEmpty = false := by
        cases pool with
        | nil => simp at hpos
        | cons a b => rfl
      have hrange : (streamRand f r g).range pool.length ω = (i, fun k => ω (k + 1)) := rfl
      simp only [orderLoop, hne, Bool.false_eq_true, if_false, hrange, idx, hget, bind, Except.bind,
        ← hpool', hcs, e1]
      rw [e2, (hcm fun _ => none).1]
      have : pool.length = pool'.length + 1 := by omega
      simp only [List.append_assoc, List.cons_append, List.nil_append, this, orderDraws]
      congr 3
      funext k
      congr 1
      omega
    · intro c k hk
      rw [q2 c k (by omega), Bool.eq_iff_iff, l3]
      constructor
      · rintro (h | ⟨h, -⟩)
        · exact h
        · omega
      · exact .inl
    · intro target T ht hT
      cases target with
      | nil =>
        have := ht.length_eq
        simp at this
        omega
      | cons b target =>
        simp only [orderScript, Matches, matches_append, List.length_map]
        have hbp : b ∈ pool := ht.mem_iff.1 List.mem_cons_self
        have hib : i = pool.idxOf b ↔ bit = b := by
          constructor
          · intro h
            have : pool[pool.idxOf b]'(List.idxOf_lt_length_iff.2 hbp) = b := List.getElem_idxOf _
            rw [hbit]
            simp only [h, this]
          · rintro rfl
            exact (List.Nodup.idxOf_getElem hpn i hidx).symm
        by_cases hb : bit = b
        · subst hb
          have hi' := hib.2 rfl
          rw [← hi', ← hpool']
          have ht' : target.Perm pool' := by
            have := ht.trans hperm.symm
            exact (List.perm_cons bit).1 this
          have hT' : ∀ c k, T c (map.length + 1 + k) = some true → c ∈ target.drop (k + 1) := by
            intro c k h
            have := hT c (k + 1) (by rw [← h]; congr 1; omega)
            simpa using this
          have q4 := q3 target T ht' hT'
          rw [(hcm fun x => T x map.length).1] at q4
          rw [← q4, ← (hcm fun x => T x map.length).2]
          have h0 : ω 0 ∈ Draw.set (F := F) f r (.index pool.length i) := rfl
          simp only [h0, true_and, List.cons.injEq]
          have hcol : ∀ c, bitAt frames' c map.length = true ↔ c ∈ cs.1 := by
            intro c
            rw [q2 c _ (by omega), l3]
            simp [h3 c map.length le_rfl]
          constructor
          · rintro ⟨h5, h6⟩
            refine ⟨fun x _ b hb => ?_, h5, fun c k b hb => ?_⟩
            · rw [← hcol]
              exact h6 x 0 b hb
            · have := h6 c (k + 1) b (by rw [← hb]; congr 1; omega)
              rwa [show map.length + (k + 1) = map.length + 1 + k by omega] at this
          · rintro ⟨h5, h6, h7⟩
            refine ⟨h6, fun c k b hb => ?_⟩
            cases k with
            | zero =>
              rw [Nat.add_zero] at hb ⊢
              rw [hcol]
              by_cases hc : c ∈ pool'
              · exact h5 c hc b hb
              · have hc' : c ∉ cs.1 := fun h => hc (hcsub.subset h)
                cases b
                · simpa using hc'
                · have := hT c 0 hb
                  rw [List.drop_one, List.tail_cons] at this
                  exact absurd (ht'.mem_iff.1 this) hc
            | succ k =>
              have := h7 c k b (by rw [← hb]; congr 1; omega)
              rwa [show map.length + (k + 1) = map.length + 1 + k by omega]
        · refine iff_of_false (fun h => hb (List.cons.inj h.1).1) ?_
          rintro ⟨h, -⟩
          exact hb (hib.1 h)

end

/-! ## Products over all pairs -/

theorem pairs_succ (n : Nat) : pairs (n + 1) =
    (List.range n).map (fun j => (0, j + 1)) ++ (pairs n).map fun q => (q.1 + 1, q.2 + 1) := by
  have h0 : ∀ a : Nat, (List.range (n + 1)).filter (a < ·) =
      if a = 0 then (List.range n).map (· + 1) else ((List.range n).filter (a - 1 < ·)).map (· + 1) := by
    intro a
    rw [List.range_succ_eq_map, List.filter_cons, List.filter_map]
    by_cases ha : a = 0
    · subst ha
      rw [if_neg (by simp), if_pos rfl]
      congr 1
      exact List.filter_eq_self.2 fun x _ => by simp
    · rw [if_neg (by simp), if_neg ha]
      congr 1
      refine List.filter_congr fun x _ => ?_
      simp only [Function.comp_apply, Nat.succ_eq_add_one, decide_eq_decide]
      omega
  unfold pairs
  simp only [h0]
  rw [List.range_succ_eq_map, List.flatMap_cons, List.flatMap_map, List.map_flatMap]
  simp only [if_true, List.map_map]
  congr 1
  refine congrArg (fun h => List.flatMap h _) (funext fun a => ?_)
  rw [if_neg (Nat.succ_ne_zero a), List.map_map, Nat.succ_sub_one]
  rfl

theorem length_pairs (n : Nat) : (pairs n).length = n * (n - 1) / 2 := by
  induction n with
  | zero => rfl
  | succ n ih =>
    rw [pairs_succ, List.length_append, List.length_map, List.length_map, List.length_range, ih,
      Nat.add_sub_cancel]
    cases n with
    | zero => rfl
    | succ m =>
      rw [Nat.add_sub_cancel]
      have : (m + 1 + 1) * (m + 1) = (m + 1) * m + 2 * (m + 1) := by ring
      rw [this]
      omega

/-- The product over the pairs of a list, first element first. -/
noncomputable def laterProd (h : Nat → Nat → ENNReal) : Nat → List Nat → ENNReal
  | _, [] => 1
  | k, _ :: t => (t.map fun x => h x k).prod * laterProd h (k + 1) t

theorem laterProd_eq (l : List Nat) : ∀ (h : Nat → Nat → ENNReal) (k : Nat),
    laterProd h k l = ((pairs l.length).map fun q => h (l.getD q.2 0) (k + q.1)).prod := by
  induction l with
  | nil => intro h k; simp [laterProd, pairs]
  | cons b l ih =>
    intro h k
    rw [laterProd, ih, List.length_cons, pairs_succ, List.map_append, List.prod_append, List.map_map,
      List.map_map]
    congr 2
    · apply List.ext_getElem
      · simp
      · intro i h1 h2
        simp only [List.length_map] at h1
        simp [h1]
    · refine List.map_congr_left fun q _ => ?_
      simp only [Function.comp_apply, List.getD_cons_succ]
      congr 1
      omega

theorem bernoulli_prod {α : Type} (p : ENNReal) (D : α → Bool) (l : List α) :
    (l.map fun q => bernoulli p (some (D q))).prod = p ^ l.countP D * (1 - p) ^ (l.length - l.countP D) := by
  induction l with
  | nil => simp
  | cons a l ih =>
    rw [List.map_cons, List.prod_cons, ih]
    have hle : l.countP D ≤ l.length := List.countP_le_length
    cases h : D a with
    | true =>
      rw [List.countP_cons_of_pos h, List.length_cons, Nat.add_sub_add_right, pow_succ]
      simp only [bernoulli]
      ring
    | false =>
      rw [List.countP_cons_of_neg (by simp [h]), List.length_cons,
        show l.length + 1 - l.countP D = (l.length - l.countP D) + 1 by omega, pow_succ]
      simp only [bernoulli]
      ring

section
variable [MeasurableSpace Ω] (ν : Measure Ω) (f : Ω → F)

theorem orderScript_weight (d : F) (T : Nat → Nat → Option Bool) (target : List Nat) :
    ∀ (pool : List Nat) (k : Nat), target.Perm pool →
      (∀ x ∈ orderScript d T pool k target, Draw.OK x) ∧
      ((orderScript d T pool k target).map (Draw.weight ν f)).prod =
        (target.length.factorial : ENNReal)⁻¹ * laterProd (fun x k => bernoulli (chance ν f d) (T x k)) k target := by
  induction target with
  | nil => intro pool k _; simp [orderScript, laterProd]
  | cons b target ih =>
    intro pool k hp
    have hb : b ∈ pool := hp.mem_iff.1 List.mem_cons_self
    have hi : pool.idxOf b < pool.length := List.idxOf_lt_length_iff.2 hb
    have hperm : (b :: swapRemove pool (pool.idxOf b)).Perm pool :=
      swapRemove_perm' (by rw [List.getElem?_eq_getElem hi, List.getElem_idxOf])
    have hp' : target.Perm (swapRemove pool (pool.idxOf b)) :=
      (List.perm_cons b).1 (hp.trans hperm.symm)
    obtain ⟨h1, h2⟩ := ih _ (k + 1) hp'
    constructor
    · intro x hx
      simp only [orderScript, List.mem_cons, List.mem_append, List.mem_map] at hx
      rcases hx with rfl | ⟨y, -, rfl⟩ | hx
      · exact hi
      · trivial
      · exact h1 x hx
    · simp only [orderScript, List.map_cons, List.prod_cons, List.map_append, List.prod_append, h2,
        List.map_map, laterProd]
      have hlen : pool.length = target.length + 1 := by
        rw [← hp.length_eq, List.length_cons]
      have hprod : ((swapRemove pool (pool.idxOf b)).map
          (Draw.weight ν f ∘ fun x => Draw.below d (T x k))).prod =
          (target.map fun x => bernoulli (chance ν f d) (T x k)).prod :=
        (hp'.symm.map _).prod_eq
      rw [hprod, List.length_cons, Nat.factorial_succ, Nat.cast_mul,
        ENNReal.mul_inv (.inr (ENNReal.natCast_ne_top _)) (.inl (ENNReal.natCast_ne_top _)), Draw.weight, hlen]
      ring

end

end Verif.Results
