import Mathlib.MeasureTheory.Measure.Lebesgue.Basic
import Mathlib.MeasureTheory.Function.Floor
import Verif.Proofs.Distribution
import Verif.Props.DensityProps
/-!
# The distribution of the random instances (C58)

The generator reads a stream of independent draws (`streamRand`); `Fair` says what is assumed of a single
draw: an index below `n` is uniformly distributed. `chance ν f d` is the probability that a number is below
the density `d`; for exact uniform numbers it is `d` itself (`chance_uniform`).
-/

namespace Verif.Results

open Search MeasureTheory

variable {Ω F : Type} [FloatOps F] [MeasurableSpace Ω] {ν : Measure Ω} {f : Ω → F} {r : Nat → Ω → Nat}

/-- A simple graph on `n` nodes as lists of neighbours, each in ascending order. -/
structure Simple (n : Nat) (G : List (List Nat)) : Prop where
  length : G.length = n
  ascending : ∀ l ∈ G, l.Pairwise (· < ·)
  edges : ∀ u v, v ∈ G.getD u [] → v < n ∧ v ≠ u ∧ u ∈ G.getD v []

/-- The number of edges. -/
def numEdges (n : Nat) (G : List (List Nat)) : Nat :=
  (pairs n).countP fun p => decide (p.2 ∈ G.getD p.1 [])

theorem Simple.ext {n : Nat} {G H : List (List Nat)} (hG : Simple n G) (hH : Simple n H)
    (h : ∀ p ∈ pairs n, p.2 ∈ G.getD p.1 [] ↔ p.2 ∈ H.getD p.1 []) : G = H := by
  have key : ∀ (G H : List (List Nat)), Simple n G → Simple n H →
      (∀ p ∈ pairs n, p.2 ∈ G.getD p.1 [] ↔ p.2 ∈ H.getD p.1 []) →
      ∀ u v, v ∈ G.getD u [] → v ∈ H.getD u [] := by
    intro G H hG hH h u v hv
    obtain ⟨h1, h2, h3⟩ := hG.edges u v hv
    obtain ⟨h4, -, -⟩ := hG.edges v u h3
    rcases Nat.lt_or_gt_of_ne h2 with hlt | hlt
    · exact (hH.edges v u ((h (v, u) (mem_pairs.2 ⟨hlt, h4⟩)).1 h3)).2.2
    · exact (h (u, v) (mem_pairs.2 ⟨hlt, h1⟩)).1 hv
  apply List.ext_getElem
  · rw [hG.length, hH.length]
  · intro u h1 h2
    have e1 : G[u] = G.getD u [] := by simp [List.getD_eq_getElem?_getD, h1]
    have e2 : H[u] = H.getD u [] := by simp [List.getD_eq_getElem?_getD, h2]
    have p1 := hG.ascending _ (List.getElem_mem h1)
    have p2 := hH.ascending _ (List.getElem_mem h2)
    have hm : ∀ v, v ∈ G[u] ↔ v ∈ H[u] := by
      intro v
      rw [e1, e2]
      exact ⟨key G H hG hH h u v, key H G hH hG (fun p hp => (h p hp).symm) u v⟩
    have hp : (G[u]).Perm H[u] :=
      (List.perm_ext_iff_of_nodup (p1.imp fun h => Nat.ne_of_lt h) (p2.imp fun h => Nat.ne_of_lt h)).2 hm
    exact hp.eq_of_pairwise (fun a b _ _ h1 h2 => absurd h1 (Nat.lt_asymm h2)) p1 p2

omit [MeasurableSpace Ω] in
theorem graph_event (d : F) (n : Nat) {G : List (List Nat)} (hG : Simple n G) (g : Ω → Nat) (ω : Nat → Ω) :
    (∃ s, graphWith (streamRand f r g) d n ω = .ok (G, s)) ↔
      Matches f r ((pairs n).map fun p => .below d (some (decide (p.2 ∈ G.getD p.1 [])))) ω := by
  obtain ⟨G', e, h1, h2, h3, -, h4⟩ := graph_matches f r g d n ω
  rw [← h4 fun p => some (decide (p.2 ∈ G.getD p.1 []))]
  constructor
  · rintro ⟨s, hs⟩
    rw [e] at hs
    simp only [Except.ok.injEq, Prod.mk.injEq] at hs
    obtain ⟨rfl, -⟩ := hs
    intro p _ b hb
    simp only [Option.some.injEq] at hb
    subst hb
    simp
  · intro h
    have : G' = G := Simple.ext ⟨h1, h2, h3⟩ hG fun p hp => by
      have := h p hp _ rfl
      simpa using this
    subst this
    exact ⟨_, e⟩

/-- **C58** `get_graph` draws from the Erdős–Rényi model: every simple graph on `n` nodes with `m` edges has
the probability `p^m (1 - p)^(n(n-1)/2 - m)`. -/
theorem C58_graph [IsProbabilityMeasure ν] (hf : Fair ν f r) (d : F) {n : Nat} {G : List (List Nat)}
    (hG : Simple n G) (g : Ω → Nat) :
    Measure.infinitePi (fun _ : Nat => ν) {ω | ∃ s, graphWith (streamRand f r g) d n ω = .ok (G, s)} =
      chance ν f d ^ numEdges n G * (1 - chance ν f d) ^ (n * (n - 1) / 2 - numEdges n G) := by
  simp only [graph_event d n hG g]
  rw [hf.matches, List.map_map, ← length_pairs]
  · exact bernoulli_prod (chance ν f d) _ _
  · intro x hx
    obtain ⟨p, -, rfl⟩ := List.mem_map.1 hx
    trivial

/-- Dependencies on qubits that come earlier in the order `π`. -/
def Earlier (π : List Nat) (D : Nat → Nat → Prop) : Prop :=
  ∀ c d, D c d → ∃ i j : Nat, i < j ∧ π[i]? = some d ∧ π[j]? = some c

open Classical in
/-- The number of dependencies. -/
noncomputable def numDeps (π : List Nat) (D : Nat → Nat → Prop) : Nat :=
  (pairs π.length).countP fun q => decide (D (π.getD q.2 0) (π.getD q.1 0))

omit [MeasurableSpace Ω] in
theorem order_event (hr : ∀ n x, 0 < n → r n x < n) (d : F) (n : Nat) (g : Ω → Nat) (ω : Nat → Ω) :
    ∃ frames π, orderWith (streamRand f r g) d n ω = .ok (frames, π, fun k => ω (k + orderDraws n)) ∧
      ∀ target (T : Nat → Nat → Option Bool), target.Perm (List.range n) →
        (∀ c k, T c k = some true → c ∈ target.drop (k + 1)) →
        ((π = target ∧ ∀ c k b, T c k = some b → (bitAt frames c k = true ↔ b = true)) ↔
          Matches f r (orderScript d T (List.range n) 0 target) ω) := by
  obtain ⟨frames, π, e, -, -, h⟩ := orderLoop_matches f r g hr d n n (List.range n)
    (List.replicate n (List.replicate n false)) [] ω (by simp) (by simp) (by simp)
    (fun z hz => by rw [List.eq_of_mem_replicate hz]; simp)
    (fun c k _ => by
      rw [Bool.eq_false_iff]
      intro h
      obtain ⟨z, h1, h2⟩ := bitAt_iff.1 h
      rw [List.eq_of_mem_replicate (List.mem_of_getElem? h1)] at h2
      have := List.eq_of_mem_replicate (List.mem_of_getElem? h2)
      simp at this)
  refine ⟨frames, π, by simpa [orderWith] using e, fun target T ht hT => ?_⟩
  have := h target T ht (by simpa using hT)
  simpa using this

open Classical in
/-- The wanted bits of the frames. -/
noncomputable def wanted (π : List Nat) (D : Nat → Nat → Prop) (c k : Nat) : Option Bool :=
  if k < π.length then some (decide (D c (π.getD k 0))) else none

theorem getD_of_getElem? {l : List Nat} {i x : Nat} (h : l[i]? = some x) : i < l.length ∧ l.getD i 0 = x := by
  obtain ⟨h1, h2⟩ := List.getElem?_eq_some_iff.1 h
  exact ⟨h1, by simp [List.getD_eq_getElem?_getD, h1, h2]⟩

theorem wanted_drop {n : Nat} {π : List Nat} (hπ : π.Perm (List.range n)) {D : Nat → Nat → Prop}
    (hD : Earlier π D) (c k : Nat) (h : wanted π D c k = some true) : c ∈ π.drop (k + 1) := by
  unfold wanted at h
  split at h
  · rename_i hk
    simp only [Option.some.injEq, decide_eq_true_eq] at h
    obtain ⟨i, j, hij, h1, h2⟩ := hD _ _ h
    have : i = k := perm_range_inj hπ h1 (by simp [List.getD_eq_getElem?_getD, hk])
    subst this
    exact mem_drop_iff.2 ⟨j, hij, h2⟩
  · cases h

theorem depends_event {n : Nat} {frames : List (List Bool)} {π : List Nat} (hπ : π.Perm (List.range n))
    {D : Nat → Nat → Prop} (hD : Earlier π D) :
    (∀ c d, DependsOn frames π c d ↔ D c d) ↔
      ∀ c k b, wanted π D c k = some b → (bitAt frames c k = true ↔ b = true) := by
  classical
  constructor
  · intro h c k b hb
    unfold wanted at hb
    split at hb
    · rename_i hk
      simp only [Option.some.injEq] at hb
      subst hb
      rw [decide_eq_true_iff, ← h, bitAt_iff]
      have hk' : π[k]? = some (π.getD k 0) := by simp [List.getD_eq_getElem?_getD, hk]
      constructor
      · rintro ⟨z, h1, h2⟩
        exact ⟨k, z, h1, h2, hk'⟩
      · rintro ⟨k', z, h1, h2, h3⟩
        have := perm_range_inj hπ h3 hk'
        subst this
        exact ⟨z, h1, h2⟩
    · cases hb
  · intro h c d
    constructor
    · rintro ⟨k, z, h1, h2, h3⟩
      obtain ⟨hk, hkd⟩ := getD_of_getElem? h3
      have := (h c k _ (by unfold wanted; rw [if_pos hk])).1 (bitAt_iff.2 ⟨z, h1, h2⟩)
      rw [decide_eq_true_iff, hkd] at this
      exact this
    · intro hd
      obtain ⟨i, j, -, h1, -⟩ := hD c d hd
      obtain ⟨hk, hkd⟩ := getD_of_getElem? h1
      have := (h c i _ (by unfold wanted; rw [if_pos hk])).2 (by rw [decide_eq_true_iff, hkd]; exact hd)
      obtain ⟨z, h3, h4⟩ := bitAt_iff.1 this
      exact ⟨i, z, h3, h4, h1⟩

theorem wanted_prod (p : ENNReal) (π : List Nat) (D : Nat → Nat → Prop) :
    laterProd (fun x k => bernoulli p (wanted π D x k)) 0 π =
      p ^ numDeps π D * (1 - p) ^ (π.length * (π.length - 1) / 2 - numDeps π D) := by
  classical
  rw [laterProd_eq, ← length_pairs, numDeps, ← bernoulli_prod]
  congr 1
  refine List.map_congr_left fun q hq => ?_
  have := mem_pairs.1 hq
  simp only [Nat.zero_add, wanted]
  rw [if_pos (by omega)]

/-- **C58** `get_order` draws every order of the qubits with the same probability `1 / n!`, and then every
qubit depends on every earlier one with probability `p`, independently: a given order with given
dependencies, `m` in number, has the probability `p^m (1 - p)^(n(n-1)/2 - m) / n!`. -/
theorem C58_order [IsProbabilityMeasure ν] (hf : Fair ν f r) (d : F) {n : Nat} {π : List Nat}
    (hπ : π.Perm (List.range n)) {D : Nat → Nat → Prop} (hD : Earlier π D) (g : Ω → Nat) :
    Measure.infinitePi (fun _ : Nat => ν)
      {ω | ∃ frames s, orderWith (streamRand f r g) d n ω = .ok (frames, π, s) ∧
        ∀ b c, DependsOn frames π b c ↔ D b c} =
      (n.factorial : ENNReal)⁻¹ *
        (chance ν f d ^ numDeps π D * (1 - chance ν f d) ^ (n * (n - 1) / 2 - numDeps π D)) := by
  have hset : {ω : Nat → Ω | ∃ frames s, orderWith (streamRand f r g) d n ω = .ok (frames, π, s) ∧
        ∀ b c, DependsOn frames π b c ↔ D b c} =
      {ω | Matches f r (orderScript d (wanted π D) (List.range n) 0 π) ω} := by
    ext ω
    obtain ⟨frames, π', e, h⟩ := order_event (f := f) hf.range d n g ω
    simp only [Set.mem_ofPred_eq]
    rw [← h π (wanted π D) hπ (wanted_drop hπ hD), ← depends_event hπ hD, e]
    constructor
    · rintro ⟨fr, s, h1, h2⟩
      simp only [Except.ok.injEq, Prod.mk.injEq] at h1
      obtain ⟨rfl, rfl, -⟩ := h1
      exact ⟨rfl, h2⟩
    · rintro ⟨rfl, h2⟩
      exact ⟨frames, _, rfl, h2⟩
  obtain ⟨h1, h2⟩ := orderScript_weight ν f d (wanted π D) π (List.range n) 0 hπ
  have hn : π.length = n := by rw [hπ.length_eq, List.length_range]
  rw [hset, hf.matches _ h1, h2, wanted_prod, hn]

/-- **C58** All orders of the qubits are equally likely. -/
theorem C58_uniform [IsProbabilityMeasure ν] (hf : Fair ν f r) (d : F) {n : Nat} {π : List Nat}
    (hπ : π.Perm (List.range n)) (g : Ω → Nat) :
    Measure.infinitePi (fun _ : Nat => ν)
      {ω | ∃ frames s, orderWith (streamRand f r g) d n ω = .ok (frames, π, s)} =
      (n.factorial : ENNReal)⁻¹ := by
  have hset : {ω : Nat → Ω | ∃ frames s, orderWith (streamRand f r g) d n ω = .ok (frames, π, s)} =
      {ω | Matches f r (orderScript d (fun _ _ => none) (List.range n) 0 π) ω} := by
    ext ω
    obtain ⟨frames, π', e, h⟩ := order_event (f := f) hf.range d n g ω
    simp only [Set.mem_ofPred_eq]
    rw [← h π (fun _ _ => none) hπ (by simp), e]
    constructor
    · rintro ⟨fr, s, h1⟩
      simp only [Except.ok.injEq, Prod.mk.injEq] at h1
      exact ⟨h1.2.1, by simp⟩
    · rintro ⟨rfl, h2⟩
      exact ⟨frames, _, rfl⟩
  obtain ⟨h1, h2⟩ := orderScript_weight ν f d (fun _ _ => none) π (List.range n) 0 hπ
  have hn : π.length = n := by rw [hπ.length_eq, List.length_range]
  rw [hset, hf.matches _ h1, h2, hn, laterProd_eq]
  simp [bernoulli]

omit [MeasurableSpace Ω] in
theorem instance_event {F : Type} [FloatRoot F] {f : Ω → F} (hr : ∀ n x, 0 < n → r n x < n)
    {edge correction : Density F} {n : Nat} (hn : n ≠ 0) {x y : F} (hx : edge.get n = .ok x)
    (hy : correction.get n = .ok y) {G : List (List Nat)} (hG : Simple n G) {π : List Nat}
    (hπ : π.Perm (List.range n)) {D : Nat → Nat → Prop} (hD : Earlier π D) (g : Ω → Nat) (ω : Nat → Ω) :
    (∃ s frames s', getGraph (streamRand f r g) edge n ω = .ok (G, s) ∧
        (∀ induced, getOrder induced (streamRand f r g) correction n s = .ok (induced frames π, s')) ∧
        ∀ b c, DependsOn frames π b c ↔ D b c) ↔
      Matches f r (((pairs n).map fun p => .below x (some (decide (p.2 ∈ G.getD p.1 [])))) ++
        orderScript y (wanted π D) (List.range n) 0 π) ω := by
  classical
  simp only [matches_append, List.length_map]
  rw [← graph_event x n hG g]
  obtain ⟨G', e', -⟩ := graph_matches f r g x n ω
  obtain ⟨frames, π', e, h⟩ := order_event (f := f) hr y n g fun k => ω (k + (pairs n).length)
  rw [← h π (wanted π D) hπ (wanted_drop hπ hD), ← depends_event hπ hD]
  have hgg : ∀ ω, getGraph (streamRand f r g) edge n ω = graphWith (streamRand f r g) x n ω := by
    intro ω
    simp [getGraph, hn, hx, bind, Except.bind]
  have hgo : ∀ induced, getOrder induced (streamRand f r g) correction n (fun k => ω (k + (pairs n).length)) =
      .ok (induced frames π', fun k => ω (k + orderDraws n + (pairs n).length)) := by
    intro induced
    simp [getOrder, hn, hy, e, bind, Except.bind, pure, Except.pure]
  rw [hgg, e']
  constructor
  · rintro ⟨s, fr, s', h1, h2, h3⟩
    simp only [Except.ok.injEq, Prod.mk.injEq] at h1
    obtain ⟨rfl, rfl⟩ := h1
    have h4 := h2 fun a b => if a = frames ∧ b = π' then [] else [[]]
    rw [hgo] at h4
    simp only [and_self, if_true, Except.ok.injEq, Prod.mk.injEq] at h4
    have h5 : fr = frames ∧ π = π' := by
      by_contra hne
      rw [if_neg hne] at h4
      exact absurd h4.1 (by simp)
    obtain ⟨rfl, rfl⟩ := h5
    exact ⟨⟨_, rfl⟩, rfl, h3⟩
  · rintro ⟨⟨s, h1⟩, rfl, h3⟩
    simp only [Except.ok.injEq, Prod.mk.injEq] at h1
    obtain ⟨rfl, rfl⟩ := h1
    exact ⟨_, frames, _, rfl, hgo, h3⟩

/-- **C58** A random instance, with both densities of the command line: the graph and the dependencies are
independent. Whatever `induced` is made of the frames, `frames` and `π` are what it is made of. -/
theorem C58_instance {F : Type} [FloatRoot F] {f : Ω → F} [IsProbabilityMeasure ν] (hf : Fair ν f r)
    {edge correction : Density F} {n : Nat} (hn : n ≠ 0) {x y : F} (hx : edge.get n = .ok x)
    (hy : correction.get n = .ok y) {G : List (List Nat)} (hG : Simple n G) {π : List Nat}
    (hπ : π.Perm (List.range n)) {D : Nat → Nat → Prop} (hD : Earlier π D) (g : Ω → Nat) :
    Measure.infinitePi (fun _ : Nat => ν)
      {ω | ∃ s frames s', getGraph (streamRand f r g) edge n ω = .ok (G, s) ∧
        (∀ induced, getOrder induced (streamRand f r g) correction n s = .ok (induced frames π, s')) ∧
        ∀ b c, DependsOn frames π b c ↔ D b c} =
      (chance ν f x ^ numEdges n G * (1 - chance ν f x) ^ (n * (n - 1) / 2 - numEdges n G)) *
      ((n.factorial : ENNReal)⁻¹ *
        (chance ν f y ^ numDeps π D * (1 - chance ν f y) ^ (n * (n - 1) / 2 - numDeps π D))) := by
  simp only [instance_event hf.range hn hx hy hG hπ hD g]
  obtain ⟨h1, h2⟩ := orderScript_weight ν f y (wanted π D) π (List.range n) 0 hπ
  have hl : π.length = n := by rw [hπ.length_eq, List.length_range]
  rw [hf.matches, List.map_append, List.prod_append, h2, wanted_prod, hl, List.map_map]
  · congr 1
    rw [← length_pairs]
    exact bernoulli_prod (chance ν f x) _ _
  · intro z hz
    rcases List.mem_append.1 hz with hz | hz
    · obtain ⟨p, -, rfl⟩ := List.mem_map.1 hz
      trivial
    · exact h1 z hz

/-- **C58** Two nodes are neighbours with probability `p`. -/
theorem C58_edge [IsProbabilityMeasure ν] (hf : Fair ν f r) (d : F) {n u v : Nat} (hu : u < n) (hv : v < n)
    (huv : u ≠ v) (g : Ω → Nat) :
    _root_.MeasurableSet {ω : Nat → Ω | ∃ G s, graphWith (streamRand f r g) d n ω = .ok (G, s) ∧
      v ∈ G.getD u []} ∧
    Measure.infinitePi (fun _ : Nat => ν)
      {ω | ∃ G s, graphWith (streamRand f r g) d n ω = .ok (G, s) ∧ v ∈ G.getD u []} = chance ν f d := by
  obtain ⟨k, hk⟩ : ∃ k, (pairs n)[k]? = some (min u v, max u v) :=
    List.mem_iff_getElem?.1 (mem_pairs.2 ⟨by simp only; omega, by simp only; omega⟩)
  have hset : {ω : Nat → Ω | ∃ G s, graphWith (streamRand f r g) d n ω = .ok (G, s) ∧ v ∈ G.getD u []} =
      (fun ω => ω k) ⁻¹' {x | FloatOps.lt (f x) d = true} := by
    ext ω
    obtain ⟨G, e, h1, h2, h3, h4, -⟩ := graph_matches f r g d n ω
    have h5 := h4 k _ hk
    simp only [Set.mem_ofPred_eq, Set.mem_preimage]
    rw [← h5]
    have hsym : v ∈ G.getD u [] ↔ max u v ∈ G.getD (min u v) [] := by
      rcases Nat.lt_or_gt_of_ne huv with h | h
      · rw [Nat.min_eq_left h.le, Nat.max_eq_right h.le]
      · rw [Nat.min_eq_right h.le, Nat.max_eq_left h.le]
        exact ⟨fun h => (h3 _ _ h).2.2, fun h => (h3 _ _ h).2.2⟩
    rw [← hsym]
    constructor
    · rintro ⟨G', s, h6, h7⟩
      rw [e] at h6
      simp only [Except.ok.injEq, Prod.mk.injEq] at h6
      obtain ⟨rfl, -⟩ := h6
      exact h7
    · intro h
      exact ⟨G, _, e, h⟩
  have hm : Measurable fun ω : Nat → Ω => ω k := measurable_pi_apply k
  rw [hset]
  refine ⟨hm (hf.below d), ?_⟩
  rw [← Measure.map_apply hm (hf.below d), Measure.infinitePi_map_eval (fun _ : Nat => ν) k]
  rfl

/-- The number of neighbours of a node in what `get_graph` returns. -/
def degree (res : R (List (List Nat) × (Nat → Ω))) (u : Nat) : Nat :=
  match res with
  | .ok (G, _) => (G.getD u []).length
  | .error _ => 0

/-- **C58** The expected number of neighbours of a node is `(n - 1) p`. -/
theorem C58_degree [IsProbabilityMeasure ν] (hf : Fair ν f r) (d : F) {n u : Nat} (hu : u < n) (g : Ω → Nat) :
    ∫⁻ ω, (degree (graphWith (streamRand f r g) d n ω) u : ENNReal) ∂(Measure.infinitePi fun _ : Nat => ν) =
      ((n - 1 : Nat) : ENNReal) * chance ν f d := by
  classical
  let A : Nat → Set (Nat → Ω) := fun v =>
    {ω | ∃ G s, graphWith (streamRand f r g) d n ω = .ok (G, s) ∧ v ∈ G.getD u []}
  have hdeg : ∀ ω, (degree (graphWith (streamRand f r g) d n ω) u : ENNReal) =
      ∑ v ∈ (Finset.range n).erase u, (A v).indicator 1 ω := by
    intro ω
    obtain ⟨G, e, h1, h2, h3, -⟩ := graph_matches f r g d n ω
    have hA : ∀ v, ω ∈ A v ↔ v ∈ G.getD u [] := by
      intro v
      constructor
      · rintro ⟨G', s, h6, h7⟩
        rw [e] at h6
        simp only [Except.ok.injEq, Prod.mk.injEq] at h6
        obtain ⟨rfl, -⟩ := h6
        exact h7
      · intro h
        exact ⟨G, _, e, h⟩
    have hsum : ∑ v ∈ (Finset.range n).erase u, (A v).indicator (1 : (Nat → Ω) → ENNReal) ω =
        (((Finset.range n).erase u).filter fun v => v ∈ G.getD u []).card := by
      rw [Finset.card_filter, Nat.cast_sum]
      refine Finset.sum_congr rfl fun v _ => ?_
      by_cases hv : v ∈ G.getD u []
      · rw [Set.indicator_of_mem ((hA v).2 hv), if_pos hv]
        simp
      · rw [Set.indicator_of_notMem (fun h => hv ((hA v).1 h)), if_neg hv]
        simp
    rw [hsum, e]
    simp only [degree]
    congr 1
    have hul : u < G.length := h1 ▸ hu
    have hnd : (G.getD u []).Nodup := by
      have : G.getD u [] = G[u] := by simp [List.getD_eq_getElem?_getD, hul]
      rw [this]
      exact (h2 _ (List.getElem_mem hul)).imp fun h => Nat.ne_of_lt h
    rw [← List.toFinset_card_of_nodup hnd]
    congr 1
    ext v
    simp only [List.mem_toFinset, Finset.mem_filter, Finset.mem_erase, Finset.mem_range]
    constructor
    · intro h
      exact ⟨⟨(h3 u v h).2.1, (h3 u v h).1⟩, h⟩
    · exact fun h => h.2
  simp only [hdeg]
  rw [lintegral_finsetSum']
  · have : ∀ v ∈ (Finset.range n).erase u, ∫⁻ ω, (A v).indicator 1 ω ∂(Measure.infinitePi fun _ : Nat => ν) =
        chance ν f d := by
      intro v hv
      have hv' := Finset.mem_erase.1 hv
      obtain ⟨h1, h2⟩ := C58_edge hf d hu (Finset.mem_range.1 hv'.2) (Ne.symm hv'.1) g
      rw [lintegral_indicator_one h1]
      exact h2
    rw [Finset.sum_congr rfl this, Finset.sum_const, Finset.card_erase_of_mem (Finset.mem_range.2 hu),
      Finset.card_range, nsmul_eq_mul]
  · intro v hv
    have hv' := Finset.mem_erase.1 hv
    exact (measurable_one.indicator (C58_edge hf d hu (Finset.mem_range.1 hv'.2) (Ne.symm hv'.1) g).1).aemeasurable

/-! ## Uniform numbers -/

/-- The uniform distribution on `[0, 1)`. -/
noncomputable def unit : Measure ℝ := volume.restrict (Set.Ico 0 1)

instance : IsProbabilityMeasure unit := ⟨by simp [unit]⟩

/-- An index below `n` made of a number in `[0, 1)`. -/
noncomputable def scaled (n : Nat) (x : ℝ) : Nat := min ⌊n * x⌋₊ (n - 1)

theorem lt_real (x d : ℝ) : FloatOps.lt x d = true ↔ x < d := by
  change decide (x < d) = true ↔ _
  simp

theorem unit_Iio {d : ℝ} (h1 : d ≤ 1) : unit {x | x < d} = ENNReal.ofReal d := by
  have : {x : ℝ | x < d} ∩ Set.Ico 0 1 = Set.Ico 0 d := by
    ext x
    simp only [Set.mem_inter_iff, Set.mem_ofPred_eq, Set.mem_Ico]
    constructor
    · rintro ⟨h, h', -⟩; exact ⟨h', h⟩
    · rintro ⟨h, h'⟩; exact ⟨h', h, by linarith⟩
  have hm : _root_.MeasurableSet {x : ℝ | x < d} := measurableSet_Iio
  rw [unit, Measure.restrict_apply hm, this, Real.volume_Ico, sub_zero]


theorem scaled_measurable (n i : Nat) : _root_.MeasurableSet {x | scaled n x = i} := by
  have : Measurable (scaled n) := by
    unfold scaled
    exact (Nat.measurable_floor.comp (measurable_const.mul measurable_id)).min measurable_const
  exact this (measurableSet_singleton i)

theorem scaled_uniform {n i : Nat} (hi : i < n) : unit {x | scaled n x = i} = (n : ENNReal)⁻¹ := by
  have hn : (0 : ℝ) < n := by exact_mod_cast (by omega : 0 < n)
  have : {x : ℝ | scaled n x = i} ∩ Set.Ico 0 1 = Set.Ico ((i : ℝ) / n) (((i : ℝ) + 1) / n) := by
    ext x
    simp only [Set.mem_inter_iff, Set.mem_ofPred_eq, Set.mem_Ico, div_le_iff₀ hn, lt_div_iff₀ hn, scaled]
    constructor
    · rintro ⟨h, h0, h1⟩
      have hnx : 0 ≤ n * x := by positivity
      have hlt : ⌊n * x⌋₊ < n := by
        rw [Nat.floor_lt hnx]
        nlinarith
      have : ⌊n * x⌋₊ = i := by omega
      rw [Nat.floor_eq_iff hnx] at this
      exact ⟨by linarith [this.1], by linarith [this.2]⟩
    · rintro ⟨h0, h1⟩
      have hx0 : 0 ≤ x := by
        by_contra hx
        have : (0 : ℝ) ≤ i := Nat.cast_nonneg i
        nlinarith
      have hin : ((i : ℝ) + 1) ≤ n := by exact_mod_cast hi
      have hx1 : x < 1 := by
        by_contra hx
        nlinarith
      have : ⌊n * x⌋₊ = i := by
        rw [Nat.floor_eq_iff (by positivity)]
        constructor <;> linarith
      exact ⟨by omega, hx0, hx1⟩
  rw [unit, Measure.restrict_apply (scaled_measurable n i), this, Real.volume_Ico,
    show ((i : ℝ) + 1) / n - i / n = (n : ℝ)⁻¹ by field_simp; ring,
    ENNReal.ofReal_inv_of_pos hn, ENNReal.ofReal_natCast]

/-- Exact uniform numbers are fair. -/
theorem fair_unit : Fair unit (id : ℝ → ℝ) scaled where
  below d := by
    simp only [lt_real, id]
    exact measurableSet_lt measurable_id measurable_const
  index := scaled_measurable
  range n x hn := by unfold scaled; omega
  uniform _ _ := scaled_uniform

theorem chance_unit {d : ℝ} (h1 : d ≤ 1) : chance unit (id : ℝ → ℝ) d = ENNReal.ofReal d := by
  simp only [chance, lt_real, id]
  exact unit_Iio h1

/-- Uniform numbers with `b` bits. -/
noncomputable def rounded (b : Nat) (x : ℝ) : ℝ := ⌊2 ^ b * x⌋ / 2 ^ b

theorem rounded_lt (b : Nat) (x d : ℝ) : rounded b x < d ↔ x < ⌈2 ^ b * d⌉ / 2 ^ b := by
  have h2 : (0 : ℝ) < 2 ^ b := by positivity
  rw [rounded, div_lt_iff₀ h2, lt_div_iff₀ h2, mul_comm d, ← Int.lt_ceil, Int.floor_lt, mul_comm x]

theorem fair_rounded (b : Nat) : Fair unit (rounded b) scaled where
  below d := by
    simp only [lt_real, rounded_lt]
    exact measurableSet_lt measurable_id measurable_const
  index := scaled_measurable
  range n x hn := by unfold scaled; omega
  uniform _ _ := scaled_uniform

/-- With `b` bits, as those of the significand of an `f64`, the probability is the density, rounded up to
`b` bits. -/
theorem chance_rounded (b : Nat) {d : ℝ} (h1 : d ≤ 1) :
    chance unit (rounded b) d = ENNReal.ofReal (⌈2 ^ b * d⌉ / 2 ^ b) := by
  have h2 : (0 : ℝ) < 2 ^ b := by positivity
  simp only [chance, lt_real, rounded_lt]
  refine unit_Iio ?_
  rw [div_le_one h2]
  have : ⌈2 ^ b * d⌉ ≤ (2 ^ b : Int) := by
    rw [Int.ceil_le]
    push_cast
    nlinarith
  exact_mod_cast this

/-- **C58** With exact uniform numbers, the expected number of neighbours of every node is
`factor * (size - 1)`, `factor` and `factor * √(size - 1)` for the three kinds of density. -/
theorem C58_expected_degree (ty : String) (factor : ℝ) (d : Density ℝ) (h : newDensity ty factor = .ok d)
    {size u : Nat} (hs : 1 < size) (hu : u < size) (g : ℝ → Nat) :
    ∫⁻ ω, (degree (getGraph (streamRand id scaled g) d size ω) u : ENNReal)
        ∂(Measure.infinitePi fun _ : Nat => unit) =
      ENNReal.ofReal (if ty = "constant" then factor * (size - 1) else
        if ty = "reziprocal_linear" then factor else factor * Real.sqrt (size - 1)) := by
  obtain ⟨x, hx, h0, h1, h2, h3, h4⟩ := C46_degree ty factor d h size hs
  have hty := ((C46_new_density ty factor).1.1 ⟨d, h⟩).1
  have hg : ∀ ω, getGraph (streamRand id scaled g) d size ω = graphWith (streamRand id scaled g) x size ω := by
    intro ω
    simp [getGraph, show size ≠ 0 by omega, hx, bind, Except.bind]
  have hsz : ((size - 1 : Nat) : ℝ) = (size : ℝ) - 1 := by
    rw [Nat.cast_sub hs.le, Nat.cast_one]
  simp only [hg]
  rw [C58_degree fair_unit x hu g, chance_unit h1, ← ENNReal.ofReal_natCast,
    ← ENNReal.ofReal_mul (Nat.cast_nonneg _), hsz]
  congr 1
  simp only [List.mem_cons, List.not_mem_nil, or_false] at hty
  rcases hty with rfl | rfl | rfl
  · rw [h2 rfl, if_pos rfl, mul_comm]
  · rw [h3 rfl]; simp
  · rw [h4 rfl]; simp

/-! ## The hypotheses can be met -/

/-- The path on three nodes. -/
theorem simple_path : Simple 3 [[1], [0, 2], [1]] := by
  refine ⟨rfl, by simp, fun u v h => ?_⟩
  rcases u with _ | _ | _ | u <;> simp at h
  · subst h; simp
  · rcases h with rfl | rfl <;> simp
  · subst h; simp

example (g : ℝ → Nat) : Measure.infinitePi (fun _ : Nat => unit)
    {ω | ∃ s, graphWith (streamRand id scaled g) (1 / 4) 3 ω = .ok ([[1], [0, 2], [1]], s)} =
      ENNReal.ofReal (1 / 4) ^ 2 * (1 - ENNReal.ofReal (1 / 4)) := by
  have := C58_graph fair_unit (1 / 4 : ℝ) simple_path g
  rw [chance_unit (by norm_num)] at this
  simpa [numEdges, pairs, List.range_succ] using this

/-- Three qubits, measured in the order 2, 0, 1, where 1 depends on 2. -/
example (g : ℝ → Nat) : Measure.infinitePi (fun _ : Nat => unit)
    {ω | ∃ frames s, orderWith (streamRand id scaled g) (1 / 4) 3 ω = .ok (frames, [2, 0, 1], s) ∧
      ∀ b c, DependsOn frames [2, 0, 1] b c ↔ b = 1 ∧ c = 2} =
      6⁻¹ * (ENNReal.ofReal (1 / 4) * (1 - ENNReal.ofReal (1 / 4)) ^ 2) := by
  have := C58_order fair_unit (1 / 4 : ℝ) (n := 3) (π := [2, 0, 1]) (D := fun b c => b = 1 ∧ c = 2)
    (by decide) (by rintro c d ⟨rfl, rfl⟩; exact ⟨0, 2, by decide, rfl, rfl⟩) g
  rw [chance_unit (by norm_num)] at this
  simpa [numDeps, pairs, List.range_succ, Nat.factorial] using this

/-- Both together, with the densities `1 / 2` and `(1 / 2) / (3 - 1)`. -/
example : (3 : Nat) ≠ 0 ∧ (Density.constant (1 / 2 : ℝ)).get 3 = .ok (1 / 2) ∧
    (∃ y, (Density.reziprocalLinear (1 / 2 : ℝ)).get 3 = .ok y) ∧ Simple 3 [[1], [0, 2], [1]] ∧
    [2, 0, 1].Perm (List.range 3) ∧ Earlier [2, 0, 1] (fun b c => b = 1 ∧ c = 2) :=
  ⟨by decide, rfl, ⟨_, rfl⟩, simple_path, by decide,
    by rintro c d ⟨rfl, rfl⟩; exact ⟨0, 2, by decide, rfl, rfl⟩⟩

end Verif.Results
