import Verif.Props.Run
import Verif.Props.BufferProps
import Verif.Proofs.Decomposition
import Mathlib.Combinatorics.SimpleGraph.Connectivity.Connected
import Mathlib.Combinatorics.SimpleGraph.Hasse
import Mathlib.Combinatorics.SimpleGraph.Finite
import Mathlib.Combinatorics.SimpleGraph.Clique
import Mathlib.Data.Fintype.Card
import Mathlib.Data.Finset.Image
import Mathlib.Order.Interval.Finset.Nat
import Mathlib.Order.Nat
/-!
# What is optimised, in terms of graph theory

The trade-off between steps and memory is the one between the number and the size of the bags of path decompositions.
Without dependencies the least memory is the pathwidth plus one.
-/

namespace Verif

open Spec Problem Search Search.Threaded Example

section

variable {F σ : Type} [FloatOps F] {P : Problem} {env : Env F σ} {args : Args F} {out : List Path}

/-- **C59** In every mode, every returned path is a path decomposition with one bag per step; its largest bag has
as many nodes as the reported space. -/
theorem C59_path (hP : P.WF) (hsym : P.Symm) (he : env.OK) (h : run env P.graph P.order args = .ok (some out)) :
    ∀ p ∈ out, ∃ bag : Fin p.time → Finset Nat, Decomposition P bag ∧ (∀ i, (bag i).card ≤ p.space) ∧
      (0 < p.time → ∃ i, (bag i).card = p.space) := by
  intro p hp
  obtain ⟨hv, ht, hs⟩ := (run_sound hP he h).valid p hp
  rw [ht]
  refine ⟨fun i => bagAt P p.steps i, decomposition_of_valid hP hsym hv, fun i => ?_, fun hpos => ?_⟩
  · rw [card_bagAt, hs]; exact memAt_le_peak P _ _ i.2
  · by_contra hne
    rw [not_exists] at hne
    have hlt : ∀ k, k < p.steps.length → P.memAt p.steps k ≤ P.peak p.steps - 1 := fun k hk => by
      have h1 := memAt_le_peak P _ _ hk
      have h2 : P.memAt p.steps k ≠ P.peak p.steps := fun e => hne ⟨k, hk⟩ (by rw [card_bagAt, hs]; exact e)
      omega
    have h1 := peak_le hlt
    have h2 : P.memAt p.steps 0 ≠ P.peak p.steps := fun e => hne ⟨0, hpos⟩ (by rw [card_bagAt, hs]; exact e)
    have h3 := memAt_le_peak P _ _ hpos
    omega

/-- **C59** What an exhaustive search returns is the trade-off between the number and the size of the bags of
path decompositions: there is a returned path of at most `t` steps with at most `m` qubits in memory exactly if there
is a path decomposition with at most `t` bags of at most `m` nodes. -/
theorem C59_curve (hP : P.WF) (hsym : P.Symm) (hb : P.bits ≠ []) (he : env.OK) (hx : Exhaustive env args)
    (h : run env P.graph P.order args = .ok (some out)) (t m : Nat) :
    (∃ p ∈ out, p.time ≤ t ∧ p.space ≤ m) ↔
      ∃ r, r ≤ t ∧ ∃ bag : Fin r → Finset Nat, Decomposition P bag ∧ ∀ i, (bag i).card ≤ m := by
  rw [← schedule_iff_decomposition hP hsym]
  constructor
  · rintro ⟨p, hp, h1, h2⟩
    obtain ⟨hv, ht, hs⟩ := (run_sound hP he h).valid p hp
    exact ⟨p.steps, hv, by omega, by omega⟩
  · rintro ⟨S, hS, h1, h2⟩
    obtain ⟨p, hp, h3, h4⟩ := run_exhaustive hP hb he hx h S hS
    exact ⟨p, hp, by omega, by omega⟩

end

/-- A path decomposition of a graph: a sequence of bags such that every vertex is in a bag, the ends of every edge
are together in some bag, and the bags with a given vertex are consecutive. -/
structure PathDecomposition {V : Type} (G : SimpleGraph V) {t : Nat} (bag : Fin t → Finset V) : Prop where
  vertex : ∀ v, ∃ i, v ∈ bag i
  edge : ∀ u v, G.Adj u v → ∃ i, u ∈ bag i ∧ v ∈ bag i
  convex : ∀ i j k v, i ≤ j → j ≤ k → v ∈ bag i → v ∈ bag k → v ∈ bag j

/-- The pathwidth of a graph: one less than the least possible size of the largest bag. -/
noncomputable def pathwidth {V : Type} (G : SimpleGraph V) : Nat :=
  sInf {w | ∃ (t : Nat) (bag : Fin t → Finset V), PathDecomposition G bag ∧ ∀ i, (bag i).card ≤ w + 1}

/-- All nodes of `G` have to be measured and the neighbour lists are those of `G`. -/
structure OnGraph {n : Nat} (P : Problem) (G : SimpleGraph (Fin n)) : Prop where
  wf : P.WF
  nodes : P.n = n
  nbrs : ∀ u v : Fin n, v.val ∈ P.nbrs u ↔ G.Adj u v
  all : ∀ u : Fin n, u.val ∈ P.bits

/-- In addition, no qubit depends on another one. -/
structure Free {n : Nat} (P : Problem) (G : SimpleGraph (Fin n)) : Prop extends OnGraph P G where
  free : ∀ b d, ¬ P.Needs b d

section

variable {n : Nat} {P : Problem} {G : SimpleGraph (Fin n)}

theorem OnGraph.symm (h : OnGraph P G) : P.Symm := by
  intro b hb c hc hbc
  have h1 := h.wf.bits_lt b hb
  have h2 := h.wf.bits_lt c hc
  rw [h.nodes] at h1 h2
  exact (h.nbrs ⟨c, h2⟩ ⟨b, h1⟩).2 ((h.nbrs ⟨b, h1⟩ ⟨c, h2⟩).1 hbc).symm

theorem OnGraph.ne (h : OnGraph P G) (hn : 0 < n) : P.bits ≠ [] :=
  List.ne_nil_of_mem (h.all ⟨0, hn⟩)

/-- The bags of a problem, as sets of vertices of its graph. -/
theorem OnGraph.decomposition (h : OnGraph P G) {t : Nat} {bag : Fin t → Finset Nat} (hD : Decomposition P bag) :
    PathDecomposition G fun i => Finset.univ.filter fun v : Fin n => v.val ∈ bag i := by
  refine ⟨fun v => ?_, fun u v huv => ?_, fun i j k v h1 h2 h3 h4 => ?_⟩
  · obtain ⟨i, hi⟩ := hD.bit v (h.all v)
    exact ⟨i, by simpa using hi⟩
  · obtain ⟨i, hi, hi'⟩ := hD.edge u (h.all u) v ((h.nbrs u v).2 huv)
    exact ⟨i, by simpa using hi, by simpa using hi'⟩
  · simp only [Finset.mem_filter, Finset.mem_univ, true_and] at h3 h4 ⊢
    exact hD.convex i j k v h1 h2 h3 h4

theorem card_vertices_le (n : Nat) (B : Finset Nat) : (Finset.univ.filter fun v : Fin n => v.val ∈ B).card ≤ B.card :=
  Finset.card_le_card_of_injOn Fin.val (fun v hv => by simpa using hv) (fun _ _ _ _ => Fin.ext)

theorem Free.decomposition (h : Free P G) {t : Nat} {bag : Fin t → Finset (Fin n)} (hD : PathDecomposition G bag) :
    Decomposition P fun i => (bag i).map Fin.valEmbedding := by
  have hm : ∀ (v : Fin n) i, v.val ∈ (bag i).map Fin.valEmbedding ↔ v ∈ bag i := fun v i => by
    simp [Fin.val_inj]
  have hlt : ∀ b ∈ P.bits, b < n := fun b hb => h.nodes ▸ h.wf.bits_lt b hb
  refine ⟨fun b hb => ?_, fun b hb c hc => ?_, fun i j k v h1 h2 h3 h4 => ?_, fun v hv i j _ hi => ?_,
    fun b d hbd => absurd hbd (h.free b d)⟩
  · obtain ⟨i, hi⟩ := hD.vertex ⟨b, hlt b hb⟩
    exact ⟨i, (hm ⟨b, hlt b hb⟩ i).2 hi⟩
  · have hcn : c < n := h.nodes ▸ nbrs_lt h.wf hc
    obtain ⟨i, hi, hi'⟩ := hD.edge ⟨b, hlt b hb⟩ ⟨c, hcn⟩ ((h.nbrs ⟨b, hlt b hb⟩ ⟨c, hcn⟩).1 hc)
    exact ⟨i, (hm ⟨b, hlt b hb⟩ i).2 hi, (hm ⟨c, hcn⟩ i).2 hi'⟩
  · obtain ⟨w, hw, rfl⟩ := Finset.mem_map.1 h3
    exact (hm w j).2 (hD.convex i j k w h1 h2 hw ((hm w k).1 h4))
  · obtain ⟨w, hw, rfl⟩ := Finset.mem_map.1 hi
    exact absurd (h.all w) hv

variable {F σ : Type} [FloatOps F] {env : Env F σ} {args : Args F} {out : List Path}

/-- **C59** Without dependencies, an exhaustive search solves the problem of path decompositions with few and small
bags on the graph. -/
theorem C59_graph (hG : Free P G) (hn : 0 < n) (he : env.OK) (hx : Exhaustive env args)
    (h : run env P.graph P.order args = .ok (some out)) (t m : Nat) :
    (∃ p ∈ out, p.time ≤ t ∧ p.space ≤ m) ↔
      ∃ r, r ≤ t ∧ ∃ bag : Fin r → Finset (Fin n), PathDecomposition G bag ∧ ∀ i, (bag i).card ≤ m := by
  rw [C59_curve hG.wf hG.symm (hG.ne hn) he hx h]
  constructor
  · rintro ⟨r, hr, bag, hD, hm⟩
    exact ⟨r, hr, _, hG.toOnGraph.decomposition hD, fun i => Nat.le_trans (card_vertices_le n _) (hm i)⟩
  · rintro ⟨r, hr, bag, hD, hm⟩
    exact ⟨r, hr, _, hG.decomposition hD, fun i => by rw [Finset.card_map]; exact hm i⟩

/-- The least memory of all schedules: the last path. -/
theorem last_space (hP : P.WF) (hb : P.bits ≠ []) (he : env.OK) (hx : Exhaustive env args)
    (h : run env P.graph P.order args = .ok (some out)) :
    ∃ l, out.getLast? = some l ∧ l ∈ out ∧ ∀ p ∈ out, l.space ≤ p.space := by
  obtain ⟨_, l, _, h2, _, _, h5⟩ := C10_first_last hP hb he hx h
  refine ⟨l, h2, List.mem_of_getLast? h2, fun p hp => ?_⟩
  obtain ⟨hv, _, hs⟩ := (run_sound hP he h).valid p hp
  rw [hs]
  exact h5 _ hv

/-- **C59** Without dependencies, the space of the last path of an exhaustive search is the pathwidth of the graph
plus one. -/
theorem C59_pathwidth (hG : Free P G) (hn : 0 < n) (he : env.OK) (hx : Exhaustive env args)
    (h : run env P.graph P.order args = .ok (some out)) :
    ∃ l, out.getLast? = some l ∧ l.space = pathwidth G + 1 := by
  obtain ⟨l, h1, h2, h3⟩ := last_space hG.wf (hG.ne hn) he hx h
  refine ⟨l, h1, ?_⟩
  have hl : ∃ (t : Nat) (bag : Fin t → Finset (Fin n)), PathDecomposition G bag ∧ ∀ i, (bag i).card ≤ l.space := by
    obtain ⟨r, _, bag, hD, hm⟩ := (C59_graph hG hn he hx h l.time l.space).1 ⟨l, h2, le_refl _, le_refl _⟩
    exact ⟨r, bag, hD, hm⟩
  have hpos : 0 < l.space := by
    obtain ⟨t, bag, hD, hm⟩ := hl
    obtain ⟨i, hi⟩ := hD.vertex ⟨0, hn⟩
    have := Finset.card_pos.2 ⟨_, hi⟩
    have := hm i
    omega
  apply le_antisymm
  · have hmem := Nat.sInf_mem (s := {w | ∃ (t : Nat) (bag : Fin t → Finset (Fin n)), PathDecomposition G bag ∧
        ∀ i, (bag i).card ≤ w + 1}) ⟨l.space - 1, by
      obtain ⟨t, bag, hD, hm⟩ := hl
      exact ⟨t, bag, hD, fun i => by have := hm i; omega⟩⟩
    obtain ⟨t, bag, hD, hm⟩ := hmem
    obtain ⟨p, hp, _, hs⟩ := (C59_graph hG hn he hx h t (pathwidth G + 1)).2 ⟨t, le_refl _, bag, hD, hm⟩
    have := h3 p hp
    omega
  · have : pathwidth G ≤ l.space - 1 := Nat.sInf_le (by
      obtain ⟨t, bag, hD, hm⟩ := hl
      exact ⟨t, bag, hD, fun i => by have := hm i; omega⟩)
    omega

/-- **C59** With dependencies, and in every mode, no returned path needs less. -/
theorem C59_lower (hG : OnGraph P G) (hn : 0 < n) (he : env.OK)
    (h : run env P.graph P.order args = .ok (some out)) : ∀ p ∈ out, pathwidth G + 1 ≤ p.space := by
  intro p hp
  obtain ⟨bag, hD, hm, _⟩ := C59_path hG.wf hG.symm he h p hp
  have hD' := hG.decomposition hD
  have hpos : 0 < p.space := by
    obtain ⟨i, hi⟩ := hD.bit 0 (hG.all ⟨0, hn⟩)
    have := Finset.card_pos.2 ⟨_, hi⟩
    have := hm i
    omega
  have : pathwidth G ≤ p.space - 1 := Nat.sInf_le ⟨_, _, hD', fun i => by
    have h1 := card_vertices_le n (bag i)
    have h2 := hm i
    omega⟩
  omega

/-- The problem of measuring the nodes `0`, ..., `n - 1` of a graph in any order. -/
def freeProblem (n : Nat) (g : List (List Nat)) : Problem := ⟨g, [(List.range n).map fun v => (v, [])]⟩

theorem freeProblem_free {edges : List (Nat × Nat)} (hr : ∀ e ∈ edges, e.1 < n ∧ e.2 < n) (hn : n < 2 ^ 64 - 1)
    {g : List (List Nat)} (h : GraphBuffer.new edges n none true = .ok g) :
    Free (freeProblem n g) (SimpleGraph.fromRel fun u v : Fin n => (u.val, v.val) ∈ edges) := by
  obtain ⟨g', h1, h2⟩ := C25_checked hr
  rw [h] at h1
  injection h1 with h1
  subst h1
  have hbits : (freeProblem n g).bits = List.range n := by
    simp [Problem.bits, Problem.entries, freeProblem, Function.comp_def]
  have hlen : (freeProblem n g).n = n := h2.length
  have hno : ∀ e ∈ (freeProblem n g).entries, e.2 = [] := by
    intro e he
    simp only [Problem.entries, freeProblem, List.flatten_cons, List.flatten_nil, List.append_nil,
      List.mem_map] at he
    obtain ⟨v, _, rfl⟩ := he
    rfl
  refine
    { wf := ⟨?_, ?_, ?_, ?_, ?_⟩
      nodes := hlen
      nbrs := ?_
      all := ?_
      free := ?_ }
  · rw [hbits]; exact List.nodup_range
  · rw [hbits, hlen]; simp
  · intro l hl v hv
    exact (C25_symmetric hr h).2.2 l hl v hv
  · intro i layer hl e he
    have hi := (List.getElem?_eq_some_iff.1 hl).1
    have hi0 : i = 0 := by simp [freeProblem] at hi; omega
    have he2 : e.2 = [] := hno e (List.mem_flatten.2 ⟨layer, List.mem_of_getElem? hl, he⟩)
    simp [hi0, he2]
  · rw [hlen]; exact hn
  · intro u v
    rw [SimpleGraph.fromRel_adj]
    refine (h2.mem u.val v.val).trans ?_
    rw [ne_eq, ne_eq, Fin.ext_iff]
  · intro u
    rw [hbits]; simp
  · rintro b d ⟨ds, hds, hd⟩
    have : ds = [] := hno _ hds
    simp [this] at hd

/-- **C59** From a list of edges to the pathwidth: `GraphBuffer::new`, then an exhaustive search with one layer
of independent qubits. -/
theorem C59_edges {edges : List (Nat × Nat)} (hr : ∀ e ∈ edges, e.1 < n ∧ e.2 < n) (h0 : 0 < n)
    (hn : n < 2 ^ 64 - 1) {g : List (List Nat)} (hg : GraphBuffer.new edges n none true = .ok g) (he : env.OK)
    (hx : Exhaustive env args) (h : run env g [(List.range n).map fun v => (v, [])] args = .ok (some out)) :
    ∃ l, out.getLast? = some l ∧
      l.space = pathwidth (SimpleGraph.fromRel fun u v : Fin n => (u.val, v.val) ∈ edges) + 1 :=
  C59_pathwidth (freeProblem_free hr hn hg) h0 he hx h

/-! ## Bounds for all schedules of a graph -/

theorem PathDecomposition.volume {t m : Nat} {bag : Fin t → Finset (Fin n)} (hD : PathDecomposition G bag)
    (hc : G.Connected) (hm : ∀ i, (bag i).card ≤ m) : n ≤ t * (m - 1) + 1 := by
  classical
  have key : ∀ k, k ≤ t → (Finset.univ.filter fun v : Fin n => ∃ i, i.val < k ∧ v ∈ bag i).card ≤ k * (m - 1) + 1 := by
    intro k
    induction k with
    | zero => intro _; simp
    | succ k ih =>
      intro hk
      have ih := ih (by omega)
      generalize hU : (Finset.univ.filter fun v : Fin n => ∃ i, i.val < k ∧ v ∈ bag i) = U at ih
      have hUm : ∀ v, v ∈ U ↔ ∃ i, i.val < k ∧ v ∈ bag i := fun v => by rw [← hU]; simp
      have hnext : (Finset.univ.filter fun v : Fin n => ∃ i, i.val < k + 1 ∧ v ∈ bag i) = U ∪ bag ⟨k, hk⟩ := by
        ext v
        simp only [Finset.mem_filter, Finset.mem_univ, true_and, Finset.mem_union, hUm]
        constructor
        · rintro ⟨i, hi, hv⟩
          by_cases hik : i.val = k
          · refine Or.inr ?_
            have : i = ⟨k, hk⟩ := Fin.ext hik
            rw [← this]; exact hv
          · exact Or.inl ⟨i, by omega, hv⟩
        · rintro (⟨i, hi, hv⟩ | hv)
          · exact ⟨i, by omega, hv⟩
          · exact ⟨⟨k, hk⟩, by simp, hv⟩
      rw [hnext]
      have hmk := hm ⟨k, hk⟩
      have hexp : (k + 1) * (m - 1) = k * (m - 1) + (m - 1) := by rw [Nat.add_mul, Nat.one_mul]
      by_cases hint : ∃ v, v ∈ U ∧ v ∈ bag ⟨k, hk⟩
      · obtain ⟨v, hv1, hv2⟩ := hint
        have h1 := Finset.card_union_add_card_inter U (bag ⟨k, hk⟩)
        have h2 : 0 < (U ∩ bag ⟨k, hk⟩).card := Finset.card_pos.2 ⟨v, Finset.mem_inter.2 ⟨hv1, hv2⟩⟩
        omega
      · by_cases hne : U.Nonempty
        · obtain ⟨u, hu⟩ := hne
          have hclosed : ∀ x y, G.Adj x y → x ∈ U → y ∈ U := by
            intro x y hxy hx
            obtain ⟨j, hj1, hj2⟩ := hD.edge x y hxy
            by_cases hjk : j.val < k
            · exact (hUm y).2 ⟨j, hjk, hj2⟩
            · obtain ⟨i, hi, hxi⟩ := (hUm x).1 hx
              exact absurd ⟨x, hx, hD.convex i ⟨k, hk⟩ j x (Fin.le_def.2 (by simp only; omega))
                (Fin.le_def.2 (by simp only; omega)) hxi hj1⟩ hint
          have hall : ∀ v, v ∈ U := by
            intro v
            obtain ⟨w⟩ := hc.preconnected u v
            induction w with
            | nil => exact hu
            | cons hxy _ ih => exact ih (hclosed _ _ hxy hu)
          have : (U ∪ bag ⟨k, hk⟩).card ≤ U.card := Finset.card_le_card fun v _ => hall v
          omega
        · rw [Finset.not_nonempty_iff_eq_empty.1 hne, Finset.empty_union]
          omega
  have h1 := key t (le_refl t)
  have h2 : (Finset.univ.filter fun v : Fin n => ∃ i : Fin t, i.val < t ∧ v ∈ bag i) = Finset.univ := by
    ext v
    obtain ⟨i, hi⟩ := hD.vertex v
    simp only [Finset.mem_filter, Finset.mem_univ, true_and, iff_true]
    exact ⟨i, i.2, hi⟩
  rw [h2, Finset.card_univ, Fintype.card_fin] at h1
  exact h1

/-- **C60** On a connected graph of `n` qubits, steps and memory cannot both be small, whatever the dependencies and
in every mode: `n ≤ time * (space - 1) + 1`. -/
theorem C60_volume (hG : OnGraph P G) (hc : G.Connected) (he : env.OK)
    (h : run env P.graph P.order args = .ok (some out)) : ∀ p ∈ out, n ≤ p.time * (p.space - 1) + 1 := by
  intro p hp
  obtain ⟨bag, hD, hm, _⟩ := C59_path hG.wf hG.symm he h p hp
  exact (hG.decomposition hD).volume hc fun i => Nat.le_trans (card_vertices_le n _) (hm i)

/-- **C60** Qubits that are pairwise neighbours are in memory at the same time. -/
theorem C60_clique (hG : OnGraph P G) (he : env.OK) (h : run env P.graph P.order args = .ok (some out))
    {K : Finset (Fin n)} (hK : G.IsClique K) : ∀ p ∈ out, K.card ≤ p.space := by
  intro p hp
  rcases K.eq_empty_or_nonempty with rfl | hne
  · simp
  obtain ⟨hv, ht, hs⟩ := (run_sound hG.wf he h).valid p hp
  have hnd : p.steps.flatten.Nodup := hv.perm.nodup_iff.2 hG.wf.bits_nodup
  -- the first step with a qubit of the clique
  have hex : ∃ k : Nat, ∃ (s : List Nat) (c : Fin n), p.steps[k]? = some s ∧ c ∈ K ∧ c.val ∈ s := by
    obtain ⟨c, hc⟩ := hne
    obtain ⟨k, s, hk, hcs⟩ := mem_flatten_iff.1 (hv.perm.mem_iff.2 (hG.all c))
    exact ⟨k, s, c, hk, hc, hcs⟩
  classical
  obtain ⟨s, c, hk, hc, hcs⟩ := Nat.find_spec hex
  have hmin : ∀ j, j < Nat.find hex → ∀ (s' : List Nat) (d : Fin n), p.steps[j]? = some s' → d ∈ K → d.val ∉ s' :=
    fun j hj s' d h1 h2 h3 => Nat.find_min hex hj ⟨s', d, h1, h2, h3⟩
  have hkl := (List.getElem?_eq_some_iff.1 hk).1
  generalize Nat.find hex = k at *
  rw [hs]
  refine Nat.le_trans ?_ (memAt_le_peak P _ _ hkl)
  rw [← card_bagAt]
  refine Finset.card_le_card_of_injOn Fin.val (fun d hd => ?_) (fun _ _ _ _ => Fin.ext)
  have hd : d ∈ K := hd
  refine mem_bagAt.2 ⟨hG.nodes ▸ d.2, ?_, fun hb => ?_⟩
  · have hnow : c.val ∈ (p.steps.take (k + 1)).flatten := mem_take_flatten.2 ⟨k, s, by omega, hk, hcs⟩
    by_cases hcd : c = d
    · exact Or.inl (hcd ▸ hnow)
    · exact Or.inr ⟨c, hnow, (hG.nbrs c d).2 (hK hc hd hcd)⟩
  · obtain ⟨j, s', hj, hs', hds⟩ := mem_take_flatten.1 hb
    exact hmin j hj s' d hs' hd hds

/-- **C60** Some qubit is measured first: memory for a qubit and all its neighbours is needed. -/
theorem C60_degree (hG : OnGraph P G) (hn : 0 < n) [DecidableRel G.Adj] (he : env.OK)
    (h : run env P.graph P.order args = .ok (some out)) : ∀ p ∈ out, G.minDegree + 1 ≤ p.space := by
  intro p hp
  obtain ⟨hv, ht, hs⟩ := (run_sound hG.wf he h).valid p hp
  obtain ⟨k, s, hk, -⟩ := mem_flatten_iff.1 (hv.perm.mem_iff.2 (hG.all ⟨0, hn⟩))
  have hpos : 0 < p.steps.length := by have := (List.getElem?_eq_some_iff.1 hk).1; omega
  obtain ⟨s0, hs0⟩ : ∃ s0, p.steps[0]? = some s0 := ⟨_, List.getElem?_eq_getElem hpos⟩
  obtain ⟨b, hb⟩ := List.exists_mem_of_ne_nil s0 (hv.nonempty s0 (List.mem_of_getElem? hs0))
  have hbn : b < n := by
    rw [← hG.nodes]
    exact hG.wf.bits_lt b (hv.perm.mem_iff.1 (mem_flatten_iff.2 ⟨0, s0, hs0, hb⟩))
  rw [hs]
  refine Nat.le_trans ?_ (memAt_le_peak P _ _ hpos)
  rw [← card_bagAt]
  refine Nat.le_trans (Nat.add_le_add_right (G.minDegree_le_degree ⟨b, hbn⟩) 1) ?_
  rw [← SimpleGraph.card_neighborFinset_eq_degree,
    ← Finset.card_insert_of_notMem (SimpleGraph.notMem_neighborFinset_self G ⟨b, hbn⟩)]
  refine Finset.card_le_card_of_injOn Fin.val (fun d hd => ?_) (fun _ _ _ _ => Fin.ext)
  have hnow : b ∈ (p.steps.take (0 + 1)).flatten := mem_take_flatten.2 ⟨0, s0, by omega, hs0, hb⟩
  have hd : d = ⟨b, hbn⟩ ∨ G.Adj ⟨b, hbn⟩ d := by simpa using hd
  refine mem_bagAt.2 ⟨hG.nodes ▸ d.2, ?_, by simp⟩
  rcases hd with rfl | hd
  · exact Or.inl hnow
  · exact Or.inr ⟨b, hnow, (hG.nbrs ⟨b, hbn⟩ d).2 hd⟩

/-! ## The linear cluster state -/

theorem pathGraph_decomposition {n t m : Nat} (ht : 1 ≤ t) (hm : 1 ≤ m) (h : n ≤ t * (m - 1) + 1) :
    ∃ bag : Fin t → Finset (Fin n), PathDecomposition (SimpleGraph.pathGraph n) bag ∧ ∀ i, (bag i).card ≤ m := by
  obtain ⟨w, rfl⟩ : ∃ w, m = w + 1 := ⟨m - 1, by omega⟩
  simp only [Nat.add_sub_cancel] at h
  have hedge : ∀ v : Nat, v + 1 < n → v / w < t ∧ v / w * w ≤ v ∧ v + 1 ≤ (v / w + 1) * w := by
    intro v hv
    have hw : 0 < w := by
      rcases Nat.eq_zero_or_pos w with rfl | h'
      · omega
      · exact h'
    refine ⟨?_, Nat.div_mul_le_self v w, ?_⟩
    · rw [Nat.div_lt_iff_lt_mul hw]; omega
    · exact Nat.lt_mul_of_div_lt (Nat.lt_succ_self _) hw
  refine ⟨fun i => Finset.univ.filter fun v : Fin n => i.val * w ≤ v.val ∧ v.val ≤ (i.val + 1) * w,
    ⟨fun v => ?_, fun u v huv => ?_, fun i j k v h1 h2 h3 h4 => ?_⟩, fun i => ?_⟩
  · simp only [Finset.mem_filter, Finset.mem_univ, true_and]
    by_cases hv : v.val = 0
    · exact ⟨⟨0, ht⟩, by simp [hv]⟩
    · obtain ⟨h1, h2, h3⟩ := hedge (v.val - 1) (by have := v.2; omega)
      exact ⟨⟨_, h1⟩, by simp only; omega, by simp only; omega⟩
  · simp only [Finset.mem_filter, Finset.mem_univ, true_and]
    rw [SimpleGraph.pathGraph_adj] at huv
    rcases huv with huv | huv
    · obtain ⟨h1, h2, h3⟩ := hedge u.val (by have := v.2; omega)
      exact ⟨⟨_, h1⟩, ⟨by simp only; omega, by simp only; omega⟩, by simp only; omega, by simp only; omega⟩
    · obtain ⟨h1, h2, h3⟩ := hedge v.val (by have := u.2; omega)
      exact ⟨⟨_, h1⟩, ⟨by simp only; omega, by simp only; omega⟩, by simp only; omega, by simp only; omega⟩
  · simp only [Finset.mem_filter, Finset.mem_univ, true_and] at h3 h4 ⊢
    have h5 : j.val * w ≤ k.val * w := Nat.mul_le_mul_right _ h2
    have h6 : (i.val + 1) * w ≤ (j.val + 1) * w := Nat.mul_le_mul_right _ (Nat.succ_le_succ h1)
    omega
  · have hsub : ((Finset.univ.filter fun v : Fin n => i.val * w ≤ v.val ∧ v.val ≤ (i.val + 1) * w)).card ≤
        (Finset.Icc (i.val * w) ((i.val + 1) * w)).card :=
      Finset.card_le_card_of_injOn Fin.val (fun v hv => by simpa using hv) (fun _ _ _ _ => Fin.ext)
    refine Nat.le_trans hsub ?_
    rw [Nat.card_Icc, Nat.add_mul]
    omega

/-- **C60** The linear cluster state on `n` qubits without dependencies: an exhaustive search finds a path of at most
`t` steps with at most `m` qubits in memory exactly if `n ≤ t * (m - 1) + 1`. -/
theorem C60_linear (hG : Free P (SimpleGraph.pathGraph n)) (hn : 0 < n) (he : env.OK) (hx : Exhaustive env args)
    (h : run env P.graph P.order args = .ok (some out)) (t m : Nat) :
    (∃ p ∈ out, p.time ≤ t ∧ p.space ≤ m) ↔ 1 ≤ t ∧ 1 ≤ m ∧ n ≤ t * (m - 1) + 1 := by
  rw [C59_graph hG hn he hx h]
  constructor
  · rintro ⟨r, hr, bag, hD, hm⟩
    obtain ⟨i, hi⟩ := hD.vertex ⟨0, hn⟩
    have h1 := Finset.card_pos.2 ⟨_, hi⟩
    have h2 := hm i
    obtain ⟨n, rfl⟩ : ∃ n', n = n' + 1 := ⟨n - 1, by omega⟩
    have h3 := hD.volume (SimpleGraph.pathGraph_connected n) hm
    have h4 : r * (m - 1) ≤ t * (m - 1) := Nat.mul_le_mul_right _ hr
    exact ⟨by have := i.2; omega, by omega, by omega⟩
  · rintro ⟨ht, hm, hle⟩
    obtain ⟨bag, hD, hc⟩ := pathGraph_decomposition ht hm hle
    exact ⟨t, le_refl t, bag, hD, hc⟩

end

/-- A linear cluster state of five qubits without dependencies. -/
def line : Problem :=
  ⟨[[1], [0, 2], [1, 3], [2, 4], [3]], [[(0, []), (1, []), (2, []), (3, []), (4, [])]]⟩

/-- The same graph, where qubit 2 has to be measured before the ends. -/
def lineDeps : Problem :=
  ⟨[[1], [0, 2], [1, 3], [2, 4], [3]], [[(1, []), (2, []), (3, [])], [(0, [2]), (4, [2])]]⟩

theorem line_free : Free line (SimpleGraph.pathGraph 5) where
  wf := wf_of_check (by decide +kernel)
  nodes := rfl
  nbrs := by simp only [SimpleGraph.pathGraph_adj]; decide +kernel
  all := by decide +kernel
  free := by
    rintro b d ⟨ds, h, hd⟩
    have : ∀ e ∈ line.entries, e.2 = [] := by decide +kernel
    have h2 : ds = [] := this _ h
    simp [h2] at hd

theorem lineDeps_onGraph : OnGraph lineDeps (SimpleGraph.pathGraph 5) where
  wf := wf_of_check (by decide +kernel)
  nodes := rfl
  nbrs := by simp only [SimpleGraph.pathGraph_adj]; decide +kernel
  all := by decide +kernel

theorem line_run : run (demo 5000 []) line.graph line.order { doSearch := true } =
    .ok (some [⟨1, 5, [[0, 1, 2, 3, 4]]⟩, ⟨2, 3, [[3, 4], [0, 1, 2]]⟩, ⟨4, 2, [[4], [3], [2], [0, 1]]⟩]) := by
  decide +kernel

-- the pathwidth of a path with five nodes, out of the answer of the search
example : pathwidth (SimpleGraph.pathGraph 5) = 1 := by
  obtain ⟨l, h1, h2⟩ := C59_pathwidth line_free (by decide) (demo_ok 5000 []) ⟨rfl, by decide, rfl, Or.inl rfl⟩ line_run
  have : l = ⟨4, 2, [[4], [3], [2], [0, 1]]⟩ := by simpa using h1.symm
  subst this
  simpa using h2.symm

-- with dependencies the last path needs one qubit more
example : run (demo 5000 []) lineDeps.graph lineDeps.order { doSearch := true } =
    .ok (some [⟨2, 4, [[2, 3], [1, 0, 4]]⟩, ⟨3, 3, [[3], [2], [1, 0, 4]]⟩]) := by
  decide +kernel

example : (SimpleGraph.pathGraph 5).Connected := SimpleGraph.pathGraph_connected 4

example : lineDeps.Symm ∧ (SimpleGraph.pathGraph 5).IsClique ({2, 3} : Finset (Fin 5)) :=
  ⟨lineDeps_onGraph.symm, by simp [SimpleGraph.pathGraph_adj]⟩

-- a cycle of five nodes, with a loop and a repeated edge that are skipped: pathwidth two
example : pathwidth (SimpleGraph.fromRel fun u v : Fin 5 =>
    (u.val, v.val) ∈ [(0, 1), (1, 2), (2, 3), (3, 4), (4, 0), (1, 1), (0, 4)]) = 2 := by
  have hrun : run (demo 5000 []) [[1, 4], [0, 2], [1, 3], [2, 4], [3, 0]]
      [(List.range 5).map fun v => (v, [])] { doSearch := true } =
      .ok (some [⟨1, 5, [[0, 1, 2, 3, 4]]⟩, ⟨2, 4, [[3, 4], [0, 1, 2]]⟩, ⟨3, 3, [[4], [3], [0, 1, 2]]⟩]) := by
    decide +kernel
  obtain ⟨l, h1, h2⟩ := C59_edges (edges := [(0, 1), (1, 2), (2, 3), (3, 4), (4, 0), (1, 1), (0, 4)])
    (by decide) (by decide) (by decide) (by decide +kernel) (demo_ok 5000 []) ⟨rfl, by decide, rfl, Or.inl rfl⟩ hrun
  have : l = ⟨3, 3, [[4], [3], [0, 1, 2]]⟩ := by simpa using h1.symm
  subst this
  exact Nat.succ.inj h2.symm

end Verif
