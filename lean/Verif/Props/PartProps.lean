import Mathlib.Tactic.IntervalCases
import Verif.Proofs.Embed
import Verif.Props.CurveProps
/-!
# Parts of an input, and inputs with independent parts
-/

namespace Verif

open Spec Search Search.Threaded Example

/-- The number of nodes that are initialised but never measured. -/
def unfreed (P : Problem) : Nat :=
  ((List.range P.n).filter fun v => !P.bits.contains v && P.bits.any fun b => (P.nbrs b).contains v).length

theorem unfreed_eq (P : Problem) : unfreed P = stays P := by
  classical
  unfold unfreed stays
  rw [← List.toFinset_card_of_nodup (List.nodup_range.filter _)]
  congr 1
  ext v
  simp [Stays]

section

variable {F σ F₁ σ₁ F₂ σ₂ : Type} [FloatOps F] [FloatOps F₁] [FloatOps F₂] {P P₁ P₂ : Problem} {f g : Nat → Nat}
  {env : Env F σ} {args : Args F} {out : List Path}
  {env₁ : Env F₁ σ₁} {args₁ : Args F₁} {out₁ : List Path}
  {env₂ : Env F₂ σ₂} {args₂ : Args F₂} {out₂ : List Path}

/-- **C68** A part of an input is never more expensive: if `P₁` is found in `P` (`Embeds`: some of the nodes with their
edges, dependencies at least as strong; a node is to be measured in both or in none), then every path that any run in any
mode returns for `P` is weakly dominated by one that the exhaustive search returns for `P₁`. -/
theorem C68_part (hf : Embeds f P₁ P) (hP : P.WF) (hP₁ : P₁.WF) (hb : P₁.bits ≠ []) (he : env.OK) (he₁ : env₁.OK)
    (hx₁ : Exhaustive env₁ args₁) (h : run env P.graph P.order args = .ok (some out))
    (h₁ : run env₁ P₁.graph P₁.order args₁ = .ok (some out₁)) :
    ∀ p ∈ out, ∃ q ∈ out₁, q.time ≤ p.time ∧ q.space ≤ p.space := by
  intro p hp
  obtain ⟨v1, v2, v3⟩ := (run_sound hP he h).valid p hp
  obtain ⟨S', s1, s2, s3⟩ := hf.schedule hP hP₁ v1
  obtain ⟨q, hq, h1, h2⟩ := C07_exhaustive hP₁ hb he₁ hx₁ h₁ S' s1
  exact ⟨q, hq, by omega, by omega⟩

/-- **C68** Two paths for two independent parts can be performed together, the second one starting with any delay `o`: the
exhaustive search for the whole finds something as good. -/
theorem C68_together (hp : Parts f g P₁ P₂ P) (hP : P.WF) (hP₁ : P₁.WF) (hP₂ : P₂.WF) (hb : P.bits ≠ []) (he : env.OK)
    (he₁ : env₁.OK) (he₂ : env₂.OK) (hx : Exhaustive env args) (h : run env P.graph P.order args = .ok (some out))
    (h₁ : run env₁ P₁.graph P₁.order args₁ = .ok (some out₁)) (h₂ : run env₂ P₂.graph P₂.order args₂ = .ok (some out₂))
    {p₁ p₂ : Path} (hp₁ : p₁ ∈ out₁) (hp₂ : p₂ ∈ out₂) (o m : Nat)
    (hm : ∀ k, k < max p₁.time (o + p₂.time) →
      P₁.memAt p₁.steps k + (if k < o then 0 else P₂.memAt p₂.steps (k - o)) ≤ m) :
    ∃ p ∈ out, p.time ≤ max p₁.time (o + p₂.time) ∧ p.space ≤ m := by
  obtain ⟨a1, a2, _⟩ := (run_sound hP₁ he₁ h₁).valid p₁ hp₁
  obtain ⟨b1, b2, _⟩ := (run_sound hP₂ he₂ h₂).valid p₂ hp₂
  obtain ⟨τ₁, c1, c2⟩ := Timing.of_valid hP₁ a1
  obtain ⟨τ₂, d1, d2⟩ := Timing.of_valid hP₂ b1
  obtain ⟨e1, e2⟩ := hp.join (o := o) hP hP₁ hP₂ c1 d1
  rw [← a2, ← b2] at e1
  obtain ⟨S, s1, s2, s3⟩ := (schedule_iff_timing hP _ m).2 ⟨_, e1, load_le e1 fun k hk => by
    refine Nat.le_trans (e2 k) (Nat.le_trans (Nat.le_of_eq ?_) (hm k hk))
    rw [c2]
    unfold later
    split
    · rfl
    · rw [d2]⟩
  obtain ⟨p, hp, h1, h2⟩ := C07_exhaustive hP hb he hx h S s1
  exact ⟨p, hp, by omega, by omega⟩

theorem memAt_le_space {P : Problem} (hP : P.WF) {S : Schedule} (hS : P.Valid S) (k : Nat) : P.memAt S k ≤ P.peak S := by
  obtain ⟨τ, h1, h2⟩ := Timing.of_valid hP hS
  rw [← h2]
  exact load_le h1 (fun j hj => by rw [h2]; exact memAt_le_peak P S j hj) k

theorem memAt_after {P : Problem} (hP : P.WF) {S : Schedule} (hS : P.Valid S) {k : Nat} (hk : S.length ≤ k) :
    P.memAt S k = unfreed P := by
  obtain ⟨τ, h1, h2⟩ := Timing.of_valid hP hS
  rw [← h2, unfreed_eq]
  exact load_after h1 hk

/-- **C68** In parallel: as long as the longer one, with the sum of the space costs. -/
theorem C68_parallel (hp : Parts f g P₁ P₂ P) (hP : P.WF) (hP₁ : P₁.WF) (hP₂ : P₂.WF) (hb : P.bits ≠ []) (he : env.OK)
    (he₁ : env₁.OK) (he₂ : env₂.OK) (hx : Exhaustive env args) (h : run env P.graph P.order args = .ok (some out))
    (h₁ : run env₁ P₁.graph P₁.order args₁ = .ok (some out₁)) (h₂ : run env₂ P₂.graph P₂.order args₂ = .ok (some out₂)) :
    ∀ p₁ ∈ out₁, ∀ p₂ ∈ out₂, ∃ p ∈ out, p.time ≤ max p₁.time p₂.time ∧ p.space ≤ p₁.space + p₂.space := by
  intro p₁ hp₁ p₂ hp₂
  obtain ⟨a1, _, a3⟩ := (run_sound hP₁ he₁ h₁).valid p₁ hp₁
  obtain ⟨b1, _, b3⟩ := (run_sound hP₂ he₂ h₂).valid p₂ hp₂
  have := C68_together hp hP hP₁ hP₂ hb he he₁ he₂ hx h h₁ h₂ hp₁ hp₂ 0 (p₁.space + p₂.space) (fun k _ => by
    rw [if_neg (by omega), a3, b3]
    exact Nat.add_le_add (memAt_le_space hP₁ a1 k) (memAt_le_space hP₂ b1 _))
  simpa using this

/-- **C68** One after the other: the sum of the times, and while the second part is performed the nodes of the first one
that are not measured stay. -/
theorem C68_sequential (hp : Parts f g P₁ P₂ P) (hP : P.WF) (hP₁ : P₁.WF) (hP₂ : P₂.WF) (hb : P.bits ≠ []) (he : env.OK)
    (he₁ : env₁.OK) (he₂ : env₂.OK) (hx : Exhaustive env args) (h : run env P.graph P.order args = .ok (some out))
    (h₁ : run env₁ P₁.graph P₁.order args₁ = .ok (some out₁)) (h₂ : run env₂ P₂.graph P₂.order args₂ = .ok (some out₂)) :
    ∀ p₁ ∈ out₁, ∀ p₂ ∈ out₂, ∃ p ∈ out, p.time ≤ p₁.time + p₂.time ∧ p.space ≤ max p₁.space (unfreed P₁ + p₂.space) := by
  intro p₁ hp₁ p₂ hp₂
  obtain ⟨a1, a2, a3⟩ := (run_sound hP₁ he₁ h₁).valid p₁ hp₁
  obtain ⟨b1, _, b3⟩ := (run_sound hP₂ he₂ h₂).valid p₂ hp₂
  have := C68_together hp hP hP₁ hP₂ hb he he₁ he₂ hx h h₁ h₂ hp₁ hp₂ p₁.time (max p₁.space (unfreed P₁ + p₂.space))
    (fun k _ => by
      have h3 := memAt_le_space hP₁ a1 k
      have h4 := memAt_le_space hP₂ b1 (k - p₁.time)
      split
      · omega
      · rw [memAt_after hP₁ a1 (by omega)]
        omega)
  obtain ⟨p, h5, h6, h7⟩ := this
  exact ⟨p, h5, by omega, h7⟩

/-- **C68** The ends of the trade-off curve of two independent parts: the shortest time is the larger one of the two, and
if every initialised node is measured, so is the least space. -/
theorem C68_ends (hp : Parts f g P₁ P₂ P) (hP : P.WF) (hP₁ : P₁.WF) (hP₂ : P₂.WF) (hb₁ : P₁.bits ≠ []) (hb₂ : P₂.bits ≠ [])
    (he : env.OK) (he₁ : env₁.OK) (he₂ : env₂.OK) (hx : Exhaustive env args) (hx₁ : Exhaustive env₁ args₁)
    (hx₂ : Exhaustive env₂ args₂) (h : run env P.graph P.order args = .ok (some out))
    (h₁ : run env₁ P₁.graph P₁.order args₁ = .ok (some out₁)) (h₂ : run env₂ P₂.graph P₂.order args₂ = .ok (some out₂)) :
    (out.head?.map (·.time) = max (out₁.head?.map (·.time)) (out₂.head?.map (·.time))) ∧
      (unfreed P₁ = 0 → out.getLast?.map (·.space) = max (out₁.getLast?.map (·.space)) (out₂.getLast?.map (·.space))) := by
  have hb : P.bits ≠ [] := by
    obtain ⟨b, hb⟩ := List.exists_mem_of_ne_nil _ hb₁
    exact List.ne_nil_of_mem ((hp.left.bits b (hP₁.bits_lt b hb)).1 hb)
  obtain ⟨f0, l0, e1, e2, e3, _, e4⟩ := C10_first_last hP hb he hx h
  obtain ⟨f1, l1, c1, c2, c3, _, c4⟩ := C10_first_last hP₁ hb₁ he₁ hx₁ h₁
  obtain ⟨f2, l2, d1, d2, d3, _, d4⟩ := C10_first_last hP₂ hb₂ he₂ hx₂ h₂
  have hv0 := (run_sound hP he h).valid f0 (List.mem_of_mem_head? e1)
  have hw0 := (run_sound hP he h).valid l0 (List.mem_of_getLast? e2)
  obtain ⟨S1, s1, s2, _⟩ := hp.left.schedule hP hP₁ hv0.1
  obtain ⟨S2, t1, t2, _⟩ := hp.right.schedule hP hP₂ hv0.1
  obtain ⟨S3, u1, _, u2⟩ := hp.left.schedule hP hP₁ hw0.1
  obtain ⟨S4, v1, _, v2⟩ := hp.right.schedule hP hP₂ hw0.1
  have hf1 := c3 S1 s1
  have hf2 := d3 S2 t1
  have hl1 := c4 S3 u1
  have hl2 := d4 S4 v1
  rw [e1, e2, c1, c2, d1, d2]
  simp only [Option.map_some]
  have h0 := hv0.2.1
  have h00 := hw0.2.2
  constructor
  · obtain ⟨p, hp', h3, _⟩ := C68_parallel hp hP hP₁ hP₂ hb he he₁ he₂ hx h h₁ h₂ f1 (List.mem_of_mem_head? c1) f2
      (List.mem_of_mem_head? d1)
    have hvp := (run_sound hP he h).valid p hp'
    have := e3 p.steps hvp.1
    have h4 := hvp.2.1
    change some f0.time = some (max f1.time f2.time)
    congr 1
    omega
  · intro hk
    obtain ⟨p, hp', _, h3⟩ := C68_sequential hp hP hP₁ hP₂ hb he he₁ he₂ hx h h₁ h₂ l1 (List.mem_of_getLast? c2) l2
      (List.mem_of_getLast? d2)
    have hvp := (run_sound hP he h).valid p hp'
    have := e4 p.steps hvp.1
    have h4 := hvp.2.2
    rw [hk] at h3
    change some l0.space = some (max l1.space l2.space)
    congr 1
    omega

/-- **C68** Two inputs side by side are an instance: the input is well-formed and has the two as independent parts. -/
theorem C68_beside (hP₁ : P₁.WF) (hP₂ : P₂.WF) (hn : P₁.n + P₂.n < 2 ^ 64 - 1) :
    (beside P₁ P₂).WF ∧ Parts id (· + P₁.n) P₁ P₂ (beside P₁ P₂) :=
  ⟨beside_wf hP₁ hP₂ hn, beside_parts hP₁⟩

end

/-- A star whose centre has to be measured first and then the leaves, one after the other. -/
def inTurn : Problem := ⟨[[1, 2, 3], [0], [0], [0]], [[(0, [])], [(1, [0])], [(2, [1])], [(3, [2])]]⟩

theorem inTurn_wf : inTurn.WF := wf_of_check (by decide +kernel)

theorem inTurn_run : run (demo 1000 []) inTurn.graph inTurn.order { doSearch := true } =
    .ok (some [⟨4, 4, [[0], [1], [2], [3]]⟩]) := by decide +kernel

/-- The costs of the paths that the exhaustive search returns. -/
def costs (fuel : Nat) (P : Problem) : Except Panic (Option (List (Nat × Nat))) :=
  (run (demo fuel []) P.graph P.order { doSearch := true }).map (Option.map fun o => o.map fun p => (p.time, p.space))

-- the example of the documentation and a star side by side: (3, 5) in parallel; (4, 4) and (5, 3) would be one after the
-- other, (4, 3) is found
example : docs.WF ∧ star.WF ∧ docs.n + star.n < 2 ^ 64 - 1 ∧ unfreed docs = 0 ∧ docs.bits ≠ [] ∧ star.bits ≠ [] ∧
    Exhaustive (demo 1000 []) { doSearch := true } ∧ (demo 1000 []).OK ∧
    costs 1000 docs = .ok (some [(3, 3)]) ∧ costs 1000 star = .ok (some [(1, 4), (2, 3), (3, 2)]) ∧
    costs 1000 (beside docs star) = .ok (some [(3, 5), (4, 3)]) :=
  ⟨docs_wf, star_wf, by decide, by decide +kernel, by decide, by decide, ⟨rfl, by decide, rfl, Or.inl rfl⟩, demo_ok _ _,
    by decide +kernel, by decide +kernel, by decide +kernel⟩

-- the star without one of its leaves is part of it, under other names
example : Embeds (fun v => if v = 2 then 3 else v) ⟨[[1, 2], [0], [0]], [[(1, []), (2, []), (0, [])]]⟩ star ∧
    costs 1000 ⟨[[1, 2], [0], [0]], [[(1, []), (2, []), (0, [])]]⟩ = .ok (some [(1, 3), (2, 2)]) := by
  refine ⟨⟨?_, ?_, ?_, ?_, ?_⟩, by decide +kernel⟩
  · intro v hv
    change v < 3 at hv
    interval_cases v <;> decide
  · intro u v hu hv
    change u < 3 at hu
    change v < 3 at hv
    interval_cases u <;> interval_cases v <;> decide
  · intro v hv
    change v < 3 at hv
    interval_cases v <;> decide
  · intro u v hu hv
    have hu' : u < 3 := by
      simp [Problem.bits, Problem.entries] at hu
      omega
    interval_cases u <;> simp [Problem.nbrs] at hv <;> (try rcases hv with rfl | rfl) <;> decide
  · rintro b d ⟨ds, h1, h2⟩
    simp [Problem.entries] at h1
    rcases h1 with ⟨_, rfl⟩ | ⟨_, rfl⟩ | ⟨_, rfl⟩ <;> cases h2

/-- **C68** It is not enough to combine the paths of the parts in parallel or one after the other: that can miss most of
the trade-off curve. -/
theorem C68_combine_refuted : ¬ ∀ (P₁ P₂ : Problem) (out₁ out₂ out : List Path), P₁.WF → P₂.WF → (beside P₁ P₂).WF →
    run (demo 1000 []) P₁.graph P₁.order { doSearch := true } = .ok (some out₁) →
    run (demo 1000 []) P₂.graph P₂.order { doSearch := true } = .ok (some out₂) →
    run (demo 1000 []) (beside P₁ P₂).graph (beside P₁ P₂).order { doSearch := true } = .ok (some out) →
    ∀ p ∈ out, ∃ p₁ ∈ out₁, ∃ p₂ ∈ out₂,
      (max p₁.time p₂.time ≤ p.time ∧ p₁.space + p₂.space ≤ p.space) ∨
      (p₁.time + p₂.time ≤ p.time ∧ max p₁.space p₂.space ≤ p.space) := by
  intro h
  have h2 : ∃ out, run (demo 1000 []) (beside inTurn inTurn).graph (beside inTurn inTurn).order { doSearch := true } =
      .ok (some out) ∧ ∃ p ∈ out, p.time = 5 ∧ p.space = 7 := by
    have h3 : costs 1000 (beside inTurn inTurn) = .ok (some [(4, 8), (5, 7), (6, 6), (7, 5), (8, 4)]) := by decide +kernel
    unfold costs at h3
    cases hr : run (demo 1000 []) (beside inTurn inTurn).graph (beside inTurn inTurn).order { doSearch := true } with
    | error e => rw [hr] at h3; cases h3
    | ok o =>
      rw [hr] at h3
      cases o with
      | none => simp [Except.map] at h3
      | some out =>
        simp only [Except.map, Option.map_some, Except.ok.injEq, Option.some.injEq] at h3
        have : (5, 7) ∈ out.map fun p => (p.time, p.space) := by rw [h3]; decide
        obtain ⟨p, hp, he⟩ := List.mem_map.1 this
        simp only [Prod.mk.injEq] at he
        exact ⟨out, rfl, p, hp, he.1, he.2⟩
  obtain ⟨out, h3, p, hp, h4, h5⟩ := h2
  obtain ⟨p₁, hp₁, p₂, hp₂, h6⟩ := h inTurn inTurn _ _ out inTurn_wf inTurn_wf (beside_wf inTurn_wf inTurn_wf (by decide))
    inTurn_run inTurn_run h3 p hp
  simp only [List.mem_singleton] at hp₁ hp₂
  subst hp₁ hp₂
  rw [h4, h5] at h6
  simp at h6

/-- **C68** That a node is to be measured in both or in none is needed: not to measure a node can make everything more
expensive. -/
theorem C68_measured_refuted : ¬ ∀ (P₁ P : Problem) (out₁ out : List Path), P₁.WF → P.WF → P₁.graph = P.graph →
    (∀ b ∈ P₁.bits, b ∈ P.bits) → (∀ b d, P₁.Needs b d → P.Needs b d) →
    run (demo 1000 []) P₁.graph P₁.order { doSearch := true } = .ok (some out₁) →
    run (demo 1000 []) P.graph P.order { doSearch := true } = .ok (some out) →
    ∀ p ∈ out, ∃ q ∈ out₁, q.time ≤ p.time ∧ q.space ≤ p.space := by
  intro h
  have h1 : run (demo 1000 []) [[1], [0, 2], [1]] [[(1, [])]] { doSearch := true } =
      .ok (some [⟨1, 3, [[1]]⟩]) := by decide +kernel
  have h2 : run (demo 1000 []) [[1], [0, 2], [1]] [[(0, []), (1, []), (2, [])]] { doSearch := true } =
      .ok (some [⟨1, 3, [[0, 1, 2]]⟩, ⟨2, 2, [[2], [0, 1]]⟩]) := by decide +kernel
  have h3 := h ⟨[[1], [0, 2], [1]], [[(1, [])]]⟩ ⟨[[1], [0, 2], [1]], [[(0, []), (1, []), (2, [])]]⟩ _ _
    (wf_of_check (by decide +kernel)) (wf_of_check (by decide +kernel)) rfl (by decide) (by
      rintro b d ⟨ds, h4, h5⟩
      simp [Problem.entries] at h4
      rw [h4.2] at h5
      cases h5) h1 h2 ⟨2, 2, [[2], [0, 1]]⟩ (by simp)
  obtain ⟨q, hq, h4, h5⟩ := h3
  simp only [List.mem_singleton] at hq
  subst hq
  simp at h5

end Verif
