import Mathlib.Logic.Relation
import Verif.Proofs.Embed
/-!
# What a small change of an input does to its schedules
-/

namespace Verif

open Spec

variable {P P' : Problem}

/-- `P'` is `P` with the further edges `E`. -/
structure MoreEdges (E : List (Nat × Nat)) (P P' : Problem) : Prop where
  n : P'.n = P.n
  bits : P'.bits.Perm P.bits
  nbrs : ∀ u v, v ∈ P'.nbrs u ↔ v ∈ P.nbrs u ∨ (u, v) ∈ E ∨ (v, u) ∈ E
  needs : ∀ b d, P'.Needs b d ↔ P.Needs b d

/-- `P'` is `P` with the further dependencies `D` (first: the qubit that has to wait). -/
structure MoreDependencies (D : List (Nat × Nat)) (P P' : Problem) : Prop where
  n : P'.n = P.n
  bits : P'.bits.Perm P.bits
  nbrs : ∀ u v, v ∈ P'.nbrs u ↔ v ∈ P.nbrs u
  needs : ∀ b d, P'.Needs b d ↔ P.Needs b d ∨ (b, d) ∈ D

/-- `P'` is `P` with one further qubit, the node with the highest number. It is measured, all its neighbours are,
and no other qubit waits for it. -/
structure OneQubit (P P' : Problem) : Prop where
  n : P'.n = P.n + 1
  bits : P'.bits.Perm (P.n :: P.bits)
  nbrs : ∀ u v, u < P.n → v < P.n → (v ∈ P'.nbrs u ↔ v ∈ P.nbrs u)
  new : ∀ v, v ∈ P'.nbrs P.n → v = P.n ∨ v ∈ P.bits
  needs : ∀ b d, b < P.n → (P'.Needs b d ↔ P.Needs b d)

theorem MoreEdges.load_le {E : List (Nat × Nat)} (h : MoreEdges E P P') (τ : Nat → Nat) (k : Nat) :
    load P' τ k ≤ load P τ k + E.length := by
  classical
  unfold load
  rw [h.n]
  set A := (Finset.range P.n).filter (Occ P τ k)
  set A' := (Finset.range P.n).filter (Occ P' τ k)
  -- a node that is in memory because of a new edge: the other end has been measured, the node not
  have hnew : ∀ v ∈ A' \ A, ∃ e ∈ E, ∃ u, (e = (u, v) ∨ e = (v, u)) ∧ (u ∈ P.bits ∧ τ u ≤ k) ∧
      ¬ (v ∈ P.bits ∧ τ v ≤ k) := by
    intro v hv
    rw [Finset.mem_sdiff, Finset.mem_filter, Finset.mem_filter, not_and] at hv
    obtain ⟨⟨h1, h2, h3⟩, h4⟩ := hv
    have h5 := h4 h1
    have hb : ∀ x, x ∈ P'.bits ↔ x ∈ P.bits := fun x => h.bits.mem_iff
    have hnow : ¬ (v ∈ P.bits ∧ τ v ≤ k) := fun hc => h5 ⟨Or.inl hc, fun hx => h3 ((hb v).2 hx)⟩
    rcases h2 with ⟨h6, h7⟩ | ⟨u, h6, h7, h8⟩
    · exact absurd ⟨(hb v).1 h6, h7⟩ hnow
    · rcases (h.nbrs u v).1 h8 with h9 | h9 | h9
      · exact absurd ⟨Or.inr ⟨u, (hb u).1 h6, h7, h9⟩, fun hx => h3 ((hb v).2 hx)⟩ h5
      · exact ⟨_, h9, u, Or.inl rfl, ⟨(hb u).1 h6, h7⟩, hnow⟩
      · exact ⟨_, h9, u, Or.inr rfl, ⟨(hb u).1 h6, h7⟩, hnow⟩
  choose! f hf using hnew
  have hcard : (A' \ A).card ≤ E.length := by
    refine Nat.le_trans (Finset.card_le_card_of_injOn (t := E.toFinset) f ?_ ?_) (List.toFinset_card_le E)
    · intro v hv
      exact List.mem_toFinset.2 (hf v hv).1
    · intro v hv w hw hvw
      obtain ⟨_, u, h1, h2, h3⟩ := hf v hv
      obtain ⟨_, u', h1', h2', h3'⟩ := hf w hw
      rw [hvw] at h1
      by_contra hne
      rcases h1 with h1 | h1 <;> rcases h1' with h1' | h1' <;> rw [h1, Prod.mk.injEq] at h1'
      · exact hne h1'.2
      · exact h3' (h1'.1 ▸ h2)
      · exact h3 (h1'.1 ▸ h2')
      · exact hne h1'.1
  have h1 : A' ⊆ A ∪ (A' \ A) := by
    intro v hv
    by_cases hx : v ∈ A
    · exact Finset.mem_union_left _ hx
    · exact Finset.mem_union_right _ (Finset.mem_sdiff.2 ⟨hv, hx⟩)
  exact Nat.le_trans (Finset.card_le_card h1) (Nat.le_trans (Finset.card_union_le _ _) (by omega))

/-- Every schedule is one for the input with more edges; each edge costs at most one qubit of memory. -/
theorem MoreEdges.schedule {E : List (Nat × Nat)} (h : MoreEdges E P P') (hP : P.WF) (hP' : P'.WF) {S : Schedule}
    (hS : P.Valid S) : ∃ S', P'.Valid S' ∧ S'.length ≤ S.length ∧ P'.peak S' ≤ P.peak S + E.length := by
  obtain ⟨τ, h1, h2⟩ := (schedule_iff_timing hP S.length (P.peak S)).1 ⟨S, hS, Nat.le_refl _, Nat.le_refl _⟩
  exact (schedule_iff_timing hP' _ _).2 ⟨τ, ⟨fun b hb => h1.lt b (h.bits.mem_iff.1 hb),
    fun b d hbd => h1.deps b d ((h.needs b d).1 hbd)⟩,
    fun k => Nat.le_trans (h.load_le τ k) (Nat.add_le_add_right (h2 k) _)⟩

/-- `k` further dependencies multiply the time by at most `k + 1`. -/
theorem MoreDependencies.timing {D : List (Nat × Nat)} (h : MoreDependencies D P P') (hP' : P'.WF) {t t' : Nat}
    {τ σ : Nat → Nat} (hτ : Timing P t τ) (hσ : Timing P' t' σ) :
    ∃ τ', Timing P' ((D.length + 1) * t) τ' := by
  classical
  -- `u` waits for `b`, or is `b`
  let W := Relation.ReflTransGen P'.Needs
  have hacyc : ∀ u v, P'.Needs u v → ¬ W v u := by
    intro u v huv hW
    have hmono : ∀ x, W v x → σ x ≤ σ v := by
      intro x hx
      induction hx with
      | refl => exact Nat.le_refl _
      | tail _ h2 ih => exact Nat.le_trans (Nat.le_of_lt (hσ.deps _ _ h2)) ih
    have h1 := hmono u hW
    have h2 := hσ.deps u v huv
    omega
  let lev : Nat → Nat := fun u => D.countP fun e => decide (W u e.1)
  refine ⟨fun u => lev u * t + τ u, ⟨?_, ?_⟩⟩
  · intro b hb
    have h1 := hτ.lt b (h.bits.mem_iff.1 hb)
    have h2 : lev b ≤ D.length := List.countP_le_length
    have h3 : lev b * t ≤ D.length * t := Nat.mul_le_mul_right t h2
    rw [Nat.add_mul, Nat.one_mul]
    show lev b * t + τ b < _
    omega
  · intro b d hbd
    have hle : ∀ e ∈ D, decide (W d e.1) = true → decide (W b e.1) = true := by
      intro e _ he
      exact decide_eq_true (Relation.ReflTransGen.head hbd (of_decide_eq_true he))
    have h1 : lev d ≤ lev b := List.countP_mono_left hle
    rcases (h.needs b d).1 hbd with hold | hnew
    · have h2 := hτ.deps b d hold
      have h3 : lev d * t ≤ lev b * t := Nat.mul_le_mul_right t h1
      show lev d * t + τ d < lev b * t + τ b
      omega
    · -- the new dependency itself counts for `b` and not for `d`
      have h2 : lev d < lev b := by
        obtain ⟨l, r, hD⟩ := List.append_of_mem hnew
        show D.countP _ < D.countP _
        rw [hD, List.countP_append, List.countP_append, List.countP_cons, List.countP_cons]
        have e1 : decide (W d b) = false := decide_eq_false (hacyc b d hbd)
        have e2 : decide (W b b) = true := decide_eq_true Relation.ReflTransGen.refl
        have e3 : l.countP (fun e => decide (W d e.1)) ≤ l.countP fun e => decide (W b e.1) :=
          List.countP_mono_left fun e he => hle e (by rw [hD]; exact List.mem_append_left _ he)
        have e4 : r.countP (fun e => decide (W d e.1)) ≤ r.countP fun e => decide (W b e.1) :=
          List.countP_mono_left fun e he => hle e (by
            rw [hD]; exact List.mem_append_right _ (List.mem_cons_of_mem _ he))
        simp only [e1, e2, if_true, Bool.false_eq_true, if_false]
        omega
      have h3 := hτ.lt d (h.bits.mem_iff.1 (needs_bits hP' hbd).2)
      have h4 : (lev d + 1) * t ≤ lev b * t := Nat.mul_le_mul_right t h2
      rw [Nat.add_mul, Nat.one_mul] at h4
      show lev d * t + τ d < lev b * t + τ b
      omega

theorem MoreDependencies.schedule {D : List (Nat × Nat)} (h : MoreDependencies D P P') (hP : P.WF) (hP' : P'.WF)
    {S : Schedule} (hS : P.Valid S) : ∃ S'', P'.Valid S'' ∧ S''.length ≤ (D.length + 1) * S.length := by
  obtain ⟨S', _, hS', _⟩ := getTimeOptimal_spec hP'
  obtain ⟨τ, h1, _⟩ := Timing.of_valid hP hS
  obtain ⟨σ, h2, _⟩ := Timing.of_valid hP' hS'
  obtain ⟨τ', h3⟩ := h.timing hP' h1 h2
  obtain ⟨S'', h4, h5, _⟩ := h3.valid hP'
  exact ⟨S'', h4, h5⟩

/-- No qubit waits for itself. -/
theorem needs_irrefl (hP : P.WF) {b : Nat} : ¬ P.Needs b b := by
  intro h
  obtain ⟨S, _, hS, _⟩ := getTimeOptimal_spec hP
  obtain ⟨τ, h1, _⟩ := Timing.of_valid hP hS
  exact Nat.lt_irrefl _ (h1.deps b b h)

/-- The new qubit is measured last (`t'`: at or after the last time). -/
theorem OneQubit.timing (h : OneQubit P P') (hP : P.WF) {t t' : Nat} {τ : Nat → Nat} (hτ : Timing P t τ)
    (ht : ∀ b ∈ P.bits, τ b ≤ t') (hd : ∀ d, P'.Needs P.n d → d ∈ P.bits ∧ τ d < t') :
    ∃ τ', Timing P' (t' + 1) τ' ∧ ∀ k, load P' τ' k ≤ load P τ k + 1 := by
  classical
  have hne : ∀ b ∈ P.bits, b ≠ P.n := fun b hb => Nat.ne_of_lt (hP.bits_lt b hb)
  let τ' : Nat → Nat := fun u => if u = P.n then t' else τ u
  have hold : ∀ b ∈ P.bits, τ' b = τ b := fun b hb => if_neg (hne b hb)
  have hlast : τ' P.n = t' := if_pos rfl
  have hbits : ∀ x, x ∈ P'.bits ↔ x = P.n ∨ x ∈ P.bits := fun x => by rw [h.bits.mem_iff, List.mem_cons]
  refine ⟨τ', ⟨?_, ?_⟩, ?_⟩
  · intro b hb
    rcases (hbits b).1 hb with rfl | hb
    · rw [hlast]; omega
    · rw [hold b hb]; have := ht b hb; omega
  · intro b d hbd
    by_cases hb : b = P.n
    · subst hb
      obtain ⟨h1, h2⟩ := hd d hbd
      rw [hlast, hold d h1]
      exact h2
    · have hb' : b < P.n := by
        obtain ⟨ds, h1, h2⟩ := hbd
        have h3 : b ∈ P'.bits := List.mem_map.2 ⟨_, h1, rfl⟩
        rcases (hbits b).1 h3 with h4 | h4
        · exact absurd h4 hb
        · exact hP.bits_lt b h4
      have h1 := (h.needs b d hb').1 hbd
      obtain ⟨h2, h3⟩ := needs_bits hP h1
      rw [hold b h2, hold d h3]
      exact hτ.deps b d h1
  · intro k
    unfold load
    rw [h.n, Finset.range_add_one, Finset.filter_insert]
    have hsub : (Finset.range P.n).filter (Occ P' τ' k) ⊆ (Finset.range P.n).filter (Occ P τ k) := by
      intro v hv
      rw [Finset.mem_filter, Finset.mem_range] at hv ⊢
      obtain ⟨h1, h2, h3⟩ := hv
      have hv' : v ≠ P.n := Nat.ne_of_lt h1
      refine ⟨h1, ?_, fun hb => by rw [← hold v hb]; exact h3 ((hbits v).2 (Or.inr hb))⟩
      rcases h2 with ⟨h4, h5⟩ | ⟨u, h4, h5, h6⟩
      · rcases (hbits v).1 h4 with h7 | h7
        · exact absurd h7 hv'
        · exact Or.inl ⟨h7, by rw [← hold v h7]; exact h5⟩
      · rcases (hbits u).1 h4 with rfl | h7
        · -- woken up by the new qubit: everything has been measured
          rcases h.new v h6 with h8 | h8
          · exact absurd h8 hv'
          · rw [hlast] at h5
            exact Or.inl ⟨h8, Nat.le_trans (ht v h8) h5⟩
        · exact Or.inr ⟨u, h7, by rw [← hold u h7]; exact h5,
            (h.nbrs u v (hP.bits_lt u h7) h1).1 h6⟩
    split_ifs
    · exact Nat.le_trans (Finset.card_insert_le _ _) (Nat.add_le_add_right (Finset.card_le_card hsub) 1)
    · exact Nat.le_succ_of_le (Finset.card_le_card hsub)

/-- One further qubit on which nothing depends costs at most one step and one qubit of memory. -/
theorem OneQubit.schedule (h : OneQubit P P') (hP : P.WF) (hP' : P'.WF) {S : Schedule} (hS : P.Valid S) :
    ∃ S', P'.Valid S' ∧ S'.length ≤ S.length + 1 ∧ P'.peak S' ≤ P.peak S + 1 := by
  obtain ⟨τ, h1, h2⟩ := (schedule_iff_timing hP S.length (P.peak S)).1 ⟨S, hS, Nat.le_refl _, Nat.le_refl _⟩
  obtain ⟨τ', h3, h4⟩ := h.timing hP (t' := S.length) h1 (fun b hb => Nat.le_of_lt (h1.lt b hb))
    (fun d hd => by
      obtain ⟨e1, e2⟩ := needs_bits hP' hd
      rw [h.bits.mem_iff, List.mem_cons] at e2
      have hdb : d ∈ P.bits := by
        rcases e2 with rfl | e2
        · exact absurd hd (needs_irrefl hP')
        · exact e2
      exact ⟨hdb, h1.lt d hdb⟩)
  exact (schedule_iff_timing hP' _ _).2 ⟨τ', h3, fun k => Nat.le_trans (h4 k) (Nat.add_le_add_right (h2 k) 1)⟩

/-- If it waits for nothing itself, it costs no time. -/
theorem OneQubit.schedule_free (h : OneQubit P P') (hP : P.WF) (hP' : P'.WF) (hb : P.bits ≠ [])
    (hfree : ∀ d, ¬ P'.Needs P.n d) {S : Schedule} (hS : P.Valid S) :
    ∃ S', P'.Valid S' ∧ S'.length ≤ S.length ∧ P'.peak S' ≤ P.peak S + 1 := by
  obtain ⟨τ, h1, h2⟩ := (schedule_iff_timing hP S.length (P.peak S)).1 ⟨S, hS, Nat.le_refl _, Nat.le_refl _⟩
  have hpos : 0 < S.length := by
    obtain ⟨b, hb⟩ := List.exists_mem_of_ne_nil _ hb
    have := h1.lt b hb
    omega
  obtain ⟨τ', h3, h4⟩ := h.timing hP (t' := S.length - 1) h1 (fun b hb => by have := h1.lt b hb; omega)
    fun d hd => absurd hd (hfree d)
  rw [Nat.sub_add_cancel hpos] at h3
  exact (schedule_iff_timing hP' _ _).2 ⟨τ', h3, fun k => Nat.le_trans (h4 k) (Nat.add_le_add_right (h2 k) 1)⟩

end Verif
