import Verif.Proofs.Loop
import Verif.Proofs.Order
/-!
# Loop invariants of the searches: soundness and the table of best costs
-/

namespace Verif

open Spec Search

/-- Every recorded result is a complete schedule recorded with its exact costs. -/
def ResultsOK (P : Problem) (r : MappedPaths) : Prop :=
  ∀ t m S, r.get t = some (m, S) → Maximal P S ∧ S.length = t ∧ P.peak S = m

theorem resultsOK_nil (P : Problem) : ResultsOK P [] := by
  intro t m S h; simp at h

theorem ResultsOK.insert {P : Problem} {r : MappedPaths} (h : ResultsOK P r) {S : Schedule}
    (hS : Maximal P S) : ResultsOK P (r.insert S.length (P.peak S, S)) := by
  intro t m T hg
  rw [AMap.get_insert] at hg
  split at hg
  · simp only [Option.some.injEq, Prod.mk.injEq] at hg
    obtain ⟨rfl, rfl⟩ := hg
    rename_i ht
    exact ⟨hS, ht.symm, rfl⟩
  · exact h t m T hg

/-- An entry of a table of best costs (0 outside of the table). -/
def at0 (b : List Nat) (t : Nat) : Nat := b.getD t 0

theorem at0_of_getElem? {b : List Nat} {t a : Nat} (h : b[t]? = some a) : at0 b t = a := by
  simp [at0, List.getD_eq_getElem?_getD, h]

theorem at0_updateBest {b : List Nat} {len mem j : Nat} (h : len < b.length) :
    at0 (updateBest b len mem) j =
      if j < len then at0 b j else if j = len then mem else min (at0 b j) mem := by
  simp only [at0, updateBest, List.getD_eq_getElem?_getD, List.getElem?_mapIdx]
  by_cases hj : j < b.length
  · simp [hj]
  · have h1 : ¬ j < len := by omega
    have h2 : ¬ j = len := by omega
    simp [hj, h1, h2]

def Anti (b : List Nat) : Prop := ∀ i j, i ≤ j → at0 b j ≤ at0 b i

theorem Anti.update {b : List Nat} (h : Anti b) {len mem : Nat} (hlen : len < b.length)
    (hlt : mem ≤ at0 b len) : Anti (updateBest b len mem) := by
  intro i j hij
  rw [at0_updateBest hlen, at0_updateBest hlen]
  have h1 := h i j hij
  by_cases hj : j < len
  · simp [hj, show i < len by omega, h1]
  · by_cases hj' : j = len
    · subst hj'
      by_cases hi : i < j
      · have := h i j hij
        simp [hi]; omega
      · have : i = j := by omega
        simp [this]
    · simp only [hj, hj', ↓reduceIte]
      by_cases hi : i < len
      · simp only [hi, ↓reduceIte]; omega
      · by_cases hi' : i = len
        · simp only [hi', Nat.lt_irrefl, ↓reduceIte]; omega
        · simp only [hi, hi', ↓reduceIte]; omega

theorem at0_replicate (n a t : Nat) : at0 (List.replicate n a) t = if t < n then a else 0 := by
  simp only [at0, List.getD_eq_getElem?_getD, List.getElem?_replicate]
  split <;> simp

theorem anti_replicate (n a : Nat) : Anti (List.replicate n a) := by
  intro i j hij
  rw [at0_replicate, at0_replicate]
  split <;> split <;> omega

/-- The invariant of a search loop that starts at the path `p0` with the table `b0`, as long as
nobody else touches the table. -/
structure LInv (P : Problem) (p0 : Schedule) (b0 : List Nat) (l : Loc) : Prop where
  ok : LocOK P p0 l
  sound : ResultsOK P l.results
  anti : Anti l.best
  le0 : ∀ t, at0 l.best t ≤ at0 b0 t
  b2 : ∀ t, at0 l.best t = at0 b0 t ∨
    ∃ t' m S, t' ≤ t ∧ l.results.get t' = some (m, S) ∧ m ≤ at0 l.best t
  b3 : ∀ t m S, l.results.get t = some (m, S) → at0 l.best t ≤ m
  b4 : ∀ t m S, l.results.get t = some (m, S) → m ≤ at0 b0 t
  leaf : l.sweep.stack ≠ [] → l.sweep.current.time.measurable.set = [] →
    l.sweep.current.space.maxMemory < at0 l.best l.path.length

/-- The states on the stack have something to measure. -/
theorem Chain.top_set_ne {P : Problem} {p0 p : Schedule} {s top : Scheduler Partitioner}
    {rest : List (Scheduler Partitioner)} (h : Chain P p0 p s (top :: rest)) :
    top.time.measurable.set ≠ [] := by
  cases h with
  | push h hc _ =>
    obtain ⟨_, hne, _, hr⟩ := prefix_of_snoc hc.pre
    obtain ⟨b, hb⟩ := List.exists_mem_of_ne_nil _ hne
    intro he
    have := (h.state.1.time.set_mem b).2 (hr b hb)
    change b ∈ top.time.measurable.set at this
    rw [he] at this
    simp at this

theorem NextSome.set_ne {P : Problem} {p : Schedule} {s s' c : Scheduler Partitioner}
    {k m : List Nat} (h : NextSome P p s s' c k m) : s'.time.measurable.set ≠ [] := by
  obtain ⟨_, hne, _, hr⟩ := prefix_of_snoc h.child.pre
  obtain ⟨b, hb⟩ := List.exists_mem_of_ne_nil _ hne
  intro he
  have := (h.state'.time.set_mem b).2 (hr b hb)
  change b ∈ s'.time.measurable.set at this
  rw [he] at this
  simp at this

/-- Recording a leaf. -/
theorem record_inv {P : Problem} {b0 b : List Nat} {r : MappedPaths} {S : Schedule}
    (hlen : S.length < b.length) (hr : ResultsOK P r) (hS : Maximal P S)
    (anti : Anti b) (le0 : ∀ t, at0 b t ≤ at0 b0 t)
    (b2 : ∀ t, at0 b t = at0 b0 t ∨ ∃ t' m T, t' ≤ t ∧ r.get t' = some (m, T) ∧ m ≤ at0 b t)
    (b3 : ∀ t m T, r.get t = some (m, T) → at0 b t ≤ m)
    (b4 : ∀ t m T, r.get t = some (m, T) → m ≤ at0 b0 t)
    (hlt : P.peak S ≤ at0 b S.length) :
    let b' := updateBest b S.length (P.peak S)
    let r' := r.insert S.length (P.peak S, S)
    ResultsOK P r' ∧ Anti b' ∧ (∀ t, at0 b' t ≤ at0 b t) ∧ (∀ t, at0 b' t ≤ at0 b0 t) ∧
    (∀ t, at0 b' t = at0 b0 t ∨ ∃ t' m T, t' ≤ t ∧ r'.get t' = some (m, T) ∧ m ≤ at0 b' t) ∧
    (∀ t m T, r'.get t = some (m, T) → at0 b' t ≤ m) ∧
    (∀ t m T, r'.get t = some (m, T) → m ≤ at0 b0 t) := by
  have hle : ∀ t, at0 (updateBest b S.length (P.peak S)) t ≤ at0 b t := by
    intro t
    rw [at0_updateBest hlen]
    split
    · exact Nat.le_refl _
    · split
      · rename_i h; subst h; exact hlt
      · exact Nat.min_le_left _ _
  refine ⟨hr.insert hS, anti.update hlen hlt, hle, fun t => Nat.le_trans (hle t) (le0 t), ?_, ?_, ?_⟩
  · intro t
    rw [at0_updateBest hlen]
    by_cases h1 : t < S.length
    · simp only [h1, ↓reduceIte]
      rcases b2 t with h | ⟨t', m, T, h2, h3, h4⟩
      · exact Or.inl h
      · exact Or.inr ⟨t', m, T, h2, by rw [AMap.get_insert, if_neg (by omega)]; exact h3, h4⟩
    · simp only [h1, ↓reduceIte]
      by_cases h2 : t = S.length
      · simp only [h2, ↓reduceIte]
        exact Or.inr ⟨S.length, P.peak S, S, Nat.le_refl _, by rw [AMap.get_insert]; simp,
          Nat.le_refl _⟩
      · simp only [h2, ↓reduceIte]
        by_cases h3 : at0 b t ≤ P.peak S
        · rw [Nat.min_eq_left h3]
          rcases b2 t with h | ⟨t', m, T, h4, h5, h6⟩
          · exact Or.inl h
          · right
            by_cases h7 : t' = S.length
            · exact ⟨S.length, P.peak S, S, by omega, by rw [AMap.get_insert]; simp, by
                have := b3 t' m T h5
                rw [h7] at this; omega⟩
            · exact ⟨t', m, T, h4, by rw [AMap.get_insert, if_neg h7]; exact h5, h6⟩
        · rw [Nat.min_eq_right (by omega)]
          exact Or.inr ⟨S.length, P.peak S, S, by omega, by rw [AMap.get_insert]; simp,
            Nat.le_refl _⟩
  · intro t m T h
    rw [AMap.get_insert] at h
    split at h
    · rename_i ht
      simp only [Option.some.injEq, Prod.mk.injEq] at h
      subst ht
      rw [at0_updateBest hlen]
      simp [h.1]
    · exact Nat.le_trans (hle t) (b3 t m T h)
  · intro t m T h
    rw [AMap.get_insert] at h
    split at h
    · rename_i ht
      simp only [Option.some.injEq, Prod.mk.injEq] at h
      subst ht
      have := le0 S.length
      omega
    · exact b4 t m T h

/-- A leaf state records its path with its exact peak. -/
theorem leaf_max {P : Problem} {T : Type} [MeasurableSet T] {p : Schedule} {s : Scheduler T}
    (h : StateFor P p s) : s.space.maxMemory = P.peak p := h.space.max

theorem IterStep.inv {P : Problem} {Det : Prop} {p0 : Schedule} {b0 : List Nat}
    {l l' : Loc} {stop : Bool} (h : IterStep P Det l l' stop) (hl : LInv P p0 b0 l) :
    LInv P p0 b0 l' ∧ ∀ t, at0 l'.best t ≤ at0 l.best t := by
  have hok := h.locOK hl.ok
  cases h with
  | stop hst hn hs hi =>
    exact ⟨⟨hok, hl.sound, hl.anti, hl.le0, hl.b2, hl.b3, hl.b4, by simp⟩, fun t => Nat.le_refl _⟩
  | backLeaf hst hn hleaf hlen =>
    have hstate := hl.ok.chain.state.1
    have hv := (leaf_maximal hstate).1 hleaf
    have hlt := hl.leaf (by rw [hst]; simp) hleaf
    have hmax := leaf_max hstate
    rw [hmax] at hlt hok
    rw [hmax]
    obtain ⟨e1, e2, e3, e4, e5, e6, e7⟩ := record_inv hlen hl.sound hv hl.anti hl.le0 hl.b2 hl.b3 hl.b4
      (by omega)
    refine ⟨⟨hok, e1, e2, e4, e5, e6, e7, ?_⟩, e3⟩
    intro _ hs
    have h1 := hl.ok.chain
    rw [hst] at h1
    exact (h1.top_set_ne hs).elim
  | backInner hst hn hleaf =>
    refine ⟨⟨hok, hl.sound, hl.anti, hl.le0, hl.b2, hl.b3, hl.b4, ?_⟩, fun t => Nat.le_refl _⟩
    intro _ hs
    have h1 := hl.ok.chain
    rw [hst] at h1
    exact (h1.top_set_ne hs).elim
  | skip hn hb hd =>
    refine ⟨⟨hok, hl.sound, hl.anti, hl.le0, hl.b2, hl.b3, hl.b4, ?_⟩, fun t => Nat.le_refl _⟩
    intro _ hs
    exact (hn.set_ne hs).elim
  | @push s' c k m bound hn hb hlt =>
    refine ⟨⟨hok, hl.sound, hl.anti, hl.le0, hl.b2, hl.b3, hl.b4, ?_⟩, fun t => Nat.le_refl _⟩
    intro _ hs
    have hmin : minimumPathLength c.time l.path = l.path.length + 1 := by
      unfold minimumPathLength
      rw [if_pos ((atLeaf_isSome _).2 hs)]
    rw [hmin] at hb
    simp only [List.length_append, List.length_singleton]
    rw [at0_of_getElem? hb]
    exact hlt

end Verif
