import Verif.Proofs.Curve
import Verif.Proofs.State
import Mathlib.Data.Finset.Card
import Mathlib.Data.Finset.Max
import Mathlib.Data.Fintype.Basic
/-!
# Schedules and path decompositions

A path decomposition of a graph is a sequence of bags of nodes such that every node is in a bag, the ends of every
edge are together in some bag, and the bags with a given node are consecutive. The measurement steps of a schedule
give such a sequence, the bag of a step being what is in memory during it; and every such sequence can be turned
into a schedule, by measuring every node in its last bag.
-/

namespace Verif

open Spec Problem

namespace Spec

/-- A path decomposition for a scheduling problem: `bag` is a sequence of sets of nodes such that every qubit to be
measured is in a bag, a qubit to be measured and a neighbour are together in some bag, and the bags with a given node
are consecutive. Nodes that are not measured are never given up once they are in a bag. A qubit on which another one
depends is given up before this other one. -/
structure Decomposition (P : Problem) {t : Nat} (bag : Fin t → Finset Nat) : Prop where
  bit : ∀ b ∈ P.bits, ∃ i, b ∈ bag i
  edge : ∀ b ∈ P.bits, ∀ c ∈ P.nbrs b, ∃ i, b ∈ bag i ∧ c ∈ bag i
  convex : ∀ i j k v, i ≤ j → j ≤ k → v ∈ bag i → v ∈ bag k → v ∈ bag j
  stays : ∀ v, v ∉ P.bits → ∀ i j, i ≤ j → v ∈ bag i → v ∈ bag j
  deps : ∀ b d, P.Needs b d → ∃ i, b ∈ bag i ∧ ∀ j, i ≤ j → d ∉ bag j

/-- Between qubits to be measured, the neighbour lists are symmetric. -/
def Problem.Symm (P : Problem) : Prop :=
  ∀ b ∈ P.bits, ∀ c ∈ P.bits, c ∈ P.nbrs b → b ∈ P.nbrs c

end Spec

variable {P : Problem} {S : Schedule}

theorem mem_take_flatten {k v : Nat} :
    v ∈ (S.take k).flatten ↔ ∃ (j : Nat) (s : List Nat), j < k ∧ S[j]? = some s ∧ v ∈ s := by
  rw [mem_flatten_iff]
  constructor
  · rintro ⟨j, s, hs, hv⟩
    rw [List.getElem?_take] at hs
    split at hs
    · exact ⟨j, s, by assumption, hs, hv⟩
    · simp at hs
  · rintro ⟨j, s, hj, hs, hv⟩
    exact ⟨j, s, by rw [List.getElem?_take, if_pos hj]; exact hs, hv⟩

/-- Something measured in step `i` has not been measured before. -/
theorem not_before (hd : S.flatten.Nodup) {i k v : Nat} {s : List Nat} (hs : S[i]? = some s) (hv : v ∈ s)
    (hk : k ≤ i) : v ∉ (S.take k).flatten := by
  intro h
  obtain ⟨j, s', hj, hs', hv'⟩ := mem_take_flatten.1 h
  have hi := (List.getElem?_eq_some_iff.1 hs).1
  rw [← List.take_append_drop i S, List.flatten_append, List.nodup_append] at hd
  refine hd.2.2 v (mem_take_flatten.2 ⟨j, s', by omega, hs', hv'⟩) v ?_ rfl
  refine List.mem_flatten.2 ⟨s, ?_, hv⟩
  rw [List.mem_iff_getElem?]
  exact ⟨0, by simpa using hs⟩

/-- What is in memory during step `k`. -/
def bagAt (P : Problem) (S : Schedule) (k : Nat) : Finset Nat :=
  ((List.range P.n).filter (P.inMemory S k)).toFinset

theorem mem_bagAt {k v : Nat} : v ∈ bagAt P S k ↔ v < P.n ∧
    (v ∈ (S.take (k + 1)).flatten ∨ ∃ u ∈ (S.take (k + 1)).flatten, v ∈ P.nbrs u) ∧
      v ∉ (S.take k).flatten := by
  rw [bagAt, List.mem_toFinset, List.mem_filter, List.mem_range, inMemory_iff]

theorem card_bagAt (k : Nat) : (bagAt P S k).card = P.memAt S k := by
  rw [bagAt, List.toFinset_card_of_nodup (List.nodup_range.filter _), Problem.memAt]

theorem nbrs_lt (hP : P.WF) {u v : Nat} (h : v ∈ P.nbrs u) : v < P.n := by
  unfold Problem.nbrs at h
  rw [List.getD_eq_getElem?_getD] at h
  cases hl : P.graph[u]? with
  | none => simp [hl] at h
  | some l =>
    rw [hl] at h
    exact hP.nbrs_lt l (List.mem_of_getElem? hl) v h

/-- The steps of a schedule are a path decomposition. -/
theorem decomposition_of_valid (hP : P.WF) (hsym : P.Symm) (hS : P.Valid S) :
    Decomposition P fun i : Fin S.length => bagAt P S i := by
  have hnd : S.flatten.Nodup := hS.perm.nodup_iff.2 hP.bits_nodup
  have hstep : ∀ b ∈ P.bits, ∃ (i : Nat) (s : List Nat), S[i]? = some s ∧ b ∈ s := fun b hb =>
    mem_flatten_iff.1 (hS.perm.mem_iff.2 hb)
  have hin : ∀ (i : Nat) (s : List Nat) (b : Nat), S[i]? = some s → b ∈ s → b ∈ bagAt P S i :=
    fun i s b hs hb => mem_bagAt.2 ⟨hP.bits_lt b (hS.perm.mem_iff.1 (mem_flatten_iff.2 ⟨i, s, hs, hb⟩)),
      Or.inl (mem_take_flatten.2 ⟨i, s, by omega, hs, hb⟩), not_before hnd hs hb (le_refl i)⟩
  refine ⟨?_, ?_, ?_, ?_, ?_⟩
  · intro b hb
    obtain ⟨i, s, hs, hbs⟩ := hstep b hb
    exact ⟨⟨i, (List.getElem?_eq_some_iff.1 hs).1⟩, hin i s b hs hbs⟩
  · intro b hb c hc
    obtain ⟨i, s, hs, hbs⟩ := hstep b hb
    by_cases hbef : c ∈ (S.take i).flatten
    · obtain ⟨j, s', hj, hs', hcs⟩ := mem_take_flatten.1 hbef
      have hcb : c ∈ P.bits := hS.perm.mem_iff.1 (mem_flatten_iff.2 ⟨j, s', hs', hcs⟩)
      refine ⟨⟨j, (List.getElem?_eq_some_iff.1 hs').1⟩, ?_, hin j s' c hs' hcs⟩
      exact mem_bagAt.2 ⟨hP.bits_lt b hb, Or.inr ⟨c, mem_take_flatten.2 ⟨j, s', Nat.lt_succ_self j, hs', hcs⟩,
        hsym b hb c hcb hc⟩, not_before hnd hs hbs (Nat.le_of_lt hj)⟩
    · refine ⟨⟨i, (List.getElem?_eq_some_iff.1 hs).1⟩, hin i s b hs hbs, ?_⟩
      exact mem_bagAt.2 ⟨nbrs_lt hP hc, Or.inr ⟨b, mem_take_flatten.2
        ⟨i, s, Nat.lt_succ_self i, hs, hbs⟩, hc⟩, hbef⟩
  · intro i j k v hij hjk hi hk
    obtain ⟨h1, h2, _⟩ := mem_bagAt.1 hi
    obtain ⟨_, _, h3⟩ := mem_bagAt.1 hk
    have hmono : ∀ x y w, x ≤ y → w ∈ (S.take x).flatten → w ∈ (S.take y).flatten := fun x y w hxy hw => by
      obtain ⟨a, s, ha, hs, hw⟩ := mem_take_flatten.1 hw
      exact mem_take_flatten.2 ⟨a, s, by omega, hs, hw⟩
    have hij' : i.val ≤ j.val := hij
    have hjk' : j.val ≤ k.val := hjk
    refine mem_bagAt.2 ⟨h1, ?_, fun h => h3 (hmono j k v hjk' h)⟩
    rcases h2 with h2 | ⟨u, hu, hv⟩
    · exact Or.inl (hmono _ _ _ (by omega) h2)
    · exact Or.inr ⟨u, hmono _ _ _ (by omega) hu, hv⟩
  · intro v hv i j hij hi
    obtain ⟨h1, h2, _⟩ := mem_bagAt.1 hi
    have hij' : i.val ≤ j.val := hij
    have hmono : ∀ x y w, x ≤ y → w ∈ (S.take x).flatten → w ∈ (S.take y).flatten := fun x y w hxy hw => by
      obtain ⟨a, s, ha, hs, hw⟩ := mem_take_flatten.1 hw
      exact mem_take_flatten.2 ⟨a, s, by omega, hs, hw⟩
    refine mem_bagAt.2 ⟨h1, ?_, fun h => ?_⟩
    · rcases h2 with h2 | ⟨u, hu, hv⟩
      · exact Or.inl (hmono _ _ _ (by omega) h2)
      · exact Or.inr ⟨u, hmono _ _ _ (by omega) hu, hv⟩
    · obtain ⟨a, s, _, hs, hw⟩ := mem_take_flatten.1 h
      exact hv (hS.perm.mem_iff.1 (mem_flatten_iff.2 ⟨a, s, hs, hw⟩))
  · intro b d hbd
    have hb : b ∈ P.bits := by
      obtain ⟨ds, h, _⟩ := hbd
      exact List.mem_map.2 ⟨_, h, rfl⟩
    obtain ⟨i, s, hs, hbs⟩ := hstep b hb
    obtain ⟨j, s', hj, hs', hds⟩ := hS.deps i s hs b hbs d hbd
    refine ⟨⟨i, (List.getElem?_eq_some_iff.1 hs).1⟩, hin i s b hs hbs, ?_⟩
    intro k hk hdk
    have hk' : i ≤ k.val := hk
    exact (mem_bagAt.1 hdk).2.2 (mem_take_flatten.2 ⟨j, s', by omega, hs', hds⟩)

/-- Dropping empty steps: every remaining step is a step of before, after the same qubits. -/
theorem filter_step (S : Schedule) : ∀ (k : Nat) (s : List Nat),
    (S.filter fun s => !s.isEmpty)[k]? = some s →
    ∃ k' : Nat, S[k']? = some s ∧ ((S.filter fun s => !s.isEmpty).take k).flatten = (S.take k').flatten ∧
      ((S.filter fun s => !s.isEmpty).take (k + 1)).flatten = (S.take (k' + 1)).flatten := by
  induction S with
  | nil => intro k s h; simp at h
  | cons x S ih =>
    intro k s h
    by_cases hx : x.isEmpty = true
    · rw [List.filter_cons_of_neg (by simp [hx])] at h ⊢
      obtain ⟨k', h1, h2, h3⟩ := ih k s h
      have hxe : x = [] := by simpa using hx
      exact ⟨k' + 1, by simpa using h1, by simp [h2, hxe], by simp [h3, hxe]⟩
    · rw [List.filter_cons_of_pos (by simp [hx])] at h ⊢
      cases k with
      | zero => exact ⟨0, by simpa using h, by simp, by simp⟩
      | succ k =>
        obtain ⟨k', h1, h2, h3⟩ := ih k s (by simpa using h)
        exact ⟨k' + 1, by simpa using h1, by simp [h2], by simp [h3]⟩

theorem flatten_filter_nonempty (S : Schedule) : (S.filter fun s => !s.isEmpty).flatten = S.flatten := by
  induction S with
  | nil => rfl
  | cons x S ih =>
    by_cases hx : x.isEmpty = true
    · have hxe : x = [] := by simpa using hx
      rw [List.filter_cons_of_neg (by simp [hx]), ih, hxe]; rfl
    · rw [List.filter_cons_of_pos (by simp [hx]), List.flatten_cons, ih, List.flatten_cons]

/-- A list is a permutation of its parts with given values of `f`. -/
theorem parts_perm (l : List Nat) (f : Nat → Nat) (t : Nat) :
    ((List.range t).map fun i => l.filter fun b => f b == i).flatten.Perm (l.filter fun b => decide (f b < t)) := by
  rw [List.perm_iff_count]
  intro a
  induction t with
  | zero => simp
  | succ t ih =>
    rw [List.range_succ, List.map_append, List.flatten_append, List.count_append, ih]
    by_cases h1 : f a < t
    · rw [List.count_filter (by simpa using h1), List.count_filter (by simp; omega)]
      simp only [List.map_cons, List.map_nil, List.flatten_cons, List.flatten_nil, List.append_nil]
      rw [List.count_eq_zero_of_not_mem (a := a) (l := l.filter fun b => f b == t) (by simp; omega)]
      rfl
    · rw [List.count_eq_zero_of_not_mem (a := a) (l := l.filter fun b => decide (f b < t)) (by simp; omega)]
      simp only [List.map_cons, List.map_nil, List.flatten_cons, List.flatten_nil, List.append_nil, Nat.zero_add]
      by_cases h2 : f a = t
      · rw [List.count_filter (by simpa using h2), List.count_filter (by simp; omega)]
      · rw [List.count_eq_zero_of_not_mem (by simp [h2]), List.count_eq_zero_of_not_mem (by simp; omega)]

theorem needs_bits (hP : P.WF) {b d : Nat} (h : P.Needs b d) : b ∈ P.bits ∧ d ∈ P.bits := by
  obtain ⟨ds, he, hd⟩ := h
  refine ⟨List.mem_map.2 ⟨_, he, rfl⟩, ?_⟩
  obtain ⟨l, hl, hel⟩ := List.mem_flatten.1 he
  obtain ⟨i, hi⟩ := List.mem_iff_getElem?.1 hl
  obtain ⟨j, _, l', hl', e', he', rfl⟩ := (hP.layers i l hi _ hel).2.2 d hd
  exact List.mem_map.2 ⟨e', List.mem_flatten.2 ⟨l', List.mem_of_getElem? hl', he'⟩, rfl⟩

/-- A path decomposition is turned into a schedule with at most as many steps, in which never more than a bag is
in memory. -/
theorem valid_of_decomposition (hP : P.WF) {t : Nat} {bag : Fin t → Finset Nat} (hD : Decomposition P bag) :
    ∃ S, P.Valid S ∧ S.length ≤ t ∧
      ∀ k, k < S.length → ∃ i, ∀ v, P.inMemory S k v = true → v ∈ bag i := by
  classical
  have hlast : ∀ b, ∃ l : Nat, b ∈ P.bits → ∃ h : l < t, b ∈ bag ⟨l, h⟩ ∧ ∀ j, b ∈ bag j → j.val ≤ l := by
    intro b
    by_cases hb : b ∈ P.bits
    · obtain ⟨i, hi⟩ := hD.bit b hb
      have hne : (Finset.univ.filter fun j : Fin t => b ∈ bag j).Nonempty := ⟨i, by simpa using hi⟩
      refine ⟨((Finset.univ.filter fun j : Fin t => b ∈ bag j).max' hne).val, fun _ => ⟨Fin.isLt _, ?_, ?_⟩⟩
      · have := Finset.max'_mem _ hne
        simpa using this
      · intro j hj
        exact Finset.le_max' _ j (by simpa using hj)
    · exact ⟨0, fun h => absurd h hb⟩
  choose last hlast using hlast
  let T : Schedule := (List.range t).map fun i => P.bits.filter fun b => last b == i
  have hT : ∀ (i : Nat) (s : List Nat), T[i]? = some s → i < t ∧ s = P.bits.filter fun b => last b == i := by
    intro i s h
    obtain ⟨hi, rfl⟩ := List.getElem?_eq_some_iff.1 h
    simp only [T, List.length_map, List.length_range] at hi
    exact ⟨hi, by simp [T]⟩
  have hTake : ∀ k v, v ∈ (T.take k).flatten ↔ v ∈ P.bits ∧ last v < k := by
    intro k v
    rw [mem_take_flatten]
    constructor
    · rintro ⟨j, s, hj, hs, hv⟩
      obtain ⟨_, rfl⟩ := hT j s hs
      simp only [List.mem_filter, beq_iff_eq] at hv
      exact ⟨hv.1, by omega⟩
    · rintro ⟨hv, hk⟩
      obtain ⟨h1, _⟩ := hlast v hv
      exact ⟨last v, P.bits.filter fun b => last b == last v, hk, by simp [T, h1], by simp [hv]⟩
  refine ⟨T.filter fun s => !s.isEmpty, ⟨?_, ?_, ?_⟩, ?_, ?_⟩
  · intro s hs
    have := (List.mem_filter.1 hs).2
    simpa using this
  · rw [flatten_filter_nonempty]
    refine (parts_perm P.bits last t).trans ?_
    rw [List.filter_eq_self.2]
    intro b hb
    simpa using (hlast b hb).1
  · intro i s hs b hb d hbd
    obtain ⟨k', h1, h2, _⟩ := filter_step T i s hs
    obtain ⟨hk't, rfl⟩ := hT k' s h1
    simp only [List.mem_filter, beq_iff_eq] at hb
    obtain ⟨_, hdb⟩ := needs_bits hP hbd
    obtain ⟨i0, hi0, hi1⟩ := hD.deps b d hbd
    have hd : d ∈ ((T.filter fun s => !s.isEmpty).take i).flatten := by
      rw [h2, hTake]
      refine ⟨hdb, ?_⟩
      obtain ⟨_, _, hb2⟩ := hlast b hb.1
      obtain ⟨hd0, hd1, _⟩ := hlast d hdb
      have h3 := hb2 i0 hi0
      by_contra hge
      exact hi1 ⟨last d, hd0⟩ (Fin.le_def.2 (by simp only; omega)) hd1
    obtain ⟨j, s', hj, hs', hds⟩ := mem_take_flatten.1 hd
    exact ⟨j, s', hj, hs', hds⟩
  · exact Nat.le_trans (List.length_filter_le _ _) (by simp [T])
  · intro k hk
    obtain ⟨k', h1, h2, h3⟩ := filter_step T k _ (List.getElem?_eq_getElem hk)
    obtain ⟨hk't, _⟩ := hT k' _ h1
    refine ⟨⟨k', hk't⟩, fun v hv => ?_⟩
    rw [inMemory_iff, h2, h3] at hv
    simp only [hTake] at hv
    obtain ⟨hv1, hv2⟩ := hv
    have hge : v ∈ P.bits → k' ≤ last v := fun h => by
      by_contra hlt
      exact hv2 ⟨h, by omega⟩
    rcases hv1 with ⟨hb, hle⟩ | ⟨u, ⟨hu, hle⟩, huv⟩
    · obtain ⟨h4, h5, _⟩ := hlast v hb
      have h6 := hge hb
      have h7 : last v = k' := by omega
      simpa [h7] using h5
    · obtain ⟨j, hj1, hj2⟩ := hD.edge u hu v huv
      obtain ⟨_, _, h6⟩ := hlast u hu
      have h7 := h6 j hj1
      have hjk : j ≤ (⟨k', hk't⟩ : Fin t) := Fin.le_def.2 (by simp only; omega)
      by_cases hvb : v ∈ P.bits
      · obtain ⟨h8, h9, _⟩ := hlast v hvb
        exact hD.convex j _ ⟨last v, h8⟩ v hjk (Fin.le_def.2 (hge hvb)) hj2 h9
      · exact hD.stays v hvb j _ hjk hj2

/-- Schedules with at most `t` steps and at most `m` qubits in memory exist exactly if there are path
decompositions with at most `t` bags of at most `m` nodes. -/
theorem schedule_iff_decomposition (hP : P.WF) (hsym : P.Symm) (t m : Nat) :
    (∃ S, P.Valid S ∧ S.length ≤ t ∧ P.peak S ≤ m) ↔
      ∃ r, r ≤ t ∧ ∃ bag : Fin r → Finset Nat, Decomposition P bag ∧ ∀ i, (bag i).card ≤ m := by
  constructor
  · rintro ⟨S, hS, ht, hm⟩
    exact ⟨S.length, ht, _, decomposition_of_valid hP hsym hS, fun i => by
      rw [card_bagAt]; exact Nat.le_trans (memAt_le_peak P S i i.2) hm⟩
  · rintro ⟨r, hr, bag, hD, hm⟩
    obtain ⟨S, h1, h2, h3⟩ := valid_of_decomposition hP hD
    refine ⟨S, h1, by omega, peak_le fun k hk => ?_⟩
    obtain ⟨i, hi⟩ := h3 k hk
    rw [← card_bagAt]
    refine Nat.le_trans (Finset.card_le_card fun v hv => ?_) (hm i)
    rw [bagAt, List.mem_toFinset, List.mem_filter] at hv
    exact hi v hv.2

end Verif
