import Verif.Model.Combinatoric
import Mathlib.Data.List.Nodup
/-!
# Facts about `combs`, `powerset` and `Partition`
-/

namespace Verif

variable {α : Type}

theorem mem_combs {k : Nat} {l c : List α} : c ∈ combs k l ↔ c.Sublist l ∧ c.length = k := by
  induction l generalizing k c with
  | nil =>
    cases k with
    | zero => simp [combs]
    | succ k =>
      simp only [combs, List.not_mem_nil, List.sublist_nil, false_iff, not_and]
      rintro rfl; simp
  | cons x xs ih =>
    cases k with
    | zero =>
      simp only [combs, List.mem_singleton, List.length_eq_zero_iff]
      constructor
      · rintro rfl; simp
      · exact fun h => h.2
    | succ k =>
      simp only [combs, List.mem_append, List.mem_map, ih]
      constructor
      · rintro (⟨c', ⟨h1, h2⟩, rfl⟩ | ⟨h1, h2⟩)
        · exact ⟨h1.cons_cons x, by simp [h2]⟩
        · exact ⟨h1.cons x, h2⟩
      · rintro ⟨h1, h2⟩
        cases h1 with
        | cons _ h => exact Or.inr ⟨h, h2⟩
        | cons_cons _ h => exact Or.inl ⟨_, ⟨h, by simpa using h2⟩, rfl⟩

/-- All ways to split a list into a `k`-element sub-list and the rest, in the order in which
`Partition` produces them. -/
def splits : Nat → List α → List (List α × List α)
  | 0, s => [([], s)]
  | _ + 1, [] => []
  | k + 1, x :: xs =>
    (splits k xs).map (fun r => (x :: r.1, r.2)) ++ (splits (k + 1) xs).map (fun r => (r.1, x :: r.2))

theorem split_nil (s : List α) (i : Nat) : Partition.split s i [] = ([], s) := by
  induction s generalizing i with
  | nil => rfl
  | cons x xs ih => simp [Partition.split, ih]

theorem map_split_combs (k : Nat) (s : List α) (i : Nat) :
    (combs k (List.range' i s.length)).map (Partition.split s i) = splits k s := by
  induction s generalizing k i with
  | nil =>
    cases k with
    | zero => simp [combs, splits, Partition.split]
    | succ k => simp [combs, splits]
  | cons x xs ih =>
    cases k with
    | zero => simp [combs, splits, split_nil]
    | succ k =>
      simp only [List.length_cons, List.range'_succ, combs, splits, List.map_append, List.map_map]
      congr 1
      · rw [← ih k (i + 1), List.map_map]
        apply List.map_congr_left
        intro c _
        simp [Partition.split]
      · rw [← ih (k + 1) (i + 1), List.map_map]
        apply List.map_congr_left
        intro c hc
        rw [mem_combs] at hc
        obtain ⟨h1, h2⟩ := hc
        cases c with
        | nil => simp at h2
        | cons p ps =>
          have hp : p ∈ List.range' (i + 1) xs.length := h1.subset (by simp)
          rw [List.mem_range'_1] at hp
          have : p ≠ i := by omega
          simp [Partition.split, this]

/-- Everything a fresh `Partition` of `s` produces. -/
def items (s : List α) : List (List α × List α) :=
  (List.range (s.length + 1)).flatMap fun k => splits k s

theorem map_split_powerset (s : List α) :
    (powerset s.length).map (Partition.split s 0) = items s := by
  simp only [powerset, items, List.map_flatMap]
  congr 1
  funext k
  rw [List.range_eq_range', map_split_combs]

theorem mem_splits {k : Nat} {s l r : List α} (h : (l, r) ∈ splits k s) :
    l.length = k ∧ (l ++ r).Perm s ∧ l.Sublist s ∧ r.Sublist s := by
  induction s generalizing k l r with
  | nil =>
    cases k with
    | zero => simp only [splits, List.mem_singleton, Prod.mk.injEq] at h; obtain ⟨rfl, rfl⟩ := h; simp
    | succ k => simp [splits] at h
  | cons x xs ih =>
    cases k with
    | zero => simp only [splits, List.mem_singleton, Prod.mk.injEq] at h; obtain ⟨rfl, rfl⟩ := h; simp
    | succ k =>
      simp only [splits, List.mem_append, List.mem_map, Prod.mk.injEq, Prod.exists] at h
      rcases h with ⟨l', r', h, rfl, rfl⟩ | ⟨l', r', h, rfl, rfl⟩
      · obtain ⟨h1, h2, h3, h4⟩ := ih h
        exact ⟨by simp [h1], by simpa using h2, h3.cons_cons x, h4.cons x⟩
      · obtain ⟨h1, h2, h3, h4⟩ := ih h
        refine ⟨h1, ?_, h3.cons x, h4.cons_cons x⟩
        exact List.perm_middle.trans (h2.cons x)

theorem splits_length_zero (s : List α) : splits s.length s = [(s, [])] := by
  have key : ∀ (k : Nat) (s : List α), s.length < k → splits k s = [] := by
    intro k s
    induction s generalizing k with
    | nil => intro h; cases k with | zero => simp at h | succ k => rfl
    | cons x xs ih =>
      intro h
      cases k with
      | zero => simp at h
      | succ k =>
        simp only [List.length_cons] at h
        simp [splits, ih k (by omega), ih (k + 1) (by omega)]
  induction s with
  | nil => rfl
  | cons x xs ih => simp [splits, ih, key (xs.length + 1) xs (by omega)]

/-- Items of a fresh partition: the full set is split off last, with nothing to measure. -/
theorem items_eq (s : List α) :
    items s = ((List.range s.length).flatMap fun k => splits k s) ++ [(s, [])] := by
  simp [items, List.range_succ, List.flatMap_append, splits_length_zero]

theorem mem_items {s l r : List α} (h : (l, r) ∈ items s) :
    (l ++ r).Perm s ∧ l.Sublist s ∧ r.Sublist s := by
  simp only [items, List.mem_flatMap] at h
  obtain ⟨k, _, h⟩ := h
  exact (mem_splits h).2

theorem items_init_ne_nil {s l r : List α}
    (h : (l, r) ∈ (List.range s.length).flatMap fun k => splits k s) : r ≠ [] := by
  simp only [List.mem_flatMap, List.mem_range] at h
  obtain ⟨k, hk, h⟩ := h
  obtain ⟨h1, h2, _⟩ := mem_splits h
  have := h2.length_eq
  rintro rfl
  simp at this; omega

theorem exists_splits_of_sublist {s r : List α} (h : r.Sublist s) :
    ∃ l, (l, r) ∈ splits (s.length - r.length) s := by
  induction h with
  | slnil => exact ⟨[], by simp [splits]⟩
  | @cons r xs x h ih =>
    obtain ⟨l, hl⟩ := ih
    refine ⟨x :: l, ?_⟩
    have := h.length_le
    have e : (x :: xs).length - r.length = (xs.length - r.length) + 1 := by
      simp only [List.length_cons]; omega
    rw [e]
    simp only [splits, List.mem_append, List.mem_map, Prod.mk.injEq, Prod.exists]
    exact Or.inl ⟨l, r, hl, rfl, rfl⟩
  | @cons_cons r xs x h ih =>
    obtain ⟨l, hl⟩ := ih
    refine ⟨l, ?_⟩
    have e : (x :: xs).length - (x :: r).length = xs.length - r.length := by simp
    rw [e]
    cases hk : xs.length - r.length with
    | zero =>
      rw [hk] at hl
      simp only [splits, List.mem_singleton, Prod.mk.injEq] at hl ⊢
      obtain ⟨rfl, rfl⟩ := hl
      simp
    | succ k =>
      rw [hk] at hl
      simp only [splits, List.mem_append, List.mem_map, Prod.mk.injEq, Prod.exists]
      exact Or.inr ⟨l, r, hl, rfl, rfl⟩

theorem exists_items_of_sublist {s r : List α} (h : r.Sublist s) : ∃ l, (l, r) ∈ items s := by
  obtain ⟨l, hl⟩ := exists_splits_of_sublist h
  refine ⟨l, ?_⟩
  simp only [items, List.mem_flatMap, List.mem_range]
  exact ⟨_, by omega, hl⟩

theorem splits_snd_nodup {s : List α} (hs : s.Nodup) (k : Nat) :
    ((splits k s).map (·.2)).Nodup := by
  induction s generalizing k with
  | nil => cases k <;> simp [splits]
  | cons x xs ih =>
    cases k with
    | zero => simp [splits]
    | succ k =>
      rw [List.nodup_cons] at hs
      simp only [splits, List.map_append, List.map_map]
      rw [List.nodup_append']
      refine ⟨?_, ?_, ?_⟩
      · simpa [Function.comp_def] using ih hs.2 k
      · have := (ih hs.2 (k + 1)).map (f := fun r => x :: r) (by intro a b h; simpa using h)
        simpa [Function.comp_def, List.map_map] using this
      · rw [List.disjoint_left]
        intro r h1 h2
        simp only [List.mem_map, Function.comp_apply, Prod.exists] at h1 h2
        obtain ⟨l1, r1, h1, rfl⟩ := h1
        obtain ⟨l2, r2, h2, e⟩ := h2
        have : x ∈ xs := (mem_splits h1).2.2.2.subset (by rw [← e]; simp)
        exact hs.1 this

theorem items_snd_nodup {s : List α} (hs : s.Nodup) : ((items s).map (·.2)).Nodup := by
  simp only [items, List.map_flatMap]
  rw [List.nodup_flatMap]
  refine ⟨fun k _ => splits_snd_nodup hs k, ?_⟩
  refine List.Pairwise.imp_of_mem ?_ (List.nodup_range (n := s.length + 1))
  intro a b ha hb hab
  simp only [Function.onFun]
  rw [List.disjoint_left]
  intro r h1 h2
  simp only [List.mem_map, Prod.exists] at h1 h2
  obtain ⟨l1, r1, h1, rfl⟩ := h1
  obtain ⟨l2, r2, h2, rfl⟩ := h2
  have e1 := mem_splits h1
  have e2 := mem_splits h2
  have p1 := e1.2.1.length_eq
  have p2 := e2.2.1.length_eq
  simp only [List.length_append] at p1 p2
  omega

end Verif
