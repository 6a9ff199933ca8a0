import Verif.Model.Search
import Verif.Proofs.AMap
import Verif.Proofs.Space
/-!
# The final filter and sort
-/

namespace Verif

open Search

/-- The smallest memory cost among the results with time below `i`. -/
def minBelow (results : MappedPaths) : Nat → Nat
  | 0 => usizeMax
  | i + 1 => match results.get i with
    | some r => min (minBelow results i) r.1
    | none => minBelow results i

theorem lt_minBelow {results : MappedPaths} {i m : Nat} :
    m < minBelow results i ↔ m < usizeMax ∧ ∀ t, t < i → ∀ r, results.get t = some r → m < r.1 := by
  induction i with
  | zero => simp [minBelow]
  | succ i ih =>
    simp only [minBelow]
    constructor
    · intro h
      cases hg : results.get i with
      | none =>
        rw [hg] at h
        obtain ⟨h1, h2⟩ := ih.1 h
        refine ⟨h1, fun t ht r hr => ?_⟩
        by_cases hti : t = i
        · subst hti; simp [hg] at hr
        · exact h2 t (by omega) r hr
      | some x =>
        rw [hg] at h
        simp only at h
        obtain ⟨h1, h2⟩ := ih.1 (by omega : m < minBelow results i)
        refine ⟨h1, fun t ht r hr => ?_⟩
        by_cases hti : t = i
        · subst hti; rw [hg] at hr; simp only [Option.some.injEq] at hr; subst hr; omega
        · exact h2 t (by omega) r hr
    · rintro ⟨h1, h2⟩
      have := ih.2 ⟨h1, fun t ht => h2 t (by omega)⟩
      cases hg : results.get i with
      | none => simpa using this
      | some x =>
        have := h2 i (by omega) x hg
        simp only; omega

/-- Result `r` at time `t` survives the filter. -/
def Survives (results : MappedPaths) (t : Nat) (r : Nat × Steps) : Prop :=
  results.get t = some r ∧ r.1 < usizeMax ∧ ∀ t', t' < t → ∀ r', results.get t' = some r' → r.1 < r'.1

theorem filterLoop_spec (results : MappedPaths) (n : Nat) :
    ∀ (k i : Nat) (best : List Nat) (filtered : MappedPaths), i + k = n →
    best.length = n → (∀ j, i ≤ j → j < n → best[j]? = some (minBelow results i)) →
    (∀ t r, filtered.get t = some r ↔ t < i ∧ Survives results t r) →
    (AMap.keys filtered).Nodup →
    ∃ out, filterLoop results (List.range' i k) best filtered = .ok out ∧
      (∀ t r, out.get t = some r ↔ t < n ∧ Survives results t r) ∧ (AMap.keys out).Nodup := by
  intro k
  induction k with
  | zero =>
    intro i best filtered hk _ _ hf hn
    have : i = n := by omega
    subst this
    exact ⟨filtered, rfl, hf, hn⟩
  | succ k ih =>
    intro i best filtered hk hlen hbest hf hn
    rw [List.range'_succ]
    simp only [filterLoop]
    cases hg : results.get i with
    | none =>
      simp only
      have hmb : minBelow results (i + 1) = minBelow results i := by simp [minBelow, hg]
      apply ih (i + 1) best filtered (by omega) hlen
      · intro j h1 h2; rw [hmb]; exact hbest j (by omega) h2
      · intro t r
        rw [hf t r]
        constructor
        · rintro ⟨h1, h2⟩; exact ⟨by omega, h2⟩
        · rintro ⟨h1, h2⟩
          refine ⟨?_, h2⟩
          have : t ≠ i := by rintro rfl; rw [h2.1] at hg; simp at hg
          omega
      · exact hn
    | some x =>
      obtain ⟨mem, steps⟩ := x
      simp only [idx_of_getElem? (hbest i (by omega) (by omega)), bind, Except.bind]
      by_cases hlt : mem < minBelow results i
      · simp only [hlt, ↓reduceIte]
        have hmb : minBelow results (i + 1) = mem := by
          simp only [minBelow, hg]; omega
        apply ih (i + 1) _ _ (by omega) (by simpa [fillFrom] using hlen)
        · intro j h1 h2
          rw [hmb]
          simp only [fillFrom, List.getElem?_mapIdx]
          rw [hbest j (by omega) h2]
          simp [show i ≤ j by omega]
        · intro t r
          rw [AMap.get_insert]
          have hs := lt_minBelow.1 hlt
          by_cases hti : t = i
          · subst hti
            simp only [↓reduceIte, Option.some.injEq]
            constructor
            · rintro rfl; exact ⟨by omega, hg, hs⟩
            · rintro ⟨_, h, _⟩
              have := hg.symm.trans h
              simpa using this
          · simp only [hti, ↓reduceIte, hf t r]
            constructor
            · rintro ⟨h1, h2⟩; exact ⟨by omega, h2⟩
            · rintro ⟨h1, h2⟩; exact ⟨by omega, h2⟩
        · exact AMap.nodup_insert hn _ _
      · simp only [hlt, ↓reduceIte]
        have hmb : minBelow results (i + 1) = minBelow results i := by
          simp only [minBelow, hg]; omega
        apply ih (i + 1) best filtered (by omega) hlen
        · intro j h1 h2; rw [hmb]; exact hbest j (by omega) h2
        · intro t r
          rw [hf t r]
          constructor
          · rintro ⟨h1, h2⟩; exact ⟨by omega, h2⟩
          · rintro ⟨h1, h2⟩
            refine ⟨?_, h2⟩
            have : t ≠ i := by
              rintro rfl
              have e := h2.1
              rw [hg] at e
              simp only [Option.some.injEq] at e
              subst e
              exact hlt (lt_minBelow.2 h2.2)
            omega
        · exact hn

theorem insertByTime_perm (p : Path) (l : List Path) : (insertByTime p l).Perm (p :: l) := by
  induction l with
  | nil => exact List.Perm.refl _
  | cons q l ih =>
    rw [insertByTime]
    split
    · exact List.Perm.refl _
    · exact (ih.cons q).trans (List.Perm.swap p q l)

theorem sortByTime_perm (l : List Path) : (sortByTime l).Perm l := by
  induction l with
  | nil => exact List.Perm.refl _
  | cons p l ih => exact (insertByTime_perm p _).trans (ih.cons p)

theorem sortByTime_sorted (l : List Path) : (sortByTime l).Pairwise (fun a b => a.time ≤ b.time) := by
  induction l with
  | nil => exact List.Pairwise.nil
  | cons p l ih =>
    have key : ∀ (m : List Path), m.Pairwise (fun a b => a.time ≤ b.time) →
        (insertByTime p m).Pairwise (fun a b => a.time ≤ b.time) := by
      intro m
      induction m with
      | nil => intro _; simp [insertByTime]
      | cons q m ihm =>
        intro h
        rw [insertByTime]
        rw [List.pairwise_cons] at h
        split
        · rename_i hpq
          refine List.pairwise_cons.2 ⟨?_, List.pairwise_cons.2 h⟩
          intro a ha
          rcases List.mem_cons.1 ha with rfl | ha
          · exact hpq
          · exact Nat.le_trans hpq (h.1 a ha)
        · rename_i hpq
          refine List.pairwise_cons.2 ⟨?_, ihm h.2⟩
          intro a ha
          rcases List.mem_cons.1 ((insertByTime_perm p m).mem_iff.1 ha) with rfl | ha
          · omega
          · exact h.1 a ha
    exact key _ ih

/-- What `postprocess` returns. -/
structure Post (results : MappedPaths) (n : Nat) (out : List Path) : Prop where
  mem : ∀ p : Path, p ∈ out ↔ p.time ≤ n ∧ Survives results p.time (p.space, p.steps)
  sorted : out.Pairwise fun a b => a.time < b.time

theorem postprocess_spec (hashIter : MappedPaths → MappedPaths)
    (hh : ∀ m, (hashIter m).Perm m) (n : Nat) (results : MappedPaths) :
    ∃ out, postprocess hashIter n results = .ok out ∧ Post results n out := by
  obtain ⟨filtered, e1, e2, e3⟩ := filterLoop_spec results (n + 1) (n + 1) 0
    (List.replicate (n + 1) usizeMax) [] (by omega) (by simp)
    (by intro j _ h2; simp [h2, minBelow])
    (by intro t r; simp) (by simp [AMap.keys])
  rw [← List.range_eq_range'] at e1
  refine ⟨_, by simp only [postprocess, e1, bind, Except.bind, pure, Except.pure]; rfl, ?_, ?_⟩
  · intro p
    rw [(sortByTime_perm _).mem_iff]
    simp only [List.mem_map, (hh filtered).mem_iff]
    constructor
    · rintro ⟨⟨t, m, st⟩, he, rfl⟩
      have := (e2 t (m, st)).1 (AMap.get_of_mem e3 he)
      exact ⟨by simp only; omega, this.2⟩
    · rintro ⟨h1, h2⟩
      have := (e2 p.time (p.space, p.steps)).2 ⟨by omega, h2⟩
      exact ⟨_, AMap.mem_of_get this, rfl⟩
  · have hs := sortByTime_sorted ((hashIter filtered).map fun e => (⟨e.1, e.2.1, e.2.2⟩ : Path))
    have hn : (sortByTime ((hashIter filtered).map fun e => (⟨e.1, e.2.1, e.2.2⟩ : Path))).Pairwise
        (fun a b => a.time ≠ b.time) := by
      have hp := sortByTime_perm ((hashIter filtered).map fun e => (⟨e.1, e.2.1, e.2.2⟩ : Path))
      refine (hp.pairwise_iff (fun h => fun h' => h h'.symm)).2 ?_
      rw [List.pairwise_map]
      have h1 : ((hashIter filtered).map Prod.fst).Nodup :=
        ((hh filtered).map Prod.fst).nodup_iff.2 e3
      rw [List.Nodup, List.pairwise_map] at h1
      exact h1
    refine List.Pairwise.imp ?_ (List.pairwise_and_iff.2 ⟨hs, hn⟩)
    intro a b h
    omega

/-- The output is determined: two lists satisfying `Post` are equal. -/
theorem Post.unique {results : MappedPaths} {n : Nat} {o o' : List Path} (h : Post results n o)
    (h' : Post results n o') : o = o' := by
  have key : ∀ (l l' : List Path), l.Pairwise (fun a b => a.time < b.time) →
      l'.Pairwise (fun a b => a.time < b.time) → (∀ p, p ∈ l ↔ p ∈ l') → l = l' := by
    intro l
    induction l with
    | nil =>
      intro l' _ _ hm
      symm
      rw [List.eq_nil_iff_forall_not_mem]
      intro p hp; simpa using (hm p).2 hp
    | cons a l ih =>
      intro l' hs hs' hm
      cases l' with
      | nil => have := (hm a).1 (by simp); simp at this
      | cons b l' =>
        rw [List.pairwise_cons] at hs hs'
        have hab : a = b := by
          have h1 := (hm a).1 (by simp)
          have h2 := (hm b).2 (by simp)
          rw [List.mem_cons] at h1 h2
          rcases h1 with h1 | h1
          · exact h1
          · rcases h2 with h2 | h2
            · exact h2.symm
            · have := hs'.1 a h1
              have := hs.1 b h2
              omega
        subst hab
        congr 1
        apply ih l' hs.2 hs'.2
        intro p
        have := hm p
        simp only [List.mem_cons] at this
        constructor
        · intro hp
          rcases this.1 (Or.inr hp) with rfl | h
          · have := hs.1 p hp; omega
          · exact h
        · intro hp
          rcases this.2 (Or.inr hp) with rfl | h
          · have := hs'.1 p hp; omega
          · exact h
  exact key o o' h.sorted h'.sorted fun p => (h.mem p).trans (h'.mem p).symm

/-- Later entries of the output need strictly less memory. -/
theorem Post.strict {results : MappedPaths} {n : Nat} {o : List Path} (h : Post results n o) :
    o.Pairwise fun a b => a.time < b.time ∧ b.space < a.space := by
  refine List.Pairwise.imp_of_mem ?_ h.sorted
  intro a b ha hb hab
  exact ⟨hab, ((h.mem b).1 hb).2.2.2 a.time hab _ ((h.mem a).1 ha).2.1⟩

/-- Every result is matched by an output that is at least as good in both costs. -/
theorem Post.dominates {results : MappedPaths} {n : Nat} {o : List Path} (h : Post results n o)
    {t : Nat} (ht : t ≤ n) {r : Nat × Steps} (hr : results.get t = some r) (hm : r.1 < usizeMax) :
    ∃ p ∈ o, p.time ≤ t ∧ p.space ≤ r.1 := by
  induction t using Nat.strongRecOn generalizing r with
  | ind t ih =>
    by_cases hs : ∀ t', t' < t → ∀ r', results.get t' = some r' → r.1 < r'.1
    · exact ⟨⟨t, r.1, r.2⟩, (h.mem _).2 ⟨ht, hr, hm, hs⟩, Nat.le_refl _, Nat.le_refl _⟩
    · simp only [Classical.not_forall, Nat.not_lt] at hs
      obtain ⟨t', ht', r', hr', hle⟩ := hs
      obtain ⟨p, hp, h1, h2⟩ := ih t' ht' (by omega) hr' (by omega)
      exact ⟨p, hp, by omega, by omega⟩

end Verif
