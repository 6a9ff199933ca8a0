import Verif.Proofs.RunAll
import Mathlib.Data.List.Perm.Subperm
import Mathlib.Data.List.Nodup
/-!
# Comparing schedules and problems

Facts about the specification only: when one schedule or problem needs at most as much memory as
another.
-/

namespace Verif

open Spec

theorem length_filter_le_of_imp {α : Type} (p q : α → Bool) (l : List α)
    (h : ∀ x ∈ l, p x = true → q x = true) : (l.filter p).length ≤ (l.filter q).length := by
  induction l with
  | nil => simp
  | cons a l ih =>
    have ih := ih fun x hx => h x (List.mem_cons_of_mem _ hx)
    simp only [List.filter_cons]
    cases hp : p a with
    | true =>
      rw [h a List.mem_cons_self hp]
      simpa using ih
    | false =>
      cases q a <;> simp <;> omega

theorem inMemory_iff {P : Problem} {S : Schedule} {k v : Nat} :
    P.inMemory S k v = true ↔
      (v ∈ (S.take (k + 1)).flatten ∨ ∃ u ∈ (S.take (k + 1)).flatten, v ∈ P.nbrs u) ∧
        v ∉ (S.take k).flatten := by
  simp only [Problem.inMemory, Bool.and_eq_true, Bool.or_eq_true, List.contains_iff_mem,
    List.any_eq_true, Bool.not_eq_true', ← Bool.not_eq_true]

/-- At most as much memory if less has been touched and more has been measured before. -/
theorem memAt_le_memAt {P P' : Problem} {S S' : Schedule} {k k' : Nat} (hn : P.n = P'.n)
    (hnow : ∀ v, v ∈ (S.take (k + 1)).flatten → v ∈ (S'.take (k' + 1)).flatten)
    (hnb : ∀ u v, v ∈ P.nbrs u → v ∈ P'.nbrs u)
    (hbefore : ∀ v, v ∈ (S'.take k').flatten → v ∈ (S.take k).flatten) :
    P.memAt S k ≤ P'.memAt S' k' := by
  unfold Problem.memAt
  rw [← hn]
  apply length_filter_le_of_imp
  intro v _ h
  rw [inMemory_iff] at h ⊢
  obtain ⟨h1, h2⟩ := h
  refine ⟨?_, fun h => h2 (hbefore v h)⟩
  rcases h1 with h1 | ⟨u, hu, hv⟩
  · exact Or.inl (hnow v h1)
  · exact Or.inr ⟨u, hnow u hu, hnb u v hv⟩

/-- A schedule needs at most as much memory if each of its steps needs at most as much as some step. -/
theorem peak_le_peak {P P' : Problem} {S S' : Schedule}
    (h : ∀ k, k < S.length → ∃ k', k' < S'.length ∧ P.memAt S k ≤ P'.memAt S' k') :
    P.peak S ≤ P'.peak S' := by
  refine foldr_max_le fun x hx => ?_
  obtain ⟨k, hk, rfl⟩ := List.mem_map.1 hx
  obtain ⟨k', h1, h2⟩ := h k (List.mem_range.1 hk)
  exact Nat.le_trans h2 (le_foldr_max (List.mem_map.2 ⟨k', List.mem_range.2 h1, rfl⟩))

/-! ## Splitting steps -/

theorem take_split {A B : Schedule} {s1 s2 : List Nat} (k : Nat) :
    ((A ++ s1 :: s2 :: B).take (A.length + 2 + k)) = A ++ s1 :: s2 :: B.take k := by
  rw [List.take_append, List.take_of_length_le (by omega)]
  have : A.length + 2 + k - A.length = k + 2 := by omega
  rw [this]
  simp

theorem take_whole {A B : Schedule} {s : List Nat} (k : Nat) :
    ((A ++ s :: B).take (A.length + 1 + k)) = A ++ s :: B.take k := by
  rw [List.take_append, List.take_of_length_le (by omega)]
  have : A.length + 1 + k - A.length = k + 1 := by omega
  rw [this]
  simp

/-- Splitting a step into two consecutive steps needs at most as much memory. -/
theorem peak_split {P : Problem} {A B : Schedule} {s s1 s2 : List Nat} (hs : s.Perm (s1 ++ s2)) :
    P.peak (A ++ s1 :: s2 :: B) ≤ P.peak (A ++ s :: B) := by
  apply peak_le_peak
  intro k hk
  have hm : ∀ v, v ∈ s ↔ v ∈ s1 ∨ v ∈ s2 := fun v => by rw [hs.mem_iff, List.mem_append]
  have tA : ∀ (X : Schedule) j, j ≤ A.length → (A ++ X).take j = A.take j := by
    intro X j hj
    rw [List.take_append, Nat.sub_eq_zero_of_le hj]
    simp
  have t1 : (A ++ s1 :: s2 :: B).take (A.length + 1) = A ++ [s1] := by
    rw [List.take_append, List.take_of_length_le (by omega)]
    have : A.length + 1 - A.length = 1 := by omega
    rw [this]
    simp
  have t2 := take_whole (A := A) (B := B) (s := s) 0
  rw [Nat.add_zero] at t2
  rcases Nat.lt_or_ge k A.length with h | h
  · refine ⟨k, by simp; omega, memAt_le_memAt rfl ?_ (fun _ _ h => h) ?_⟩
    · rw [tA _ _ (by omega), tA _ _ (by omega)]; exact fun v h => h
    · rw [tA _ _ (by omega), tA _ _ (by omega)]; exact fun v h => h
  · rcases Nat.eq_or_lt_of_le h with h | h
    · subst h
      refine ⟨A.length, by simp, memAt_le_memAt rfl ?_ (fun _ _ h => h) ?_⟩
      · rw [t1, t2]
        intro v hv
        simp only [List.flatten_append, List.mem_append, List.flatten_cons, List.flatten_nil,
          List.append_nil, List.take_zero, hm] at hv ⊢
        rcases hv with hv | hv
        · exact Or.inl hv
        · exact Or.inr (Or.inl hv)
      · rw [tA _ _ (by omega), tA _ _ (by omega)]; exact fun v h => h
    · rcases Nat.eq_or_lt_of_le h with h | h
      · subst h
        refine ⟨A.length, by simp, memAt_le_memAt rfl ?_ (fun _ _ h => h) ?_⟩
        · have e := take_split (A := A) (B := B) (s1 := s1) (s2 := s2) 0
          rw [show A.length.succ + 1 = A.length + 2 + 0 by omega, e, t2]
          intro v hv
          simp only [List.flatten_append, List.mem_append, List.flatten_cons, List.flatten_nil,
            List.append_nil, List.take_zero, hm] at hv ⊢
          exact hv
        · rw [show A.length.succ = A.length + 1 by omega, t1, tA _ _ (by omega), List.take_of_length_le (by omega)]
          intro v hv
          simp only [List.flatten_append, List.mem_append]
          exact Or.inl hv
      · obtain ⟨j, rfl⟩ : ∃ j, k = A.length + 2 + j := ⟨k - (A.length + 2), by omega⟩
        refine ⟨A.length + 1 + j, by simp at hk ⊢; omega, memAt_le_memAt rfl ?_ (fun _ _ h => h) ?_⟩
        · rw [show A.length + 2 + j + 1 = A.length + 2 + (j + 1) by omega,
            show A.length + 1 + j + 1 = A.length + 1 + (j + 1) by omega, take_split, take_whole]
          intro v hv
          simp only [List.flatten_append, List.mem_append, List.flatten_cons, hm] at hv ⊢
          rcases hv with hv | hv | hv | hv
          · exact Or.inl hv
          · exact Or.inr (Or.inl (Or.inl hv))
          · exact Or.inr (Or.inl (Or.inr hv))
          · exact Or.inr (Or.inr hv)
        · rw [take_split, take_whole]
          intro v hv
          simp only [List.flatten_append, List.mem_append, List.flatten_cons, hm] at hv ⊢
          rcases hv with hv | (hv | hv) | hv
          · exact Or.inl hv
          · exact Or.inr (Or.inl hv)
          · exact Or.inr (Or.inr (Or.inl hv))
          · exact Or.inr (Or.inr (Or.inr hv))

/-- Validity in terms of prefixes: the dependencies of a step are in the steps before it. -/
theorem valid_iff {P : Problem} {S : Schedule} : P.Valid S ↔
    (∀ s ∈ S, s ≠ []) ∧ S.flatten.Perm P.bits ∧
      ∀ A s B, S = A ++ s :: B → ∀ b ∈ s, ∀ d, P.Needs b d → d ∈ A.flatten := by
  constructor
  · intro h
    refine ⟨h.nonempty, h.perm, ?_⟩
    rintro A s B rfl b hb d hd
    obtain ⟨j, s', hj, hs', hd'⟩ := h.deps A.length s (by simp) b hb d hd
    rw [List.getElem?_append_left hj] at hs'
    exact List.mem_flatten.2 ⟨s', List.mem_of_getElem? hs', hd'⟩
  · rintro ⟨h1, h2, h3⟩
    refine ⟨h1, h2, ?_⟩
    intro i s hs b hb d hd
    have hi := (List.getElem?_eq_some_iff.1 hs).1
    have he : S = S.take i ++ s :: S.drop (i + 1) := by
      have := List.getElem?_eq_some_iff.1 hs
      obtain ⟨hi, hs⟩ := this
      rw [← hs, ← List.drop_eq_getElem_cons hi, List.take_append_drop]
    have := h3 _ _ _ he b hb d hd
    obtain ⟨s', hs', hd'⟩ := List.mem_flatten.1 this
    obtain ⟨j, hj, rfl⟩ := List.getElem_of_mem hs'
    simp only [List.length_take] at hj
    exact ⟨j, (S.take i)[j], by omega, by simp, hd'⟩

theorem Valid.split {P : Problem} {A B : Schedule} {s s1 s2 : List Nat}
    (h : P.Valid (A ++ s :: B)) (hs : s.Perm (s1 ++ s2)) (h1 : s1 ≠ []) (h2 : s2 ≠ []) :
    P.Valid (A ++ s1 :: s2 :: B) := by
  obtain ⟨v1, v2, v3⟩ := valid_iff.1 h
  refine ⟨?_, ?_, ?_⟩
  · intro x hx
    simp only [List.mem_append, List.mem_cons] at hx
    rcases hx with hx | rfl | rfl | hx
    · exact v1 x (by simp [hx])
    · exact h1
    · exact h2
    · exact v1 x (by simp [hx])
  · refine List.Perm.trans ?_ v2
    simp only [List.flatten_append, List.flatten_cons]
    refine List.Perm.append_left _ ?_
    rw [← List.append_assoc]
    exact (hs.symm).append_right _
  · intro i x hx b hb d hd
    have hdeps := h.deps
    have hm : ∀ v, v ∈ s ↔ v ∈ s1 ∨ v ∈ s2 := fun v => by rw [hs.mem_iff, List.mem_append]
    rcases Nat.lt_or_ge i A.length with hi | hi
    · rw [List.getElem?_append_left hi] at hx
      obtain ⟨j, s', hj, hs', hd'⟩ := hdeps i x (by rw [List.getElem?_append_left hi]; exact hx) b hb d hd
      refine ⟨j, s', hj, ?_, hd'⟩
      rw [List.getElem?_append_left (by omega)] at hs' ⊢
      exact hs'
    · rw [List.getElem?_append_right hi] at hx
      obtain ⟨k, hk⟩ : ∃ k, i - A.length = k := ⟨_, rfl⟩
      rw [hk] at hx
      have atS : b ∈ s → ∃ (j : Nat) (s' : List Nat), j < A.length ∧ (A ++ s1 :: s2 :: B)[j]? = some s' ∧ d ∈ s' := by
        intro hbs
        obtain ⟨j, s', hj, hs', hd'⟩ := hdeps A.length s (by simp) b hbs d hd
        refine ⟨j, s', hj, ?_, hd'⟩
        rw [List.getElem?_append_left hj] at hs' ⊢
        exact hs'
      match k, hx, hk with
      | 0, hx, hk =>
        simp only [List.getElem?_cons_zero, Option.some.injEq] at hx
        subst hx
        obtain ⟨j, s', hj, r⟩ := atS ((hm b).2 (Or.inl hb))
        exact ⟨j, s', by omega, r⟩
      | 1, hx, hk =>
        simp only [List.getElem?_cons_succ, List.getElem?_cons_zero, Option.some.injEq] at hx
        subst hx
        obtain ⟨j, s', hj, r⟩ := atS ((hm b).2 (Or.inr hb))
        exact ⟨j, s', by omega, r⟩
      | k + 2, hx, hk =>
        simp only [List.getElem?_cons_succ] at hx
        obtain ⟨j, s', hj, hs', hd'⟩ := hdeps (A.length + 1 + k) x (by
          rw [List.getElem?_append_right (by omega),
            show A.length + 1 + k - A.length = k + 1 by omega]
          simpa using hx) b hb d hd
        rcases Nat.lt_or_ge j A.length with h3 | h3
        · refine ⟨j, s', by omega, ?_, hd'⟩
          rw [List.getElem?_append_left h3] at hs' ⊢
          exact hs'
        · rw [List.getElem?_append_right h3] at hs'
          rcases Nat.eq_or_lt_of_le h3 with h4 | h4
          · rw [← h4, Nat.sub_self] at hs'
            simp only [List.getElem?_cons_zero, Option.some.injEq] at hs'
            subst hs'
            rcases (hm d).1 hd' with h5 | h5
            · exact ⟨A.length, s1, by omega, by simp, h5⟩
            · exact ⟨A.length + 1, s2, by omega, by simp, h5⟩
          · refine ⟨j + 1, s', by omega, ?_, hd'⟩
            rw [List.getElem?_append_right (by omega)]
            obtain ⟨q, hq⟩ : ∃ q, j - A.length = q + 1 := ⟨j - A.length - 1, by omega⟩
            rw [hq, List.getElem?_cons_succ] at hs'
            rw [show j + 1 - A.length = q + 2 by omega]
            simpa using hs'

theorem length_flatten_ge {S : Schedule} (h : ∀ s ∈ S, s ≠ []) : S.length ≤ S.flatten.length := by
  induction S with
  | nil => simp
  | cons s S ih =>
    have := ih fun x hx => h x (List.mem_cons_of_mem _ hx)
    have := List.length_pos_iff.2 (h s List.mem_cons_self)
    simp only [List.flatten_cons, List.length_append, List.length_cons]; omega

/-- Every valid schedule can be serialised without needing more memory. -/
theorem exists_serial {P : Problem} (k : Nat) : ∀ S, P.Valid S → S.flatten.length - S.length ≤ k →
    ∃ S', P.Valid S' ∧ (∀ s ∈ S', s.length = 1) ∧ P.peak S' ≤ P.peak S := by
  induction k with
  | zero =>
    intro S hS hk
    refine ⟨S, hS, ?_, Nat.le_refl _⟩
    have : ∀ T : Schedule, (∀ s ∈ T, s ≠ []) → T.flatten.length ≤ T.length → ∀ s ∈ T, s.length = 1 := by
      intro T
      induction T with
      | nil => intro _ _ s hs; simp at hs
      | cons t T ih =>
        intro hne hlen s hs
        have h1 := List.length_pos_iff.2 (hne t List.mem_cons_self)
        have h2 := length_flatten_ge fun x hx => hne x (List.mem_cons_of_mem t hx)
        simp only [List.flatten_cons, List.length_append, List.length_cons] at hlen
        rcases List.mem_cons.1 hs with rfl | hs
        · omega
        · exact ih (fun x hx => hne x (List.mem_cons_of_mem _ hx)) (by omega) s hs
    exact this S hS.nonempty (by omega)
  | succ k ih =>
    intro S hS hk
    by_cases hall : ∀ s ∈ S, s.length = 1
    · exact ⟨S, hS, hall, Nat.le_refl _⟩
    · obtain ⟨s, hs, hlen⟩ : ∃ s ∈ S, s.length ≠ 1 := by
        by_contra hcon
        exact hall fun s hs => by
          by_contra h
          exact hcon ⟨s, hs, h⟩
      have hne := hS.nonempty s hs
      obtain ⟨A, B, rfl⟩ := List.append_of_mem hs
      match s, hlen, hne with
      | [], _, hne => exact (hne rfl).elim
      | [_], hlen, _ => simp at hlen
      | b :: c :: r, _, _ =>
        have hp : (b :: c :: r).Perm ([b] ++ (c :: r)) := List.Perm.refl _
        obtain ⟨S', h1, h2, h3⟩ := ih _ (Valid.split hS hp (by simp) (by simp)) (by
          simp only [List.length_append, List.length_cons, List.flatten_append, List.flatten_cons,
            List.length_nil] at hk ⊢
          omega)
        exact ⟨S', h1, h2, Nat.le_trans h3 (peak_split hp)⟩

/-! ## Comparing problems -/

/-- `P'` has the same qubits as `P` and at least its edges and dependencies. -/
structure Extension (P P' : Problem) : Prop where
  n : P.n = P'.n
  bits : P.bits.Perm P'.bits
  nbrs : ∀ u v, v ∈ P.nbrs u → v ∈ P'.nbrs u
  needs : ∀ b d, P.Needs b d → P'.Needs b d

theorem Extension.valid {P P' : Problem} (h : Extension P P') {S : Schedule} (hS : P'.Valid S) :
    P.Valid S :=
  ⟨hS.nonempty, hS.perm.trans h.bits.symm, fun i s hs b hb d hd => hS.deps i s hs b hb d (h.needs b d hd)⟩

theorem Extension.peak {P P' : Problem} (h : Extension P P') (S : Schedule) :
    P.peak S ≤ P'.peak S :=
  peak_le_peak fun k hk => ⟨k, hk, memAt_le_memAt h.n (fun _ h => h) h.nbrs (fun _ h => h)⟩

/-- `P'` is `P` with every node `v` called `f v`, up to the order and repetition of list entries. -/
structure Renaming (f : Nat → Nat) (P P' : Problem) : Prop where
  n : P.n = P'.n
  lt : ∀ v, v < P.n → f v < P.n
  inj : ∀ u v, u < P.n → v < P.n → f u = f v → u = v
  bits : P'.bits.Perm (P.bits.map f)
  nbrs : ∀ u v, u < P.n → v < P.n → (v ∈ P.nbrs u ↔ f v ∈ P'.nbrs (f u))
  needs : ∀ b d, b < P.n → d < P.n → (P.Needs b d ↔ P'.Needs (f b) (f d))

theorem map_range_perm {n : Nat} {f : Nat → Nat} (lt : ∀ v, v < n → f v < n)
    (inj : ∀ u v, u < n → v < n → f u = f v → u = v) : ((List.range n).map f).Perm (List.range n) := by
  have hnd : ((List.range n).map f).Nodup := by
    refine List.Nodup.map_on ?_ List.nodup_range
    intro x hx y hy
    exact inj x y (List.mem_range.1 hx) (List.mem_range.1 hy)
  have hsub : ((List.range n).map f).Subperm (List.range n) := by
    refine List.subperm_of_subset hnd ?_
    intro x hx
    obtain ⟨v, hv, rfl⟩ := List.mem_map.1 hx
    exact List.mem_range.2 (lt v (List.mem_range.1 hv))
  exact hsub.perm_of_length_le (by simp)

/-- The inverse renaming. -/
theorem Renaming.symm {f : Nat → Nat} {P P' : Problem} (hP : P.WF) (h : Renaming f P P') :
    ∃ g, Renaming g P' P := by
  have hperm := map_range_perm h.lt h.inj
  have hex : ∀ w, w < P.n → ∃ v, v < P.n ∧ f v = w := by
    intro w hw
    have : w ∈ (List.range P.n).map f := hperm.mem_iff.2 (List.mem_range.2 hw)
    obtain ⟨v, hv, rfl⟩ := List.mem_map.1 this
    exact ⟨v, List.mem_range.1 hv, rfl⟩
  obtain ⟨g, spec⟩ : ∃ g : Nat → Nat, ∀ w, w < P.n → g w < P.n ∧ f (g w) = w := by
    refine ⟨fun w => if hw : w < P.n then (hex w hw).choose else w, fun w hw => ?_⟩
    simp only [dif_pos hw]
    exact (hex w hw).choose_spec
  have left : ∀ v, v < P.n → g (f v) = v := fun v hv =>
    h.inj _ _ (spec (f v) (h.lt v hv)).1 hv (spec (f v) (h.lt v hv)).2
  refine ⟨g, h.n.symm, ?_, ?_, ?_, ?_, ?_⟩
  · intro v hv; rw [← h.n] at hv ⊢; exact (spec v hv).1
  · intro u v hu hv e
    rw [← h.n] at hu hv
    rw [← (spec u hu).2, ← (spec v hv).2, e]
  · have := h.bits.map g
    rw [List.map_map] at this
    refine (List.Perm.trans this (List.Perm.of_eq ?_)).symm
    refine (List.map_congr_left (g := id) fun v hv => ?_).trans (List.map_id _)
    exact left v (hP.bits_lt v hv)
  · intro u v hu hv
    rw [← h.n] at hu hv
    rw [h.nbrs (g u) (g v) (spec u hu).1 (spec v hv).1, (spec u hu).2, (spec v hv).2]
  · intro b d hb hd
    rw [← h.n] at hb hd
    rw [h.needs (g b) (g d) (spec b hb).1 (spec d hd).1, (spec b hb).2, (spec d hd).2]

theorem mem_flatten_map {f : Nat → Nat} {S : Schedule} {w : Nat} :
    w ∈ (S.map (List.map f)).flatten ↔ ∃ v ∈ S.flatten, f v = w := by
  rw [← List.map_flatten, List.mem_map]

theorem needs_lt {P : Problem} (hP : P.WF) {b d : Nat} (h : P.Needs b d) : b < P.n ∧ d < P.n := by
  obtain ⟨ds, he, hd⟩ := h
  refine ⟨hP.bits_lt b (List.mem_map.2 ⟨_, he, rfl⟩), hP.bits_lt d ?_⟩
  obtain ⟨layer, hl, hel⟩ := List.mem_flatten.1 he
  obtain ⟨i, hi, rfl⟩ := List.getElem_of_mem hl
  obtain ⟨_, _, h3⟩ := hP.layers i _ (List.getElem?_eq_getElem hi) _ hel
  obtain ⟨j, _, layer', hl', e', he', rfl⟩ := h3 d hd
  exact List.mem_map.2 ⟨e', List.mem_flatten.2 ⟨layer', List.mem_of_getElem? hl', he'⟩, rfl⟩

theorem Renaming.valid {f : Nat → Nat} {P P' : Problem} (hP : P.WF) (hP' : P'.WF)
    (h : Renaming f P P') {S : Schedule} (hS : P.Valid S) : P'.Valid (S.map (List.map f)) := by
  refine ⟨?_, ?_, ?_⟩
  · intro s hs
    obtain ⟨t, ht, rfl⟩ := List.mem_map.1 hs
    simpa using hS.nonempty t ht
  · rw [← List.map_flatten]
    exact (hS.perm.map f).trans h.bits.symm
  · intro i s hs b hb d hd
    rw [List.getElem?_map, Option.map_eq_some_iff] at hs
    obtain ⟨t, ht, rfl⟩ := hs
    obtain ⟨v, hv, rfl⟩ := List.mem_map.1 hb
    have hvn : v < P.n := hP.bits_lt v (hS.perm.mem_iff.1 (List.mem_flatten.2 ⟨t, List.mem_of_getElem? ht, hv⟩))
    have hdn : d < P.n := h.n ▸ (needs_lt hP' hd).2
    have : d ∈ (List.range P.n).map f := (map_range_perm h.lt h.inj).mem_iff.2 (List.mem_range.2 hdn)
    obtain ⟨w, hw, rfl⟩ := List.mem_map.1 this
    obtain ⟨j, s', hj, hs', hd'⟩ := hS.deps i t ht v hv w ((h.needs v w hvn (List.mem_range.1 hw)).2 hd)
    exact ⟨j, s'.map f, hj, by rw [List.getElem?_map, hs']; rfl, List.mem_map.2 ⟨w, hd', rfl⟩⟩

theorem Renaming.memAt {f : Nat → Nat} {P P' : Problem} (h : Renaming f P P') {S : Schedule}
    (hS : ∀ v ∈ S.flatten, v < P.n) (k : Nat) : P'.memAt (S.map (List.map f)) k = P.memAt S k := by
  have hperm := map_range_perm h.lt h.inj
  unfold Problem.memAt
  rw [← h.n, ← (hperm.filter _).length_eq, List.filter_map, List.length_map]
  congr 1
  apply List.filter_congr
  intro v hv
  have hv := List.mem_range.1 hv
  have sub : ∀ j u, u ∈ (S.take j).flatten → u < P.n := by
    intro j u hu
    obtain ⟨s, hs, hus⟩ := List.mem_flatten.1 hu
    exact hS u (List.mem_flatten.2 ⟨s, List.mem_of_mem_take hs, hus⟩)
  have mem : ∀ j, f v ∈ ((S.map (List.map f)).take j).flatten ↔ v ∈ (S.take j).flatten := by
    intro j
    rw [← List.map_take, mem_flatten_map]
    constructor
    · rintro ⟨u, hu, e⟩
      rwa [← h.inj u v (sub j u hu) hv e]
    · intro hv'; exact ⟨v, hv', rfl⟩
  rw [Bool.eq_iff_iff]
  change P'.inMemory _ k (f v) = true ↔ _
  rw [inMemory_iff, inMemory_iff, mem, mem]
  refine and_congr (or_congr Iff.rfl ?_) Iff.rfl
  rw [← List.map_take]
  constructor
  · rintro ⟨u', hu', hn⟩
    obtain ⟨u, hu, rfl⟩ := mem_flatten_map.1 hu'
    exact ⟨u, hu, (h.nbrs u v (sub _ u hu) hv).2 hn⟩
  · rintro ⟨u, hu, hn⟩
    exact ⟨f u, mem_flatten_map.2 ⟨u, hu, rfl⟩, (h.nbrs u v (sub _ u hu) hv).1 hn⟩

theorem Renaming.achievable {f : Nat → Nat} {P P' : Problem} (hP : P.WF) (hP' : P'.WF)
    (h : Renaming f P P') {t m : Nat} (ha : Achievable P t m) : Achievable P' t m := by
  obtain ⟨S, h1, rfl, rfl⟩ := ha
  refine ⟨S.map (List.map f), h.valid hP hP' h1, by simp, ?_⟩
  have hlt : ∀ v ∈ S.flatten, v < P.n := fun v hv => hP.bits_lt v (h1.perm.mem_iff.1 hv)
  unfold Problem.peak
  rw [List.length_map]
  congr 1
  apply List.map_congr_left
  intro k _
  exact h.memAt hlt k

/-- Two lists sorted strictly by the first component with the same elements are equal. -/
theorem eq_of_strict {l l' : List (Nat × Nat)} (h : l.Pairwise fun a b => a.1 < b.1)
    (h' : l'.Pairwise fun a b => a.1 < b.1) (hm : ∀ x, x ∈ l ↔ x ∈ l') : l = l' := by
  have nd : ∀ {l : List (Nat × Nat)}, (l.Pairwise fun a b => a.1 < b.1) → l.Nodup := fun h =>
    h.imp fun hab e => by subst e; exact Nat.lt_irrefl _ hab
  have hp : l.Perm l' := (List.perm_ext_iff_of_nodup (nd h) (nd h')).2 hm
  refine hp.eq_of_pairwise ?_ h h'
  intro a b _ _ h1 h2
  omega

end Verif
