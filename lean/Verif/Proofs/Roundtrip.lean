import Verif.Model.Roundtrip
import Verif.Proofs.First
import Verif.Proofs.Filter
/-!
# The pieces of the project's property test
-/

namespace Verif
namespace Roundtrip

open Spec Search

/-- An entry of the enumeration as the test stores it. -/
def entry (e : Schedule × Nat) : Entry := (e.1.length, e.2, e.1)

theorem entry_inj {a b : Schedule × Nat} (h : entry a = entry b) : a = b := by
  simp only [entry, Prod.mk.injEq] at h
  exact Prod.ext h.2.2 h.2.1

theorem collectPaths_eq (prof : Profile) : ∀ (fuel : Nat) (sw : Sweep (Scheduler Partitioner)) (p : Schedule),
    collectPaths prof fuel sw p =
      (Sweep.enumerate (Scheduler.focusIter prof) (fun _ => false) fuel sw p).map (Option.map (List.map entry)) := by
  intro fuel
  induction fuel with
  | zero => intro sw p; rfl
  | succ fuel ih =>
    intro sw p
    simp only [collectPaths, Sweep.enumerate, bind, Except.bind]
    cases Sweep.next (Scheduler.focusIter prof) sw with
    | error e => rfl
    | ok x =>
      obtain ⟨sw', step⟩ := x
      cases step with
      | none => rfl
      | some st =>
        cases st with
        | forward m => simpa using ih sw' (p ++ [m])
        | backward leaf =>
          simp only [ih]
          cases Sweep.enumerate (Scheduler.focusIter prof) (fun _ => false) fuel sw' p.dropLast with
          | error e => rfl
          | ok o =>
            cases o with
            | none => rfl
            | some r => cases leaf <;> rfl

/-- The variables of the test's loop that go with the variables of the search: the table is capped. -/
def skipper (n : Nat) (l : Loc) : Skipper := ⟨l.sweep, l.path, l.best.map (min (n + 1)), l.results⟩

theorem cap_update {best : List Nat} {len mem n : Nat} (hlen : len < best.length) (hm : mem ≤ n) :
    ((best.map (min (n + 1))).set len mem).take (len + 1) ++
      ((best.map (min (n + 1))).drop (len + 1)).map (min · mem) =
    (updateBest best len mem).map (min (n + 1)) := by
  apply List.ext_getElem?
  intro j
  rcases Nat.lt_trichotomy j len with h | h | h
  · rw [List.getElem?_append_left (by simp; omega), List.getElem?_take_of_lt (by omega)]
    simp [updateBest, h, show len ≠ j by omega]
  · subst h
    rw [List.getElem?_append_left (by simp; omega), List.getElem?_take_of_lt (by omega)]
    simp [updateBest, hlen]
    omega
  · rw [List.getElem?_append_right (by simp; omega)]
    have : ((best.map (min (n + 1))).set len mem |>.take (len + 1)).length = len + 1 := by simp; omega
    rw [this]
    simp [updateBest, show ¬ j < len by omega, show j ≠ len by omega, show len + 1 + (j - (len + 1)) = j by omega]
    cases best[j]? with
    | none => rfl
    | some m => simp

theorem cap_get {best : List Nat} {i b n : Nat} (h : best[i]? = some b) :
    (best.map (min (n + 1)))[i]? = some (min (n + 1) b) := by simp [h]

/-- The test's loop follows the search. -/
theorem skipLoop_eq {P : Problem} (hP : P.WF) {p0 : Schedule} (prof : Profile) : ∀ (fuel k : Nat) (l : Loc), LocOK P p0 l →
    skipLoop prof fuel (skipper P.n l) =
      (searchLoop prof (fun _ => false) fuel k l).map (Option.map (·.results)) := by
  intro fuel
  induction fuel with
  | zero => intro k l _; rfl
  | succ fuel ih =>
    intro k l hl
    obtain ⟨l1, stop, e1, e2⟩ := searchIter_spec hP.lax hl
    have hl1 := e2.locOK hl
    have key : skipLoop prof (fuel + 1) (skipper P.n l) =
        if stop then .ok (some l1.results) else skipLoop prof fuel (skipper P.n l1) := by
      clear ih e1 hl1
      have hsp := fun {p : Schedule} {s : Scheduler Partitioner} (h : StateFor P p s) =>
        show s.space.maxMemory ≤ P.n by rw [h.space.max]; exact peak_le_n P p
      cases e2 with
      | @stop s' hst hn hs hi =>
        simp [skipLoop, skipper, Sweep.next, Scheduler.focusIter, hn.eq prof, hst, bind, Except.bind, pure, Except.pure]
      | @backLeaf s' top rest hst hn hleaf hlen =>
        have ha : s'.atLeaf = some l.sweep.current.space.maxMemory := by
          rw [hn.atLeaf, atLeaf_eq, if_pos hleaf]
        have hu := cap_update (n := P.n) hlen (hsp hl.chain.state.1)
        simp only [skipLoop, skipper, Sweep.next, Scheduler.focusIter, hn.eq prof, hst, bind, Except.bind, pure,
          Except.pure, ha, skipStep, List.length_map, hlen, ↓reduceIte, hu]
      | @backInner s' top rest hst hn hleaf =>
        have ha : s'.atLeaf = none := by
          rw [hn.atLeaf, atLeaf_eq, if_neg hleaf]
        simp only [skipLoop, skipper, Sweep.next, Scheduler.focusIter, hn.eq prof, hst, bind, Except.bind, pure,
          Except.pure, ha, skipStep]
      | @skip s' c k m bound hn hb hd =>
        have hb' := cap_get (n := P.n) hb
        have hm := hsp hn.child
        have hd := hd trivial
        have hi : idx (l.best.map (min (P.n + 1))) (if c.time.atLeaf.isSome then l.path.length + 1
            else if c.time.hasUnmeasureable then l.path.length + 3 else l.path.length + 2) =
            .ok (min (P.n + 1) bound) := idx_of_getElem? hb'
        simp only [skipLoop, skipper, Sweep.next, Scheduler.focusIter, hn.eq prof, bind, Except.bind, pure,
          Except.pure, skipStep, hi, show min (P.n + 1) bound ≤ c.space.maxMemory by omega, ↓reduceIte,
          Sweep.skipCurrent]
      | @push s' c k m bound hn hb hlt =>
        have hb' := cap_get (n := P.n) hb
        have hm := hsp hn.child
        have hi : idx (l.best.map (min (P.n + 1))) (if c.time.atLeaf.isSome then l.path.length + 1
            else if c.time.hasUnmeasureable then l.path.length + 3 else l.path.length + 2) =
            .ok (min (P.n + 1) bound) := idx_of_getElem? hb'
        simp only [skipLoop, skipper, Sweep.next, Scheduler.focusIter, hn.eq prof, bind, Except.bind, pure,
          Except.pure, skipStep, hi, show ¬ min (P.n + 1) bound ≤ c.space.maxMemory by omega, ↓reduceIte]
    rw [key]
    simp only [searchLoop, e1 prof, bind, Except.bind]
    cases stop with
    | true => rfl
    | false => simpa using ih (k + 1) l1 hl1

/-- The test's filter is the one of the search. -/
theorem finalLoop_eq {n : Nat} {paths : MappedPaths} (hp : ∀ t r, paths.get t = some r → r.1 ≤ n) :
    ∀ (is best : List Nat) (res : MappedPaths),
    finalLoop paths is (best.map (min (n + 1))) res = filterLoop paths is best res := by
  intro is
  induction is with
  | nil => intro best res; rfl
  | cons i is ih =>
    intro best res
    simp only [finalLoop, filterLoop]
    cases hg : paths.get i with
    | none => exact ih best res
    | some r =>
      have hr := hp i r hg
      simp only [bind, Except.bind]
      cases hb : best[i]? with
      | none => simp [idx, hb]
      | some b =>
        simp only [idx_of_getElem? (cap_get (n := n) hb), idx_of_getElem? hb]
        by_cases h : r.1 < b
        · have hf : ((best.map (min (n + 1))).take i ++ ((best.map (min (n + 1))).drop i).map fun _ => r.1) =
              (fillFrom best i r.1).map (min (n + 1)) := by
            have hi := (List.getElem?_eq_some_iff.1 hb).1
            apply List.ext_getElem?
            intro j
            rcases Nat.lt_or_ge j i with hj | hj
            · rw [List.getElem?_append_left (by simp; omega), List.getElem?_take_of_lt (by omega)]
              simp [fillFrom, show ¬ i ≤ j by omega]
            · rw [List.getElem?_append_right (by simp; omega)]
              have : ((best.map (min (n + 1))).take i).length = i := by simp; omega
              rw [this]
              simp [fillFrom, hj, show i + (j - i) = j by omega]
              cases best[j]? with
              | none => rfl
              | some m => simp; omega
          simp only [show r.1 < min (n + 1) b by omega, ↓reduceIte, h, hf]
          exact ih _ _
        · simp only [show ¬ r.1 < min (n + 1) b by omega, ↓reduceIte, h]
          exact ih _ _

theorem finalFilter_spec {n : Nat} (hn : n < usizeMax) {paths : MappedPaths}
    (hp : ∀ t r, paths.get t = some r → r.1 ≤ n) :
    ∃ out, finalFilter n paths = .ok out ∧ (∀ t r, out.get t = some r ↔ t ≤ n ∧ paths.get t = some r ∧
      ∀ t', t' < t → ∀ r', paths.get t' = some r' → r.1 < r'.1) ∧ (AMap.keys out).Nodup := by
  obtain ⟨out, e1, e2, e3⟩ := filterLoop_spec paths (n + 1) (n + 1) 0
    (List.replicate (n + 1) usizeMax) [] (by omega) (by simp)
    (by intro j _ h2; simp [h2, minBelow])
    (by intro t r; simp) (by simp [AMap.keys])
  rw [← List.range_eq_range'] at e1
  refine ⟨out, ?_, ?_, e3⟩
  · have := finalLoop_eq hp (List.range (n + 1)) (List.replicate (n + 1) usizeMax) []
    rw [List.map_replicate, show min (n + 1) usizeMax = n + 1 by omega] at this
    rw [finalFilter, this, e1]
  · intro t r
    rw [e2]
    constructor
    · rintro ⟨a, b, _, c⟩; exact ⟨by omega, b, c⟩
    · rintro ⟨a, b, c⟩
      have := hp _ _ b
      exact ⟨by omega, b, by omega, c⟩

theorem mapEq_of_get {a b : AMap (Nat × List (List Nat))} (ha : (AMap.keys a).Nodup) (hb : (AMap.keys b).Nodup)
    (h : ∀ t r, a.get t = some r ↔ b.get t = some r) : mapEq a b = true := by
  have hab : ∀ e, e ∈ a ↔ e ∈ b := fun e =>
    ⟨fun he => AMap.mem_of_get ((h e.1 e.2).1 (AMap.get_of_mem ha he)),
     fun he => AMap.mem_of_get ((h e.1 e.2).2 (AMap.get_of_mem hb he))⟩
  have hp : a.Perm b := (List.perm_ext_iff_of_nodup (List.Nodup.of_map _ ha) (List.Nodup.of_map _ hb)).2 hab
  simp only [mapEq, Bool.and_eq_true, beq_iff_eq, List.all_eq_true]
  exact ⟨hp.length_eq, fun e he => (h e.1 e.2).1 (AMap.get_of_mem ha he)⟩

/-- What the loop over all paths keeps for every length: the first path with the smallest memory. -/
structure Kept (E : List (Schedule × Nat)) (A : MappedPaths) : Prop where
  nodup : (AMap.keys A).Nodup
  found : ∀ t m S, A.get t = some (m, S) → ∃ pre post, E = pre ++ (S, m) :: post ∧ S.length = t ∧
    (∀ e ∈ E, e.1.length = t → m ≤ e.2) ∧ ∀ e ∈ pre, e.1.length = t → m < e.2
  all : ∀ e ∈ E, A.get e.1.length ≠ none

theorem Kept.snoc {E : List (Schedule × Nat)} {A : MappedPaths} (h : Kept E A) (x : Schedule × Nat) :
    Kept (E ++ [x]) (keepBest A (entry x)) := by
  obtain ⟨h1, h2, h3⟩ := h
  have old : ∀ t m S, A.get t = some (m, S) → (x.1.length = t → m ≤ x.2) → ∃ pre post, E ++ [x] = pre ++ (S, m) :: post ∧
      S.length = t ∧ (∀ e ∈ E ++ [x], e.1.length = t → m ≤ e.2) ∧ ∀ e ∈ pre, e.1.length = t → m < e.2 := by
    intro t m S hg hx
    obtain ⟨pre, post, a, b, c, d⟩ := h2 t m S hg
    refine ⟨pre, post ++ [x], by simp [a], b, ?_, d⟩
    intro e he hl
    rcases List.mem_append.1 he with he | he
    · exact c e he hl
    · rw [List.mem_singleton] at he
      subst he
      exact hx hl
  have new : (∀ e ∈ E, e.1.length = x.1.length → x.2 < e.2) → ∃ pre post, E ++ [x] = pre ++ (x.1, x.2) :: post ∧
      x.1.length = x.1.length ∧ (∀ e ∈ E ++ [x], e.1.length = x.1.length → x.2 ≤ e.2) ∧
      ∀ e ∈ pre, e.1.length = x.1.length → x.2 < e.2 := by
    intro hlt
    refine ⟨E, [], rfl, rfl, ?_, hlt⟩
    intro e he hl
    rcases List.mem_append.1 he with he | he
    · exact Nat.le_of_lt (hlt e he hl)
    · rw [List.mem_singleton] at he
      subst he
      exact Nat.le_refl _
  have ins : (∀ e ∈ E, e.1.length = x.1.length → x.2 < e.2) →
      Kept (E ++ [x]) (A.insert x.1.length (x.2, x.1)) := by
    intro hlt
    refine ⟨AMap.nodup_insert h1 _ _, ?_, ?_⟩
    · intro t m S hg
      rw [AMap.get_insert] at hg
      split at hg
      · rename_i ht
        simp only [Option.some.injEq, Prod.mk.injEq] at hg
        obtain ⟨rfl, rfl⟩ := hg
        subst ht
        exact new hlt
      · rename_i ht
        exact old t m S hg fun hl => absurd hl.symm ht
    · intro e he
      rw [AMap.get_insert]
      split
      · simp
      · rename_i ht
        rcases List.mem_append.1 he with he | he
        · exact h3 e he
        · rw [List.mem_singleton] at he
          subst he
          exact absurd rfl ht
  have e0 : keepBest A (entry x) = match A.get x.1.length with
    | some o => if o.1 > x.2 then A.insert x.1.length (x.2, x.1) else A
    | none => A.insert x.1.length (x.2, x.1) := rfl
  rw [e0]
  cases hg : A.get x.1.length with
  | none =>
    apply ins
    intro e he hl
    have := h3 e he
    rw [hl, hg] at this
    exact absurd rfl this
  | some o =>
    obtain ⟨m, S⟩ := o
    simp only
    obtain ⟨_, _, _, _, c, _⟩ := h2 _ _ _ hg
    by_cases hlt : m > x.2
    · rw [if_pos hlt]
      apply ins
      intro e he hl
      have := c e he hl
      omega
    · rw [if_neg hlt]
      refine ⟨h1, fun t m' S' hg' => old t m' S' hg' ?_, ?_⟩
      · rintro rfl
        rw [hg] at hg'
        simp only [Option.some.injEq, Prod.mk.injEq] at hg'
        omega
      · intro e he
        rcases List.mem_append.1 he with he | he
        · exact h3 e he
        · rw [List.mem_singleton] at he
          subst he
          rw [hg]
          simp

theorem kept_fold (E : List (Schedule × Nat)) : Kept E ((E.map entry).foldl keepBest []) := by
  induction E using List.reverseRecOn with
  | nil => exact ⟨by simp [AMap.keys], by intro t m S h; simp at h, by simp⟩
  | append_singleton E x ih =>
    rw [List.map_append, List.foldl_append]
    exact ih.snoc x

/-- The first path of a length with the smallest memory is unique. -/
theorem first_unique {E pre post pre' post' : List (Schedule × Nat)} {t m m' : Nat} {S S' : Schedule}
    (h : E = pre ++ (S, m) :: post) (h' : E = pre' ++ (S', m') :: post') (hS : S.length = t) (hS' : S'.length = t)
    (hm : ∀ e ∈ E, e.1.length = t → m ≤ e.2) (hm' : ∀ e ∈ E, e.1.length = t → m' ≤ e.2)
    (hp : ∀ e ∈ pre, e.1.length = t → m < e.2) (hp' : ∀ e ∈ pre', e.1.length = t → m' < e.2) :
    (m, S) = (m', S') := by
  have a := hm (S', m') (by rw [h']; simp) hS'
  have b := hm' (S, m) (by rw [h]; simp) hS
  simp only at a b
  rcases List.append_eq_append_iff.1 (h.symm.trans h') with ⟨c, rfl, h2⟩ | ⟨c, rfl, h2⟩
  · cases c with
    | nil => simp at h2; simp [h2.1]
    | cons y c =>
      simp only [List.cons_append, List.cons.injEq] at h2
      have := hp' (S, m) (by rw [h2.1]; simp) hS
      simp only at this
      omega
  · cases c with
    | nil => simp at h2; simp [h2.1]
    | cons y c =>
      simp only [List.cons_append, List.cons.injEq] at h2
      have := hp (S', m') (by rw [h2.1]; simp) hS'
      simp only at this
      omega

/-- After the filter, what is kept of all paths is their curve. -/
theorem Kept.onCurve {E : List (Schedule × Nat)} {A : MappedPaths} (h : Kept E A) {n : Nat}
    (hn : ∀ e ∈ E, e.1.length ≤ n) (t m : Nat) (S : Schedule) :
    (t ≤ n ∧ A.get t = some (m, S) ∧ ∀ t', t' < t → ∀ r', A.get t' = some r' → m < r'.1) ↔ OnCurve E t m S := by
  constructor
  · rintro ⟨_, hg, hlow⟩
    obtain ⟨pre, post, a, b, c, d⟩ := h.found t m S hg
    have lt : ∀ e ∈ E, e.1.length < t → m < e.2 := by
      intro e he hl
      cases hg' : A.get e.1.length with
      | none => exact absurd hg' (h.all e he)
      | some r =>
        have := hlow _ hl r hg'
        obtain ⟨m', S'⟩ := r
        obtain ⟨_, _, _, _, c', _⟩ := h.found _ _ _ hg'
        have := c' e he rfl
        simp only at *
        omega
    refine ⟨pre, post, a, b, ?_, lt, d⟩
    intro e he hl
    rcases Nat.lt_or_ge e.1.length t with h1 | h1
    · exact Nat.le_of_lt (lt e he h1)
    · exact c e he (by omega)
  · rintro ⟨pre, post, a, b, c, d, e⟩
    have hmem : (S, m) ∈ E := by rw [a]; simp
    refine ⟨b ▸ hn _ hmem, ?_, ?_⟩
    · cases hg : A.get t with
      | none => exact absurd (b ▸ hg) (h.all _ hmem)
      | some r =>
        obtain ⟨m', S'⟩ := r
        obtain ⟨pre', post', a', b', c', d'⟩ := h.found t m' S' hg
        rw [first_unique a' a b' b c' (fun e he hl => c e he (by omega)) d' e]
    · intro t' ht' r' hr'
      obtain ⟨m', S'⟩ := r'
      obtain ⟨pre', post', a', b', _, _⟩ := h.found t' m' S' hr'
      exact d (S', m') (by rw [a']; simp) (by simp only; omega)

theorem insertAll_spec : ∀ (rs set : List Entry), (set ++ rs).Nodup → insertAll rs set = .ok (set ++ rs) := by
  intro rs
  induction rs with
  | nil => intro set _; simp [insertAll, pure, Except.pure]
  | cons r rs ih =>
    intro set h
    have hr : r ∉ set := by
      intro hm
      rw [List.nodup_append'] at h
      exact h.2.2 hm (by simp)
    have := ih (set ++ [r]) (by simpa using h)
    simp [insertAll, hr, this]

theorem setEq_refl (l : List Entry) : setEq l l = true := by simp [setEq]

end Roundtrip
end Verif
