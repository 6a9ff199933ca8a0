import Verif.Proofs.Run
import Verif.Proofs.Sweep
/-!
# The deterministic search and the order of the enumeration

The search walks through the same tree as a plain sweep, in the same order; it leaves out some
subtrees. Here `passed` are the leaves that a plain sweep has reported by the time the search is where it
is, and the result table is compared with `passed`.
-/

namespace Verif

open Spec Search

/-- What a plain sweep still reports when it is at the path `p` in the state `c` with this stack. -/
inductive Todo (P : Problem) : Schedule → Scheduler Partitioner → List (Scheduler Partitioner) →
    List (Schedule × Nat) → Prop
  | base {p : Schedule} {c : Scheduler Partitioner} {r : List (Schedule × Nat)}
      (h : Below P (fun _ => false) p c r) : Todo P p c [] r
  | push {p : Schedule} {c t : Scheduler Partitioner} {rest : List (Scheduler Partitioner)}
      {r r' : List (Schedule × Nat)} (h : Below P (fun _ => false) p c r)
      (ht : Todo P p.dropLast t rest r') : Todo P p c (t :: rest) (r ++ leafOf p c ++ r')

theorem Below.next {P : Problem} {p : Schedule} {s s' c : Scheduler Partitioner} {k m : List Nat}
    {r : List (Schedule × Nat)} (h : Below P (fun _ => false) p s r)
    (hn : NextSome P p s s' c k m) : ∃ rc r', Below P (fun _ => false) (p ++ [m]) c rc ∧
      Below P (fun _ => false) p s' r' ∧ r = rc ++ leafOf (p ++ [m]) c ++ r' := by
  cases h with
  | done h =>
    have h1 := h.eq .debug
    rw [hn.eq .debug] at h1
    simp at h1
  | skip h hs hr => simp at hs
  | child h hs hc hr =>
    have h1 := h.eq .debug
    rw [hn.eq .debug] at h1
    simp only [Except.ok.injEq, Prod.mk.injEq, Option.some.injEq] at h1
    obtain ⟨rfl, rfl, rfl⟩ := h1
    exact ⟨_, _, hc, hr, rfl⟩

theorem Below.none {P : Problem} {p : Schedule} {s s' : Scheduler Partitioner}
    {r : List (Schedule × Nat)} (h : Below P (fun _ => false) p s r) (hn : NextNone s s') :
    r = [] := by
  cases h with
  | done h => rfl
  | skip h hs hr => simp at hs
  | child h hs hc hr =>
    have h1 := h.eq .debug
    rw [hn.eq .debug] at h1
    simp at h1

/-- Moving the current state forward within its own iterator. -/
theorem Todo.next {P : Problem} {p : Schedule} {s s' c : Scheduler Partitioner}
    {st : List (Scheduler Partitioner)} {k m : List Nat} {r : List (Schedule × Nat)}
    (h : Todo P p s st r) (hn : NextSome P p s s' c k m) :
    ∃ rc r', Below P (fun _ => false) (p ++ [m]) c rc ∧ Todo P p s' st r' ∧
      r = rc ++ leafOf (p ++ [m]) c ++ r' := by
  cases h with
  | base h =>
    obtain ⟨rc, r', h1, h2, h3⟩ := h.next hn
    exact ⟨rc, r', h1, .base h2, h3⟩
  | push h ht =>
    obtain ⟨rc, r', h1, h2, h3⟩ := h.next hn
    refine ⟨rc, _, h1, .push h2 ht, ?_⟩
    have : leafOf p s' = leafOf p s := by simp [leafOf, hn.set, hn.space]
    rw [h3, this]
    simp

/-- Every leaf at or below a child is a valid schedule that starts with the path of the child. -/
theorem below_child_sound {P : Problem} (hP : P.WF) {p : Schedule} {c : Scheduler Partitioner}
    {m : List Nat} {rc : List (Schedule × Nat)} (hc : StateFor P (p ++ [m]) c)
    (hb : Below P (fun _ => false) (p ++ [m]) c rc) :
    ∀ e ∈ rc ++ leafOf (p ++ [m]) c, P.Valid e.1 ∧ e.2 = P.peak e.1 ∧ Extends (p ++ [m]) e.1 := by
  intro e he
  rcases List.mem_append.1 he with he | he
  · obtain ⟨h1, h2, h3, _⟩ := hb.sound hP e he
    exact ⟨h1, h2, by unfold Extends; rw [h3]; exact StepEq.refl _⟩
  · unfold leafOf at he
    split at he
    · rename_i hset
      simp only [List.mem_singleton] at he
      subst he
      refine ⟨leaf_valid hP hc hset, leaf_max hc, ?_⟩
      unfold Extends
      rw [List.take_length]
      exact StepEq.refl _
    · simp at he

/-- The result table against the leaves that a plain sweep has reported so far: everything recorded
has been reported, and everything reported is matched by a record that was reported no later if it has the
same costs. -/
structure PInv (P : Problem) (E passed : List (Schedule × Nat)) (l : Loc) : Prop where
  split : ∃ todo, Todo P l.path l.sweep.current l.sweep.stack todo ∧ E = passed ++ todo
  found : ∀ (t m : Nat) (S : Schedule), l.results.get t = some (m, S) → (S, m) ∈ passed
  cov : ∀ (i : Nat) (e : Schedule × Nat), passed[i]? = some e →
    ∃ (t m : Nat) (R : Schedule), l.results.get t = some (m, R) ∧ t ≤ e.1.length ∧ m ≤ e.2 ∧
      (t = e.1.length → m = e.2 → (R, m) ∈ passed.take (i + 1))

theorem mem_take_append {α : Type} {a : α} {l r : List α} {i : Nat} (h : a ∈ l.take i) :
    a ∈ (l ++ r).take i := by
  rw [List.take_append]
  exact List.mem_append_left _ h

theorem IterStep.pinv {P : Problem} (hP : P.WF) {E passed : List (Schedule × Nat)} {l l' : Loc}
    {stop : Bool} (h : IterStep P True l l' stop) (hl : LInv P [] (best0 P) l)
    (hp : PInv P E passed l) :
    ∃ passed', PInv P E passed' l' ∧ (stop = true → passed' = E) ∧ passed <+: passed' := by
  obtain ⟨⟨todo, htodo, hE⟩, hf, hc⟩ := hp
  cases h with
  | stop hst hn hs hi =>
    rw [hst] at htodo
    cases htodo with
    | base hb =>
      have := hb.none hn
      subst this
      refine ⟨passed, ⟨⟨[], .base ?_, hE⟩, hf, hc⟩, fun _ => by simpa using hE.symm, List.prefix_refl _⟩
      -- an exhausted state stays exhausted
      rcases nextAndFocus_spec hP.lax hs hi with ⟨s2, h2, _, _⟩ | ⟨s2, c2, l2, m2, h2⟩
      · exact .done h2
      · have := h2.len
        rw [hn.done] at this
        simp at this
  | @backLeaf s' top rest hst hn hleaf hlen =>
    rw [hst] at htodo
    cases htodo with
    | push hb ht =>
      have := hb.none hn
      subst this
      have hlv : leafOf l.path l.sweep.current = [(l.path, l.sweep.current.space.maxMemory)] := by
        simp [leafOf, hleaf]
      rw [hlv] at hE
      refine ⟨passed ++ [(l.path, l.sweep.current.space.maxMemory)], ⟨⟨_, ht, by simpa using hE⟩, ?_, ?_⟩,
        fun h => by simp at h, List.prefix_append _ _⟩
      · intro t m S hg
        simp only [AMap.get_insert] at hg
        split at hg
        · simp only [Option.some.injEq, Prod.mk.injEq] at hg
          obtain ⟨rfl, rfl⟩ := hg
          simp
        · exact List.mem_append_left _ (hf t m S hg)
      · intro i e he
        have hlt := hl.leaf (by rw [hst]; simp) hleaf
        by_cases hi : i < passed.length
        · rw [List.getElem?_append_left hi] at he
          obtain ⟨t, m, R, h1, h2, h3, h4⟩ := hc i e he
          by_cases htl : t = l.path.length
          · have h5 := hl.b3 t m R h1
            rw [htl] at h5 h2
            refine ⟨l.path.length, l.sweep.current.space.maxMemory, l.path,
              by simp [AMap.get_insert], h2, by omega, fun _ h => by omega⟩
          · exact ⟨t, m, R, by simp [AMap.get_insert, htl, h1], h2, h3,
              fun a b => mem_take_append (h4 a b)⟩
        · have hil : i = passed.length := by
            have := (List.getElem?_eq_some_iff.1 he).1
            simp at this
            omega
          subst hil
          simp only [List.getElem?_concat_length, Option.some.injEq] at he
          subst he
          refine ⟨l.path.length, l.sweep.current.space.maxMemory, l.path, by simp [AMap.get_insert],
            Nat.le_refl _, Nat.le_refl _, fun _ _ => ?_⟩
          rw [List.take_of_length_le (by simp)]
          simp
  | @backInner s' top rest hst hn hleaf =>
    rw [hst] at htodo
    cases htodo with
    | push hb ht =>
      have := hb.none hn
      subst this
      have hlv : leafOf l.path l.sweep.current = [] := by simp [leafOf, hleaf]
      rw [hlv] at hE
      exact ⟨passed, ⟨⟨_, ht, by simpa using hE⟩, hf, hc⟩, fun h => by simp at h, List.prefix_refl _⟩
  | @skip s' c k m bound hn hb hd =>
    obtain ⟨rc, r', h1, h2, h3⟩ := htodo.next hn
    have hd := hd trivial
    have hsound := below_child_sound hP hn.child h1
    refine ⟨passed ++ (rc ++ leafOf (l.path ++ [m]) c), ⟨⟨r', h2, ?_⟩, ?_, ?_⟩,
      fun h => by simp at h, List.prefix_append _ _⟩
    · rw [hE, h3]; simp
    · intro t m S hg
      exact List.mem_append_left _ (hf t m S hg)
    · intro i e he
      by_cases hi : i < passed.length
      · rw [List.getElem?_append_left hi] at he
        obtain ⟨t, m, R, g1, g2, g3, g4⟩ := hc i e he
        exact ⟨t, m, R, g1, g2, g3, fun a b => mem_take_append (g4 a b)⟩
      · rw [List.getElem?_append_right (by omega)] at he
        obtain ⟨v1, v2, v3⟩ := hsound e (List.mem_of_getElem? he)
        have hmin := minimumPathLength_le_of_extends hP.bits_nodup hn.child v1 v3
        have hpk := v3.peak_le (P := P)
        rw [← leaf_max hn.child] at hpk
        have hlt := (List.getElem?_eq_some_iff.1 hb).1
        have hbl := hl.ok.best
        have hmax := peak_lt_max hP (l.path ++ [m])
        rw [← leaf_max hn.child] at hmax
        have hat := at0_of_getElem? hb
        rcases hl.b2 (minimumPathLength c.time l.path) with hz | ⟨t, m', R, g1, g2, g3⟩
        · rw [at0_replicate, if_pos (by omega)] at hz
          omega
        · refine ⟨t, m', R, g2, by omega, by omega, fun _ _ => ?_⟩
          have := hf t m' R g2
          refine List.mem_take_iff_getElem.2 ?_
          obtain ⟨j, hj, hje⟩ := List.getElem_of_mem this
          refine ⟨j, ?_, ?_⟩
          · simp only [List.length_append]; omega
          · rw [List.getElem_append_left hj]; exact hje
  | @push s' c k m bound hn hb hlt =>
    obtain ⟨rc, r', h1, h2, h3⟩ := htodo.next hn
    refine ⟨passed, ⟨⟨_, .push h1 (by simpa using h2), ?_⟩, hf, hc⟩, fun h => by simp at h, List.prefix_refl _⟩
    rw [hE, h3]

/-- The same for the loop. -/
theorem searchLoop_first {P : Problem} (hP : P.WF) {E : List (Schedule × Nat)} (timer : Nat → Bool) :
    ∀ (fuel k : Nat) (l l' : Loc) (passed : List (Schedule × Nat)) (prof : Profile),
    LInv P [] (best0 P) l → PInv P E passed l →
    searchLoop prof timer fuel k l = .ok (some l') →
    LInv P [] (best0 P) l' ∧
      ∃ passed', PInv P E passed' l' ∧ ((∀ j, timer j = false) → passed' = E) := by
  intro fuel
  induction fuel with
  | zero => intro k l l' passed prof _ _ h; simp [searchLoop, pure, Except.pure] at h
  | succ fuel ih =>
    intro k l l' passed prof hl hp h
    obtain ⟨l1, stop, e1, e2⟩ := searchIter_spec hP.lax hl.ok
    have hinv := (e2.inv hl).1
    obtain ⟨q, hq, hqs, _⟩ := e2.pinv hP hl hp
    simp only [searchLoop, e1 prof, bind, Except.bind] at h
    cases hstop : stop with
    | true =>
      simp only [hstop, ↓reduceIte, pure, Except.pure, Except.ok.injEq, Option.some.injEq] at h
      subst h
      exact ⟨hinv, q, hq, fun _ => hqs hstop⟩
    | false =>
      cases ht : timer k with
      | true =>
        simp [hstop, ht, pure, Except.pure] at h
        subst h
        exact ⟨hinv, q, hq, fun hj => by rw [hj k] at ht; simp at ht⟩
      | false =>
        simp [hstop, ht] at h
        exact ih (k + 1) l1 l' q prof hinv hq h

/-- What is left after the filter is the curve of what a plain sweep has reported. -/
theorem Post.onCurve {P : Problem} (hP : P.WF) {E passed : List (Schedule × Nat)} {l : Loc}
    {out : List Path} (hl : LInv P [] (best0 P) l) (hp : PInv P E passed l)
    (ho : Post l.results P.n out) (hE : ∀ e ∈ passed, P.Valid e.1 ∧ e.2 = P.peak e.1) (p : Path) :
    p ∈ out ↔ OnCurve passed p.time p.space p.steps := by
  obtain ⟨_, hf, hc⟩ := hp
  rw [ho.mem]
  constructor
  · rintro ⟨_, hg, _, hlow⟩
    have hmem := hf _ _ _ hg
    have hlen := (hl.sound _ _ _ hg).2.1
    have hle : ∀ e ∈ passed, e.1.length ≤ p.time → p.space ≤ e.2 ∧
        (e.1.length < p.time → p.space < e.2) := by
      intro e he hel
      obtain ⟨i, hi, rfl⟩ := List.getElem_of_mem he
      obtain ⟨t, m, R, g1, g2, g3, _⟩ := hc i passed[i] (by simp [hi])
      rcases Nat.lt_or_ge t p.time with ht | ht
      · have := hlow t ht _ g1
        simp only at this
        exact ⟨by omega, fun _ => by omega⟩
      · have : t = p.time := by omega
        subst this
        rw [hg] at g1
        simp only [Option.some.injEq, Prod.mk.injEq] at g1
        exact ⟨by omega, fun _ => by omega⟩
    obtain ⟨pre, post, hsplit, hnot⟩ := List.eq_append_cons_of_mem hmem
    refine ⟨pre, post, hsplit, hlen, fun e he h => (hle e he h).1,
      fun e he h => (hle e he (by omega)).2 h, ?_⟩
    intro e he hel
    obtain ⟨j, hj, rfl⟩ := List.getElem_of_mem he
    have hj' : passed[j]? = some pre[j] := by
      rw [hsplit, List.getElem?_append_left hj]; simp [hj]
    have h1 := (hle pre[j] (List.mem_of_getElem? hj') (by omega)).1
    apply Classical.byContradiction
    intro hn
    obtain ⟨t, m, R, g1, g2, g3, g4⟩ := hc j pre[j] hj'
    rcases Nat.lt_or_ge t p.time with ht | ht
    · have := hlow t ht _ g1
      simp only at this
      omega
    · have htp : t = p.time := by omega
      subst htp
      rw [hg] at g1
      simp only [Option.some.injEq, Prod.mk.injEq] at g1
      obtain ⟨rfl, rfl⟩ := g1
      have h5 := g4 (by omega) (by omega)
      rw [hsplit, List.take_append_of_le_length (by omega)] at h5
      exact hnot (List.mem_of_mem_take h5)
  · rintro ⟨pre, post, hsplit, hlen, h1, h2, h3⟩
    have hmem : (p.steps, p.space) ∈ passed := by rw [hsplit]; simp
    obtain ⟨hv, hpk⟩ := hE _ hmem
    simp only at hv hpk
    have hi : passed[pre.length]? = some (p.steps, p.space) := by
      rw [hsplit, List.getElem?_append_right (Nat.le_refl _)]; simp
    obtain ⟨t, m, R, g1, g2, g3, g4⟩ := hc _ _ hi
    simp only at g2 g3 g4
    have hR := hf t m R g1
    have hRl := (hl.sound _ _ _ g1).2.1
    have htp : t = p.time := by
      rcases Nat.lt_or_ge t p.time with ht | ht
      · have := h2 _ hR (by simp only; omega)
        simp only at this
        omega
      · omega
    subst htp
    have hmm := h1 _ hR (by simp only; omega)
    simp only at hmm
    have hm : m = p.space := by omega
    have h5 := g4 (by omega) hm
    have hRS : R = p.steps := by
      rw [hsplit, List.take_append, List.take_of_length_le (by omega)] at h5
      simp only [Nat.add_sub_cancel_left, List.take_succ_cons, List.take_zero, List.mem_append,
        List.mem_singleton, Prod.mk.injEq] at h5
      rcases h5 with h5 | h5
      · have := h3 _ h5 hRl
        simp only at this
        omega
      · exact h5.1
    subst hm hRS
    refine ⟨?_, g1, ?_, ?_⟩
    · have hpre := hv.prefix hP.bits_nodup
      have a1 := hpre.length_le
      have a2 := nodup_length_le_n hP.lax hpre.nodup hpre.sub
      omega
    · simp only; rw [hpk]; exact peak_lt_max hP _
    · intro t' ht' r' hr'
      obtain ⟨m', S'⟩ := r'
      have b1 := hf _ _ _ hr'
      have b2 := (hl.sound _ _ _ hr').2.1
      exact h2 _ b1 (by simp only; omega)

end Verif
