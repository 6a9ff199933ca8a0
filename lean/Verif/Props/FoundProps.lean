import Verif.Proofs.Greedy
import Verif.Proofs.Late
import Verif.Props.AcceptProps
import Verif.Props.TimeoutProps
import Verif.Props.QuietProps
/-!
# A multi-threaded search does not come back empty-handed (C70)
-/

namespace Verif

open Spec Search Search.Threaded Example

section
variable {F σ : Type} [FloatOps F] {P : Problem}

/-- **C70** A multi-threaded search, with a timeout or without, returns at least one path if there is a schedule
with at most 1001 steps (always so if there are at most 1001 qubits), or if the time is never over. The search is exhaustive, or the accept function answers with at least 1 as long
as no path is known (`Asked P []`: a question at a point of the search with nothing recorded). -/
theorem C70_finds (hP : P.WF) (hb : P.bits ≠ []) {env : Env F σ} (he : env.OK) {args : Args F}
    (hs : args.doSearch = true) (hn : 2 ≤ args.nthreads)
    (ht : (∃ S, P.Valid S ∧ S.length ≤ 1001) ∨ args.timeout = none ∨ ∀ m ∈ env.moves, m.2 = false)
    (hp : ∀ accept seed, args.probabilistic = some (accept, seed) →
      ∀ p m q, Asked P [] p m q → FloatOps.geOne (q.ask accept) = true)
    {out : List Path} (h : run env P.graph P.order args = .ok (some out)) : out ≠ [] := by
  have hq : (∃ S, P.Valid S ∧ S.length ≤ updateInterval + 1) ∨
      ∀ m ∈ env.moves.map (fun m => (m.1, args.timeout.isSome && m.2)), m.2 = false := by
    rcases ht with h | h | h
    · exact Or.inl h
    · right
      intro m hm
      obtain ⟨m', _, rfl⟩ := List.mem_map.1 hm
      simp [h]
    · right
      intro m hm
      obtain ⟨m', hm', rfl⟩ := List.mem_map.1 hm
      simp [h m' hm']
  rw [run, hs, Bool.not_true, if_neg (by simp), Verif.search.eq_def, if_neg (by omega)] at h
  cases hpr : args.probabilistic with
  | none =>
    rw [hpr] at h
    exact searchThreaded_found (mode := .det) trivial hP hb _ _ hq he h
  | some a =>
    obtain ⟨accept, seed⟩ := a
    rw [hpr] at h
    exact searchThreaded_found (mode := .prob accept env.gen) (hp accept seed hpr) hP hb _ _ hq he h

/-- **C70** On the other hand, if every schedule has more than 1001 steps and the time is over from the beginning on,
a multi-threaded search returns nothing, with an accept function or without. -/
theorem C70_late (hP : P.WF) (hT : ∀ S, P.Valid S → 1002 ≤ S.length) {env : Env F σ} (he : env.OK) {args : Args F}
    (hs : args.doSearch = true) (hn : 2 ≤ args.nthreads) (ht : args.timeout.isSome = true)
    (hm : ∀ m ∈ env.moves, m.2 = true) {out : List Path} (h : run env P.graph P.order args = .ok (some out)) :
    out = [] := by
  have hq : ∀ m ∈ env.moves.map (fun m => (m.1, args.timeout.isSome && m.2)), m.2 = true := by
    intro m hm'
    obtain ⟨m', h', rfl⟩ := List.mem_map.1 hm'
    simp [ht, hm m' h']
  rw [run, hs, Bool.not_true, if_neg (by simp), Verif.search.eq_def, if_neg (by omega)] at h
  split at h
  · exact searchThreaded_late _ hP hT _ _ hq he h
  · exact searchThreaded_late _ hP hT _ _ hq he h

end

/-- **C70** The built-in accept function (at most 2⁵³ nodes, any floating point arithmetic with the laws of
Proofs/Float.lean): whatever the random numbers, the interleaving and the timeout are, a multi-threaded search with
it returns at least one path if there is a schedule with at most 1001 steps. -/
theorem C70_builtin {F σ : Type} [FloatArith F] {val : F → ℝ → Prop} (L : FloatLaws F val) {P : Problem} (hP : P.WF)
    (hN : P.n ≤ 2 ^ 53) (hb : P.bits ≠ []) (ht : ∃ S, P.Valid S ∧ S.length ≤ 1001) {env : Env F σ} (he : env.OK) {args : Args F}
    {seed : Option Nat} (hs : args.doSearch = true) (hn : 2 ≤ args.nthreads)
    (hp : args.probabilistic = some (AcceptFunc.builtinHeavyside.getAcceptFunc, seed))
    {out : List Path} (h : run env P.graph P.order args = .ok (some out)) : out ≠ [] := by
  refine C70_finds hP hb he hs hn (Or.inl ht) ?_ h
  intro accept seed' ha p m q hq
  rw [hp] at ha
  simp only [Option.some.injEq, Prod.mk.injEq] at ha
  rw [← ha.1]
  exact bold_builtin L hP hN p m q hq

/-! ## Examples -/

/-- The chain of `n` qubits is well formed. -/
theorem row_wf' {n : Nat} (hn : n < 2 ^ 64 - 1) : (row n).WF := by
  have hlen : (row n).n = n := by simp [row, Problem.n]
  have hbits : (row n).bits = List.range n := by
    have : ∀ l : List Nat, (l.map fun i => [(i, if i = 0 then ([] : List Nat) else [i - 1])]).flatten.map (·.1) = l := by
      intro l
      induction l with
      | nil => rfl
      | cons a l ih => simp [ih]
    exact this _
  refine ⟨?_, ?_, ?_, ?_, by rw [hlen]; exact hn⟩
  · rw [hbits]; exact List.nodup_range
  · intro b hb
    rw [hbits] at hb
    rw [hlen]
    exact List.mem_range.1 hb
  · intro l hl v hv
    rw [hlen]
    simp only [row, List.mem_map, List.mem_range] at hl
    obtain ⟨i, hi, rfl⟩ := hl
    rcases List.mem_append.1 hv with hv | hv
    · split at hv <;> simp at hv; omega
    · split at hv <;> simp at hv; omega
  · intro i layer hi e he
    simp only [row, List.getElem?_map] at hi
    by_cases hin : i < n
    · rw [List.getElem?_range hin] at hi
      simp only [Option.map_some, Option.some.injEq] at hi
      subst hi
      simp only [List.mem_singleton] at he
      subst he
      by_cases h0 : i = 0
      · subst h0; simp
      · simp only [h0, if_false, List.cons_ne_nil, List.nodup_singleton, true_and,
          List.mem_singleton, forall_eq]
        refine ⟨i - 1, by omega, [(i - 1, if i - 1 = 0 then [] else [i - 1 - 1])], ?_, _, List.mem_singleton.2 rfl, rfl⟩
        simp only [row, List.getElem?_map]
        rw [List.getElem?_range (by omega)]
        rfl
    · rw [List.getElem?_eq_none (by simp; omega)] at hi
      simp at hi

theorem row_bits (n : Nat) : (row n).bits = List.range n := by
  have : ∀ l : List Nat, (l.map fun i => [(i, if i = 0 then ([] : List Nat) else [i - 1])]).flatten.map (·.1) = l := by
    intro l
    induction l with
    | nil => rfl
    | cons a l ih => simp [ih]
  exact this _

/-- Every schedule of the chain has at least `n` steps. -/
theorem row_steps {n : Nat} {S : Schedule} (h : (row n).Valid S) : n ≤ S.length := by
  have key : ∀ i, i < n → ∃ j s, i ≤ j ∧ S[j]? = some s ∧ i ∈ s := by
    intro i
    induction i with
    | zero =>
      intro hi
      have hm : 0 ∈ S.flatten := h.perm.mem_iff.2 (by rw [row_bits]; exact List.mem_range.2 hi)
      obtain ⟨s, hs, h0⟩ := List.mem_flatten.1 hm
      obtain ⟨j, hj⟩ := List.getElem?_of_mem hs
      exact ⟨j, s, by omega, hj, h0⟩
    | succ i ih =>
      intro hi
      obtain ⟨j0, s0, h1, h2, h3⟩ := ih (by omega)
      have hm : i + 1 ∈ S.flatten := h.perm.mem_iff.2 (by rw [row_bits]; exact List.mem_range.2 hi)
      obtain ⟨s, hs, h4⟩ := List.mem_flatten.1 hm
      obtain ⟨j, hj⟩ := List.getElem?_of_mem hs
      obtain ⟨j', s', k1, k2, k3⟩ := h.deps j s hj (i + 1) h4 i
        ⟨[i], by
          simp only [Problem.entries, row, List.mem_flatten, List.mem_map, List.mem_range]
          exact ⟨_, ⟨i + 1, hi, rfl⟩, by simp⟩, by simp⟩
      have hnd : S.flatten.Nodup := h.perm.nodup_iff.2 (by rw [row_bits]; exact List.nodup_range)
      have : j0 = j' := by
        by_contra hne
        rw [List.nodup_flatten] at hnd
        have hd := List.pairwise_iff_getElem.1 hnd.2
        obtain ⟨l1, e1⟩ := List.getElem?_eq_some_iff.1 h2
        obtain ⟨l2, e2⟩ := List.getElem?_eq_some_iff.1 k2
        rcases Nat.lt_or_gt_of_ne hne with hlt | hlt
        · exact hd j0 j' l1 l2 hlt (e1 ▸ h3) (e2 ▸ k3)
        · exact hd j' j0 l2 l1 hlt (e2 ▸ k3) (e1 ▸ h3)
      exact ⟨j, s, by omega, hj, h4⟩
  cases n with
  | zero => omega
  | succ n =>
    obtain ⟨j, s, h1, h2, _⟩ := key n (by omega)
    have := (List.getElem?_eq_some_iff.1 h2).1
    omega

theorem count_roundRobin {k i : Nat} (h : i < k) (r : Nat) : ((roundRobin k r).map (·.1)).count i = r := by
  have : (roundRobin k r).map (·.1) = (List.range r).flatMap fun _ => List.range k := by
    simp [roundRobin, List.map_flatMap, Function.comp_def]
  rw [this, List.count_flatMap]
  have h1 : List.count i (List.range k) = 1 :=
    List.count_eq_one_of_mem List.nodup_range (List.mem_range.2 h)
  simp [Function.comp_def, h1]

theorem count_moves (k r : Nat) {i : Nat} (h : i < k) :
    (((roundRobin k r).map fun m => (m.1, true)).map (·.1)).count i = r := by
  have : ((roundRobin k r).map fun m => (m.1, true)).map (·.1) = (roundRobin k r).map (·.1) := by
    rw [List.map_map]; rfl
  rw [this, count_roundRobin h]

theorem count_inOrder {k i : Nat} (h : i < k) (r : Nat) :
    (((inOrder k r).map fun m => (m.1, true)).map (·.1)).count i = r := by
  have : ((inOrder k r).map fun m => (m.1, true)).map (·.1) = (List.range k).flatMap fun i => List.replicate r i := by
    simp [inOrder, List.map_flatMap]
  rw [this, List.count_flatMap]
  have h1 : (List.range k).map (List.count i ∘ fun i => List.replicate r i) =
      (List.range k).map fun j => if j = i then r else 0 := by
    apply List.map_congr_left
    intro j _
    simp [List.count_replicate]
  rw [h1]
  clear h1 this
  induction k with
  | zero => omega
  | succ k ih =>
    rw [List.range_succ, List.map_append, List.sum_append]
    rcases Nat.lt_succ_iff_lt_or_eq.1 h with h2 | h2
    · rw [ih h2]
      simp; omega
    · subst h2
      have : ((List.range i).map fun j => if j = i then r else 0).sum = 0 := by
        apply List.sum_eq_zero
        intro x hx
        obtain ⟨j, hj, rfl⟩ := List.mem_map.1 hx
        rw [if_neg (by have := List.mem_range.1 hj; omega)]
      rw [this]; simp

theorem tooLate_count (N : Nat) {k r : Nat} : ∀ i, i < k → r ≤ ((tooLate N (inOrder k r)).moves.map (·.1)).count i :=
  fun _ hi => Nat.le_of_eq (count_inOrder hi r).symm

theorem tooLate_sorted (N k r : Nat) : ((tooLate N (inOrder k r)).moves.map (·.1)).Pairwise (· ≤ ·) := by
  have : (tooLate N (inOrder k r)).moves.map (·.1) = (inOrder k r).map (·.1) := by
    simp only [tooLate, demo, List.map_map]; rfl
  rw [this]
  exact inOrder_sorted k r

/-- There is a completed run on the chain of 1002 qubits with time over from the beginning on. -/
theorem late_run : ∃ (N : Nat) (out : List Path), run (tooLate N (inOrder (2 ^ 1002 + 1) N)) (row 1002).graph
    (row 1002).order { doSearch := true, timeout := some 1, nthreads := 2 } = .ok (some out) := by
  obtain ⟨N, hN⟩ := C12_terminates 1002
  obtain ⟨out, h⟩ := hN (row 1002) (tooLate N (inOrder (2 ^ 1002 + 1) N))
    { doSearch := true, timeout := some 1, nthreads := 2 } (row_wf' (by omega)) (by rw [row_bits]; simp)
    (tooLate_ok _ _) (Nat.le_refl _) (tooLate_count _)
  exact ⟨N, out, h⟩

/-- **C70** So the number of qubits matters: a multi-threaded exhaustive search of 1002 qubits can return nothing. -/
theorem C70_size_refuted : ¬ ∀ (P : Problem) (env : Env Bool Unit) (args : Args Bool) (out : List Path), P.WF →
    P.bits ≠ [] → env.OK → args.doSearch = true → 2 ≤ args.nthreads → args.probabilistic = none →
    possible env P.graph P.order args = .ok true →
    run env P.graph P.order args = .ok (some out) → out ≠ [] := by
  intro h
  obtain ⟨N, out, hr⟩ := late_run
  have hp := possible_of_run (a := []) (List.nil_append _).symm (fun _ h => nomatch h) (tooLate_sorted _ _ _) hr
  refine h _ _ _ out (row_wf' (n := 1002) (by omega)) (by rw [row_bits]; simp) (tooLate_ok _ _) rfl (Nat.le_refl _) rfl hp hr ?_
  refine C70_late (row_wf' (n := 1002) (by omega)) (fun S hS => row_steps hS) (tooLate_ok _ _) rfl (Nat.le_refl _) rfl ?_ hr
  intro m hm
  simp only [tooLate, demo, List.mem_map] at hm
  obtain ⟨_, _, rfl⟩ := hm
  rfl

-- the time is over from the beginning on, with and without an accept function that is bold
example : star.WF ∧ star.bits ≠ [] ∧ (tooLate 0 (roundRobin 16 60)).OK ∧ (∃ S, star.Valid S ∧ S.length ≤ 1001) ∧
    (∀ p m q, Asked star [] p m q → FloatOps.geOne (q.ask (fun _ _ _ _ _ _ _ => true)) = true) ∧
    (run (tooLate 0 (roundRobin 16 60)) star.graph star.order { doSearch := true, timeout := some 1, nthreads := 2 }).map
      (Option.map fun o => o.map fun p => (p.time, p.space)) = .ok (some [(1, 4), (2, 3), (3, 2)]) ∧
    (run (tooLate 0 (roundRobin 16 60)) star.graph star.order
      { doSearch := true, timeout := some 1, nthreads := 2, probabilistic := some (fun _ _ _ _ _ _ _ => true, none) }).map
      (Option.map fun o => o.map fun p => (p.time, p.space)) = .ok (some [(1, 4), (2, 3), (3, 2)]) :=
  ⟨star_wf, by decide, tooLate_ok _ _, (getTimeOptimal_spec star_wf).imp fun S h => ⟨h.2.1, Nat.le_trans (h.2.1.length_le star_wf) (by decide)⟩, fun _ _ _ _ => rfl, by decide +kernel, by decide +kernel⟩

-- an accept function that answers 0 at the beginning: nothing is found
example : run (demo 0 (roundRobin 16 60)) (row 12).graph (row 12).order
    { doSearch := true, nthreads := 2, probabilistic := some (fun _ _ _ _ _ _ _ => false, none) } = .ok (some []) := by
  decide +kernel

-- the built-in function with the model of `f64`: there is a run
example : ∃ (N : Nat) (out : List Path), run (F := F64) (σ := Unit)
    ⟨.release, id, fun _ => true, fun _ => (), ⟨fun s => (.fin (1 / 2), s)⟩, fun s => (0, s),
      (roundRobin (2 ^ 4 + 1) N).map fun m => (m.1, true), N⟩ star.graph star.order
    { doSearch := true, timeout := some 1, nthreads := 30,
      probabilistic := some (AcceptFunc.builtinHeavyside.getAcceptFunc, some 7) } = .ok (some out) := by
  obtain ⟨N, hN⟩ := C12_terminates 4
  obtain ⟨out, h⟩ := hN star (F := F64) (σ := Unit)
    ⟨.release, id, fun _ => true, fun _ => (), ⟨fun s => (.fin (1 / 2), s)⟩, fun s => (0, s),
      (roundRobin (2 ^ 4 + 1) N).map fun m => (m.1, true), N⟩
    { doSearch := true, timeout := some 1, nthreads := 30,
      probabilistic := some (AcceptFunc.builtinHeavyside.getAcceptFunc, some 7) } star_wf (by decide)
    (fun m => .refl m) (Nat.le_refl _) (fun i hi => Nat.le_of_eq (count_moves _ _ hi).symm)
  exact ⟨N, out, h⟩

end Verif
