import Verif.Proofs.State
import Mathlib.Data.List.Forall2
/-!
# The order of bits inside a step does not matter
-/

namespace Verif

open Spec

/-- The same steps up to the order inside each step. -/
abbrev StepEq (S T : Schedule) : Prop := List.Forall₂ List.Perm S T

theorem StepEq.refl (S : Schedule) : StepEq S S := by
  induction S with
  | nil => exact .nil
  | cons s S ih => exact .cons (List.Perm.refl s) ih

theorem StepEq.symm {S T : Schedule} (h : StepEq S T) : StepEq T S := by
  induction h with
  | nil => exact .nil
  | cons h _ ih => exact .cons h.symm ih

theorem StepEq.flatten_perm {S T : Schedule} (h : StepEq S T) : S.flatten.Perm T.flatten := by
  induction h with
  | nil => simp
  | cons h _ ih => simpa using h.append ih

theorem StepEq.take {S T : Schedule} (h : StepEq S T) (k : Nat) : StepEq (S.take k) (T.take k) := by
  induction h generalizing k with
  | nil => simp
  | cons h _ ih =>
    cases k with
    | zero => simp
    | succ k => simpa using ⟨h, ih k⟩

theorem StepEq.mem_flatten {S T : Schedule} (h : StepEq S T) (v : Nat) :
    v ∈ S.flatten ↔ v ∈ T.flatten := h.flatten_perm.mem_iff

theorem touched_congr {P : Problem} {M M' : List Nat} (h : ∀ v, v ∈ M ↔ v ∈ M') (v : Nat) :
    Touched P M v ↔ Touched P M' v := by
  simp [Touched, h]

theorem memAt_congr (P : Problem) {S T : Schedule} {k : Nat}
    (h1 : ∀ v, v ∈ (S.take k).flatten ↔ v ∈ (T.take k).flatten)
    (h2 : ∀ v, v ∈ (S.take (k + 1)).flatten ↔ v ∈ (T.take (k + 1)).flatten) :
    P.memAt S k = P.memAt T k := by
  rw [memAt_eq, memAt_eq]
  apply List.countP_congr
  intro v _
  simp only [Bool.and_eq_true, decide_eq_true_eq, Bool.not_eq_true', decide_eq_false_iff_not,
    touched_congr h2 v, h1 v]

/-- The memory cost only depends on the steps as sets. -/
theorem StepEq.peak (P : Problem) {S T : Schedule} (h : StepEq S T) : P.peak S = P.peak T := by
  unfold Problem.peak
  rw [h.length_eq]
  congr 1
  apply List.map_congr_left
  intro k _
  exact memAt_congr P (h.take k).mem_flatten (h.take (k + 1)).mem_flatten

theorem StepEq.snoc {S T : Schedule} {s t : List Nat} (h : StepEq S T) (hs : s.Perm t) :
    StepEq (S ++ [s]) (T ++ [t]) := by
  induction h with
  | nil => simpa using hs
  | cons h _ ih => simpa using ⟨h, ih⟩

theorem take_succ_of_getElem? {S : Schedule} {k : Nat} {s : List Nat} (h : S[k]? = some s) :
    S.take (k + 1) = S.take k ++ [s] := by
  rw [List.take_add_one, h]; rfl

end Verif
