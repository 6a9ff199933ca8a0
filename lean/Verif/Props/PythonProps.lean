import Verif.Model.Python
import Verif.Props.Run
/-!
# C36: the Python package
-/

namespace Verif.Python

open Spec Search Example

/-! ## The classes -/

/-- **C36** A `Paths` object gives back the list it was built from, as often as it is asked for, until
it is taken; afterwards it is empty. -/
theorem C36_paths (ps : List PyPath) (k : Nat) (cs : List Method) :
    (calls Method.paths (newPaths ps) (List.replicate k .into)).2 = List.replicate k ps ∧
    (calls Method.paths (newPaths ps) (List.replicate k .into ++ .take :: cs)).2 =
      List.replicate (k + 1) ps ++ List.replicate cs.length [] := by
  have ht : transformation (newPaths ps) = ps := by
    simp [transformation, newPaths, Function.comp_def]
  have hempty : ∀ cs : List Method, (calls Method.paths [] cs).2 = List.replicate cs.length [] := by
    intro cs
    induction cs with
    | nil => rfl
    | cons c cs ih =>
      cases c <;> simp [calls, Method.paths, transformation, ih, List.replicate_succ]
  constructor
  · induction k with
    | zero => rfl
    | succ k ih =>
      simp only [List.replicate_succ, calls, Method.paths, ht]
      rw [ih]
  · induction k with
    | zero => simp [calls, Method.paths, ht, hempty]
    | succ k ih =>
      simp only [List.replicate_succ, List.cons_append, calls, Method.paths, ht]
      rw [ih]
      simp [List.replicate_succ]

/-- **C36** The same for a `SpacialGraph`. -/
theorem C36_graph (g : List (List Nat)) (k : Nat) (cs : List Method) :
    (calls Method.graph g (List.replicate k .into)).2 = List.replicate k g ∧
    (calls Method.graph g (List.replicate k .into ++ .take :: cs)).2 =
      List.replicate (k + 1) g ++ List.replicate cs.length [] := by
  have hempty : ∀ cs : List Method, (calls Method.graph [] cs).2 = List.replicate cs.length [] := by
    intro cs
    induction cs with
    | nil => rfl
    | cons c cs ih => cases c <;> simp [calls, Method.graph, ih, List.replicate_succ]
  constructor
  · induction k with
    | zero => rfl
    | succ k ih =>
      simp only [List.replicate_succ, calls, Method.graph]
      rw [ih]
  · induction k with
    | zero => simp [calls, Method.graph, hempty]
    | succ k ih =>
      simp only [List.replicate_succ, List.cons_append, calls, Method.graph]
      rw [ih]
      simp [List.replicate_succ]

/-- A Python integer is the number `n` of the given size. -/
def IsNat (bits : Nat) (x : Int) (n : Nat) : Prop := x = n ∧ n < 2 ^ bits

theorem extractInt_iff (bits : Nat) (x : Int) (n : Nat) :
    extractInt bits x = .ok n ↔ IsNat bits x n := by
  unfold extractInt IsNat
  have hcast : ((2 ^ bits : Nat) : Int) = 2 ^ bits := by push_cast; rfl
  split
  · rename_i h
    obtain ⟨h1, h2⟩ := h
    simp only [Except.ok.injEq]
    constructor
    · rintro rfl
      refine ⟨(Int.toNat_of_nonneg h1).symm, ?_⟩
      rw [← hcast] at h2
      omega
    · rintro ⟨rfl, _⟩
      rfl
  · rename_i h
    constructor
    · intro h; cases h
    · rintro ⟨rfl, h2⟩
      exact absurd ⟨by omega, by rw [← hcast]; omega⟩ h

theorem extractList_iff {α β : Type} (f : α → Except PyErr β) (xs : List α) (ys : List β) :
    extractList f xs = .ok ys ↔ List.Forall₂ (fun x y => f x = .ok y) xs ys := by
  induction xs generalizing ys with
  | nil =>
    simp only [extractList, Except.ok.injEq, List.forall₂_nil_left_iff]
    exact eq_comm
  | cons x xs ih =>
    simp only [extractList]
    cases hx : f x with
    | error e =>
      constructor
      · intro h; cases h
      · intro h
        cases h with
        | cons h1 _ => rw [hx] at h1; cases h1
    | ok y =>
      cases hxs : extractList f xs with
      | error e =>
        constructor
        · intro h; cases h
        · intro h
          cases h with
          | cons _ h2 => rw [(ih _).2 h2] at hxs; cases hxs
      | ok zs =>
        simp only [Except.ok.injEq]
        constructor
        · rintro rfl
          exact .cons hx ((ih _).1 hxs)
        · intro h
          cases h with
          | cons h1 h2 =>
            rw [hx] at h1
            rw [(ih _).2 h2] at hxs
            cases h1
            cases hxs
            rfl

/-- **C36** A list of lists of integers is accepted exactly if all of them are in the range, and then the
object holds these numbers. -/
theorem C36_new_graph (x : List (List Int)) (g : List (List Nat)) :
    newSpacialGraph x = .ok g ↔ List.Forall₂ (List.Forall₂ (IsNat 64)) x g := by
  unfold newSpacialGraph
  rw [extractList_iff]
  have e : (fun (x : List Int) (y : List Nat) => extractList (extractInt 64) x = .ok y) =
      List.Forall₂ (IsNat 64) := by
    funext a b
    rw [extractList_iff]
    have : (fun (x : Int) (y : Nat) => extractInt 64 x = .ok y) = IsNat 64 := by
      funext a b
      exact propext (extractInt_iff 64 a b)
    rw [this]
  rw [e]

/-- **C36** A new `Path` has the fields that are given. -/
theorem C36_new_path (t s : Int) (x : List (List Int)) (p : PyPath) :
    newPath t s x = .ok p ↔ IsNat 64 t p.time ∧ IsNat 64 s p.space ∧
      List.Forall₂ (List.Forall₂ (IsNat 64)) x p.steps := by
  rw [← extractInt_iff, ← extractInt_iff, ← C36_new_graph]
  unfold newPath newSpacialGraph
  cases extractInt 64 t with
  | error e => simp
  | ok t =>
    cases extractInt 64 s with
    | error e => simp
    | ok s =>
      cases extractList (extractList (extractInt 64)) x with
      | error e => simp
      | ok x =>
        obtain ⟨_, _, _⟩ := p
        simp

/-! ## Accept functions -/

/-- **C36** The constructor accepts three kinds, two of them with the argument that belongs to them; the
other argument is ignored. -/
theorem C36_accept_func {F : Type} (kind : Option String) (hp : Option (HeavysideParameters F))
    (cf : Option (Accept F)) (f : AcceptFuncBase F) :
    newAcceptFunc kind hp cf = .ok f ↔
      ((kind = none ∨ kind = some "BuiltinHeavyside") ∧ f = .builtinHeavyside) ∨
      (kind = some "ParametrizedHeavyside" ∧ ∃ p, hp = some p ∧ f = .parametrizedHeavyside p) ∨
      (kind = some "Custom" ∧ ∃ c, cf = some c ∧ f = .custom c) := by
  unfold newAcceptFunc
  cases kind with
  | none => simp [eq_comm]
  | some k =>
    simp only [Option.getD_some, Option.some.injEq, reduceCtorEq, false_or]
    split
    · simp [eq_comm]
    · cases hp <;> simp [eq_comm]
    · cases cf <;> simp [eq_comm]
    · rename_i h1 h2 h3
      simp only [reduceCtorEq, false_iff, not_or, not_and]
      exact ⟨fun h => absurd h h1, fun h => absurd h h2, fun h => absurd h h3⟩

/-- Numbers of type `i32`. -/
def IsI32 (x : Int) : Prop := -2147483648 ≤ x ∧ x ≤ 2147483647

/-- **C36** The parameters are refused exactly if an exponent is not an `i32`. Otherwise the accept function
made of them is the documented one: `n ^ a * exp (- n ^ b * r ^ c / d ^ e / (n - r) ^ f)`, or zero if the
difference `d` is below the cutoff, for the arguments in the order in which they are given. -/
theorem C36_parameters {F : Type} [FloatArith F] (cutoff : F) (a b c e f : Int) :
    ((∃ p, newHeavysideParameters cutoff a b c e f = .ok p) ↔
      IsI32 a ∧ IsI32 b ∧ IsI32 c ∧ IsI32 e ∧ IsI32 f) ∧
    ∀ p, newHeavysideParameters cutoff a b c e f = .ok p → ∀ cf : Option (Accept F), ∃ g,
      newAcceptFunc (some "ParametrizedHeavyside") (some p) cf = .ok g ∧
      ∀ bound minimal lastMax lastCur cur r n,
        let d := FloatArith.sub minimal (FloatArith.fmax cur lastMax)
        g.toReal.getAcceptFunc bound minimal lastMax lastCur cur r n =
          if FloatOps.lt d cutoff then FloatArith.zero
          else FloatArith.mul (FloatArith.powi n a) (FloatArith.exp (FloatArith.neg (FloatArith.div
            (FloatArith.div (FloatArith.mul (FloatArith.powi n b) (FloatArith.powi r c))
              (FloatArith.powi d e)) (FloatArith.powi (FloatArith.sub n r) f)))) := by
  have key : ∀ x : Int, (decide (-2 ^ 31 ≤ x) && decide (x < 2 ^ 31)) = true ↔ IsI32 x := by
    intro x
    unfold IsI32
    rw [Bool.and_eq_true, decide_eq_true_eq, decide_eq_true_eq]
    omega
  unfold newHeavysideParameters
  constructor
  · constructor
    · rintro ⟨p, h⟩
      simp only at h
      split at h
      · next h' =>
        simp only [Bool.and_eq_true (a := _ && _), key] at h'
        exact ⟨h'.1.1.1.1, h'.1.1.1.2, h'.1.1.2, h'.1.2, h'.2⟩
      · cases h
    · rintro ⟨h1, h2, h3, h4, h5⟩
      refine ⟨_, if_pos ?_⟩
      simp only [Bool.and_eq_true (a := _ && _), key]
      exact ⟨⟨⟨⟨h1, h2⟩, h3⟩, h4⟩, h5⟩
  · intro p h cf
    simp only at h
    split at h
    · simp only [Except.ok.injEq] at h
      subst h
      exact ⟨_, rfl, fun _ _ _ _ _ _ _ => rfl⟩
    · cases h

example : ∃ p, newHeavysideParameters (0 : Nat) 2 1 1 3 1 = .ok p := ⟨_, rfl⟩

example : newHeavysideParameters (0 : Nat) 2147483648 1 1 3 1 = .error .overflow := rfl

/-- **C36** The names in the documentation of the constructor are refused: the second of the "possible
values" (probabilistic.rs:105), the one named for the parameters (line 108) and the default value in the
signature (line 110). -/
theorem C36_doc_refuted {F : Type} (hp : Option (HeavysideParameters F)) (cf : Option (Accept F)) :
    newAcceptFunc (some "ParamBuiltinHeavyside") hp cf = .error .value ∧
    newAcceptFunc (some "ParametrizedBasic") hp cf = .error .value ∧
    newAcceptFunc (some "BuiltinLinearSpace") hp cf = .error .value := ⟨rfl, rfl, rfl⟩

/-! ## `run` -/

/-- The values of the optional arguments. -/
structure Means {F : Type} (a : RunArgs F) (c : Converted F) : Prop where
  doSearch : c.doSearch = a.doSearch.getD false
  timeout : Option.Rel (IsNat 32) (a.timeout.getD none) c.timeout
  nthreads : IsNat 16 (a.nthreads.getD 1) c.nthreads
  probabilistic : Option.Rel (fun x y => x.1 = y.1 ∧ Option.Rel (IsNat 64) x.2 y.2)
    (a.probabilistic.getD none) c.probabilistic
  taskBound : Option.Rel (IsNat 32) (a.taskBound.getD none) c.taskBound

theorem extractOpt_iff {α β : Type} (f : α → Except PyErr β) (r : α → β → Prop)
    (hr : ∀ x y, f x = .ok y ↔ r x y) (x : Option α) (y : Option β) :
    extractOpt f x = .ok y ↔ Option.Rel r x y := by
  unfold extractOpt
  cases x with
  | none =>
    cases y with
    | none => simp
    | some y => simp
  | some x =>
    cases y with
    | none =>
      cases h : f x <;> simp [h]
    | some y =>
      simp only [Option.rel_some_some, ← hr]
      cases h : f x <;> simp

theorem convert_iff {F : Type} (a : RunArgs F) (c : Converted F) : a.convert = .ok c ↔ Means a c := by
  have h1 := extractOpt_iff (extractInt 32) (IsNat 32) (extractInt_iff 32)
  have h2 := extractOpt_iff (extractInt 64) (IsNat 64) (extractInt_iff 64)
  have h3 := extractOpt_iff (extractProb (F := F))
    (fun x y => x.1 = y.1 ∧ Option.Rel (IsNat 64) x.2 y.2) (by
      intro x y
      rw [← h2]
      obtain ⟨_, _⟩ := y
      unfold extractProb
      cases extractOpt (extractInt 64) x.2 <;> simp)
  obtain ⟨_, _, _, _, _⟩ := c
  unfold RunArgs.convert
  constructor
  · intro h
    split at h
    · cases h
    · rename_i e1
      split at h
      · cases h
      · rename_i e2
        split at h
        · cases h
        · rename_i e3
          split at h
          · cases h
          · rename_i e4
            cases h
            exact ⟨rfl, (h1 _ _).1 e1, (extractInt_iff _ _ _).1 e2, (h3 _ _).1 e3, (h1 _ _).1 e4⟩
  · rintro ⟨e0, e1, e2, e3, e4⟩
    rw [(h1 _ _).2 e1]
    simp only
    rw [(extractInt_iff _ _ _).2 e2]
    simp only
    rw [(h3 _ _).2 e3]
    simp only
    rw [(h1 _ _).2 e4]
    simp only at e0 ⊢
    rw [e0]

/-- The arguments of the Rust function that correspond to those of the Python function. -/
def Converted.args {F : Type} [FloatArith F] (c : Converted F) : Args F where
  doSearch := c.doSearch
  timeout := c.timeout.map fun t => 1000 * t
  nthreads := c.nthreads
  taskBound := c.taskBound
  probabilistic := c.probabilistic.map fun x =>
    (match x.1 with
      | .builtinHeavyside => Verif.builtinHeavyside
      | .parametrizedHeavyside param => createParametrizedHeavyside param
      | .custom f => f, x.2)

/-- A Python callback. -/
def Converted.Custom {F : Type} (c : Converted F) : Prop := ∃ f s, c.probabilistic = some (.custom f, s)

section

variable {F σ : Type} [FloatArith F] (env : Env F σ) (strict : Bool) (g : List (List Nat))
  (t : TimeOrder) {a : RunArgs F}

/-- **C36** A callback and more than one thread: a `ValueError`, and no search. -/
theorem C36_callback_threads {c : Converted F} (h : Means a c) (hc : c.Custom) (hn : 1 < c.nthreads) :
    pyRun env strict g t a = ⟨false, .error .value⟩ := by
  obtain ⟨f, s, hf⟩ := hc
  unfold pyRun
  rw [(convert_iff a c).2 h]
  simp [hf, isCustom, hn]

/-- **C36** In all other cases the call is the call of the Rust function: on the ordering itself without
a warning, or on what `into_py_graph` returns, after a warning. -/
theorem C36_run {c : Converted F} (h : Means a c) (hc : ¬ (c.Custom ∧ 1 < c.nthreads)) :
    (∀ o, pyRun env strict g (.own o) a = ⟨false, .ok (run env g o c.args)⟩) ∧
    (∀ o, pyRun env false g (.other (.ok o)) a = ⟨true, .ok (run env g o c.args)⟩) ∧
    (∀ e, pyRun env false g (.other (.error e)) a = ⟨true, .error e⟩) ∧
    (∀ m, pyRun env true g (.other m) a = ⟨true, .error .warning⟩) := by
  have hif : (isCustom c.probabilistic && decide (1 < c.nthreads)) = false := by
    rw [Bool.and_eq_false_iff]
    by_cases hn : 1 < c.nthreads
    · left
      unfold isCustom
      split
      · rename_i f s hf
        exact absurd ⟨⟨f, s, hf⟩, hn⟩ hc
      · rfl
    · right
      simp [hn]
  have hargs : ({ doSearch := c.doSearch
                  timeout := c.timeout.map fun t => 1000 * t
                  nthreads := c.nthreads
                  taskBound := c.taskBound
                  probabilistic := c.probabilistic.map fun x => (x.1.toReal.getAcceptFunc, x.2) } :
      Args F) = c.args := by
    unfold Converted.args
    congr 1
    cases c.probabilistic with
    | none => rfl
    | some x =>
      obtain ⟨f, s⟩ := x
      cases f <;> rfl
  unfold pyRun
  rw [(convert_iff a c).2 h]
  simp only [hif, Bool.false_eq_true, if_false, hargs, if_true]
  exact ⟨fun _ => trivial, fun _ => trivial, fun _ => trivial, fun _ => trivial⟩

/-- **C36** If an argument is out of range the call raises, and there is no search. -/
theorem C36_range (h : ∀ c, ¬ Means a c) : ∃ e, pyRun env strict g t a = ⟨false, .error e⟩ := by
  unfold pyRun
  cases hc : a.convert with
  | error e => exact ⟨e, rfl⟩
  | ok c => exact absurd ((convert_iff a c).1 hc) (h c)

end

/-- The documentation says "If `nthreads` is below 3, it will not multithread" (lib.rs:174-175). It does:
with two threads the result depends on how the threads are scheduled, and can differ from that of the
search without threads. -/
theorem C36_two_threads_refuted : ∃ (env : Env Bool Unit) (P : Problem) (r r' : List Path), P.WF ∧ env.OK ∧
    run { env with moves := [] } P.graph P.order { doSearch := true, nthreads := 1 } = .ok (some r) ∧
    possible env P.graph P.order { doSearch := true, nthreads := 2 } = .ok true ∧
    run env P.graph P.order { doSearch := true, nthreads := 2 } = .ok (some r') ∧ r ≠ r' ∧
    run { env with moves := [] } P.graph P.order { doSearch := true, nthreads := 2 } = .ok none :=
  ⟨demo 1000 (swapped 8 60), star,
    [⟨1, 4, [[1, 2, 3, 0]]⟩, ⟨2, 3, [[2, 3], [1, 0]]⟩, ⟨3, 2, [[3], [2], [1, 0]]⟩],
    [⟨1, 4, [[1, 2, 3, 0]]⟩, ⟨2, 3, [[2, 3], [1, 0]]⟩, ⟨3, 2, [[2], [3], [1, 0]]⟩],
    star_wf, demo_ok _ _, star_run, star_possible, star_run_threads, by decide, by decide +kernel⟩

/-! ## Cases -/

/-- `run(graph, order)`. -/
example : Means ({} : RunArgs Bool) ⟨false, none, 1, none, none⟩ :=
  ⟨rfl, .none, ⟨rfl, by decide⟩, .none, .none⟩

/-- `run(graph, order, do_search=True, timeout=5, nthreads=4, probabilistic=(AcceptFunc(), 7))`. -/
example : Means (⟨some true, some (some 5), some 4, some (some (.builtinHeavyside, some 7)), none⟩ :
      RunArgs Bool)
    ⟨true, some 5, 4, some (.builtinHeavyside, some 7), none⟩ :=
  ⟨rfl, .some ⟨rfl, by decide⟩, ⟨rfl, by decide⟩, .some ⟨rfl, .some ⟨rfl, by decide⟩⟩, .none⟩

/-- A negative number of threads. -/
example (c : Converted Bool) : ¬ Means ({ nthreads := some (-1) } : RunArgs Bool) c := by
  intro h
  have := h.nthreads.1
  simp at this

/-- A callback with two threads. -/
example (f : Accept Bool) : Means ({ nthreads := some 2, probabilistic := some (some (.custom f, none)) } :
      RunArgs Bool) ⟨false, none, 2, some (.custom f, none), none⟩ ∧
    (⟨false, none, 2, some (.custom f, none), none⟩ : Converted Bool).Custom :=
  ⟨⟨rfl, .none, ⟨rfl, by show 2 < 2 ^ 16; decide⟩, .some ⟨rfl, .none⟩, .none⟩, ⟨f, none, rfl⟩⟩

example : newSpacialGraph [[1], [0, 2], [1]] = .ok [[1], [0, 2], [1]] ∧
    newSpacialGraph [[1], [0, -2], [1]] = .error .overflow := by decide

end Verif.Python
