import Verif.Proofs.Widget
import Verif.Props.CurveProps
import Verif.Props.Run
/-!
# Executing a schedule as in the example of the Python package (C72)
-/

namespace Verif

open Spec Search Widget Example

section
variable {F σ : Type} [FloatOps F] {P : Problem} {env : Env F σ} {args : Args F} {out : List Path}

/-- The ordering takes the frames into account: if a frame acts on a measured qubit then this qubit has to wait, directly
or indirectly, for the measurement that decides about the frame (the contract of `get_order` in `pauli_tracker`). -/
def Induced (P : Problem) (frames : List Frame) (flags : List Nat) : Prop :=
  ∀ e ∈ frames.zip flags, ∀ b ∈ P.bits, e.1 b ≠ (false, false) → Relation.TransGen P.Needs b e.2

variable {frames : List Frame} {flags : List Nat} {init : Frame}

/-- **C72** for any valid schedule. -/
theorem execute_due (hP : P.WF) {S : Schedule} (hS : P.Valid S) (hI : Induced P frames flags) (hf : flags.Nodup)
    (hl : frames.length = flags.length) (outcome : Widget.Run → Nat → Bool) :
    (execute frames flags outcome init S).log.map (·.1) = S.flatten ∧
    (∀ b c o, (b, c, o) ∈ (execute frames flags outcome init S).log →
      c = (init b).add (due frames flags (ones (execute frames flags outcome init S).log) b)) ∧
    ∀ b, (execute frames flags outcome init S).corr b =
      (init b).add (due frames flags (ones (execute frames flags outcome init S).log) b) := by
  have hnd : S.flatten.Nodup := hS.perm.nodup_iff.2 hP.bits_nodup
  rw [execute_eq]
  obtain ⟨log, h1, h2⟩ := log_foldl (frames := frames) (flags := flags) (outcome := outcome) S.flatten ⟨init, []⟩
  have h3 : (S.flatten.foldl (measure frames flags outcome) ⟨init, []⟩).log.map (·.1) = S.flatten := by
    rw [h1]; simpa using h2
  refine ⟨h3, ?_, corr_foldl hf hl init S.flatten ⟨init, []⟩ (by simpa using hnd) ?_⟩
  · intro b c o hbc
    obtain ⟨pre, post, hpp⟩ := List.append_of_mem hbc
    rw [(entry_foldl hf hl init hnd rfl hpp).1]
    congr 1
    have hb : b ∈ P.bits := hS.perm.mem_iff.1 (by rw [← h3, hpp]; simp)
    refine due_congr fun e he => ?_
    by_cases h0 : e.1 b = (false, false)
    · exact Or.inl h0
    · right
      have h4 := needs_all_before hP.bits_nodup hS (hI e he b hb h0) (pre := pre.map (·.1)) (post := post.map (·.1))
        (by rw [← h3, hpp]; simp)
      rw [hpp, ones_append]
      have h5 : ones ((b, c, o) :: post) e.2 = false := by
        by_contra h5
        have h6 := ones_mem (by simpa using h5)
        rw [← h3, hpp, List.map_append] at hnd
        exact (List.nodup_append.1 hnd).2.2 _ h4 _ h6 rfl
      rw [h5, Bool.or_false]
  · intro b
    have : ∀ fs : List (Frame × Nat),
        fs.foldr (fun e acc => if ones [] e.2 then (e.1 b).add acc else acc) (false, false) = (false, false) := by
      intro fs
      induction fs with
      | nil => rfl
      | cons e fs ih => rw [List.foldr_cons, ih]; rfl
    rw [due, this, Pauli.add_zero]

/-- **C72** If the ordering takes the frames into account, then executing a returned path measures every qubit exactly once,
and with all corrections that are due: those that the measurements before it induce, and none is induced later. What is on
the other qubits in the end are the corrections due there. This holds for all outcomes of the measurements. -/
theorem C72_corrections (hP : P.WF) (he : env.OK) (h : run env P.graph P.order args = .ok (some out)) {p : Path}
    (hp : p ∈ out) (hI : Induced P frames flags) (hf : flags.Nodup) (hl : frames.length = flags.length)
    (outcome : Widget.Run → Nat → Bool) :
    ((execute frames flags outcome init p.steps).log.map (·.1)).Perm P.bits ∧
    (∀ b c o, (b, c, o) ∈ (execute frames flags outcome init p.steps).log →
      c = (init b).add (due frames flags (ones (execute frames flags outcome init p.steps).log) b)) ∧
    ∀ b, (execute frames flags outcome init p.steps).corr b =
      (init b).add (due frames flags (ones (execute frames flags outcome init p.steps).log) b) := by
  have hv := ((run_sound hP he h).valid p hp).1
  obtain ⟨h1, h2, h3⟩ := execute_due (init := init) hP hv hI hf hl outcome
  exact ⟨h1 ▸ hv.perm, h2, h3⟩

/-- The order inside the steps does not matter for validity. -/
theorem StepEq.valid {S T : Schedule} (h : StepEq S T) (hT : P.Valid T) : P.Valid S := by
  have hget : ∀ {S T : Schedule}, StepEq S T → ∀ {i : Nat} {s : List Nat}, S[i]? = some s →
      ∃ t, T[i]? = some t ∧ s.Perm t := by
    intro S T h
    induction h with
    | nil => intro i s hs; simp at hs
    | cons h1 _ ih =>
      intro i s hs
      cases i with
      | zero => exact ⟨_, rfl, by simp only [List.getElem?_cons_zero, Option.some.injEq] at hs; exact hs ▸ h1⟩
      | succ i => exact ih (by simpa using hs)
  refine ⟨?_, (StepEq.flatten_perm h).trans hT.perm, ?_⟩
  · intro s hs
    obtain ⟨i, hi, his⟩ := List.getElem_of_mem hs
    obtain ⟨t, ht, hst⟩ := hget h (i := i) (s := s) (by rw [List.getElem?_eq_getElem hi, his])
    intro h0
    subst h0
    exact hT.nonempty t (List.mem_of_getElem? ht) hst.nil_eq.symm
  · intro i s hs b hb d hd
    obtain ⟨t, ht, hst⟩ := hget h hs
    obtain ⟨j, t', hj, ht', hd'⟩ := hT.deps i t ht b (hst.mem_iff.1 hb) d hd
    obtain ⟨s', hs', hst'⟩ := hget (StepEq.symm h) ht'
    exact ⟨j, s', hj, hs', hst'.mem_iff.1 hd'⟩

/-- The entry of a qubit in the log does not depend on the schedule. -/
theorem entry_same (hP : P.WF) {S S' : Schedule} (hS : P.Valid S) (hS' : P.Valid S') (hI : Induced P frames flags)
    (hf : flags.Nodup) (hl : frames.length = flags.length) (answer : Nat → Pauli → Bool) :
    ∀ (n : Nat) (pre post : List (Nat × Pauli × Bool)) (e : Nat × Pauli × Bool), pre.length = n →
      (execute frames flags (fun r b => answer b (r.corr b)) init S).log = pre ++ e :: post →
      e ∈ (execute frames flags (fun r b => answer b (r.corr b)) init S').log := by
  have hnd : S.flatten.Nodup := hS.perm.nodup_iff.2 hP.bits_nodup
  have hnd' : S'.flatten.Nodup := hS'.perm.nodup_iff.2 hP.bits_nodup
  obtain ⟨a1, _, _⟩ := execute_due (init := init) hP hS hI hf hl (fun r b => answer b (r.corr b))
  obtain ⟨b1, _, _⟩ := execute_due (init := init) hP hS' hI hf hl (fun r b => answer b (r.corr b))
  rw [execute_eq] at a1 b1
  simp only [execute_eq]
  generalize hL : (S.flatten.foldl (measure frames flags fun r b => answer b (r.corr b)) ⟨init, []⟩).log = L at *
  generalize hL' : (S'.flatten.foldl (measure frames flags fun r b => answer b (r.corr b)) ⟨init, []⟩).log = L' at *
  intro n
  induction n using Nat.strongRecOn with
  | _ n ih =>
    intro pre post e hn hpp
    obtain ⟨b, c, o⟩ := e
    have hb : b ∈ P.bits := hS.perm.mem_iff.1 (by rw [← a1, hpp]; simp)
    have hb' : b ∈ L'.map (·.1) := by rw [b1]; exact hS'.perm.mem_iff.2 hb
    obtain ⟨⟨b', c', o'⟩, hm, hbb⟩ := List.mem_map.1 hb'
    simp only at hbb
    subst hbb
    obtain ⟨pre', post', hpp'⟩ := List.append_of_mem hm
    obtain ⟨h1, r, r1, _, r3⟩ := entry_foldl hf hl init hnd hL.symm hpp
    obtain ⟨h2, r', r1', _, r3'⟩ := entry_foldl hf hl init hnd' hL'.symm hpp'
    have hc : c = c' := by
      rw [h1, h2]
      congr 1
      refine due_congr fun f hf' => ?_
      by_cases h0 : f.1 b' = (false, false)
      · exact Or.inl h0
      · right
        have k1 := needs_all_before hP.bits_nodup hS (hI f hf' b' hb h0) (pre := pre.map (·.1))
          (post := post.map (·.1)) (by rw [← a1, hpp]; simp)
        have k2 := needs_all_before hP.bits_nodup hS' (hI f hf' b' hb h0) (pre := pre'.map (·.1))
          (post := post'.map (·.1)) (by rw [← b1, hpp']; simp)
        -- the entry of the flag is the same in both logs
        obtain ⟨⟨q, cq, oq⟩, m1, q1⟩ := List.mem_map.1 k1
        simp only at q1
        obtain ⟨p1, p2, e1⟩ := List.append_of_mem m1
        have m2 : (q, cq, oq) ∈ L' := ih p1.length (by rw [← hn, e1]; simp) p1 (p2 ++ (b', c, o) :: post) _ rfl
          (by rw [hpp, e1]; simp)
        have uniq : ∀ {l l1 l2 : List (Nat × Pauli × Bool)}, (l.map (·.1)).Nodup → l = l1 ++ l2 → (q, cq, oq) ∈ l →
            q ∈ l1.map (·.1) → ones l1 q = oq := by
          intro l l1 l2 hl hl12 hq hq1
          have hone : ∀ x ∈ l, x.1 = q → x = (q, cq, oq) := fun x hx hxq =>
            List.inj_on_of_nodup_map hl hx hq hxq
          obtain ⟨x, hx, hxq⟩ := List.mem_map.1 hq1
          have hx' := hone x (by rw [hl12]; exact List.mem_append_left _ hx) hxq
          cases oq with
          | true => simp only [ones, List.any_eq_true]; exact ⟨x, hx, by simp [hx']⟩
          | false =>
            by_contra hc
            simp only [ones, Bool.not_eq_false, List.any_eq_true, Bool.and_eq_true, decide_eq_true_eq] at hc
            obtain ⟨y, hy, y1, y2⟩ := hc
            rw [hone y (by rw [hl12]; exact List.mem_append_left _ hy) y1] at y2
            simp at y2
        have u1 := uniq (l := L) (l1 := pre) (by rw [a1]; exact hnd) hpp (by rw [hpp, e1]; simp)
          (by rw [← q1] at k1; exact k1)
        have u2 := uniq (l := L') (l1 := pre') (by rw [b1]; exact hnd') hpp' m2 (by rw [← q1] at k2; exact k2)
        rw [← q1, u1, u2]
    have ho : o = o' := by rw [r3, r3', r1, r1', hc]
    rw [hc, ho]
    exact hm

/-- **C72** Which of the returned paths is executed, by which call it has been found and in which order the qubits of a step
are measured makes no difference: if the outcome of a measurement is determined by the qubit and the correction on it,
every qubit has the same correction and the same outcome, and the remaining corrections are the same. -/
theorem C72_independent (hP : P.WF) {F' σ' : Type} [FloatOps F'] {env' : Env F' σ'} {args' : Args F'} {out' : List Path}
    (he : env.OK) (he' : env'.OK)
    (h : run env P.graph P.order args = .ok (some out)) (h' : run env' P.graph P.order args' = .ok (some out'))
    {p p' : Path} (hp : p ∈ out) (hp' : p' ∈ out') {S : Schedule} (hS : List.Forall₂ List.Perm S p'.steps)
    (hI : Induced P frames flags) (hf : flags.Nodup) (hl : frames.length = flags.length) (answer : Nat → Pauli → Bool) :
    (execute frames flags (fun r b => answer b (r.corr b)) init p.steps).log.Perm
      (execute frames flags (fun r b => answer b (r.corr b)) init S).log ∧
    (execute frames flags (fun r b => answer b (r.corr b)) init p.steps).corr =
      (execute frames flags (fun r b => answer b (r.corr b)) init S).corr := by
  have hv := ((run_sound hP he h).valid p hp).1
  have hv' : P.Valid S := StepEq.valid hS ((run_sound hP he' h').valid p' hp').1
  have hnd : p.steps.flatten.Nodup := hv.perm.nodup_iff.2 hP.bits_nodup
  have hnd' : S.flatten.Nodup := hv'.perm.nodup_iff.2 hP.bits_nodup
  obtain ⟨a1, _, a3⟩ := execute_due (init := init) hP hv hI hf hl (fun r b => answer b (r.corr b))
  obtain ⟨b1, _, b3⟩ := execute_due (init := init) hP hv' hI hf hl (fun r b => answer b (r.corr b))
  have hperm : (execute frames flags (fun r b => answer b (r.corr b)) init p.steps).log.Perm
      (execute frames flags (fun r b => answer b (r.corr b)) init S).log := by
    rw [List.perm_ext_iff_of_nodup (List.Nodup.of_map _ (a1 ▸ hnd)) (List.Nodup.of_map _ (b1 ▸ hnd'))]
    intro e
    constructor
    · intro he
      obtain ⟨pre, post, h1⟩ := List.append_of_mem he
      exact entry_same hP hv hv' hI hf hl answer _ pre post e rfl h1
    · intro he
      obtain ⟨pre, post, h1⟩ := List.append_of_mem he
      exact entry_same hP hv' hv hI hf hl answer _ pre post e rfl h1
  refine ⟨hperm, funext fun b => ?_⟩
  rw [a3, b3]
  congr 1
  refine due_congr fun e _ => Or.inr ?_
  simp only [ones]
  exact hperm.any_eq

/-- **C72** The loop initialises a qubit and its neighbours right before the qubit is measured, one qubit after the other:
at no moment are there more initialised qubits than the space of the path says. -/
theorem C72_memory (hP : P.WF) (he : env.OK) (h : run env P.graph P.order args = .ok (some out)) {p : Path} (hp : p ∈ out) :
    P.Valid (p.steps.flatten.map fun b => [b]) ∧ ∀ k, k < p.steps.flatten.length →
      P.memAt (p.steps.flatten.map fun b => [b]) k ≤ p.space := by
  obtain ⟨hv, _, h3⟩ := (run_sound hP he h).valid p hp
  have key : ∀ (B A : Schedule), P.Valid (A ++ B) → P.Valid (A ++ B.flatten.map fun b => [b]) ∧
      P.peak (A ++ B.flatten.map fun b => [b]) ≤ P.peak (A ++ B) := by
    intro B
    induction B with
    | nil => intro A hA; exact ⟨hA, Nat.le_refl _⟩
    | cons s B ih =>
      intro A hA
      have one : ∀ (s : List Nat) (A : Schedule), s ≠ [] → P.Valid (A ++ s :: B) →
          P.Valid (A ++ (s.map fun b => [b]) ++ B) ∧ P.peak (A ++ (s.map fun b => [b]) ++ B) ≤ P.peak (A ++ s :: B) := by
        intro s
        induction s with
        | nil => intro A h; exact absurd rfl h
        | cons b s ihs =>
          intro A _ hA
          by_cases hs : s = []
          · subst hs
            have e : A ++ (List.map (fun b => [b]) [b]) ++ B = A ++ [b] :: B := by simp
            rw [e]
            exact ⟨hA, Nat.le_refl _⟩
          · obtain ⟨v, w⟩ := C42_split (s1 := [b]) (s2 := s) hA (by simp) (by simp) hs
            obtain ⟨v', w'⟩ := ihs (A ++ [[b]]) hs (by simpa using v)
            refine ⟨by simpa using v', ?_⟩
            have : A ++ (List.map (fun b => [b]) (b :: s)) ++ B = A ++ [[b]] ++ List.map (fun b => [b]) s ++ B := by simp
            rw [this]
            refine Nat.le_trans w' ?_
            have : A ++ [[b]] ++ s :: B = A ++ [b] :: s :: B := by simp
            rw [this]
            exact w
      obtain ⟨v, w⟩ := one s A (hA.nonempty s (by simp)) hA
      obtain ⟨v', w'⟩ := ih (A ++ s.map fun b => [b]) v
      rw [List.flatten_cons, List.map_append, ← List.append_assoc]
      exact ⟨v', Nat.le_trans w' w⟩
  obtain ⟨v, w⟩ := key p.steps [] hv
  refine ⟨v, fun k hk => ?_⟩
  rw [h3]
  refine Nat.le_trans ?_ w
  exact le_foldr_max (List.mem_map.2 ⟨k, List.mem_range.2 (by rw [List.nil_append, List.length_map]; exact hk), rfl⟩)

end

/-! ## Passing on corrections -/

/-- **C72** The buffer tracker, used with the positions `2 * idx` and `2 * idx + 1`, gives the corrections that result from
moving the corrections of the output qubits through the gates of the next widget. It has two frames for every input
qubit. -/
theorem C72_buffer {ops : List Op} (h : ∀ o ∈ ops, o.isTrack = false) {n : Nat} {output : List Pauli}
    (hn : output.length ≤ n) :
    addBuffer (fun i => 2 * i) (fun i => 2 * i + 1) (applyAll ops (bufferTracker n)) output =
      through ops (onInputs output) ∧ (applyAll ops (bufferTracker n)).length = 2 * n := by
  refine ⟨addBuffer_eq h hn, ?_⟩
  rw [applyAll_eq, applyAll_no_track h, List.append_nil, List.length_map, bufferTracker_length]

/-- **C72** The two ways of connecting widgets give the same corrections: with one tracker for both (`fs`: the frames of
the first widget, which act on the inputs `0, …, n - 1` of the second one), or with a new tracker and a buffer tracker for
the second one. `on` says which of the measurements had the outcome 1. -/
theorem C72_global (ops : List Op) (fs : List Frame) (on : Nat → Bool) {n : Nat}
    (hfs : ∀ f ∈ fs, ∀ q, n ≤ q → f q = (false, false)) :
    total on (applyAll ops fs) =
      (addBuffer (fun i => 2 * i) (fun i => 2 * i + 1) (applyAll (ops.filter fun o => !o.isTrack) (bufferTracker n))
        ((List.range n).map (total on fs))).add (total (fun i => on (fs.length + i)) (applyAll ops [])) := by
  rw [applyAll_eq, total_append, List.length_map, total_map,
    (C72_buffer (fun o ho => by simpa using (List.mem_filter.1 ho).2) (by simp)).1, through_filter]
  congr 2
  funext q
  have hq : ∀ q, n ≤ q → total on fs q = (false, false) := by
    intro q hq
    have : ∀ (fs : List Frame) (k : Nat), (∀ f ∈ fs, f q = (false, false)) →
        ((fs.zipIdx k).foldr (fun e f => if on e.2 then e.1.add f else f) Frame.zero) q = (false, false) := by
      intro fs
      induction fs with
      | nil => intro k _; rfl
      | cons f fs ih =>
        intro k h
        rw [List.zipIdx_cons, List.foldr_cons]
        have := ih (k + 1) fun f hf => h f (List.mem_cons_of_mem _ hf)
        split
        · rw [Frame.add, this, show (f, k).1 q = (false, false) from h f List.mem_cons_self]; rfl
        · exact this
    exact this fs 0 fun f hf => hfs f hf q hq
  rw [onInputs, List.getD_eq_getElem?_getD]
  by_cases h : q < n
  · simp [h]
  · rw [hq q (by omega)]
    simp [h]

/-- **C72** With the positions of the example, `idx` and `idx + 1`, this is wrong for every widget with two or more
inputs. -/
theorem C72_stitch_refuted : ∀ (ops : List Op), (∀ o ∈ ops, o.isTrack = false) → ∀ n, 2 ≤ n →
    ¬ ∀ output : List Pauli, output.length = n →
      stitch (applyAll ops (bufferTracker n)) output = through ops (onInputs output) := by
  intro ops hops n hn h
  have h1 := h ((false, false) :: (true, false) :: List.replicate (n - 2) (false, false)) (by simp; omega)
  have h2 : stitch (applyAll ops (bufferTracker n)) ((false, false) :: (true, false) :: List.replicate (n - 2) (false, false)) =
      through ops (single 0 (false, true)) := by
    rw [applyAll_eq, applyAll_no_track hops, List.append_nil, stitch, addBuffer]
    have hrest : ∀ (m k : Nat) (f : Frame), ((List.replicate m ((false, false) : Pauli)).zipIdx k).foldl (fun f e =>
        let f := if e.1.1 then f.add (((bufferTracker n).map (through ops)).getD e.2 Frame.zero) else f
        if e.1.2 then f.add (((bufferTracker n).map (through ops)).getD (e.2 + 1) Frame.zero) else f) f = f := by
      intro m
      induction m with
      | zero => intro k f; rfl
      | succ m ih =>
        intro k f
        rw [List.replicate_succ, List.zipIdx_cons, List.foldl_cons]
        exact ih _ _
    simp only [List.zipIdx_cons, List.foldl_cons, Bool.false_eq_true, if_false, if_true]
    rw [hrest, Frame.zero_add]
    have := (bufferTracker_get (n := n) (i := 0) (by omega)).2
    simp only [Nat.mul_zero, Nat.zero_add] at this
    simp [List.getD_eq_getElem?_getD, this]
  rw [h2] at h1
  have h3 := congrFun (through_injective ops h1) 0
  simp [single, onInputs] at h3

/-! ## The widgets of the example -/

/-- `compile_widget_a` (python_lib/examples/compile_flow.py:171-191). -/
def widgetA : List Op :=
  [.newQubit 3, .gate (.cz 0 3), .track 3 (false, true), .gate (.cz 2 3), .newQubit 4, .gate (.cz 2 4),
    .track 4 (true, false), .gate (.h 4)] ++ cy 4 1

/-- Its graph, with the ordering by the frames: the first one acts on 2 and 3, the second one on 1 and 4. -/
def flowA : Problem :=
  ⟨[[1, 2], [0, 2, 3], [0, 1], [1, 4], [3]], [[(0, [])], [(2, [0]), (3, [0])], [(1, [2]), (4, [2])]]⟩

/-- `compile_widget_b` (python_lib/examples/compile_flow.py:194-219). -/
def widgetB : List Op :=
  [.gate (.h 1), .newQubit 3, .gate (.cz 2 3), .track 3 (false, true)] ++ iswap 3 1 ++
    [.newQubit 4, .gate (.cz 1 4), .track 4 (true, true)]

/-- Its ordering: the first frame acts on 1, 3 and 4, the second one, which belongs to 1, on 4. -/
def flowB : Problem :=
  ⟨[[1, 2], [0, 2, 3], [0, 1], [1, 4], [3]], [[(0, []), (2, [])], [(1, [2]), (3, [2])], [(4, [1])]]⟩

theorem flowA_induced : Induced flowA (applyAll widgetA []) [0, 2] := by
  have hn : ∀ b d, (b, d) ∈ [(2, 0), (3, 0), (1, 2), (4, 2)] → flowA.Needs b d := by
    intro b d h
    simp only [List.mem_cons, Prod.mk.injEq, List.not_mem_nil, or_false] at h
    rcases h with ⟨rfl, rfl⟩ | ⟨rfl, rfl⟩ | ⟨rfl, rfl⟩ | ⟨rfl, rfl⟩ <;> exact ⟨_, by simp [Problem.entries, flowA]; rfl, by simp⟩
  have hd : ∀ i, i < 2 → ∀ b ∈ flowA.bits, ((applyAll widgetA []).zip [0, 2]).length = 2 ∧
      ((((applyAll widgetA []).zip [0, 2])[i]?).any fun e => e.1 b != (false, false) &&
        !decide ((b, e.2) ∈ [(2, 0), (3, 0), (1, 2), (4, 2)])) = false := by decide +kernel
  intro e he b hb h0
  obtain ⟨i, hi, hie⟩ := List.getElem_of_mem he
  have hlen : ((applyAll widgetA []).zip [0, 2]).length = 2 := (hd 0 (by omega) b hb).1
  have := (hd i (by omega) b hb).2
  rw [List.getElem?_eq_getElem hi, hie] at this
  simp only [Option.any_some, Bool.and_eq_false_iff, bne_eq_false_iff_eq, Bool.not_eq_false', decide_eq_true_eq] at this
  rcases this with h | h
  · exact absurd h h0
  · exact .single (hn _ _ h)

theorem flowB_induced : Induced flowB (applyAll widgetB []) [2, 1] := by
  have hn : ∀ b d, (b, d) ∈ [(1, 2), (3, 2), (4, 1)] → flowB.Needs b d := by
    intro b d h
    simp only [List.mem_cons, Prod.mk.injEq, List.not_mem_nil, or_false] at h
    rcases h with ⟨rfl, rfl⟩ | ⟨rfl, rfl⟩ | ⟨rfl, rfl⟩ <;> exact ⟨_, by simp [Problem.entries, flowB]; rfl, by simp⟩
  have hd : ∀ i, i < 2 → ∀ b ∈ flowB.bits, ((applyAll widgetB []).zip [2, 1]).length = 2 ∧
      ((((applyAll widgetB []).zip [2, 1])[i]?).any fun e => e.1 b != (false, false) &&
        !decide ((b, e.2) ∈ [(1, 2), (3, 2), (4, 1), (4, 2)])) = false := by decide +kernel
  intro e he b hb h0
  obtain ⟨i, hi, hie⟩ := List.getElem_of_mem he
  have hlen : ((applyAll widgetB []).zip [2, 1]).length = 2 := (hd 0 (by omega) b hb).1
  have := (hd i (by omega) b hb).2
  rw [List.getElem?_eq_getElem hi, hie] at this
  simp only [Option.any_some, Bool.and_eq_false_iff, bne_eq_false_iff_eq, Bool.not_eq_false', decide_eq_true_eq] at this
  rcases this with h | h
  · exact absurd h h0
  · simp only [List.mem_cons, Prod.mk.injEq, List.not_mem_nil, or_false] at h
    rcases h with ⟨rfl, h⟩ | ⟨rfl, h⟩ | ⟨rfl, h⟩ | ⟨rfl, h⟩ <;> rw [h]
    · exact .single (hn _ _ (by simp))
    · exact .single (hn _ _ (by simp))
    · exact .single (hn _ _ (by simp))
    · exact .head (hn 4 1 (by simp)) (.single (hn 1 2 (by simp)))

/-- **C72** "Perform Z, else if, perform X" is not the correction that is due: with the outcome 1 everywhere, qubit 1 of the
first widget has to be corrected by Y, and only Z is performed. -/
theorem C72_y_refuted : ¬ ∀ (P : Problem) (env : Env Bool Unit) (args : Args Bool) (p : Path) (frames : List Frame)
    (flags : List Nat) (outcome : Widget.Run → Nat → Bool), P.WF → env.OK → Induced P frames flags → flags.Nodup →
    frames.length = flags.length → run env P.graph P.order args = .ok (some [p]) →
    ∀ b c o, (b, c, o) ∈ (execute frames flags outcome Frame.zero p.steps).log →
      performed c = due frames flags (ones (execute frames flags outcome Frame.zero p.steps).log) b := by
  intro h
  have := h flowA (demo 100 []) { doSearch := false } ⟨3, 4, [[0], [2, 3], [1, 4]]⟩ (applyAll widgetA []) [0, 2]
    (fun _ _ => true) (wf_of_check (by decide +kernel)) (demo_ok _ _) flowA_induced (by decide) (by decide +kernel)
    (by decide +kernel) 1 (true, true) true (by decide +kernel)
  revert this
  decide +kernel

/-- **C72** `C72_corrections` if a qubit is flagged twice (one frame for Z and one for X, say): the loop only finds the
first of the frames. -/
theorem C72_flags_refuted : ¬ ∀ (P : Problem) (env : Env Bool Unit) (args : Args Bool) (p : Path) (frames : List Frame)
    (flags : List Nat) (outcome : Widget.Run → Nat → Bool), P.WF → env.OK → Induced P frames flags →
    frames.length = flags.length → run env P.graph P.order args = .ok (some [p]) →
    ∀ b c o, (b, c, o) ∈ (execute frames flags outcome Frame.zero p.steps).log →
      c = due frames flags (ones (execute frames flags outcome Frame.zero p.steps).log) b := by
  intro h
  have := h ⟨[[1], [0]], [[(0, [])], [(1, [0])]]⟩ (demo 100 []) { doSearch := false } ⟨2, 2, [[0], [1]]⟩
    [single 1 (true, false), single 1 (false, true)] [0, 0]
    (fun _ _ => true) (wf_of_check (by decide +kernel)) (demo_ok _ _) (by
      intro e he b hb h0
      have hb1 : b = 1 := by
        by_contra hb1
        apply h0
        simp only [List.zip_cons_cons, List.zip_nil_right, List.mem_cons, List.not_mem_nil, or_false] at he
        rcases he with rfl | rfl <;> simp [single, hb1]
      have he2 : e.2 = 0 := by
        simp only [List.zip_cons_cons, List.zip_nil_right, List.mem_cons, List.not_mem_nil, or_false] at he
        rcases he with rfl | rfl <;> rfl
      rw [hb1, he2]
      exact .single ⟨[0], by simp [Problem.entries], by simp⟩) (by decide)
    (by decide +kernel) 1 (true, false) true (by decide +kernel)
  revert this
  decide +kernel

/-- The hypotheses of `C72_corrections` and `C72_independent`: both widgets of the example. -/
example : flowA.WF ∧ Induced flowA (applyAll widgetA []) [0, 2] ∧ (applyAll widgetA []).length = 2 ∧
    run (demo 100 []) flowA.graph flowA.order { doSearch := false } = .ok (some [⟨3, 4, [[0], [2, 3], [1, 4]]⟩]) ∧
    (execute (applyAll widgetA []) [0, 2] (fun _ _ => true) Frame.zero [[0], [2, 3], [1, 4]]).log =
      [(0, (false, false), true), (2, (true, false), true), (3, (false, true), true), (1, (true, true), true),
        (4, (false, true), true)] :=
  ⟨wf_of_check (by decide +kernel), flowA_induced, by decide +kernel, by decide +kernel, by decide +kernel⟩

example : flowB.WF ∧ Induced flowB (applyAll widgetB []) [2, 1] ∧
    run (demo 100 []) flowB.graph flowB.order { doSearch := false } =
      .ok (some [⟨3, 3, [[0, 2], [1, 3], [4]]⟩]) :=
  ⟨wf_of_check (by decide +kernel), flowB_induced, by decide +kernel⟩

/-- `C72_buffer` and `C72_global`: the corrections of the example, Z, X and Y, moved through the second widget, with the right
positions and with those of the example. -/
example : (∀ o ∈ widgetB.filter fun o => !o.isTrack, o.isTrack = false) ∧
    (List.range 5).map (addBuffer (fun i => 2 * i) (fun i => 2 * i + 1)
      (applyAll (widgetB.filter fun o => !o.isTrack) (bufferTracker 3)) [(true, false), (false, true), (true, true)]) ≠
    (List.range 5).map (stitch
      (applyAll (widgetB.filter fun o => !o.isTrack) (bufferTracker 3)) [(true, false), (false, true), (true, true)]) :=
  ⟨fun o ho => by simpa using (List.mem_filter.1 ho).2, by decide +kernel⟩

end Verif
