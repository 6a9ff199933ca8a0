import Verif.Model.Split
import Verif.Proofs.Sweep
/-!
# Splitting the instructions of a path generator
-/

namespace Verif

open Spec Search

namespace Split

/-- Following instructions from the path `p`: `r` are the paths at the steps back from a leaf, `q` is the
path at the end. The flags say whether the step before was a step forward; only after such a step there is a
step back from a leaf. -/
inductive Walk (P : Problem) : Bool → Schedule → List TimeStep → List Schedule → Bool → Schedule → Prop
  | nil {b : Bool} {p : Schedule} : Walk P b p [] [] b p
  | forward {b b' : Bool} {p q : Schedule} {m : List Nat} {l : List TimeStep} {r : List Schedule}
      (hp : Prefix P (p ++ [m])) (h : Walk P true (p ++ [m]) l r b' q) :
      Walk P b p (.forward m :: l) r b' q
  | leaf {b' : Bool} {p q : Schedule} {m : List Nat} {l : List TimeStep} {r : List Schedule}
      (h : Walk P false p l r b' q) :
      Walk P true (p ++ [m]) (.backward (some ()) :: l) ((p ++ [m]) :: r) b' q
  | back {b b' : Bool} {p q : Schedule} {m : List Nat} {l : List TimeStep} {r : List Schedule}
      (h : Walk P false p l r b' q) : Walk P b (p ++ [m]) (.backward none :: l) r b' q

variable {P : Problem}

theorem Walk.append {b b1 b2 : Bool} {p q q' : Schedule} {l l' : List TimeStep}
    {r r' : List Schedule} (h : Walk P b p l r b1 q) (h' : Walk P b1 q l' r' b2 q') :
    Walk P b p (l ++ l') (r ++ r') b2 q' := by
  induction h with
  | nil => exact h'
  | forward hp _ ih => exact .forward hp (ih h')
  | leaf _ ih => exact .leaf (ih h')
  | back _ ih => exact .back (ih h')

theorem Walk.nil_inv {b b' : Bool} {p q : Schedule} {l : List TimeStep} {r : List Schedule}
    (h : Walk P b p l r b' q) (hl : l = []) : r = [] ∧ b' = b := by
  cases h with
  | nil => exact ⟨rfl, rfl⟩
  | forward => cases hl
  | leaf => cases hl
  | back => cases hl

theorem Walk.count {b b' : Bool} {p q : Schedule} {l : List TimeStep} {r : List Schedule}
    (h : Walk P b p l r b' q) : totalNumPaths l = r.length := by
  induction h with
  | nil => rfl
  | forward hp _ ih => simpa [totalNumPaths] using ih
  | leaf _ ih => simpa [totalNumPaths] using ih
  | back _ ih => simpa [totalNumPaths] using ih

/-- The way from the root to `p`. -/
theorem walk_init {p : Schedule} (hp : Prefix P p) : ∀ b, Walk P b [] (p.map .forward) []
    (if p = [] then b else true) p := by
  induction p using List.reverseRecOn with
  | nil => intro b; exact .nil
  | append_singleton p m ih =>
    intro b
    have h := (ih (prefix_of_snoc hp).1 b).append
      (.forward (m := m) (b' := true) (q := p ++ [m]) (l := []) (r := []) hp .nil)
    simpa using h

/-- A graph that follows the instructions. -/
theorem Walk.instructed (hP : P.WF) {b b' : Bool} {p q : Schedule} {l : List TimeStep}
    {r : List Schedule} (h : Walk P b p l r b' q) :
    ∀ (prof : Profile) (g : Graph) (st : List Graph), GraphFor P p g → st.length = p.length →
    (∀ (i : Nat) (g' : Graph), st[i]? = some g' → GraphFor P (p.take (p.length - 1 - i)) g') →
    Prefix P p →
    Split.instructed prof l g st p = .ok (r.map fun S => (S.length, P.peak S, S)) := by
  induction h with
  | nil => intro prof g st hg hl hs hpre; rfl
  | @forward b b' p q m l r hp h ih =>
    intro prof g st hg hl hs hpre
    obtain ⟨g', h1, h2⟩ := graphFor_focus hP.nbrs_lt hg (ms := m)
      (by simpa using hp.nodup) (fun v hv => hP.bits_lt v (hp.sub v (by simpa using hv)))
    rw [Split.instructed]
    simp only [(h2 prof).2.1, bind, Except.bind]
    refine ih prof g' (g :: st) h1 (by simp [hl]) ?_ hp
    intro i g'' hi
    cases i with
    | zero =>
      simp only [List.getElem?_cons_zero, Option.some.injEq] at hi
      subst hi
      simpa using hg
    | succ i =>
      simp only [List.getElem?_cons_succ] at hi
      have := hs i g'' hi
      have hlt := (List.getElem?_eq_some_iff.1 hi).1
      have e : (p ++ [m]).length - 1 - (i + 1) = p.length - 1 - i := by simp; omega
      rw [e, List.take_append_of_le_length (by omega)]
      exact this
  | @leaf b' p q m l r h ih =>
    intro prof g st hg hl hs hpre
    cases st with
    | nil => simp at hl
    | cons t st =>
      rw [Split.instructed]
      have ht := hs 0 t rfl
      simp only [List.length_append, List.length_singleton, Nat.add_sub_cancel, Nat.sub_zero,
        List.take_left'] at ht
      have hrec := ih prof t st ht (by simpa using hl) (by
        intro i g' hi
        have := hs (i + 1) g' (by simpa using hi)
        have e : (p ++ [m]).length - 1 - (i + 1) = p.length - 1 - i := by simp; omega
        rw [e, List.take_append_of_le_length (by omega)] at this
        exact this) (prefix_of_snoc hpre).1
      rw [List.dropLast_concat]
      simp only [hrec, bind, Except.bind, Option.map_some, hg.max, pure, Except.pure, List.map_cons]
  | @back b b' p q m l r h ih =>
    intro prof g st hg hl hs hpre
    cases st with
    | nil => simp at hl
    | cons t st =>
      rw [Split.instructed]
      have ht := hs 0 t rfl
      simp only [List.length_append, List.length_singleton, Nat.add_sub_cancel, Nat.sub_zero,
        List.take_left'] at ht
      have hrec := ih prof t st ht (by simpa using hl) (by
        intro i g' hi
        have := hs (i + 1) g' (by simpa using hi)
        have e : (p ++ [m]).length - 1 - (i + 1) = p.length - 1 - i := by simp; omega
        rw [e, List.take_append_of_le_length (by omega)] at this
        exact this) (prefix_of_snoc hpre).1
      rw [List.dropLast_concat]
      simp only [hrec, bind, Except.bind, Option.map_none, pure, Except.pure]

/-- Going back without steps back from leaves. -/
theorem Walk.skipBack {b b' : Bool} {p q : Schedule} {l : List TimeStep} {r : List Schedule}
    (h : Walk P b p l r b' q) (hb : b = false) (hpre : Prefix P p) :
    ∃ (p' : Schedule) (b1 b2 : Bool) (rest : List TimeStep), Split.skipBack l (p.map .forward) =
        (p'.map .forward, rest) ∧ Prefix P p' ∧ Walk P b1 p' rest r b2 q ∧ rest.length ≤ l.length ∧
      Walk P false [] (p'.map .forward) [] b1 p' := by
  induction h with
  | @nil b p =>
    exact ⟨p, _, _, [], by simp [Split.skipBack], hpre, .nil, by simp, walk_init hpre false⟩
  | @forward b b' p q m l r hp h ih =>
    refine ⟨p ++ [m], true, b', l, by simp [Split.skipBack], hp, h, by simp, ?_⟩
    have := walk_init hp false
    rw [if_neg (by simp)] at this
    exact this
  | leaf h ih => simp at hb
  | @back b b' p q m l r h ih =>
    obtain ⟨p', b1, b2, rest, h1, h2, h3, h4, h5⟩ := ih rfl (prefix_of_snoc hpre).1
    refine ⟨p', b1, b2, rest, ?_, h2, h3, by simp; omega, h5⟩
    rw [Split.skipBack]
    simpa using h1

/-- The sizes of the jobs from number `i` on. -/
def jobs (quot normal k i : Nat) : List Nat :=
  (List.range' i (k - i)).map fun j => if j < normal then quot else quot + 1

theorem jobs_of_lt {quot normal k i : Nat} (h : i < k) :
    jobs quot normal k i = (if i < normal then quot else quot + 1) :: jobs quot normal k (i + 1) := by
  unfold jobs
  obtain ⟨n, hn⟩ : ∃ n, k - i = n + 1 := ⟨k - i - 1, by omega⟩
  have hn' : k - (i + 1) = n := by omega
  rw [hn, hn', List.range'_succ, List.map_cons]

theorem jobs_of_le {quot normal k i : Nat} (h : k ≤ i) : jobs quot normal k i = [] := by
  simp [jobs, Nat.sub_eq_zero_of_le h]

theorem sum_jobs {quot normal k : Nat} (hn : normal ≤ k) :
    ∀ (n i : Nat), i + n = k → (jobs quot normal k i).sum = quot * n + (n - (normal - i)) := by
  intro n
  induction n with
  | zero => intro i h; rw [jobs_of_le (by omega)]; simp
  | succ n ih =>
    intro i h
    rw [jobs_of_lt (by omega), List.sum_cons, ih (i + 1) (by omega), Nat.mul_succ]
    split <;> omega

/-- Each chunk is a walk from the root. -/
def Chunk (P : Problem) (c : List TimeStep) (part : List Schedule) : Prop :=
  ∃ b q, Walk P false [] c part b q

theorem splitLoop_spec {quot normal k : Nat} (_hq : 0 < quot) (_hnk : 0 < normal) :
    ∀ (fuel : Nat) (rest : List TimeStep) (s : State) (p q : Schedule) (b b' : Bool)
      (rs r : List Schedule), rest.length ≤ fuel → Prefix P p →
    Walk P false [] s.task rs b p → Walk P b p rest r b' q → s.init = p.map .forward →
    s.pathsInTask = rs.length → s.pathsPerJob = (if s.numDoneTasks < normal then quot else quot + 1) →
    rs.length < s.pathsPerJob → (jobs quot normal k s.numDoneTasks).sum = rs.length + r.length →
    ∃ cs parts, splitLoop normal fuel rest s = s.res ++ cs ∧
      List.Forall₂ (Chunk P) cs parts ∧ parts.flatten = rs ++ r ∧
      parts.map List.length = jobs quot normal k s.numDoneTasks := by
  intro fuel
  have base : ∀ (s : State) (rs : List Schedule),
      s.pathsPerJob = (if s.numDoneTasks < normal then quot else quot + 1) →
      rs.length < s.pathsPerJob → (jobs quot normal k s.numDoneTasks).sum = rs.length →
      ∃ cs parts, s.res = s.res ++ cs ∧ List.Forall₂ (Chunk P) cs parts ∧ parts.flatten = rs ++ [] ∧
        parts.map List.length = jobs quot normal k s.numDoneTasks := by
    intro s rs hj hlt hsum
    by_cases hk : s.numDoneTasks < k
    · rw [jobs_of_lt hk, ← hj, List.sum_cons] at hsum
      omega
    · rw [jobs_of_le (by omega)] at hsum ⊢
      have : rs = [] := List.eq_nil_of_length_eq_zero (by simpa using hsum.symm)
      exact ⟨[], [], by simp, .nil, by simp [this], rfl⟩
  induction fuel with
  | zero =>
    intro rest s p q b b' rs r hf hpre ht hw hi hc hj hlt hsum
    have : rest = [] := List.eq_nil_of_length_eq_zero (by omega)
    subst this
    cases hw
    exact base s rs hj hlt (by simpa using hsum)
  | succ fuel ih =>
    intro rest s p q b b' rs r hf hpre ht hw hi hc hj hlt hsum
    cases hw with
    | nil => exact base s rs hj hlt (by simpa using hsum)
    | @forward _ _ _ _ m l _ hp h =>
      have hf' : l.length ≤ fuel := by simpa using hf
      have ht' := ht.append (.forward (m := m) (b' := true) (q := p ++ [m]) (l := []) (r := []) hp .nil)
      rw [List.append_nil] at ht'
      exact ih l { s with task := s.task ++ [.forward m], init := s.init ++ [.forward m] } _ _ _ _ rs r
        hf' hp ht' h (by simp [hi]) hc hj hlt hsum
    | @back _ _ p _ m l _ h =>
      have hf' : l.length ≤ fuel := by simpa using hf
      have ht' := ht.append (.back (m := m) (b' := false) (q := p) (l := []) (r := []) .nil)
      rw [List.append_nil] at ht'
      exact ih l { s with task := s.task ++ [.backward none], init := s.init.dropLast } _ _ _ _ rs r
        hf' (prefix_of_snoc hpre).1 ht' h (by simp [hi]) hc hj hlt hsum
    | @leaf _ p _ m l r h =>
      have hf' : l.length ≤ fuel := by simpa using hf
      have hpre' := (prefix_of_snoc hpre).1
      have ht' := ht.append (.leaf (m := m) (b' := false) (q := p) (l := []) (r := []) .nil)
      have hinit : s.init.dropLast = p.map .forward := by simp [hi]
      rw [splitLoop]
      simp only
      by_cases hne : s.pathsInTask + 1 = s.pathsPerJob
      · rw [if_neg (by simpa using hne), hinit]
        obtain ⟨p', b1, b2, rest, h1, h2, h3, h4, h5⟩ := h.skipBack rfl hpre'
        rw [h1]
        simp only
        have hk : s.numDoneTasks < k := by
          apply Classical.byContradiction
          intro hk
          rw [jobs_of_le (by omega)] at hsum
          simp at hsum
        rw [jobs_of_lt hk, ← hj, List.sum_cons] at hsum
        obtain ⟨cs, parts, g1, g2, g3, g4⟩ := ih rest
          { pathsPerJob := if s.numDoneTasks + 1 = normal then s.pathsPerJob + 1 else s.pathsPerJob
            res := s.res ++ [s.task ++ [.backward (some ())]]
            task := p'.map .forward
            pathsInTask := 0
            init := p'.map .forward
            numDoneTasks := s.numDoneTasks + 1 } p' q b1 b2 [] r (by omega) h2 h5 h3 rfl rfl
          (by
            simp only
            rw [hj]
            by_cases c1 : s.numDoneTasks + 1 = normal
            · rw [if_pos c1, if_pos (by omega), if_neg (by omega)]
            · by_cases c2 : s.numDoneTasks < normal
              · rw [if_neg c1, if_pos c2, if_pos (by omega)]
              · rw [if_neg c1, if_neg c2, if_neg (by omega)])
          (by
            simp only [List.length_nil]
            split <;> omega)
          (by
            simp only [List.length_cons] at hsum
            simp only [List.length_nil]
            omega)
        refine ⟨_ :: cs, (rs ++ [p ++ [m]]) :: parts, by rw [g1]; simp,
          .cons ⟨_, _, ht'⟩ g2, by simp [g3], ?_⟩
        rw [List.map_cons, g4, jobs_of_lt hk, ← hj]
        simp only [List.length_append, List.length_singleton]
        rw [← hne, hc]
      · rw [if_pos (by simpa using hne)]
        obtain ⟨cs, parts, g1, g2, g3, g4⟩ := ih l
          { s with task := s.task ++ [.backward (some ())], init := s.init.dropLast
                   pathsInTask := s.pathsInTask + 1 } p q _ _ (rs ++ [p ++ [m]]) r
          hf' hpre' ht' h hinit (by simp [hc]) hj (by
            simp only [List.length_append, List.length_singleton]
            omega) (by
            simp only [List.length_cons] at hsum
            simp only [List.length_append, List.length_singleton]
            omega)
        exact ⟨cs, parts, g1, g2, by rw [g3]; simp, g4⟩

/-- The chunks together report what the whole reports, and the work is balanced. -/
theorem splitInstructions_spec {instr : List TimeStep} {r : List Schedule} {b : Bool} {q : Schedule}
    (h : Walk P false [] instr r b q) {k : Nat} (hk : 0 < k) :
    ∃ cs parts, splitInstructions instr k = .ok cs ∧ List.Forall₂ (Chunk P) cs parts ∧
      parts.flatten = r ∧ cs.length = (if r.length < k then 1 else k) ∧
      (k ≤ r.length → ∀ part ∈ parts, part.length = r.length / k ∨ part.length = r.length / k + 1) := by
  have hc := h.count
  unfold splitInstructions
  simp only [hc]
  by_cases hlt : r.length < k
  · rw [if_pos hlt, if_pos hlt]
    exact ⟨[instr], [r], rfl, .cons ⟨_, _, h⟩ .nil, by simp, rfl, fun h => by omega⟩
  · rw [if_neg hlt, if_neg hlt, if_neg (by omega)]
    have hq : 0 < r.length / k := Nat.div_pos (by omega) hk
    have hdm := Nat.div_add_mod r.length k
    have hmod := Nat.mod_lt r.length hk
    obtain ⟨cs, parts, g1, g2, g3, g4⟩ := splitLoop_spec (P := P) (k := k)
      (normal := k - (r.length - k * (r.length / k))) hq (by omega) instr.length instr
      { pathsPerJob := r.length / k, res := [], task := [], pathsInTask := 0, init := [], numDoneTasks := 0 }
      [] q false b [] r (Nat.le_refl _) (prefix_nil P) .nil h rfl rfl
      (by simp only; rw [if_pos (by omega)]) (by simpa using hq) (by
        rw [sum_jobs (by omega) k 0 (by omega), Nat.mul_comm]
        simp only [List.length_nil]
        generalize k * (r.length / k) = x at *
        omega)
    refine ⟨cs, parts, by rw [g1]; simp [pure, Except.pure], g2, by simpa using g3, ?_, ?_⟩
    · rw [g2.length_eq, ← List.length_map (f := List.length), g4]
      simp [jobs]
    · intro _ part hp
      have : part.length ∈ parts.map List.length := List.mem_map_of_mem hp
      rw [g4] at this
      obtain ⟨j, _, hj⟩ := List.mem_map.1 this
      rw [← hj]
      split
      · exact Or.inl rfl
      · exact Or.inr rfl

/-! ## The instructions -/

/-- What the sweep over the path generators yields when it leaves `s`. -/
def backStep (s : Scheduler Partitioner) : TimeStep :=
  .backward (if s.time.measurable.set = [] then some () else none)

theorem collect_mono {T Item Leaf : Type} (fi : FocusIter T Item Leaf) (fuel : Nat) :
    ∀ (sw : Sweep T) (r : List (Step Item (Option Leaf))),
    Sweep.collect fi fuel sw = .ok (some r) →
    ∀ fuel', fuel ≤ fuel' → Sweep.collect fi fuel' sw = .ok (some r) := by
  induction fuel with
  | zero => intro sw r h; cases h
  | succ fuel ih =>
    intro sw r h fuel' hf
    obtain ⟨k, rfl⟩ : ∃ k, fuel' = k + 1 := ⟨fuel' - 1, by omega⟩
    rw [Sweep.collect] at h ⊢
    cases hn : sw.next fi with
    | error e => rw [hn] at h; cases h
    | ok x =>
      obtain ⟨sw', step⟩ := x
      simp only [hn, bind, Except.bind] at h ⊢
      cases step with
      | none => exact h
      | some st =>
        simp only at h ⊢
        cases he : Sweep.collect fi fuel sw' with
        | error e => rw [he] at h; cases h
        | ok o =>
          cases o with
          | none => rw [he] at h; simp [pure, Except.pure] at h
          | some rest =>
            rw [he] at h
            rw [ih _ _ he k (by omega)]
            exact h

/-- The instructions below a state, and what they lead to. -/
theorem collect_below {p : Schedule} {s : Scheduler Partitioner} {r : List (Schedule × Nat)}
    (h : Below P (fun _ => false) p s r) :
    ∃ steps : List TimeStep, (∀ b, ∃ b', Walk P b p steps (r.map (·.1)) b' p) ∧
      ((∀ l m, (l, m) ∈ rem s → m = []) → steps = []) ∧
      ∀ (prof : Profile) (st : List (Scheduler Partitioner)) (out : List TimeStep) (f : Nat),
      (∀ t rest, st = t :: rest →
        Sweep.collect (PathGenerator.focusIter prof) f (Sweep.times ⟨t, rest⟩) = .ok (some out)) →
      (st = [] → out = []) →
      ∃ fuel, Sweep.collect (PathGenerator.focusIter prof) fuel (Sweep.times ⟨s, st⟩) =
        .ok (some (steps ++ (match st with | [] => [] | _ :: _ => [backStep s]) ++ out)) := by
  induction h with
  | @done p s s' h =>
    refine ⟨[], fun b => ⟨b, .nil⟩, fun _ => rfl, ?_⟩
    intro prof st out f hk h0
    refine ⟨f + 1, ?_⟩
    rw [Sweep.collect]
    cases st with
    | nil =>
      rw [next_times (next_none h prof [])]
      simp [h0 rfl, bind, Except.bind, pure, Except.pure]
    | cons t rest =>
      rw [next_times (next_none h prof (t :: rest))]
      simp only [bind, Except.bind, Option.map_some]
      rw [hk t rest rfl]
      simp only [atLeaf_eq, backStep, pure, Except.pure, Option.map_some, List.nil_append,
        List.cons_append]
      split <;> rfl
  | skip h hs => simp at hs
  | @child p s s' c l m rc r h hs hc hr ihc ihr =>
    obtain ⟨sc, wc, nc, cc⟩ := ihc
    obtain ⟨sr, wr, nr, cr⟩ := ihr
    refine ⟨.forward m :: sc ++ backStep c :: sr, ?_, ?_, ?_⟩
    · intro b
      obtain ⟨b1, w1⟩ := wc true
      obtain ⟨b2, w2⟩ := wr false
      refine ⟨b2, ?_⟩
      rw [List.map_append, List.map_append]
      by_cases hl : c.time.measurable.set = []
      · have hn : sc = [] := nc (by
          intro l' m' hm
          rw [h.fresh.rem, hl] at hm
          exact (List.append_eq_nil_iff.1 (mem_items hm).1.eq_nil).2)
        subst hn
        obtain ⟨hr1, hb1⟩ := w1.nil_inv rfl
        rw [hr1]
        simp only [backStep, leafOf, hl, if_true]
        exact .forward h.child.pre (.leaf w2)
      · simp only [backStep, leafOf, if_neg hl, List.map_nil, List.append_nil]
        exact .forward h.child.pre (w1.append (.back w2))
    · intro hn
      exact (h.ne (hn l m (by rw [h.rem]; exact List.mem_cons_self))).elim
    · intro prof st out f hk h0
      obtain ⟨fuel1, e1⟩ := cr prof st out f hk h0
      obtain ⟨fuel2, e2⟩ := cc prof (s' :: st) _ fuel1 (by
        intro t rest he
        injection he with he1 he2
        subst he1 he2
        exact e1) (by simp)
      refine ⟨fuel2 + 1, ?_⟩
      rw [Sweep.collect, next_times (next_some h prof st)]
      simp only [bind, Except.bind, Option.map_some]
      rw [e2]
      cases st with
      | nil => simp [pure, Except.pure]
      | cons t rest => simp [backStep, h.set, pure, Except.pure]

/-- Collecting a fresh sweep. -/
theorem collect_spec {p : Schedule} {s : Scheduler Partitioner} {r : List (Schedule × Nat)}
    (h : Below P (fun _ => false) p s r) :
    ∃ (steps : List TimeStep) (b : Bool) (N : Nat), Walk P false p steps (r.map (·.1)) b p ∧
      ∀ fuel, N ≤ fuel → ∀ prof,
        Sweep.collect (PathGenerator.focusIter prof) fuel (Sweep.new s.time) = .ok (some steps) := by
  obtain ⟨steps, hw, _, hc⟩ := collect_below h
  obtain ⟨b, hb⟩ := hw false
  obtain ⟨f1, e1⟩ := hc .debug [] [] 0 (by simp) (by simp)
  obtain ⟨f2, e2⟩ := hc .release [] [] 0 (by simp) (by simp)
  simp only [List.append_nil] at e1 e2
  refine ⟨steps, b, max f1 f2, hb, fun fuel hf prof => ?_⟩
  cases prof
  · exact collect_mono _ _ _ _ e1 fuel (by omega)
  · exact collect_mono _ _ _ _ e2 fuel (by omega)

end Split
end Verif
