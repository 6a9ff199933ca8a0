import Verif.Model.Widget
import Verif.Spec
import Mathlib.Logic.Relation
import Mathlib.Data.List.Nodup
/-!
# Executing a schedule: the corrections
-/

namespace Verif.Widget

open Spec

/-! ## Frames form a group -/

theorem Pauli.add_comm (p q : Pauli) : p.add q = q.add p := by
  rcases p with ⟨a, b⟩; rcases q with ⟨c, d⟩
  simp only [Pauli.add, Bool.xor_comm]

theorem Pauli.add_assoc (p q r : Pauli) : (p.add q).add r = p.add (q.add r) := by
  rcases p with ⟨a, b⟩; rcases q with ⟨c, d⟩; rcases r with ⟨e, f⟩
  simp only [Pauli.add, Bool.xor_assoc]

theorem Pauli.zero_add (p : Pauli) : Pauli.add (false, false) p = p := by
  rcases p with ⟨a, b⟩
  simp [Pauli.add]

theorem Pauli.add_zero (p : Pauli) : p.add (false, false) = p := by
  rcases p with ⟨a, b⟩
  simp [Pauli.add]

theorem Frame.add_comm (f g : Frame) : f.add g = g.add f := funext fun _ => Pauli.add_comm _ _

theorem Frame.add_assoc (f g h : Frame) : (f.add g).add h = f.add (g.add h) := funext fun _ => Pauli.add_assoc _ _ _

theorem Frame.zero_add (f : Frame) : Frame.zero.add f = f := funext fun _ => Pauli.zero_add _

theorem Frame.add_zero (f : Frame) : f.add Frame.zero = f := funext fun _ => Pauli.add_zero _

/-! ## The corrections that are due -/

/-- The product of the corrections on qubit `b` by those frames whose measurement had the outcome 1. -/
def due (frames : List Frame) (flags : List Nat) (one : Nat → Bool) (b : Nat) : Pauli :=
  (frames.zip flags).foldr (fun e acc => if one e.2 then (e.1 b).add acc else acc) (false, false)

theorem due_congr {one one' : Nat → Bool} {b : Nat} : ∀ {frames : List Frame} {flags : List Nat},
    (∀ e ∈ frames.zip flags, e.1 b = (false, false) ∨ one e.2 = one' e.2) →
    due frames flags one b = due frames flags one' b := by
  intro frames
  induction frames with
  | nil => intro flags _; rfl
  | cons f fs ih =>
    intro flags h
    cases flags with
    | nil => rfl
    | cons q qs =>
      have := ih (flags := qs) fun e he => h e (List.mem_cons_of_mem _ he)
      have h0 := h (f, q) List.mem_cons_self
      simp only [due, List.zip_cons_cons, List.foldr_cons] at this ⊢
      rcases h0 with h0 | h0
      · simp only at h0
        rw [h0, Pauli.zero_add, Pauli.zero_add, ite_self, ite_self, this]
      · simp only at h0
        rw [h0, this]

/-- Another outcome 1, of a qubit that is flagged at most once. -/
theorem due_insert {one : Nat → Bool} {a : Nat} (b : Nat) (ha : one a = false) : ∀ {frames : List Frame} {flags : List Nat},
    flags.Nodup → frames.length = flags.length →
    due frames flags (fun q => one q || decide (q = a)) b =
      (due frames flags one b).add (if flags.contains a then (frames.getD (flags.idxOf a) Frame.zero) b else (false, false)) := by
  intro frames
  induction frames with
  | nil =>
    intro flags _ hl
    cases flags with
    | nil => simp [due, Pauli.add]
    | cons _ _ => simp at hl
  | cons f fs ih =>
    intro flags hn hl
    cases flags with
    | nil => simp at hl
    | cons q qs =>
      obtain ⟨hq, hn⟩ := List.nodup_cons.1 hn
      by_cases hqa : q = a
      · subst hqa
        have : due fs qs (fun x => one x || decide (x = q)) b = due fs qs one b := by
          refine due_congr fun e he => Or.inr ?_
          have : e.2 ≠ q := fun h => hq (h ▸ (List.of_mem_zip he).2)
          simp [this]
        simp only [due, List.zip_cons_cons, List.foldr_cons] at this ⊢
        simp only [this, ha, Bool.false_or, decide_true, if_true, List.contains_cons, BEq.rfl, Bool.true_or,
          List.idxOf_cons_self, List.getD_cons_zero, Bool.false_eq_true, if_false]
        exact Pauli.add_comm _ _
      · have := ih (flags := qs) hn (by simpa using hl)
        have h1 : (q :: qs).contains a = qs.contains a := by simp [Ne.symm hqa]
        have h2 : (q :: qs).idxOf a = qs.idxOf a + 1 := List.idxOf_cons_ne qs hqa
        simp only [due, List.zip_cons_cons, List.foldr_cons, h1, h2, List.getD_cons_succ, decide_eq_false hqa,
          Bool.or_false] at this ⊢
        rw [this]
        split
        · rw [Pauli.add_assoc]
        · rfl

/-! ## The loop -/

/-- The qubits with the outcome 1. -/
def ones (log : List (Nat × Pauli × Bool)) (q : Nat) : Bool := log.any fun e => decide (e.1 = q) && e.2.2

theorem ones_append (l l' : List (Nat × Pauli × Bool)) (q : Nat) : ones (l ++ l') q = (ones l q || ones l' q) := by
  simp [ones]

theorem ones_mem {log : List (Nat × Pauli × Bool)} {q : Nat} (h : ones log q = true) : q ∈ log.map (·.1) := by
  simp only [ones, List.any_eq_true, Bool.and_eq_true, decide_eq_true_eq] at h
  obtain ⟨e, he, rfl, _⟩ := h
  exact List.mem_map_of_mem he

theorem execute_eq (frames : List Frame) (flags : List Nat) (outcome : Run → Nat → Bool) (init : Frame)
    (steps : List (List Nat)) : execute frames flags outcome init steps =
      steps.flatten.foldl (measure frames flags outcome) ⟨init, []⟩ := by
  rw [execute, List.foldl_flatten]

variable {frames : List Frame} {flags : List Nat} {outcome : Run → Nat → Bool}

/-- The loop adds to the log. -/
theorem log_foldl (l : List Nat) : ∀ r : Run, ∃ log, (l.foldl (measure frames flags outcome) r).log = r.log ++ log ∧
    log.map (·.1) = l := by
  induction l with
  | nil => intro r; exact ⟨[], by simp, rfl⟩
  | cons a l ih =>
    intro r
    obtain ⟨log, h1, h2⟩ := ih (measure frames flags outcome r a)
    refine ⟨(a, r.corr a, outcome r a) :: log, ?_, by rw [List.map_cons, h2]⟩
    rw [List.foldl_cons, h1]
    exact List.append_assoc _ _ _

/-- The corrections are those due by what is in the log, on top of the initial ones. -/
theorem corr_foldl (hf : flags.Nodup) (hl : frames.length = flags.length) (init : Frame) (l : List Nat) : ∀ r : Run,
    (r.log.map (·.1) ++ l).Nodup → (∀ b, r.corr b = (init b).add (due frames flags (ones r.log) b)) →
    ∀ b, (l.foldl (measure frames flags outcome) r).corr b =
      (init b).add (due frames flags (ones (l.foldl (measure frames flags outcome) r).log) b) := by
  induction l with
  | nil => intro r _ h; exact h
  | cons a l ih =>
    intro r hn h
    refine ih _ ?_ ?_
    · simpa [measure] using hn
    · intro b
      have ha : ones r.log a = false := by
        by_contra h'
        have := ones_mem (by simpa using h')
        simp only [List.nodup_append, List.mem_cons] at hn
        exact hn.2.2 a this a (Or.inl rfl) rfl
      simp only [measure]
      cases ho : outcome r a with
      | false =>
        rw [Bool.false_and, if_neg (by simp), h b]
        congr 1
        refine due_congr fun e _ => Or.inr ?_
        rw [ones_append]
        simp [ones]
      | true =>
        have h1 : due frames flags (ones (r.log ++ [(a, r.corr a, true)])) b =
            due frames flags (fun q => ones r.log q || decide (q = a)) b := by
          refine due_congr fun e _ => Or.inr ?_
          rw [ones_append]
          simp [ones, eq_comm]
        rw [h1, due_insert b ha hf hl, Bool.true_and]
        split
        · rw [Frame.add, h b, Pauli.add_assoc]
        · rw [h b, Pauli.add_zero]

/-- The correction in every entry of the log is what was due at that moment. -/
theorem entry_foldl (hf : flags.Nodup) (hl : frames.length = flags.length) (init : Frame) {l : List Nat} (hn : l.Nodup)
    {log : List (Nat × Pauli × Bool)} (h : log = (l.foldl (measure frames flags outcome) ⟨init, []⟩).log)
    {pre post : List (Nat × Pauli × Bool)} {b : Nat} {c : Pauli} {o : Bool} (hlog : log = pre ++ (b, c, o) :: post) :
    c = (init b).add (due frames flags (ones pre) b) ∧ ∃ r : Run, r.corr b = c ∧ r.log = pre ∧ o = outcome r b := by
  obtain ⟨log', h1, h2⟩ := log_foldl (frames := frames) (flags := flags) (outcome := outcome) l ⟨init, []⟩
  have h3 : log.map (·.1) = l := by rw [h, h1]; simpa using h2
  have h4 : l = pre.map (·.1) ++ b :: post.map (·.1) := by rw [← h3, hlog]; simp
  rw [h4, List.foldl_append, List.foldl_cons] at h
  obtain ⟨l1, e1, e2⟩ := log_foldl (frames := frames) (flags := flags) (outcome := outcome) (pre.map (·.1)) ⟨init, []⟩
  have hc := corr_foldl (outcome := outcome) hf hl init (pre.map (·.1)) ⟨init, []⟩
    (by rw [h4] at hn; simpa using (List.nodup_append.1 hn).1) (by
      intro b
      have : due frames flags (ones []) b = (false, false) := by
        have : ∀ fs : List (Frame × Nat),
            fs.foldr (fun e acc => if ones [] e.2 then (e.1 b).add acc else acc) (false, false) = (false, false) := by
          intro fs
          induction fs with
          | nil => rfl
          | cons e fs ih => rw [List.foldr_cons, ih]; rfl
        exact this _
      rw [this, Pauli.add_zero]) b
  generalize hr : (pre.map (·.1)).foldl (measure frames flags outcome) ⟨init, []⟩ = r at h hc e1
  obtain ⟨l2, e3, e4⟩ := log_foldl (frames := frames) (flags := flags) (outcome := outcome) (post.map (·.1))
    (measure frames flags outcome r b)
  rw [e3, hlog] at h
  have e5 : r.log = l1 := by simpa using e1
  simp only [measure, List.append_assoc, List.singleton_append] at h
  have h5 := List.append_inj h (by rw [e5, ← List.length_map (·.1), ← e2, List.length_map])
  have h6 : (b, c, o) = (b, r.corr b, outcome r b) := by
    have := h5.2
    simp only [List.cons.injEq] at this
    exact this.1
  simp only [Prod.mk.injEq, true_and] at h6
  rw [h5.1, h6.1]
  exact ⟨hc, r, rfl, rfl, h6.2⟩

/-! ## Dependencies -/

/-- In the order of a valid schedule, what a qubit depends on comes before it. -/
theorem needs_before {P : Problem} (hn : P.bits.Nodup) {S : Schedule} (hS : P.Valid S) {b d : Nat} (h : P.Needs b d)
    {pre post : List Nat} (hp : S.flatten = pre ++ b :: post) : d ∈ pre := by
  have hnd : S.flatten.Nodup := hS.perm.nodup_iff.2 hn
  have hb : b ∈ S.flatten := by rw [hp]; simp
  obtain ⟨s, hs, hbs⟩ := List.mem_flatten.1 hb
  obtain ⟨i, hi, his⟩ := List.getElem_of_mem hs
  obtain ⟨j, s', hj, hjs, hd⟩ := hS.deps i s (by rw [← his]; exact List.getElem?_eq_getElem hi) b hbs d h
  obtain ⟨s1, s2, hs12⟩ := List.append_of_mem hbs
  have e1 : S = S.take i ++ s :: S.drop (i + 1) := by
    rw [← his, List.getElem_cons_drop, List.take_append_drop]
  have e2 : S.flatten = ((S.take i).flatten ++ s1) ++ b :: (s2 ++ (S.drop (i + 1)).flatten) := by
    conv_lhs => rw [e1]
    simp [hs12]
  have e3 : pre = (S.take i).flatten ++ s1 := by
    have h1 : S.flatten.idxOf b = pre.length := by
      have : b ∉ pre := by
        rw [hp] at hnd
        intro hb
        exact (List.nodup_append.1 hnd).2.2 b hb b (by simp) rfl
      rw [hp, List.idxOf_append_of_notMem this, List.idxOf_cons_self, Nat.add_zero]
    have h2 : S.flatten.idxOf b = ((S.take i).flatten ++ s1).length := by
      have : b ∉ (S.take i).flatten ++ s1 := by
        rw [e2] at hnd
        intro hb
        exact (List.nodup_append.1 hnd).2.2 b hb b (by simp) rfl
      rw [e2, List.idxOf_append_of_notMem this, List.idxOf_cons_self, Nat.add_zero]
    exact (List.append_inj (hp.symm.trans e2) (by omega)).1
  rw [e3]
  refine List.mem_append_left _ (List.mem_flatten.2 ⟨s', ?_, hd⟩)
  exact List.mem_of_getElem? (i := j) (by rw [List.getElem?_take]; simpa [hj] using hjs)

theorem needs_all_before {P : Problem} (hn : P.bits.Nodup) {S : Schedule} (hS : P.Valid S) {b q : Nat}
    (h : Relation.TransGen P.Needs b q) {pre post : List Nat} (hp : S.flatten = pre ++ b :: post) : q ∈ pre := by
  induction h using Relation.TransGen.head_induction_on generalizing pre post with
  | single h => exact needs_before hn hS h hp
  | @head a d h _ ih =>
    have h1 := needs_before hn hS h hp
    obtain ⟨p1, p2, h2⟩ := List.append_of_mem h1
    have := ih (pre := p1) (post := p2 ++ a :: post) (by rw [hp, h2]; simp)
    rw [h2]
    exact List.mem_append_left _ this

/-! ## Trackers are linear -/

theorem Gate.conj_add (g : Gate) (f f' : Frame) : g.conj (f.add f') = (g.conj f).add (g.conj f') := by
  funext q
  cases g <;> simp only [Gate.conj, Frame.add, Pauli.add] <;> repeat' split
  all_goals first
    | rfl
    | (ext <;> simp only [Bool.xor_left_comm, Bool.xor_comm])

theorem Gate.conj_zero (g : Gate) : g.conj Frame.zero = Frame.zero := by
  funext q
  cases g <;> simp [Gate.conj, Frame.zero]

theorem Gate.conj_conj (g : Gate) (f : Frame) : g.conj (g.conj f) = f := by
  funext q
  cases g with
  | h a =>
    by_cases h : q = a
    · subst h; simp [Gate.conj]
    · simp [Gate.conj, h]
  | s a =>
    by_cases h : q = a
    · subst h; simp [Gate.conj]
    · simp [Gate.conj, h]
  | cz a b =>
    by_cases h : q = a
    · subst h
      by_cases h' : b = q <;> simp [Gate.conj, h']
    · by_cases h' : q = b
      · subst h'; simp [Gate.conj, h]
      · simp [Gate.conj, h, h']
  | swap a b =>
    by_cases h : q = a
    · subst h
      by_cases h' : b = q <;> simp [Gate.conj, h']
    · by_cases h' : q = b
      · subst h'; simp [Gate.conj, h]
      · simp [Gate.conj, h, h']

/-- What the gates among some operations do with a frame. -/
def through : List Op → Frame → Frame
  | [], f => f
  | .gate g :: ops, f => through ops (g.conj f)
  | _ :: ops, f => through ops f

theorem through_add (ops : List Op) : ∀ f f' : Frame, through ops (f.add f') = (through ops f).add (through ops f') := by
  induction ops with
  | nil => intro f f'; rfl
  | cons o ops ih =>
    intro f f'
    cases o with
    | gate g => rw [through, Gate.conj_add]; exact ih _ _
    | newQubit a => exact ih _ _
    | track a p => exact ih _ _

theorem through_zero (ops : List Op) : through ops Frame.zero = Frame.zero := by
  induction ops with
  | nil => rfl
  | cons o ops ih =>
    cases o with
    | gate g => rw [through, Gate.conj_zero]; exact ih
    | newQubit a => exact ih
    | track a p => exact ih

theorem through_injective (ops : List Op) : ∀ {f f' : Frame}, through ops f = through ops f' → f = f' := by
  induction ops with
  | nil => intro f f' h; exact h
  | cons o ops ih =>
    intro f f' h
    cases o with
    | gate g =>
      have := ih h
      rw [← Gate.conj_conj g f, this, Gate.conj_conj]
    | newQubit a => exact ih h
    | track a p => exact ih h

/-- The frames of a tracker: those it had, and new ones that do not depend on them. -/
theorem applyAll_eq (ops : List Op) : ∀ fs : List Frame,
    applyAll ops fs = fs.map (through ops) ++ applyAll ops [] := by
  induction ops with
  | nil => intro fs; simp [applyAll, through]
  | cons o ops ih =>
    intro fs
    have h1 : applyAll (o :: ops) fs = applyAll ops (o.apply fs) := rfl
    have h2 : applyAll (o :: ops) [] = applyAll ops (o.apply []) := rfl
    rw [h1, h2, ih (o.apply fs), ih (o.apply [])]
    cases o with
    | gate g => simp [Op.apply, through, Function.comp_def]
    | newQubit a => simp [Op.apply, through]
    | track a p => simp [Op.apply, through]

theorem applyAll_no_track {ops : List Op} (h : ∀ o ∈ ops, o.isTrack = false) : applyAll ops [] = [] := by
  induction ops with
  | nil => rfl
  | cons o ops ih =>
    have h1 : applyAll (o :: ops) [] = applyAll ops (o.apply []) := rfl
    have h0 := h o List.mem_cons_self
    rw [h1]
    cases o with
    | gate g => exact ih fun o ho => h o (List.mem_cons_of_mem _ ho)
    | newQubit a => exact ih fun o ho => h o (List.mem_cons_of_mem _ ho)
    | track a p => simp [Op.isTrack] at h0

theorem through_filter (ops : List Op) : ∀ f, through (ops.filter fun o => !o.isTrack) f = through ops f := by
  induction ops with
  | nil => intro f; rfl
  | cons o ops ih =>
    intro f
    cases o with
    | gate g => exact ih _
    | newQubit a => exact ih _
    | track a p => exact ih _

theorem bufferTracker_eq (n : Nat) :
    bufferTracker n = (List.range n).flatMap fun i => [single i (true, false), single i (false, true)] := by
  have : ∀ (l : List Nat) (fs : List Frame),
      applyAll (l.flatMap fun i => [.track i (true, false), .track i (false, true)]) fs =
        fs ++ l.flatMap fun i => [single i (true, false), single i (false, true)] := by
    intro l
    induction l with
    | nil => intro fs; simp [applyAll]
    | cons i l ih =>
      intro fs
      have := ih (fs ++ [single i (true, false)] ++ [single i (false, true)])
      simp only [List.flatMap_cons, List.cons_append, List.nil_append]
      rw [show applyAll (Op.track i (true, false) :: Op.track i (false, true) ::
        l.flatMap fun i => [Op.track i (true, false), Op.track i (false, true)]) fs = applyAll
          (l.flatMap fun i => [Op.track i (true, false), Op.track i (false, true)])
          (fs ++ [single i (true, false)] ++ [single i (false, true)]) from rfl, this]
      simp
  rw [bufferTracker, this]
  rfl

theorem bufferTracker_length (n : Nat) : (bufferTracker n).length = 2 * n := by
  rw [bufferTracker_eq]
  induction n with
  | zero => rfl
  | succ n ih => rw [List.range_succ, List.flatMap_append, List.length_append, ih]; simp; omega

theorem bufferTracker_get {n i : Nat} (h : i < n) : (bufferTracker n)[2 * i]? = some (single i (true, false)) ∧
    (bufferTracker n)[2 * i + 1]? = some (single i (false, true)) := by
  rw [bufferTracker_eq]
  induction n with
  | zero => omega
  | succ n ih =>
    have hlen := bufferTracker_length n
    rw [bufferTracker_eq] at hlen
    rw [List.range_succ, List.flatMap_append]
    by_cases hi : i < n
    · rw [List.getElem?_append_left (by omega), List.getElem?_append_left (by omega)]
      exact ih hi
    · obtain rfl : i = n := by omega
      rw [List.getElem?_append_right (by omega), List.getElem?_append_right (by omega), hlen]
      simp

/-- The corrections on the qubits 0, 1, ... as a frame. -/
def onInputs (output : List Pauli) : Frame := fun q => output.getD q (false, false)

/-- The buffer tracker with the right positions. -/
theorem addBuffer_eq {ops : List Op} (h : ∀ o ∈ ops, o.isTrack = false) {n : Nat} {output : List Pauli}
    (hn : output.length ≤ n) :
    addBuffer (fun i => 2 * i) (fun i => 2 * i + 1) (applyAll ops (bufferTracker n)) output =
      through ops (onInputs output) := by
  rw [applyAll_eq, applyAll_no_track h, List.append_nil, addBuffer]
  have hget : ∀ i, i < n → ((bufferTracker n).map (through ops)).getD (2 * i) Frame.zero =
      through ops (single i (true, false)) ∧
      ((bufferTracker n).map (through ops)).getD (2 * i + 1) Frame.zero = through ops (single i (false, true)) := by
    intro i hi
    obtain ⟨h1, h2⟩ := bufferTracker_get hi
    simp [List.getD_eq_getElem?_getD, h1, h2]
  have key : ∀ (l : List (Pauli × Nat)) (f : Frame), (∀ e ∈ l, e.2 < n) →
      l.foldl (fun f e =>
        let f := if e.1.1 then f.add (((bufferTracker n).map (through ops)).getD (2 * e.2) Frame.zero) else f
        if e.1.2 then f.add (((bufferTracker n).map (through ops)).getD (2 * e.2 + 1) Frame.zero) else f)
        (through ops f) = through ops (l.foldl (fun f e => f.add (single e.2 e.1)) f) := by
    intro l
    induction l with
    | nil => intro f _; rfl
    | cons e l ih =>
      intro f hl
      obtain ⟨⟨z, x⟩, i⟩ := e
      obtain ⟨g1, g2⟩ := hget i (hl _ List.mem_cons_self)
      have ih := ih (f.add (single i (z, x))) fun e he => hl e (List.mem_cons_of_mem _ he)
      rw [List.foldl_cons, List.foldl_cons, ← ih, through_add]
      congr 1
      simp only [g1, g2]
      have hs : single i (true, true) = (single i (true, false)).add (single i (false, true)) := by
        funext q
        simp only [single, Frame.add]
        split <;> rfl
      have h0 : single i (false, false) = Frame.zero := by
        funext q
        simp [single, Frame.zero]
      cases z <;> cases x
      · simp [h0, through_zero, Frame.add_zero]
      · simp
      · simp
      · simp [hs, through_add, Frame.add_assoc]
  have key2 : ∀ (l : List Pauli) (k : Nat) (f : Frame) (q : Nat),
      ((l.zipIdx k).foldl (fun f e => f.add (single e.2 e.1)) f) q =
        (f q).add (if k ≤ q then l.getD (q - k) (false, false) else (false, false)) := by
    intro l
    induction l with
    | nil => intro k f q; simp [Pauli.add_zero]
    | cons p l ih =>
      intro k f q
      rw [List.zipIdx_cons, List.foldl_cons, ih]
      simp only [Frame.add, Pauli.add_assoc]
      congr 1
      rcases Nat.lt_trichotomy q k with h | h | h
      · rw [if_neg (by omega), if_neg (by omega)]
        simp [single, Nat.ne_of_lt h, Pauli.add]
      · subst h
        rw [if_neg (by omega), Pauli.add_zero]
        simp [single]
      · obtain ⟨d, rfl⟩ : ∃ d, q = k + 1 + d := ⟨q - k - 1, by omega⟩
        rw [if_pos (by omega), if_pos (by omega)]
        have h1 : k + 1 + d - (k + 1) = d := by omega
        have h2 : k + 1 + d - k = d + 1 := by omega
        rw [h1, h2, List.getD_cons_succ]
        simp [single, show k + 1 + d ≠ k by omega, Pauli.zero_add]
  have h0 := key output.zipIdx Frame.zero (by
    intro e he
    have := List.snd_lt_add_of_mem_zipIdx he
    omega)
  rw [through_zero] at h0
  rw [h0]
  congr 1
  funext q
  rw [key2]
  simp [Frame.zero, Pauli.zero_add, onInputs]

/-- The product of the frames selected by `on`. -/
def total (on : Nat → Bool) (fs : List Frame) : Frame :=
  fs.zipIdx.foldr (fun e f => if on e.2 then e.1.add f else f) Frame.zero

theorem total_map (ops : List Op) (on : Nat → Bool) (fs : List Frame) :
    total on (fs.map (through ops)) = through ops (total on fs) := by
  have : ∀ (fs : List Frame) (k : Nat),
      ((fs.map (through ops)).zipIdx k).foldr (fun e f => if on e.2 then e.1.add f else f) Frame.zero =
        through ops ((fs.zipIdx k).foldr (fun e f => if on e.2 then e.1.add f else f) Frame.zero) := by
    intro fs
    induction fs with
    | nil => intro k; exact (through_zero ops).symm
    | cons f fs ih =>
      intro k
      simp only [List.map_cons, List.zipIdx_cons, List.foldr_cons, ih]
      split
      · rw [through_add]
      · rfl
  exact this fs 0

theorem total_append (on : Nat → Bool) (fs gs : List Frame) :
    total on (fs ++ gs) = (total on fs).add (total (fun i => on (fs.length + i)) gs) := by
  have h1 : ∀ (fs : List Frame) (k : Nat) (g : Frame),
      (fs.zipIdx k).foldr (fun e f => if on e.2 then e.1.add f else f) g =
        ((fs.zipIdx k).foldr (fun e f => if on e.2 then e.1.add f else f) Frame.zero).add g := by
    intro fs
    induction fs with
    | nil => intro k g; exact (Frame.zero_add g).symm
    | cons f fs ih =>
      intro k g
      simp only [List.zipIdx_cons, List.foldr_cons]
      rw [ih (k + 1) g]
      split
      · rw [Frame.add_assoc]
      · rfl
  have h2 : ∀ (gs : List Frame) (k : Nat),
      (gs.zipIdx k).foldr (fun e f => if on e.2 then e.1.add f else f) Frame.zero =
        total (fun i => on (k + i)) gs := by
    intro gs k
    have : ∀ (gs : List Frame) (j : Nat),
        (gs.zipIdx (k + j)).foldr (fun e f => if on e.2 then e.1.add f else f) Frame.zero =
          (gs.zipIdx j).foldr (fun e f => if on (k + e.2) then e.1.add f else f) Frame.zero := by
      intro gs
      induction gs with
      | nil => intro j; rfl
      | cons f gs ih =>
        intro j
        simp only [List.zipIdx_cons, List.foldr_cons]
        rw [show k + j + 1 = k + (j + 1) by omega, ih]
    exact this gs 0
  rw [total, List.zipIdx_append, List.foldr_append, h1, Nat.zero_add, h2 gs]
  rfl

end Verif.Widget
