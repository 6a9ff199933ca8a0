import Verif.Model.Interface
import Verif.Proofs.AMap
import Verif.Proofs.Filter
/-!
# Invariants of scheduler states along a path, for arbitrary inputs

If a relation between paths and scheduler states holds at the beginning and is kept by `next_and_focus`, then it holds for
every returned path and some state, and the memory reported is that of this state; in every mode.
-/

namespace Verif.Trace

open Search Search.Threaded

/-- If the computation returns, then with a value in `I`. -/
def Sat {α : Type} (I : α → Prop) (x : R α) : Prop := ∀ v, x = .ok v → I v

namespace Sat

variable {α β : Type} {I : α → Prop} {J : β → Prop} {x : R α}

theorem bind {f : α → R β} (h : Sat I x) (hf : ∀ v, I v → Sat J (f v)) : Sat J (x >>= f) := by
  intro w hw
  cases x with
  | error e => simp [Bind.bind, Except.bind] at hw
  | ok v => exact hf v (h v rfl) w hw

theorem pure {v : α} (h : I v) : Sat I (pure v) := by
  intro w hw
  cases hw
  exact h

theorem error (e : Panic) : Sat I (.error e : R α) := by
  intro v hv
  cases hv

theorem any (x : R α) : Sat (fun _ => True) x := fun _ _ => trivial

theorem mono {I' : α → Prop} (h : Sat I x) (hI : ∀ v, I v → I' v) : Sat I' x := fun v hv => hI v (h v hv)

end Sat

/-- `Good p s`: state `s` belongs to path `p`. It is kept by `next_and_focus`. -/
structure Kept (prof : Profile) (Good : Steps → Scheduler Partitioner → Prop) : Prop where
  step : ∀ p s, Good p s → Sat (fun r => Good p r.1 ∧ ∀ v, r.2 = some v → Good (p ++ [v.2]) v.1) (s.nextAndFocus prof)

variable {prof : Profile} {Good : Steps → Scheduler Partitioner → Prop}

/-- The states on the stack belong to the prefixes of the path. -/
def Stacked (Good : Steps → Scheduler Partitioner → Prop) : Steps → Scheduler Partitioner →
    List (Scheduler Partitioner) → Prop
  | p, s, [] => Good p s
  | p, s, top :: rest => Good p s ∧ Stacked Good p.dropLast top rest

theorem Stacked.good {p : Steps} {s : Scheduler Partitioner} {st : List (Scheduler Partitioner)}
    (h : Stacked Good p s st) : Good p s := by
  cases st with
  | nil => exact h
  | cons top rest => exact h.1

theorem Stacked.replace {p : Steps} {s s' : Scheduler Partitioner} {st : List (Scheduler Partitioner)}
    (h : Stacked Good p s st) (h' : Good p s') : Stacked Good p s' st := by
  cases st with
  | nil => exact h'
  | cons top rest => exact ⟨h', h.2⟩

/-- Every result belongs to a path with a good state. -/
def ResGood (Good : Steps → Scheduler Partitioner → Prop) (m : MappedPaths) : Prop :=
  ∀ e ∈ m, e.1 = e.2.2.length ∧ ∃ s, Good e.2.2 s ∧ e.2.1 = s.space.maxMemory

theorem ResGood.nil : ResGood Good [] := by intro e he; simp at he

theorem ResGood.erase {m : MappedPaths} (h : ResGood Good m) (k : Nat) : ResGood Good (AMap.erase m k) := by
  induction m with
  | nil => exact h
  | cons e m ih =>
    obtain ⟨k', v⟩ := e
    have h' : ResGood Good m := fun e he => h e (List.mem_cons_of_mem _ he)
    unfold AMap.erase
    split
    · exact ih h'
    · intro e he
      rcases List.mem_cons.1 he with rfl | he
      · exact h _ (by simp)
      · exact ih h' e he

theorem ResGood.insert {m : MappedPaths} (h : ResGood Good m) {k : Nat} {v : Nat × Steps} (hk : k = v.2.length)
    (hv : ∃ s, Good v.2 s ∧ v.1 = s.space.maxMemory) : ResGood Good (AMap.insert m k v) := by
  intro e he
  rcases List.mem_cons.1 he with rfl | he
  · exact ⟨hk, hv⟩
  · exact h.erase k e he

structure LGood (Good : Steps → Scheduler Partitioner → Prop) (l : Loc) : Prop where
  sweep : Stacked Good l.path l.sweep.current l.sweep.stack
  results : ResGood Good l.results

/-- What a step of the sweep makes of a path, before the search decides what to do with it. -/
def After (Good : Steps → Scheduler Partitioner → Prop) (p : Steps) :
    Sweep (Scheduler Partitioner) × Option (Step (List Nat) (Option Nat)) → Prop
  | (sw, none) => Stacked Good p sw.current sw.stack
  | (sw, some (.forward m)) => Good (p ++ [m]) sw.current ∧
      ∃ top rest, sw.stack = top :: rest ∧ Stacked Good p top rest
  | (sw, some (.backward leaf)) => Stacked Good p.dropLast sw.current sw.stack ∧
      ∀ mem, leaf = some mem → ∃ s, Good p s ∧ mem = s.space.maxMemory

theorem next_sat (hk : Kept prof Good) {p : Steps} {sw : Sweep (Scheduler Partitioner)}
    (h : Stacked Good p sw.current sw.stack) :
    Sat (After Good p) (sw.next (Scheduler.focusIter prof)) := by
  unfold Sweep.next
  refine Sat.bind (hk.step p _ h.good) fun r hr => ?_
  obtain ⟨cur, r⟩ := r
  cases r with
  | some v =>
    obtain ⟨new, mess⟩ := v
    exact Sat.pure ⟨hr.2 _ rfl, cur, sw.stack, rfl, h.replace hr.1⟩
  | none =>
    obtain ⟨c, stack⟩ := sw
    cases stack with
    | nil => exact Sat.pure hr.1
    | cons top rest =>
      refine Sat.pure ⟨h.2, ?_⟩
      intro mem hm
      refine ⟨cur, hr.1, ?_⟩
      have hm' : cur.atLeaf = some mem := hm
      unfold Scheduler.atLeaf at hm'
      split at hm'
      · exact (Option.some.inj hm').symm
      · cases hm'

section
variable {l : Loc} {m : List Nat}

theorem push_good (h : Good (l.path ++ [m]) l.sweep.current)
    (hs : ∃ top rest, l.sweep.stack = top :: rest ∧ Stacked Good l.path top rest) (hr : ResGood Good l.results) :
    LGood Good { l with path := l.path ++ [m] } := by
  obtain ⟨top, rest, h1, h2⟩ := hs
  refine ⟨?_, hr⟩
  simp only [h1]
  exact ⟨h, by rw [List.dropLast_concat]; exact h2⟩

theorem skip_good (hs : ∃ top rest, l.sweep.stack = top :: rest ∧ Stacked Good l.path top rest)
    (hr : ResGood Good l.results) {sw : Sweep (Scheduler Partitioner)} {r : Except EmptyStack Unit}
    (he : l.sweep.skipCurrent = (sw, r)) : LGood Good { l with sweep := sw } := by
  obtain ⟨top, rest, h1, h2⟩ := hs
  unfold Sweep.skipCurrent at he
  rw [h1] at he
  simp only [Prod.mk.injEq] at he
  obtain ⟨rfl, _⟩ := he
  exact ⟨h2, hr⟩

theorem forward_sat (h : Good (l.path ++ [m]) l.sweep.current)
    (hs : ∃ top rest, l.sweep.stack = top :: rest ∧ Stacked Good l.path top rest) (hr : ResGood Good l.results) :
    Sat (fun r => LGood Good r.1) (forward m l) := by
  unfold forward
  refine Sat.bind (Sat.any _) fun bound _ => ?_
  split
  · rcases he : l.sweep.skipCurrent with ⟨sw, r⟩
    cases r with
    | error e => exact Sat.pure (skip_good hs hr he)
    | ok u => exact Sat.pure (skip_good hs hr he)
  · exact Sat.pure (push_good h hs hr)

theorem backward_sat (h : Stacked Good l.path.dropLast l.sweep.current l.sweep.stack) (hr : ResGood Good l.results)
    {leaf : Option Nat} (hl : ∀ mem, leaf = some mem → ∃ s, Good l.path s ∧ mem = s.space.maxMemory) :
    Sat (LGood Good) (backward leaf l) := by
  cases leaf with
  | none => exact Sat.pure ⟨h, hr⟩
  | some mem =>
    unfold backward
    simp only
    split
    · exact Sat.pure ⟨h, hr.insert rfl (hl mem rfl)⟩
    · exact Sat.error _

theorem searchIter_sat (hk : Kept prof Good) (h : LGood Good l) :
    Sat (fun r => LGood Good r.1) (searchIter prof l) := by
  unfold searchIter
  refine Sat.bind (next_sat hk h.sweep) fun r hr => ?_
  obtain ⟨sw, step⟩ := r
  rcases step with - | ⟨m | leaf⟩
  · exact Sat.pure ⟨hr, h.results⟩
  · exact forward_sat (l := { l with sweep := sw }) hr.1 hr.2 h.results
  · refine Sat.bind (backward_sat (l := { l with sweep := sw }) hr.1 h.results hr.2) fun l' hl => ?_
    exact Sat.pure hl

end

variable {F σ : Type} [FloatOps F]

theorem probabilisticForward_sat (accept : Accept F) (gen : Rng F σ) {l : Loc} {m : List Nat}
    (h : Good (l.path ++ [m]) l.sweep.current)
    (hs : ∃ top rest, l.sweep.stack = top :: rest ∧ Stacked Good l.path top rest) (hr : ResGood Good l.results)
    (lc lm : Nat) (rng : σ) :
    Sat (fun r => LGood Good r.1) (probabilisticForward accept gen m lc lm l rng) := by
  unfold probabilisticForward
  refine Sat.bind (Sat.any _) fun bound _ => ?_
  simp only
  split
  · rcases he : l.sweep.skipCurrent with ⟨sw, r⟩
    cases r with
    | error e => exact Sat.pure (skip_good hs hr he)
    | ok u => exact Sat.pure (skip_good hs hr he)
  · cases l.best.getLast? with
    | none => exact Sat.error _
    | some minimal =>
      simp only
      split
      · exact Sat.pure (push_good h hs hr)
      · split
        · exact Sat.pure (push_good h hs hr)
        · rcases he : l.sweep.skipCurrent with ⟨sw, r⟩
          cases r with
          | error e => exact Sat.pure (skip_good hs hr he)
          | ok u => exact Sat.pure (skip_good hs hr he)

theorem probIter_sat (hk : Kept prof Good) (accept : Accept F) (gen : Rng F σ) {l : Loc} (h : LGood Good l)
    (rng : σ) : Sat (fun r => LGood Good r.1) (probIter prof accept gen l rng) := by
  unfold probIter
  refine Sat.bind (next_sat hk h.sweep) fun r hr => ?_
  obtain ⟨sw, step⟩ := r
  rcases step with - | ⟨m | leaf⟩
  · exact Sat.pure ⟨hr, h.results⟩
  · exact probabilisticForward_sat (l := { l with sweep := sw }) accept gen hr.1 hr.2 h.results _ _ rng
  · refine Sat.bind (backward_sat (l := { l with sweep := sw }) hr.1 h.results hr.2) fun l' hl => ?_
    exact Sat.pure hl

theorem modeIter_sat (hk : Kept prof Good) (mode : Mode F σ) {l : Loc} (h : LGood Good l) (rng : σ) :
    Sat (fun r => LGood Good r.1) (modeIter mode prof l rng) := by
  cases mode with
  | det => exact Sat.bind (searchIter_sat hk h) fun r hr => Sat.pure hr
  | prob accept gen => exact probIter_sat hk accept gen h rng

theorem searchLoop_sat (hk : Kept prof Good) (timer : Nat → Bool) (fuel : Nat) : ∀ (k : Nat) (l : Loc),
    LGood Good l → Sat (fun r => ∀ v, r = some v → LGood Good v) (searchLoop prof timer fuel k l) := by
  induction fuel with
  | zero => intro k l _; exact Sat.pure (by simp)
  | succ fuel ih =>
    intro k l h
    unfold searchLoop
    refine Sat.bind (searchIter_sat hk h) fun r hr => ?_
    obtain ⟨l', stop⟩ := r
    simp only
    split
    · exact Sat.pure (by rintro v ⟨⟩; exact hr)
    · split
      · exact Sat.pure (by rintro v ⟨⟩; exact hr)
      · exact ih (k + 1) l' hr

theorem probLoop_sat (hk : Kept prof Good) (accept : Accept F) (gen : Rng F σ) (timer : Nat → Bool) (fuel : Nat) :
    ∀ (k : Nat) (l : Loc) (rng : σ), LGood Good l →
    Sat (fun r => ∀ v, r = some v → LGood Good v.1) (probLoop prof accept gen timer fuel k l rng) := by
  induction fuel with
  | zero => intro k l rng _; exact Sat.pure (by simp)
  | succ fuel ih =>
    intro k l rng h
    unfold probLoop
    refine Sat.bind (probIter_sat hk accept gen h rng) fun r hr => ?_
    obtain ⟨l', rng', stop⟩ := r
    simp only
    split
    · exact Sat.pure (by rintro v ⟨⟩; exact hr)
    · split
      · exact Sat.pure (by rintro v ⟨⟩; exact hr)
      · exact ih (k + 1) l' rng' hr

/-- What holds of a returned list. -/
def OutGood (Good : Steps → Scheduler Partitioner → Prop) (out : List Path) : Prop :=
  (∀ p ∈ out, p.time = p.steps.length ∧ ∃ s, Good p.steps s ∧ p.space = s.space.maxMemory) ∧
    out.Pairwise fun a b => a.time < b.time ∧ b.space < a.space

theorem postprocess_sat {hashIter : MappedPaths → MappedPaths} (hh : ∀ m, (hashIter m).Perm m) (n : Nat)
    {results : MappedPaths} (hr : ResGood Good results) : Sat (OutGood Good) (postprocess hashIter n results) := by
  intro out ho
  obtain ⟨o, h1, h2⟩ := postprocess_spec hashIter hh n results
  rw [h1] at ho
  injection ho with ho
  subst ho
  refine ⟨fun p hp => ?_, h2.strict⟩
  exact hr _ (AMap.mem_of_get ((h2.mem p).1 hp).2.1)

theorem init_good {s : Scheduler Partitioner} (h : Good [] s) (n : Nat) : LGood Good (Loc.init s n) :=
  ⟨h, ResGood.nil⟩

/-! ### Threads -/

def KGood (Good : Steps → Scheduler Partitioner → Prop) : TaskState σ → Prop
  | .ready s none _ => Good [] s
  | .ready s (some m) _ => Good [m] s
  | .running l _ counter wasInit => LGood Good l ∧
      (counter = 0 → wasInit = true → l.sweep.stack = [])
  | .finishing l => ResGood Good l.results
  | .done => True

structure PGood (Good : Steps → Scheduler Partitioner → Prop) (g : Global σ) : Prop where
  tasks : ∀ t ∈ g.tasks, KGood Good t
  results : ResGood Good g.results

theorem PGood.set {g : Global σ} (h : PGood Good g) (i : Nat) {t : TaskState σ} (ht : KGood Good t) :
    ∀ x ∈ g.tasks.set i t, KGood Good x := by
  intro x hx
  rcases List.mem_or_eq_of_mem_set hx with hx | rfl
  · exact h.tasks x hx
  · exact ht

theorem mergeLoop_good (ss : List Nat) : ∀ (time : Nat) (ts : List Nat) (new results : MappedPaths),
    ResGood Good new → ResGood Good results → ResGood Good (mergeLoop time ss ts new results).2 := by
  induction ss with
  | nil => intro time ts new results _ h; simpa [mergeLoop] using h
  | cons s ss ih =>
    intro time ts new results hn h
    cases ts with
    | nil => simpa [mergeLoop] using h
    | cons t ts =>
      unfold mergeLoop
      split
      · split
        · rename_i r hget
          have hm := hn _ (AMap.mem_of_get hget)
          exact ih _ _ _ _ (hn.erase _) (h.insert hm.1 hm.2)
        · exact ih _ _ _ _ hn h
      · exact ih _ _ _ _ hn h

/-- After the first iteration with an empty stack the search goes on if there is something to measure. -/
theorem finishLoop_sat {l : Loc} (h : LGood Good l) (counter : Nat) (wasInit : Bool) :
    Sat (fun r => ResGood Good r.results) (finishLoop l counter wasInit) := by
  unfold finishLoop
  split
  · unfold backward
    simp only
    split
    · exact Sat.pure (h.results.insert rfl ⟨_, h.sweep.good, rfl⟩)
    · exact Sat.error _
  · exact Sat.pure h.results

theorem move_sat (hk : Kept prof Good) (mode : Mode F σ) {g : Global σ} (h : PGood Good g) (i : Nat) (bit : Bool) :
    Sat (PGood Good) (move mode prof g i bit) := by
  unfold move
  cases ht : g.tasks[i]? with
  | none => exact Sat.pure h
  | some t =>
    have hg := h.tasks t (List.mem_of_getElem? ht)
    cases t with
    | ready s init rng =>
      refine Sat.pure ⟨h.set i ?_, h.results⟩
      cases init with
      | none => exact ⟨⟨hg, ResGood.nil⟩, fun _ h => by cases h⟩
      | some m => exact ⟨⟨hg, ResGood.nil⟩, fun _ _ => rfl⟩
    | running l rng counter wasInit =>
      refine Sat.bind (modeIter_sat hk mode hg.1 rng) fun r hr => ?_
      obtain ⟨l', rng', stop⟩ := r
      simp only
      split
      · refine Sat.bind (finishLoop_sat hr counter wasInit) fun l'' hl => ?_
        exact Sat.pure ⟨h.set i hl, h.results⟩
      · have hex : LGood Good { l' with best := (exchange g.best l'.best).2 } := ⟨hr.sweep, hr.results⟩
        split
        · split
          · exact Sat.pure ⟨h.set i hex.results, h.results⟩
          · exact Sat.pure ⟨h.set i ⟨hex, fun h => by cases h⟩, h.results⟩
        · exact Sat.pure ⟨h.set i ⟨hr, fun h => by cases h⟩, h.results⟩
    | finishing l =>
      simp only
      split
      · exact Sat.pure ⟨h.set i trivial, h.results⟩
      · exact Sat.pure ⟨h.set i trivial, mergeLoop_good _ _ _ _ _ hg h.results⟩
    | done => exact Sat.pure h

theorem runMoves_sat (hk : Kept prof Good) (mode : Mode F σ) (ms : List (Nat × Bool)) : ∀ (g : Global σ),
    PGood Good g → Sat (PGood Good) (runMoves mode prof g ms) := by
  induction ms with
  | nil => intro g h; exact Sat.pure h
  | cons m ms ih =>
    intro g h
    unfold runMoves
    exact Sat.bind (move_sat hk mode h m.1 m.2) fun g' hg => ih g' hg

theorem spawnLoop_sat (hk : Kept prof Good) (taskBound : Int) (fuel : Nat) : ∀ (s : Scheduler Partitioner) (k : Int),
    Good [] s → Sat (fun r => (∀ t ∈ r.1, Good [t.2] t.1) ∧ Good [] r.2) (spawnLoop prof taskBound fuel s k) := by
  induction fuel with
  | zero => intro s k h; exact Sat.pure ⟨by simp, h⟩
  | succ fuel ih =>
    intro s k h
    unfold spawnLoop
    refine Sat.bind (hk.step [] s h) fun r hr => ?_
    obtain ⟨s', r⟩ := r
    cases r with
    | none => exact Sat.pure ⟨by simp, hr.1⟩
    | some v =>
      obtain ⟨focused, measure⟩ := v
      have h1 := hr.2 _ rfl
      simp only
      split
      · refine Sat.pure ⟨?_, hr.1⟩
        intro t ht
        simp only [List.mem_singleton] at ht
        subst ht
        exact h1
      · refine Sat.bind (ih s' (k + 1) hr.1) fun w hw => ?_
        refine Sat.pure ⟨?_, hw.2⟩
        intro t ht
        rcases List.mem_cons.1 ht with rfl | ht
        · exact h1
        · exact hw.1 t ht

theorem initGlobal_sat (hk : Kept prof Good) (taskBound : Int) (seeds : Nat → σ) {s : Scheduler Partitioner}
    (h : Good [] s) (n : Nat) : Sat (PGood Good) (initGlobal prof taskBound seeds s n) := by
  unfold initGlobal spawn
  simp only [bind_assoc, pure_bind]
  refine Sat.bind (spawnLoop_sat hk taskBound _ s 0 h) fun r hr => ?_
  refine Sat.pure ⟨?_, ResGood.nil⟩
  intro t ht
  rcases List.mem_append.1 ht with ht | ht
  · obtain ⟨k, hk, rfl⟩ := List.mem_mapIdx.1 ht
    exact hr.1 _ (List.getElem_mem hk)
  · simp only [List.mem_singleton] at ht
    subst ht
    exact hr.2

/-- The searches. `Good` holds of the scheduler that is built at the beginning. -/
theorem search_sat (env : Env F σ) (he : env.OK) (hk : Kept env.prof Good) (L : List (List Nat))
    (order : OrderGraph) (h0 : ∀ s, mkScheduler L order = .ok s → Good [] s) (args : Args F)
    (hs : args.doSearch = true) : Sat (fun r => ∀ out, r = some out → OutGood Good out) (run env L order args) := by
  have hpost : ∀ results, ResGood Good results → Sat (fun r => ∀ out, r = some out → OutGood Good out)
      (do let out ← postprocess env.hashIter L.length results; pure (some out)) := fun results hr =>
    Sat.bind (postprocess_sat he _ hr) fun out ho => Sat.pure (by rintro _ ⟨⟩; exact ho)
  unfold run
  rw [hs, Bool.not_true, if_neg (by simp)]
  unfold search
  simp only
  split
  · split
    · refine Sat.bind (I := Good []) h0 fun s hs => ?_
      refine Sat.bind (probLoop_sat hk _ _ _ _ 0 _ _ (init_good hs _)) fun r hr => ?_
      cases r with
      | none => exact Sat.pure (by simp)
      | some v => exact hpost _ (hr v rfl).results
    · refine Sat.bind (I := Good []) h0 fun s hs => ?_
      refine Sat.bind (searchLoop_sat hk _ _ 0 _ (init_good hs _)) fun r hr => ?_
      cases r with
      | none => exact Sat.pure (by simp)
      | some v => exact hpost _ (hr v rfl).results
  · have hthr : ∀ (mode : Mode F σ) (tb : Int) (seeds : Nat → σ) (moves : List (Nat × Bool)),
        Sat (fun r => ∀ out, r = some out → OutGood Good out)
          (searchThreaded mode env.prof env.hashIter tb seeds moves L order) := by
      intro mode tb seeds moves
      refine Sat.bind (I := Good []) h0 fun s hs => ?_
      refine Sat.bind (initGlobal_sat hk tb seeds hs _) fun g hg => ?_
      refine Sat.bind (runMoves_sat hk mode moves g hg) fun g' hg' => ?_
      split
      · exact hpost _ hg'.results
      · exact Sat.pure (by simp)
    split
    · exact hthr _ _ _ _
    · exact hthr _ _ _ _

end Verif.Trace
