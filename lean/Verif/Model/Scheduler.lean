import Verif.Model.Time
/-!
# Model of `mbqc_scheduling/src/scheduler.rs`
-/

namespace Verif

/-- `Scheduler<'l, T>`, scheduler.rs:36-39. -/
structure Scheduler (T : Type) where
  time : PathGenerator T
  space : Graph
  deriving DecidableEq, Repr

/-- `InstructionError`, scheduler.rs:121-128. -/
inductive InstructionError where
  | notMeasurable (e : NotMeasurable)
  | alreadyMeasured (e : AlreadyMeasured)
  deriving DecidableEq, Repr

namespace Scheduler

variable {T : Type}

/-- `Focus::focus_inplace` for `Scheduler`, scheduler.rs:61-68: the scheduler after the call and the
result. -/
def focusInplace [MeasurableSet T] (prof : Profile) (s : Scheduler T) (ms : List Nat) :
    R (Scheduler T × Except InstructionError Unit) := do
  let (time, r) ← s.time.focusInplace prof ms
  match r with
  | .error e => pure (⟨time, s.space⟩, .error (.notMeasurable e))
  | .ok () =>
    match prof with
    | .debug => do
      let (space, r) ← s.space.focusInplace prof ms
      match r with
      | .error e => pure (⟨time, space⟩, .error (.alreadyMeasured e))
      | .ok () => pure (⟨time, space⟩, .ok ())
    | .release => do
      let space ← s.space.focusUnchecked prof ms
      pure (⟨time, space⟩, .ok ())

/-- `Focus::focus` for `Scheduler`, scheduler.rs:70-83. -/
def focus [MeasurableSet T] (prof : Profile) (s : Scheduler T) (ms : List Nat) :
    R (Except InstructionError (Scheduler T)) := do
  match ← s.time.focus prof ms with
  | .error e => pure (.error (.notMeasurable e))
  | .ok time =>
    match prof with
    | .debug => do
      match ← s.space.focus prof ms with
      | .error e => pure (.error (.alreadyMeasured e))
      | .ok space => pure (.ok ⟨time, space⟩)
    | .release => do
      let space ← s.space.focusUnchecked prof ms
      pure (.ok ⟨time, space⟩)

/-- The graph update inside `next_and_focus`, scheduler.rs:97-100. -/
def focusSpace (prof : Profile) (g : Graph) (mess : List Nat) : R Graph :=
  match prof with
  | .debug => do
    match ← g.focus prof mess with
    | .error _ => .error .unwrapFailed
    | .ok g' => pure g'
  | .release => g.focusUnchecked prof mess

/-- `FocusIterator::next_and_focus` for `Scheduler<Partitioner>`, scheduler.rs:90-108. -/
def nextAndFocus (prof : Profile) (s : Scheduler Partitioner) :
    R (Scheduler Partitioner × Option (Scheduler Partitioner × List Nat)) := do
  let (time', r) ← s.time.nextAndFocus prof
  match r with
  | none => pure (⟨time', s.space⟩, none)
  | some (newTime, mess) => do
    let newSpace ← focusSpace prof s.space mess
    pure (⟨time', s.space⟩, some (⟨newTime, newSpace⟩, mess))

/-- `FocusIterator::at_leaf` for `Scheduler<Partitioner>`, scheduler.rs:110-116. -/
def atLeaf (s : Scheduler Partitioner) : Option Nat :=
  if s.time.measurable.set.isEmpty then some s.space.maxMemory else none

/-- `impl FocusIterator for Scheduler<'_, Partitioner>`, scheduler.rs:86-117. -/
def focusIter (prof : Profile) : FocusIter (Scheduler Partitioner) (List Nat) Nat :=
  ⟨nextAndFocus prof, atLeaf⟩

end Scheduler
end Verif
