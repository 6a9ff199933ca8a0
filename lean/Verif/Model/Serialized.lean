import Verif.Model.Probabilistic
import Verif.Model.Codec
/-!
# Model of `run_serialized` and its helpers in `mbqc_scheduling/src/interface.rs`
-/

namespace Verif

open Search

/-- What the code does to the outside world, in order. -/
inductive Event where
  | opened (path : String)
  | searched
  | created (path : String)
  deriving DecidableEq, Repr

/-- The file system and the faults it may have. Simplification: of the directories only the parent of
a created file is tracked. -/
structure World where
  files : String → Option Bytes
  dirs : String → Bool
  /-- `path.parent()` -/
  parent : String → Option String
  /-- Opening the path fails although the file exists (permissions, a directory). -/
  noOpen : String → Bool
  /-- `create_dir_all` fails. -/
  noDir : String → Bool
  /-- `File::create` fails. -/
  noCreate : String → Bool
  /-- So many bytes can still be written. -/
  space : Nat
  log : List Event

/-- `Box<dyn error::Error>`: where the error comes from. -/
inductive FileError where
  | io
  | decode
  | unknownFormat (format : String)
  deriving DecidableEq, Repr

/-- The decoders of a type in the two formats. -/
structure Decoders (α : Type) where
  json : Bytes → Option α
  bincode : Bytes → Option α

/-- The encoders of a type in the two formats. -/
structure Encoders (α : Type) where
  json : α → Bytes
  bincode : α → Bytes

namespace World

/-- `open`, interface.rs:127-129, and reading the file. -/
def openFile (w : World) (path : String) : World × Except FileError Bytes :=
  match w.files path with
  | none => (w, .error .io)
  | some bs =>
    if w.noOpen path then (w, .error .io)
    else ({ w with log := w.log ++ [.opened path] }, .ok bs)

/-- `deserialize_from_file`, interface.rs:162-171. -/
def deserializeFromFile {α : Type} (dec : Decoders α) (w : World) (path format : String) :
    World × Except FileError α :=
  if format = "serde_json" then
    match w.openFile path with
    | (w, .error e) => (w, .error e)
    | (w, .ok bs) =>
      match dec.json bs with
      | none => (w, .error .decode)
      | some x => (w, .ok x)
  else if format = "bincode" then
    match w.openFile path with
    | (w, .error e) => (w, .error e)
    | (w, .ok bs) =>
      match dec.bincode bs with
      | none => (w, .error .decode)
      | some x => (w, .ok x)
  else (w, .error (.unknownFormat format))

/-- `create`, interface.rs:131-136: the parent directories, then the (now empty) file. -/
def create (w : World) (path : String) : World × Except FileError Unit :=
  let r : World × Bool :=
    match w.parent path with
    | none => (w, true)
    | some p =>
      if w.noDir p then (w, false)
      else ({ w with dirs := fun q => w.dirs q || q == p }, true)
  if r.2 then
    if r.1.noCreate path then (r.1, .error .io)
    else ({ r.1 with files := fun q => if q = path then some [] else r.1.files q,
                     log := r.1.log ++ [.created path] }, .ok ())
  else (r.1, .error .io)

/-- Writing `bs` into the file that was just created: as much as there is space for. -/
def write (w : World) (path : String) (bs : Bytes) : World × Except FileError Unit :=
  if bs.length ≤ w.space then
    ({ w with files := fun q => if q = path then some bs else w.files q,
              space := w.space - bs.length }, .ok ())
  else
    ({ w with files := fun q => if q = path then some (bs.take w.space) else w.files q,
              space := 0 }, .error .io)

/-- `serialize_to_file`, interface.rs:149-160. -/
def serializeToFile {α : Type} (enc : Encoders α) (w : World) (path : String) (x : α)
    (format : String) : World × Except FileError Unit :=
  if format = "serde_json" then
    match w.create path with
    | (w, .error e) => (w, .error e)
    | (w, .ok ()) => w.write path (enc.json x)
  else if format = "bincode" then
    match w.create path with
    | (w, .error e) => (w, .error e)
    | (w, .ok ()) => w.write path (enc.bincode x)
  else (w, .error (.unknownFormat format))

end World

def graphDecoders : Decoders (List (List Nat)) := ⟨Json.decode Json.decGraph, Bincode.decode Bincode.decGraph⟩
def orderDecoders : Decoders OrderGraph := ⟨Json.decode Json.decOrder, Bincode.decode Bincode.decOrder⟩
def pathsDecoders : Decoders (List Path) := ⟨Json.decode Json.decPaths, Bincode.decode Bincode.decPaths⟩
def pathsEncoders : Encoders (List Path) := ⟨Json.encPaths, Bincode.encPaths⟩

/-- The arguments of `run_serialized`, interface.rs:98-107. `timeout` in milliseconds. -/
structure FileArgs (F : Type) where
  spacialGraph : String × String
  dependencyGraph : String × String
  doSearch : Bool
  timeout : Option Nat
  nthreads : Nat
  taskBound : Option Nat
  probabilistic : Option (AcceptFunc F)
  paths : String × String

/-- The arguments that `run_serialized` passes to `run`, interface.rs:114-122. -/
def FileArgs.toArgs {F : Type} [FloatArith F] (a : FileArgs F) : Args F where
  doSearch := a.doSearch
  timeout := a.timeout
  nthreads := a.nthreads
  taskBound := a.taskBound
  probabilistic := a.probabilistic.map fun f => (f.getAcceptFunc, none)

/-- `run_serialized`, interface.rs:98-125. `.error`: the search panics; `none`: the environment does not
complete the search. -/
def runSerialized {F σ : Type} [FloatArith F] (env : Env F σ) (w : World) (a : FileArgs F) :
    R (Option (World × Except FileError Unit)) :=
  match w.deserializeFromFile graphDecoders a.spacialGraph.1 a.spacialGraph.2 with
  | (w, .error e) => pure (some (w, .error e))
  | (w, .ok graph) =>
    match w.deserializeFromFile orderDecoders a.dependencyGraph.1 a.dependencyGraph.2 with
    | (w, .error e) => pure (some (w, .error e))
    | (w, .ok order) => do
      match ← run env graph order a.toArgs with
      | none => pure none
      | some paths =>
        let w : World := { w with log := w.log ++ [.searched] }
        pure (some (w.serializeToFile pathsEncoders a.paths.1 paths a.paths.2))

end Verif
