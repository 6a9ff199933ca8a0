import Verif.Model.Serialized
/-!
# Model of the command line, `mbqc_scheduling/src/cli.rs` and `mbqc_scheduling/src/main.rs`

The argument parser itself is the crate `clap` (4.4), which is not part of the repository. What is used
of it is modelled here after its documentation: long and short options, clusters of short options, values
in the same or the next argument, `--`, help and version. Simplifications: the arguments are Unicode
strings, and all usage errors are one error.
-/

namespace Verif.Cli

open Search

abbrev Tok := List Char

/-- `clap::ArgAction` with the value parsers of the program. -/
inductive Action where
  /-- `ArgAction::SetTrue` -/
  | setTrue
  /-- `ArgAction::Set` with `value_parser!(uN)` -/
  | set (bits : Nat)
  | help
  | version
  deriving DecidableEq, Repr

/-- `clap::Arg` with `short` and `long`. -/
structure Arg where
  id : String
  short : Char
  long : Tok
  action : Action
  deriving DecidableEq

/-- `clap::Command`: the required positional arguments and the others. -/
structure Command where
  positionals : List String
  args : List Arg

/-- `build`, cli.rs:15-97, with the constants in cli.rs:3-13. `clap` adds the last two arguments. -/
def build : Command where
  positionals := ["spacial_graph", "spacial_graph_format", "dependency_graph",
    "dependency_graph_format", "paths", "paths_format"]
  args := [
    ⟨"search", 's', "search".toList, .setTrue⟩,
    ⟨"timeout", 't', "timeout".toList, .set 32⟩,
    ⟨"nthreads", 'n', "nthreads".toList, .set 16⟩,
    ⟨"accept_func", 'p', "probablistic".toList, .setTrue⟩,
    ⟨"task_bound", 'b', "task-bound".toList, .set 32⟩,
    ⟨"help", 'h', "help".toList, .help⟩,
    ⟨"version", 'V', "version".toList, .version⟩]

/-- Why no arguments are returned. -/
inductive Stop where
  | usage
  | help
  | version
  deriving DecidableEq, Repr

/-- `clap::ArgMatches`. -/
structure Matches where
  set : List String
  vals : List (String × Nat)
  pos : List Tok

def isDigit (c : Char) : Bool := '0' ≤ c && c ≤ '9'

def digitVal (c : Char) : Nat := c.toNat - '0'.toNat

/-- The digits of `i64::from_str`. -/
def parseDigits : Nat → Tok → Option Nat
  | acc, [] => some acc
  | acc, c :: cs => if isDigit c then parseDigits (10 * acc + digitVal c) cs else none

/-- `value_parser!(uN)`: the value is parsed as an `i64`, which must be in the range. -/
def parseNum (bits : Nat) (v : Tok) : Option Nat :=
  let bound (n : Nat) : Option Nat := if n < 2 ^ bits then some n else none
  match v with
  | [] => none
  | ['+'] => none
  | ['-'] => none
  | '+' :: ds => (parseDigits 0 ds).bind bound
  | '-' :: ds => (parseDigits 0 ds).bind fun n => if n = 0 then some 0 else none
  | ds => (parseDigits 0 ds).bind bound

/-- A switch, help or version; every switch at most once. -/
def flag (a : Arg) (m : Matches) : Except Stop Matches :=
  match a.action with
  | .setTrue => if a.id ∈ m.set then .error .usage else .ok { m with set := m.set ++ [a.id] }
  | .set _ => .error .usage
  | .help => .error .help
  | .version => .error .version

/-- The value of an option; every option at most once. -/
def value (a : Arg) (v : Tok) (m : Matches) : Except Stop Matches :=
  match a.action with
  | .set bits =>
    if a.id ∈ m.vals.map Prod.fst then .error .usage
    else
      match parseNum bits v with
      | none => .error .usage
      | some n => .ok { m with vals := m.vals ++ [(a.id, n)] }
  | _ => .error .usage

/-- Whether the argument takes a value. -/
def Arg.takes (a : Arg) : Bool :=
  match a.action with
  | .set _ => true
  | _ => false

/-- `-xyz`: the result, and the option that takes the next argument as its value. -/
def cluster (cmd : Command) : Tok → Matches → Except Stop (Matches × Option Arg)
  | [], m => .ok (m, none)
  | c :: cs, m =>
    match cmd.args.find? (fun a => a.short == c) with
    | none => .error .usage
    | some a =>
      if a.takes then
        match cs with
        | [] => .ok (m, some a)
        | '=' :: v => (value a v m).map (·, none)
        | v => (value a v m).map (·, none)
      else
        match flag a m with
        | .error e => .error e
        | .ok m => cluster cmd cs m

/-- `name` or `name=value`. -/
def splitEq : Tok → Tok × Option Tok
  | [] => ([], none)
  | '=' :: v => ([], some v)
  | c :: cs => (c :: (splitEq cs).1, (splitEq cs).2)

/-- `--name` or `--name=value`. -/
def longArg (cmd : Command) (t : Tok) (m : Matches) : Except Stop (Matches × Option Arg) :=
  match cmd.args.find? (fun a => a.long == (splitEq t).1) with
  | none => .error .usage
  | some a =>
    match (splitEq t).2 with
    | none => if a.takes then .ok (m, some a) else (flag a m).map (·, none)
    | some v => if a.takes then (value a v m).map (·, none) else .error .usage

/-- A positional argument. -/
def positional (cmd : Command) (v : Tok) (m : Matches) : Except Stop Matches :=
  if m.pos.length < cmd.positionals.length then .ok { m with pos := m.pos ++ [v] } else .error .usage

/-- All arguments after `--`. -/
def trailing (cmd : Command) : List Tok → Matches → Except Stop Matches
  | [], m => .ok m
  | v :: vs, m =>
    match positional cmd v m with
    | .error e => .error e
    | .ok m => trailing cmd vs m

/-- The parser: `pend` is the option that waits for its value. -/
def go (cmd : Command) : Option Arg → List Tok → Matches → Except Stop Matches
  | none, [], m => .ok m
  | some _, [], _ => .error .usage
  | none, ['-', '-'] :: ts, m => trailing cmd ts m
  | none, ('-' :: '-' :: t) :: ts, m =>
    match longArg cmd t m with
    | .error e => .error e
    | .ok (m, pend) => go cmd pend ts m
  | none, ('-' :: c :: t) :: ts, m =>
    match cluster cmd (c :: t) m with
    | .error e => .error e
    | .ok (m, pend) => go cmd pend ts m
  | none, v :: ts, m =>
    match positional cmd v m with
    | .error e => .error e
    | .ok m => go cmd none ts m
  | some _, ('-' :: _ :: _) :: _, _ => .error .usage
  | some a, v :: ts, m =>
    match value a v m with
    | .error e => .error e
    | .ok m => go cmd none ts m

/-- `Command::get_matches` with `arg_required_else_help`. -/
def getMatches (cmd : Command) (argv : List Tok) : Except Stop Matches :=
  match go cmd none argv ⟨[], [], []⟩ with
  | .error e => .error e
  | .ok m =>
    if m.set = [] ∧ m.vals = [] ∧ m.pos = [] then .error .help
    else if m.pos.length < cmd.positionals.length then .error .usage
    else .ok m

/-- `Args`, cli.rs:99-111. -/
structure Args where
  spacialGraph : Tok
  spacialGraphFormat : Tok
  dependencyGraph : Tok
  dependencyGraphFormat : Tok
  paths : Tok
  pathsFormat : Tok
  search : Bool
  timeout : Option Nat
  nthreads : Nat
  probabilistic : Bool
  taskBound : Option Nat

/-- `ArgMatches::remove_one` of a positional argument. -/
def Matches.one (cmd : Command) (m : Matches) (id : String) : Option Tok :=
  m.pos[cmd.positionals.idxOf id]?

/-- `parse`, cli.rs:113-130. The `expect`s are for required arguments, and the default of `nthreads`
is `"1"`. -/
def parse (argv : List Tok) : Except Stop Args :=
  match getMatches build argv with
  | .error e => .error e
  | .ok m =>
    match m.one build "spacial_graph", m.one build "spacial_graph_format",
      m.one build "dependency_graph", m.one build "dependency_graph_format",
      m.one build "paths", m.one build "paths_format" with
    | some g, some gf, some o, some of, some p, some pf =>
      .ok {
        spacialGraph := g
        spacialGraphFormat := gf
        dependencyGraph := o
        dependencyGraphFormat := of
        paths := p
        pathsFormat := pf
        search := decide ("search" ∈ m.set)
        timeout := m.vals.lookup "timeout"
        nthreads := (m.vals.lookup "nthreads").getD 1
        probabilistic := decide ("accept_func" ∈ m.set)
        taskBound := m.vals.lookup "task_bound" }
    | _, _, _, _, _, _ => .error .usage

/-- The arguments that `main` passes to `run_serialized`, main.rs:23-32. `timeout` in milliseconds. -/
def Args.toFileArgs {F : Type} (a : Args) : FileArgs F where
  spacialGraph := (String.ofList a.spacialGraph, String.ofList a.spacialGraphFormat)
  dependencyGraph := (String.ofList a.dependencyGraph, String.ofList a.dependencyGraphFormat)
  doSearch := a.search
  timeout := a.timeout.map (1000 * ·)
  nthreads := a.nthreads
  taskBound := a.taskBound
  probabilistic := if a.probabilistic then some .builtinHeavyside else none
  paths := (String.ofList a.paths, String.ofList a.pathsFormat)

/-- `main`, main.rs:8-34. The status is that of the process: `clap` exits with 0 for help and version,
with 2 otherwise; a panic gives 101. `none`: the environment does not complete the search. Simplification:
if the search panics, the files that were opened are not recorded. -/
def main {F σ : Type} [FloatArith F] (env : Env F σ) (w : World) (argv : List Tok) :
    Option (World × Nat) :=
  match parse argv with
  | .error .usage => some (w, 2)
  | .error .version => some (w, 0)
  | .error .help => some (w, if argv.all (· == ['-', '-']) then 2 else 0)
  | .ok a =>
    match runSerialized env w a.toFileArgs with
    | .error _ => some (w, 101)
    | .ok none => none
    | .ok (some (w, .ok ())) => some (w, 0)
    | .ok (some (w, .error _)) => some (w, 101)

end Verif.Cli
