# A Lean 4 model of mbqc_scheduling

## Layout

* `lean/Verif/Model/*.lean` - the executable model, one file per Rust file; every definition cites the file and
  lines it models, and says what it simplifies.
* `lean/Verif/Spec.lean` - the small, independent specification: what an input, a valid schedule, its memory
  cost and Pareto dominance are. It does not mention the model.
* `lean/Verif/SpecOrder.lean` - the same for the order in which schedules are tried (C75).
* `lean/Verif/Proofs/*.lean` - helper lemmas.
* `lean/Verif/Props/*.lean` - the property theorems, named `Cnn_...`, with an `example` showing that a concrete
  non-trivial case meets the hypotheses. The suffix `_refuted` marks the proof that a documented or expected
  claim is false of the code, by a concrete input. There is no theorem with the suffix `_partial` at present.
* `lean/Verif/Validation.lean` - the unit tests, the documented examples and the output files of the repository,
  replayed on the model and compared with the costs of the specification. These are tests.
* `properties.jsonl` - the claims; `MANIFEST.json` - claim -> theorem names; `seeded/LOG.jsonl` - attempts to
  break the model and which theorems noticed.

Build: `lake build` in `lean/`.

## Trusted base

* Lean's kernel, and the three standard axioms. No axioms of our own, no `sorry`, no `native_decide`, no
  `bv_decide`. `decide +kernel` is used for concrete examples and for the witnesses of refutations; it is
  evaluated by the kernel and adds no axiom.
* Axioms per property theorem:
  - none: `Python.C36_doc_refuted`, `C83_fused_refuted`;
  - `propext`: `C16_inplace_not_atomic`, `C34_detached`, `Python.C36_graph`, `C43_args`, `C48_focus`,
    `Results.C46_density_budget`, `Results.C46_density_script_refuted`, `C62_release_refuted`,
    `C63_converse_refuted`, `C65_layers_refuted`, `C83_refines`, `C83_depth_first`;
  - `propext`, `Quot.sound`: `C23_space`, `C23_time`, `C30_no_randomness`, `C33_same`, `C33_run`, `C34_not_early`,
    `C34_never`, `C34_stays`, `C34_unblocked`, `C34_drop_bound`, `C34_joined`, `C35_input_error`, `C35_reads`,
    `C35_format_late`, `Python.C36_paths`, `Python.C36_new_graph`, `Python.C36_new_path`,
    `Python.C36_callback_threads`, `Python.C36_run`, `Python.C36_range`, `Python.C36_two_threads_refuted`,
    `C38_refuted`, `C49_canonical`, `C53_entropy`, `C54_out_of_range`,
    `C61_timeout_refuted`, `C62_first_layer_refuted`, `C63_debug_release`, `C63_panic`,
    `C64_empty_refuted`, `C65_repeated_refuted`, `C66_same`, `C66_seed_refuted`,
    `C68_measured_refuted`, `Results.C69_last_refuted`, `Results.C69_images`, `Results.C69_runtimes`,
    `Results.C69_gap_refuted`, `Results.C69_runtime_image`, `Results.C69_runtime_densities`, `C72_y_refuted`, `C72_flags_refuted`,
    `Instructor.C74_overflow_refuted`, `C75_length_refuted`, `C81_in_order_unique`, `C81_smaller_refuted`,
    `C83_balance`, `C89_alternate_refuted`;
  - `propext`, `Classical.choice`, `Quot.sound`: all others.
* The reading of the Rust code, which is cited line by line but not extracted mechanically.
* The contracts of external crates listed under "Assumed" below.

## What is modelled

| code | model | remarks |
|------|-------|---------|
| `scheduler/space.rs` | `Model/Space` | everything except the serde derives |
| `scheduler/time.rs` | `Model/Time` | everything |
| `scheduler/combinatoric.rs` | `Model/Combinatoric` | `Partition`, its iterator |
| `scheduler/tree.rs` | `Model/Tree` | `Sweep`, `Step`, skipping |
| `scheduler.rs` | `Model/Scheduler` | everything |
| `search.rs` | `Model/Search` | everything, debug and release behaviour |
| `search/threaded.rs` | `Model/Threaded`, `Model/Locks`, `Model/Pool`, `Model/Log` | two levels: atomic moves, and single lock operations; `C45_atomic` proves that the finer one refines the coarser one. Any task can move at any time; `Model/Pool` says which moves `nthreads` workers can make; `Model/Log` has the lines `START` (without the table in them) and `DONE` of the debug log |
| `probabilistic.rs` | `Model/Probabilistic`, `Model/Float`, `Model/Binary64` | both accept functions over an abstract float type; a 53 bit float without exponent range and all of binary64 satisfy the laws used |
| accept functions with a state or a panic | `Model/Callback` | the loops of `search.rs` and `threaded.rs` once more; C66 reduces them to the ones above |
| `timer.rs` | `Model/Timer` | thread, condition variable, clock, drop |
| `interface.rs` | `Model/Interface`, `Model/Serialized`, `Model/Codec` | `run`, `run_serialized`, the two file formats, the order of effects |
| `cli.rs`, `main.rs` | `Model/Cli` | the parser is `clap`, modelled after its documentation |
| `python_lib/rust/src` | `Model/Python` | classes, conversion of arguments, `run` |
| `results/src` | `Model/Results`, `Model/Statistics` | random instances, searches, collected numbers, timeouts; means, deviations and the layout of the output |
| `results/plotting`, `results/src/plots.rs:124-147` | `Model/Plot` | the numbers that are drawn and the ranges of axes and colours; averages of the measured times |
| `results/src/cli.rs`, `results/scripts`, names of files in `results/src/plots` and `results/plotting` | `Model/Files` | arguments, words of a line, how numbers are written in Rust, JSON and Python; not: directories, options, `hardware_info*` |
| `mbqc_scheduling/tests/roundtrip.rs` | `Model/Roundtrip`, `Model/Split` | the recipe for parallelisation that the documentation points to; the body of the property test from the dependency graph on |
| `mbqc_scheduling/tests/roundtrip.rs`, `pauli_tracker/pauli_tracker/tests/roundtrips/tracking.rs` | `Model/Instructor` | how random operations become frames and measurements; `Frames`, `TrackedCircuit` and `get_order` belong to a crate that is not in the repository and follow its documentation |
| `python_lib/examples/compile_flow.py` | `Model/Widget` | Pauli frames, the loop that executes a path, connecting widgets; what it uses of `pauli_tracker` after its documentation |

Not modelled: `pauli_tracker` (a submodule with an own life; what `results` uses of it is a parameter with the
documented contract; of its tests only what `tests/roundtrip.rs` uses, C74); the text of error messages, help and log output (except the content of the lines `START` and `DONE`); `Debug`/`Clone`/`serde` derives;
`serialize`/`deserialize` of the Python classes; the appearance of the figures; allocation failure,
stack overflow, failing to spawn a thread; running time (the iterations of a search are counted in C67).

## Assumed of the environment

* `usize` has 64 bits. `usize` is `Nat` in the model; every subtraction that could underflow is a checked one
  that panics in debug builds and wraps in release builds (`Profile`). Additions are unbounded: all quantities
  are bounded by the number of nodes or of iterations. A graph has fewer than `2^64 - 1` nodes. (The only place
  where an addition can follow a wrapped subtraction is the memory counter of a release build when a qubit has been
  measured twice; no property says anything about the space of such a path except that it can be wrong.)
* A panic is a value of `Except Panic`. `Result` and `Option` stay data. `&mut self` methods return the new state,
  also on failure, because in-place methods can leave a modified state behind.
* `HashMap` is an association list; where the code iterates over one (at the end of `search`) the order is an
  arbitrary permutation.
* `itertools::Powerset` over `0..len` lists all subsets, by size, lexicographic inside one size.
* Loops `while let Some(step) = scheduler.next()` take a fuel argument. Running out of fuel is a separate outcome,
  and C12/C54 prove that a bound exists which depends on the number of measured qubits only (C67: the exact number).
* The timer is an arbitrary Boolean at every poll in `run` (C34 is about `timer.rs` itself). The accept function is
  arbitrary, the random generator an arbitrary function from state to state and number, `drawSeed` arbitrary.
* A panic of a task in the pool makes the join of the pool panic (`scoped_threadpool`); the accept function is not called
  under a lock.
* Threads: any task can move at any time. This is more than a pool of `nthreads` workers can do: each worker takes the next
  job from one queue and works on it until it returns (`scoped_threadpool`). Theorems about all interleavings hold for
  those of the pool in particular; a theorem that claims that something can happen with threads says that a pool of this
  size can do it (`possible`).
* Condition variables: the source of `wait_timeout_while` in the standard library, with spurious wake-ups.
* `bincode` 1.3: fixed-width little-endian integers, lengths as `u64`. `serde_json` 1: the grammar of arrays,
  objects and unsigned numbers with whitespace; what it writes is compact.
* Numbers as text (C78): `Display` of `f64` never uses an exponent; `ryu` 1.0 and `repr` of Python switch to one at
  different places; a number and its shortest decimal number determine each other; what Rust reads as a number Python reads
  as the same number (`Floats.OK`).
* Probabilities (C79): the part of all sequences of random numbers, so the numbers are taken to be uniform and independent
  (a property of the generator, `Pcg64` in the code). `Uniform::new(0., 1.)` of `rand` 0.8 yields the multiples of 2^-52
  in [0, 1), all equally likely.
* `clap` 4.4: long and short options, clusters, `--opt=value`, `--`, `--help`, `--version`.
* `pyo3`: integers are accepted exactly in their range; arguments are converted from left to right.
* `f64`: C32 and C33 use the laws in `Proofs/Float.lean` (structure `FloatLaws`), which allow a far larger rounding error
  than `exp` and `powi` have in practice; `Proofs/Float.lean` proves that correctly rounded 53-bit arithmetic
  has them. `Model/Binary64` has the whole of binary64 (exponent range, subnormals, signed zeros, infinities, NaN;
  payloads of NaN are not distinguished), and `Proofs/Binary64.lean` proves that it satisfies the laws, too. `exp` and
  `powi` are arbitrary there, with the properties in the structure `Libm`: a relative error of at most 1/16 where the
  result is a normal number, a positive result of `exp` between 2^-1070 and 2^-1022, `exp(±0) = 1`, `exp(-inf) = 0`, 0
  below a quarter of the least subnormal number, NaN for NaN, `powi(x, 1) = x`, `powi(1, k) = 1`, `powi(0, k) = 0` and
  `powi(0, -k) = inf` for k > 0. `Libm.exact` (the correctly rounded functions) has them.
* The draws of the random generator of `results` are an arbitrary function of a state; only C58 assumes more: that the
  draws are independent and fair (`Fair` in `Proofs/Distribution.lean`).

## Well-formed inputs

`Spec.Problem.WF`: the qubits of the ordering are distinct nodes, neighbours are nodes, dependencies are free of
repetitions and lie in strictly earlier layers, exactly the qubits of the first layer have none. This is what
`pauli_tracker::induced_order::get_order` is documented to produce.
`Spec.Problem.Loose` drops all conditions on the dependencies. C54 says what happens then: the code behaves as on
the sub-problem `Spec.Problem.part`, except that the exhaustive search can miss paths by one step.
Numbers in the adjacency lists that are no nodes are the subject of C61. C62 and C63 are about all inputs, also those in
which a qubit is repeated.
In the proofs the behaviour on a loose input is described by a problem `eff P`, in which a dependency that can
never be fulfilled is represented by a node number out of range (`Proofs/Effective.lean`), and the loop
invariants are proved for this more general kind of problem (`Lax`).

## Properties and how each is treated

| id | model and proof |
|----|-----------------|
| C01-C03 | refinement: every scheduler state reachable in a sweep is the state described by the spec for the prefix measured so far (`StateFor`); invariant over loop iterations; any timer, any accept decision |
| C04 | spec-level theorem on strategies (monotone families of initialised sets) |
| C05, C06 | greedy loop invariant: after k rounds exactly the qubits of depth < k are measured |
| C07, C09, C10 | frontier invariant: every valid schedule is dominated by `best_memory` or still reachable from the stack; final filter lemma |
| C08 | filter/sort lemma for an arbitrary result map |
| C11 | run prefix lemma + result map improves monotonically |
| C12 | decreasing potential on the stack of iterators; gives a fuel bound |
| C13 | the same invariant shows every checked operation succeeds |
| C14-C16 | direct induction over the measure list |
| C17, C18, C48 | `StateFor` preserved by manual focus; multiset reasoning for `partition` |
| C19-C21 | sweep as depth-first traversal: equality with a recursive enumeration; counting recurrence |
| C22 | induction on subsets |
| C23, C24 | equalities / behavioural equivalence |
| C25 | invariant over the edge fold |
| C26 | checked = unchecked when nothing is measured twice, reachable states satisfy this |
| C27-C29 | transition system invariants; C28 refuted by a concrete run, proved without refresh; tasks that end before their first refresh by the counts of C67 |
| C30, C31 | simulation with the deterministic loop; corollaries |
| C32, C33 | accept functions over any float type with the stated laws |
| C34 | transition system of owner, timer threads and clock; invariants and a progress measure |
| C35 | order of effects in `run_serialized`; `C35_full` composes codecs, reading, `run` and writing |
| C36 | records and constructors of the wrapper, conversions |
| C37 | corollary of `StateFor` |
| C38 | refuted by a witness; the true statement proved |
| C39, C40, C42, C44 | corollaries of C09 and spec-level lemmas |
| C41, C43, C50 | direct |
| C45 | lock-level transition system: invariant on who holds what; rank function; forward simulation to the atomic moves |
| C46 | invariants of the folds over an arbitrary stream of random numbers |
| C47 | parser as a function on token lists; every way to write the options of a command line is accepted with this meaning |
| C49 | encoders and decoders, inverse to each other on every input, also with trailing input |
| C51 | invariant over all interleavings: the shared table always keeps a bound of the minimum length |
| C52 | specification of one iteration with an observer for the calls of the accept function |
| C53 | congruence: `run` as a function of the parts of the environment it depends on; threads by permutation of moves |
| C54 | all of the above for `Lax` problems; `part` by induction over the layers; out of range by induction over the ordering |
| C55 | `PInv`: the leaves a plain sweep would have reported so far against the result table; one step of the loop moves a segment of the enumeration from `todo` to `passed` |
| C56 | `Walk`: following steps from a path, with a flag for "the step before was forward" (only then there is a step back from a leaf, so the inner loop of the splitting skips none); induction over the steps with the sizes of the tasks still to come; the steps of a sweep are a `Walk` by induction on `Below` |
| C57 | rounding is monotone and fixes small naturals, so bounds survive every operation; the error of the variance is the sum of the rounding errors of the loop; layout by induction over the points of a sweep on top of C46 |
| C58 | a list of conditions on the single draws that is equivalent to the wanted outcome (by induction over the loops), and its probability in the product measure |
| C59, C60 | schedules to bags and back: the bag of a step is what is in memory, a qubit is measured in its last bag; empty steps are dropped. The volume bound by induction over the bags. That computing the pathwidth is NP-hard (which supports the remark in the README) is known but not part of the model |
| C61 | `Clip.Rel`: two computations that correspond except for an index out of bounds; one lemma for every function between `Graph::measure` and `run`; only qubits of the ordering are ever measurable |
| C62 | `Trace.Kept`: a relation between paths and schedulers that `next_and_focus` keeps holds for every returned path (through sweeps, threads and the merge); instance: the graph is that of the path unless a qubit is repeated, and a qubit that still has a counter has not been measurable yet |
| C63 | `Refine.Le`: what the first computation returns the second one returns, for every function that depends on the build profile |
| C64 | a measure for each task: the moves it still makes when the time is over; the number of tasks from the length of the powerset; before the first refresh a move does not look at the timer |
| C65 | `Simulate.search_same`: related schedulers that are read and moved in the same way give the same search; the relation for neighbour lists: equal states and counters; the generator of a well-formed ordering as a function of the entries |
| C66 | `runS_lift`: a run with a callback is a run with an accept function that always leaves the decision to the random numbers, for suitable random numbers, or the callback has panicked; `probIterS_asked`; `LocLe`: the length of the path against the number of calls |
| C67 | `Tree`: the list of the paths that are entered below a state; the beginnings of valid schedules, each once; a number for every level of the stack of which an iteration takes at most (for the lower bound: at least) one; counting by the recursion of the ordered Bell numbers; isolated qubits one at a time |
| C68 | schedules as functions from qubits to times (with a load for every time); such a function is restricted to a part, or put together from two parts with a delay |
| C69 | the layout of C57; folds for the ranges of the colours; `C46_completes` and `C57_density_completes` show that the runs it speaks about exist |
| C70 | `PoolK`: the least number of steps that any task has recorded stays known to the pool (an entry of the shared table below which there is none is published or held by a task); the task on the way to the time-optimal schedule (or, before the first record, every task) only goes down, so its counter is at most its depth and it does not reach the timer |
| C71 | `LoopRun`, `Follows`: the run of the loop as a relation; the first candidate at every level is the whole set of ready qubits, so as long as nothing is recorded the loop follows the greedy schedule of C05, one step per iteration. With threads: `OnWay`, some task is on the way to a shortest schedule or a path so short is recorded |
| C72 | the corrections after every measurement are the product of the frames with outcome 1 (`due`), the flag of a frame comes before the qubits it acts on (`needs_all_before`); trackers are linear (`applyAll_eq`) and conjugation is injective |
| C73 | the loops of the test as folds over the list of all paths (`allPaths_below`, `Below.nodup`); the branch-and-bound loop through the invariant of the library's search with another start of the table |
| C74 | an invariant of the operations (`Inv`): one stack for every qubit, operators of a measured qubit only at earlier positions; from it an ordering by the position of the measurement |
| C75 | `Listed`: the ready set is the ready list of the specification, in its order; the items of a partition are sorted (`items_pairwise`); both along the tree of the sweep (`Below.tried`). The shortest one: a schedule that measures all ready qubits has measured at least as much after every step (`length_le_of_all_ready`) |
| C76 | (a) the invariant of the exhaustive search for one schedule (`Pending`), with the table entry for all lengths; (b), (c) interval arithmetic on the exponent of the built-in function (`Double.exponent`); (d) until a path is known the search follows the greedy schedule, then every path has the gate behind it (`Shut`). `searchProb_takes`: only the decisions matter, so a run over the reals is reduced to one that can be computed |
| C77 | interval arithmetic on the answer while no path is known (`Double.param_exponent`, `quotient`); the refutations with a set of beginnings that the search cannot leave (`searchProb_closed`) |
| C78 | one reader that inverts all three writers (`readNumber`), so names are injective; the node name parsed at its separators; the disk after a permutation of the runs |
| C79 | the invariants of C76 with the number of steps of `S` that are still to come (`PendR`, `Ahead`); sequences are counted by their first number (`countSeq_succ`): a question about a step of `S` splits off the part that takes it, every other question keeps the invariant for both answers. For the upper bound a step comes once on the whole stack (`PendAt.unique`), so a refused step is gone (`probLoop_gone`) |
| C80 | as functions from qubits to times (`Timing`, C68). A node that is in memory because of a new edge only is its end not measured so far, so no two nodes share an edge; a qubit nobody waits for is measured last; a qubit is delayed by the old number of steps for each new dependency at or below it |
| C81 | which tasks occupy a worker (`Taken`: nobody has begun a task behind the furthest one with a worker). The refresh loses something only if a task goes on with a table that is not its own: `Alone`, the invariant of the search for the task at work, the table of the pool being complete for the tasks that have returned |
| C82 | `Chain`: the states on the stack belong to the prefixes of the path; a state has one entry per node and per unmeasured qubit (the measurable set, the counters and the measured qubits are a permutation of all). Attained: the iteration comes to the end of a schedule with one qubit per step (`Below.arrive`) |
| C83 | `Unfolds` relates the states of any implementor of `FocusIterator` to a tree in first-child / next-sibling form; `Sweep` refines a zipper on it (induction on the calls; the stack is related element by element). Skipping: the leaves are filtered (induction on the tree). `Below` gives the tree of the schedulers |
| C84 | all tasks but the first find nothing (`Void`: their start state has no children, or the sweep ends at once), so the table of the first one is the only one that changes and every refresh hands it back what it wrote before; its iterations are those of the search without threads, one level deeper (`searchIter_under`), and the filter of the result does not see the difference (`postprocess_congr`) |
| C85 | counterexample computed by the kernel (about 7400 moves). One qubit: the invariant of C84 with a task that the timer may stop (`Stopped`), and C11 for the search without threads |
| C86 | transition system with the log as a ghost variable: every entry of a table, shared or not, comes from a result that is logged or still held by a task (`Wit`); a task replaces results only by better ones. A least result is in the shared map after its merge and only a task whose table has the same value can overwrite it |
| C87 | invariant of a task: its path, its results and what the bottom of its stack can still offer begin with one of its own first steps; the spawning loop splits the items of the root in their order (C68's `Sooner`) |
| C88 | simulation: the loop without threads makes the iterations of the first task, then those of the second, ...; the table of a task is between its start and the shared one, the results overlay the earlier ones; a first step that is already a schedule can only be the first one |
| C89 | the leaves of the tree in blocks, one for each task; C55's invariant with the blocks of the tasks that have returned as what has been passed; the run of a task seen as a walk from an exhausted root and back; an interrupted run as a beginning of that walk |
| C90 | C89 with C19: every schedule is in the block of one task, every task moves if the search ends, and something on the curve is as good as any member of the list |
| C91 | C28's invariant, but the shared table is backed by the shared results together with what the tasks hold; a refresh by an undisturbed task only publishes, since its table is nowhere worse than the shared one |

## Where the code and its documentation or a natural expectation disagree

* C16: `focus_inplace` on the space graph is not atomic: after a failure the qubits before the failing one are
  measured and the memory counter is wrong.
* C18: manual focus with more qubits than are measurable panics instead of returning `NotMeasurable`.
* C28: a multi-threaded search with the default arguments can miss Pareto-optimal schedules, because of the
  periodic refresh of the tables of the tasks, from two threads on; even the schedule with the least
  memory can be lost.
* C51: the first path of a multi-threaded search has the least number of steps, but for the same reason not always the
  least memory among the schedules with as many steps (7 qubits, two threads, default arguments).
* C32, C52: the built-in accept function does not see the memory during the step; the documented meaning of two of
  its arguments is wrong.
* C34: starting a timer twice detaches the first thread.
* C36: names of accept functions in the documentation of the Python package are refused; with two threads it does
  use threads, although documented otherwise.
* C38: `num_remaining_nodes` is documented as the number of nodes that still have to be measured, but does not
  count those that can be measured now.
* C46: a comment in `results` gives the wrong number of neighbours for one kind of density.
* C46, C58: with this kind of density the expected number of neighbours is `factor * sqrt(n - 1)`.
* C46: the walltime requested in the script for the density sweep is shorter than the sum of the timeouts.
* C69: the axes of the figure over the number of qubits cut off the last size. (The script for the images fails if a point
  has no number, but by C70 it has one.)
* C70: for inputs without a schedule of at most 1001 steps a multi-threaded search with a timeout can return nothing,
  also an exhaustive one.
* C71: a multi-threaded search whose accept function lets everything pass until there is a path need not return a path
  of least time; with one thread it does.
* C72: the example for connecting widgets reads the buffer tracker at the wrong positions; it performs Z where Y is due;
  it finds only the first frame of a qubit that is flagged twice.
* C47: the long option of the command line for the probabilistic search is misspelled.
* C54: qubits whose dependencies cannot be fulfilled are dropped silently; with such a qubit an exhaustive search
  is not exhaustive.
* C62, C63: if a qubit is repeated in the ordering, a release build can measure it twice and report a space that is too
  small, where a debug build panics.
* C64: a timeout that is too short does not give an empty list with several threads: every task, also one that starts
  after the timeout, does 1000 iterations before it looks at the timer.
* C66: if a callback raises, the paths found before are lost; with a callback that has a state a fixed seed does not make
  a single-threaded search reproducible.
* C67: the worst case of the search is documented as "something between factorial and double exponential"; it is between
  `u!` and `4 * u ^ u` iterations for `u` qubits, which is far below double exponential.
* C74: the operations of the property test are drawn with any `usize` as an operand; next to 2^64 a debug build panics in
  `a + 73`, and in a release build `bit_b + 1` wraps and a teleportation can get the same qubit twice.
* C75: "always first tries the more time optimal patterns": at every point the larger steps are tried first, but a longer
  schedule can be tried before a shorter one.
* C76: the built-in accept function is meant to favour memory-optimal paths, but its exponential underflows: with 49 nodes
  there is a problem with a schedule that needs one qubit of which every search, for every seed, returns only paths with
  at least two. Up to 48 nodes (`results` goes up to 45) the least memory is always reachable, but not the best path of every length.
* C77: `ParametrizedHeavyside` accepts parameters with which no search can ever return a path, whatever the random numbers
  are: a cutoff above 2^65, a negative exponent of the number of blocked nodes, or (on most inputs) of the distance.
* C78: `densities.py` looks for the file of the multiplier cut off to a whole number, while `results` writes the multiplier
  itself into the name: for 2.5 the data of 2 is shown silently. `nodes.py` does not find the files of densities
  between 1e-9 and 1e-4, because Python writes them differently.
* C82: the memory of a `Sweep` is said to scale linearly. The number of saved states does; each of them has as many entries as
  the graph has nodes, so the memory is quadratic (and with threads there is one more state for each task, up to `2 ^ k` for
  `k` qubits without dependencies).
* C83: `Sweep` implements `Iterator`, but for an implementor of `FocusIterator` that offers something after `None` it can
  return `Some` after `None`.
* C84: with an accept function that rejects everything one thread returns nothing, several threads return schedules of one
  step.
* C86: the results of C28 are lost in the last merge only (`*shared_mem >= this_mem` compares tables, not results): the
  tasks have found them, and the debug log contains them.
* C85: with several threads a timeout can improve the result: the search that is not interrupted goes on to overwrite better
  paths with worse ones.
