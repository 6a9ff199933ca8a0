{"id": "C01", "title": "Every returned path is a valid schedule", "statement": "For a well-formed input, every Path returned by interface::run - time-optimal mode, single-threaded search, probabilistic search, with or without timeout - measures every qubit of the time ordering exactly once, has no empty step, and measures each qubit in a step strictly later than every qubit it depends on.", "quantifier": "all graphs, all well-formed layered time orderings, all run modes, all accept functions, all random streams, all timeout points", "why_tests_cant": "The set of inputs, interruption points and random decisions is unbounded; tests only sample small proptest graphs.", "anchors": ["mbqc_scheduling/src/interface.rs: run", "mbqc_scheduling/src/search.rs: search, do_search, do_probabilistic_search, get_time_optimal", "mbqc_scheduling/src/scheduler/time.rs: PathGenerator"]}
{"id": "C02", "title": "Reported time is the number of steps", "statement": "Every Path returned by run satisfies time == steps.len().", "quantifier": "all inputs, all modes, all timeout points", "why_tests_cant": "time comes from a HashMap key, steps from the value; only an invariant over the whole search ties them together.", "anchors": ["mbqc_scheduling/src/interface.rs: Path.time", "mbqc_scheduling/src/search.rs: search, backward"]}
{"id": "C03", "title": "Reported space is exactly the peak memory of the steps", "statement": "Every Path returned by run has space equal to the maximum over its steps of the number of nodes that are initialised (measured so far or adjacent to a node measured so far, this step included) and were not measured in an earlier step.", "quantifier": "all inputs, all modes, all timeout points", "why_tests_cant": "space is produced by an incremental state machine along a backtracking search; agreement with the declarative count must hold for every path and graph.", "anchors": ["mbqc_scheduling/src/interface.rs: Path.space", "mbqc_scheduling/src/scheduler/space.rs: measure, initialize, update_memory", "mbqc_scheduling/src/search.rs: backward"]}
{"id": "C04", "title": "Reported space is the least memory that can execute the steps", "statement": "Among all ways of choosing when each node is initialised subject to the README rules (a measured node and all its neighbours must be initialised at the latest in the step that measures it; memory is freed only by measuring), none needs less peak memory than the reported space, and the lazy strategy attains it.", "quantifier": "all graphs, all schedules, all initialisation strategies", "why_tests_cant": "Quantifies over every possible initialisation strategy.", "anchors": ["mbqc_scheduling/src/scheduler/space.rs: Graph", "README.md rules 1-3"]}
{"id": "C05", "title": "Without search, run returns one minimum-time path", "statement": "run with do_search = false returns exactly one Path and no valid schedule has fewer steps.", "quantifier": "all graphs, all well-formed orderings, all competing schedules", "why_tests_cant": "Optimality is a statement about every other schedule.", "anchors": ["mbqc_scheduling/src/search.rs: get_time_optimal", "mbqc_scheduling/src/interface.rs: run"]}
{"id": "C06", "title": "The time-optimal path measures every qubit as early as possible", "statement": "In the path returned without search each qubit is measured in the earliest step in which any valid schedule can measure it; if every qubit of layer k+1 depends on some qubit of layer k, step k is (as a set) layer k of the ordering.", "quantifier": "all graphs, all well-formed orderings, all competing schedules", "why_tests_cant": "Compares with every other schedule.", "anchors": ["mbqc_scheduling/src/search.rs: get_time_optimal (comment lines 43-46)"]}
{"id": "C07", "title": "Exhaustive search misses nothing", "statement": "A single-threaded deterministic search that is not interrupted returns, for every valid schedule, a path that needs at most as many steps and at most as much memory.", "quantifier": "all graphs, all well-formed orderings, all valid schedules", "why_tests_cant": "The branch-and-bound pruning must be sound for every instance; the number of schedules is the ordered Bell number.", "anchors": ["mbqc_scheduling/src/search.rs: do_search, forward, backward, minimum_path_length, search"]}
{"id": "C08", "title": "The returned list is a strictly monotone trade-off curve", "statement": "The list returned by run is sorted by strictly increasing time and strictly decreasing space, in every mode (also after a timeout or a rejected step, and whatever the thread interleaving was).", "quantifier": "all inputs, all modes, all interruption points, all interleavings", "why_tests_cant": "Depends on an unbounded set of intermediate result maps.", "anchors": ["mbqc_scheduling/src/search.rs: search (lines 119-142)"]}
{"id": "C09", "title": "Exhaustive search returns exactly the Pareto front", "statement": "For an uninterrupted single-threaded deterministic search, a (time, space) pair is returned iff it is the cost of some valid schedule and no valid schedule is at least as good in both and better in one.", "quantifier": "all graphs, all well-formed orderings", "why_tests_cant": "Iff over all schedules.", "anchors": ["mbqc_scheduling/src/search.rs: search, do_search"]}
{"id": "C10", "title": "First path is time optimal, last path is space optimal", "statement": "If the ordering is non-empty, the first path returned by an uninterrupted deterministic search has the minimum number of steps of all valid schedules and the least memory among those; the last one has the least memory of all valid schedules.", "quantifier": "all graphs, all well-formed non-empty orderings", "why_tests_cant": "Optimality over all schedules.", "anchors": ["mbqc_scheduling/src/search.rs: search", "README.md (output description)"]}
{"id": "C11", "title": "More time never makes the answer worse", "statement": "If a single-threaded search (deterministic, or probabilistic with the same random numbers) is interrupted after i or after j >= i loop iterations, every path returned by the earlier interruption is weakly dominated by a path returned by the later one.", "quantifier": "all inputs, all pairs of interruption points", "why_tests_cant": "All pairs of interruption points of an exponentially long run.", "anchors": ["mbqc_scheduling/src/search.rs: do_search (timer check)", "mbqc_scheduling/src/interface.rs: run (timeout doc)"]}
{"id": "C12", "title": "The search always terminates", "statement": "Without a timeout the single-threaded deterministic and probabilistic searches and every task of the multi-threaded search stop after finitely many iterations.", "quantifier": "all well-formed inputs, all accept functions and random streams", "why_tests_cant": "Termination is not testable.", "anchors": ["mbqc_scheduling/src/scheduler/tree.rs: Sweep::next", "mbqc_scheduling/src/search.rs: do_search, do_probabilistic_search"]}
{"id": "C13", "title": "A well-formed input never panics", "statement": "For a well-formed input no index is out of bounds, no counter underflows and no 'already resolved' panic is raised, in time-optimal mode and in single-threaded deterministic and probabilistic search, wherever it is interrupted.", "quantifier": "all well-formed inputs, all modes, all interruption points", "why_tests_cant": "Panic freedom over every reachable state.", "anchors": ["mbqc_scheduling/src/search.rs: best_memory indexing", "mbqc_scheduling/src/scheduler/time.rs: update_unchecked, partition", "mbqc_scheduling/src/scheduler/space.rs: update_memory"]}
{"id": "C14", "title": "The order inside a step is irrelevant for the memory", "statement": "Feeding the same set of unmeasured qubits to Graph::focus in any order gives the same graph (states, current memory and maximum memory).", "quantifier": "all reachable graphs, all measure sets, all permutations", "why_tests_cant": "All permutations of all sets on all graphs.", "anchors": ["mbqc_scheduling/src/scheduler/space.rs: Focus for Graph"]}
{"id": "C15", "title": "The memory counters are exact", "statement": "After any sequence of successful focus calls current_memory is the number of nodes in state InMemory, max_memory is the largest peak of the steps so far, it never decreases, and both are at most the number of nodes.", "quantifier": "all graphs, all sequences of focus calls", "why_tests_cant": "All histories.", "anchors": ["mbqc_scheduling/src/scheduler/space.rs: Graph::current_memory, Graph::max_memory"]}
{"id": "C16", "title": "Measuring a node twice is reported", "statement": "Graph::focus fails iff the set contains a node that is already measured or a repetition, the error names the first such node in list order, and focus leaves the original untouched. The analogous atomicity of focus_inplace is false: a failed focus_inplace leaves the graph modified.", "quantifier": "all reachable graphs, all measure sets", "why_tests_cant": "All histories and all sets.", "anchors": ["mbqc_scheduling/src/scheduler/space.rs: measure, focus, focus_inplace, AlreadyMeasured"]}
{"id": "C17", "title": "The measurable set is exactly the set of ready qubits", "statement": "At any time during manual or automatic scheduling, the measurable set contains, without repetition, exactly the unmeasured qubits all of whose dependencies are measured; has_unmeasureable tells whether other unmeasured qubits exist.", "quantifier": "all well-formed orderings, all sequences of focus calls", "why_tests_cant": "All histories.", "anchors": ["mbqc_scheduling/src/scheduler/time.rs: measurable, has_unmeasureable, from_dependency_graph, update_unchecked"]}
{"id": "C18", "title": "PathGenerator::focus accepts exactly what is measurable", "statement": "focus with a set not longer than the measurable set succeeds iff the set has no repetition and is contained in the measurable set; otherwise it returns NotMeasurable with exactly the offending bits (as a multiset difference) and leaves the generator unchanged. For longer sets the documented error is not returned: the call panics (capacity underflow).", "quantifier": "all reachable generators, all measure sets", "why_tests_cant": "All histories and instruction lists.", "anchors": ["mbqc_scheduling/src/scheduler/time.rs: partition, focus, focus_inplace, NotMeasurable"]}
{"id": "C19", "title": "Sweeping enumerates every schedule exactly once", "statement": "Iterating a Scheduler (or PathGenerator) to the end and collecting the path at every Backward(Some(_)) produces every valid schedule exactly once (steps compared as sets) and nothing else, each with its exact peak memory.", "quantifier": "all graphs, all well-formed orderings", "why_tests_cant": "The number of schedules is unbounded.", "anchors": ["mbqc_scheduling/src/scheduler/tree.rs: Sweep", "mbqc_scheduling/src/scheduler.rs: FocusIterator for Scheduler", "mbqc_scheduling/xdocs/scheduler.md: Capturing all paths"]}
{"id": "C20", "title": "Number of paths of n independent qubits is the ordered Bell number", "statement": "For one layer of n independent qubits the sweep yields exactly the n-th ordered Bell number of paths.", "quantifier": "all n", "why_tests_cant": "The test checks n <= 5.", "anchors": ["mbqc_scheduling/src/scheduler/time.rs: tests::max", "mbqc_scheduling/xdocs/scheduler.md: Performance"]}
{"id": "C21", "title": "skip_current skips exactly the current subtree", "statement": "Calling skip_current right after a Forward step removes exactly the schedules that extend the current prefix from the enumeration and changes nothing else; it fails exactly when the stack is empty, leaving the sweep unchanged.", "quantifier": "all sweeps in all reachable states", "why_tests_cant": "All histories.", "anchors": ["mbqc_scheduling/src/scheduler/tree.rs: Sweep::skip_current"]}
{"id": "C22", "title": "Partition yields every two-block partition exactly once", "statement": "Partition::new(set, set.len()) yields 2^n pairs; each is an order-preserving split of the set, every way to split occurs exactly once, the selected part grows in size, so the complement of the first item is the whole set and that of the last is empty.", "quantifier": "all lists", "why_tests_cant": "All n.", "anchors": ["mbqc_scheduling/src/scheduler/combinatoric.rs: Partition"]}
{"id": "C23", "title": "bit_mapping is a pure relabelling", "statement": "from_dependency_graph / GraphBuffer::new with a bit mapping behave exactly like the unmapped functions on the input in which every bit present in the mapping is replaced by its image.", "quantifier": "all orderings / edge lists, all mappings", "why_tests_cant": "All maps.", "anchors": ["mbqc_scheduling/src/scheduler/time.rs: from_dependency_graph", "mbqc_scheduling/src/scheduler/space.rs: GraphBuffer::new", "mbqc_scheduling/src/scheduler.rs: update!"]}
{"id": "C24", "title": "A DependencyBuffer can be reused", "statement": "Building a PathGenerator in a buffer that was used before (any contents, large enough) gives a generator with the same behaviour as in a fresh buffer: the same run of any sequence of focus calls.", "quantifier": "all well-formed orderings, all buffer contents, all sequences of focus calls", "why_tests_cant": "All contents and histories.", "anchors": ["mbqc_scheduling/src/scheduler/time.rs: DependencyBuffer, from_dependency_graph"]}
{"id": "C25", "title": "GraphBuffer::new builds the simple undirected graph of an edge list", "statement": "With check_loop_multi_edge the adjacency lists are symmetric, loop free, repetition free, and u is listed at v iff {u,v} with u != v is in the edge list; without the check the same holds if the edge list has no loops and no repeated edges, and the two variants agree.", "quantifier": "all edge lists with nodes below num_nodes", "why_tests_cant": "All edge lists.", "anchors": ["mbqc_scheduling/src/scheduler/space.rs: GraphBuffer::new, new_body!"]}
{"id": "C26", "title": "Debug and release builds agree", "statement": "On every state a Scheduler can reach through its API, the checked (debug) and unchecked (release) graph updates give the same result.", "quantifier": "all inputs, all sequences of API calls", "why_tests_cant": "All histories; tests run only one build profile at a time.", "anchors": ["mbqc_scheduling/src/scheduler.rs: cfg(debug_assertions)", "mbqc_scheduling/src/scheduler/space.rs: measure_unchecked"]}
{"id": "C27", "title": "Multi-threaded search is sound under every interleaving", "statement": "Whatever the interleaving of the tasks and the moments of timeout, every path returned by the multi-threaded (deterministic or probabilistic) search is a valid schedule with time = steps.len() and exact space, the list is strictly monotone, and nothing panics.", "quantifier": "all inputs, all task bounds, all interleavings, all timeout observations, all accept functions", "why_tests_cant": "Interleavings cannot be enumerated by tests.", "anchors": ["mbqc_scheduling/src/search/threaded.rs"]}
{"id": "C28", "title": "Multi-threaded exhaustive search returns the optimum", "statement": "Whatever the interleaving, an uninterrupted multi-threaded deterministic search weakly dominates every valid schedule. This is FALSE for the code: after a periodic refresh a task can overwrite a better shared result with a worse one of its own. This can happen with every number of threads from two on (8 qubits, default arguments). Even the least memory can be lost in this way, with every number of threads from two on (13 qubits, default arguments; with four threads or more also in a fair interleaving, 12 qubits). It holds for all interleavings in which no task reaches the refresh interval; this is the case in every interleaving if the valid schedules have fewer than 500 different beginnings (with the default task bound and at most 16 qubits: at most 500 for each first step), in particular with at most 4 qubits, or at most 5 with the default task bound.", "quantifier": "all inputs, all interleavings", "why_tests_cant": "The failure needs a rare interleaving and more than 1000 iterations in one task.", "anchors": ["mbqc_scheduling/src/search/threaded.rs: task, update, UPDATE_INTERVAL"]}
{"id": "C29", "title": "Splitting into tasks covers every first step once", "statement": "The tasks started by the multi-threaded search together cover every possible first step exactly once, and with task_bound b >= 1 at most b tasks with a fixed first step plus one task for the rest are started (with b = 0 the number is unbounded).", "quantifier": "all inputs, all task bounds", "why_tests_cant": "All sizes.", "anchors": ["mbqc_scheduling/src/search/threaded.rs: search"]}
{"id": "C30", "title": "An always-accepting accept function changes nothing", "statement": "If the accept function always returns at least 1, the probabilistic search returns exactly what the deterministic search returns and uses no randomness.", "quantifier": "all inputs, all such functions, all random generators, all interruption points", "why_tests_cant": "All functions and runs.", "anchors": ["mbqc_scheduling/src/search.rs: probabilistic_forward, do_probabilistic_search"]}
{"id": "C31", "title": "Probabilistic search never beats and never corrupts the exhaustive one", "statement": "Every path returned by a probabilistic search is weakly dominated by a path of the exhaustive search; if every step is rejected the result of the single-threaded search is empty, and that of the multi-threaded search contains at most schedules of a single step (the first step of a task is not subject to the accept function).", "quantifier": "all accept functions, all random streams", "why_tests_cant": "All random decisions.", "anchors": ["mbqc_scheduling/src/search.rs: do_probabilistic_search"]}
{"id": "C32", "title": "With the built-in accept function a search always finds a path", "statement": "As long as no full path is known the built-in heavyside function always returns at least 1, so an uninterrupted single-threaded search with it returns at least one path for a non-empty ordering (up to 2^53 nodes). It returns 0 whenever the memory held after the step, or the maximum memory before it, exceeds the least memory found so far, and such a step is never taken; a step that would merely equal that memory is not taken either (0, or NaN if no bit is blocked). The memory needed during the step is not looked at: a step exceeding the least memory can be accepted with certainty.", "quantifier": "all inputs, all random streams", "why_tests_cant": "All inputs.", "anchors": ["mbqc_scheduling/src/probabilistic.rs: builtin_heavyside", "mbqc_scheduling/src/search.rs: probabilistic_forward"]}
{"id": "C33", "title": "The parametrised accept function generalises the built-in one", "statement": "ParametrizedHeavyside with cutoff 0 and exponents (2, 1, 1, 3, 1) is the same function as BuiltinHeavyside.", "quantifier": "all arguments", "why_tests_cant": "All argument values.", "anchors": ["mbqc_scheduling/src/probabilistic.rs: create_parametrized_heavyside, builtin_heavyside"]}
{"id": "C34", "title": "Timer reports a timeout only after it elapsed", "statement": "finished() is false for a timer that was never started and before the duration elapsed, stays true once true, becomes true after the duration elapsed and the timer thread ran, and dropping the timer always lets the timer thread end.", "quantifier": "all interleavings of timer thread, observers and drop, spurious wake-ups included", "why_tests_cant": "Interleavings and wake-ups.", "anchors": ["mbqc_scheduling/src/timer.rs: Timer"]}
{"id": "C35", "title": "run_serialized reports errors and writes only on success", "statement": "If an input cannot be opened or decoded or a format is unknown, run_serialized returns an error and creates no output file; if it returns Ok the output file decodes to exactly what run returns on the decoded inputs and no other file changed. The output format is only checked after the search, and a device that runs full leaves a truncated file.", "quantifier": "all file systems, formats, inputs", "why_tests_cant": "All combinations of file contents and formats.", "anchors": ["mbqc_scheduling/src/interface.rs: run_serialized, serialize_to_file, deserialize_from_file"]}
{"id": "C36", "title": "The Python layer is a faithful wrapper", "statement": "Paths built from a list of Path objects gives that list back (into_py_paths leaves the object unchanged, take_into_py_paths empties it); integers out of range raise; run is the Rust function on the converted arguments with the stated defaults, except that a custom callback with more than one thread is refused; the AcceptFunc constructor accepts exactly the kinds BuiltinHeavyside, ParametrizedHeavyside and Custom with their required argument, and hands the parameters on under the documented names in the documented order. The documented names (ParamBuiltinHeavyside, ParametrizedBasic, default BuiltinLinearSpace) are refused, and 'below 3 threads it will not multithread' is wrong for 2.", "quantifier": "all values", "why_tests_cant": "All values.", "anchors": ["python_lib/rust/src/lib.rs: Paths, run", "python_lib/rust/src/probabilistic.rs: AcceptFunc"]}
{"id": "C37", "title": "The pruning bound is a true lower bound", "statement": "At any state of a sweep, the minimum path length used for pruning is at most the length of every complete schedule that extends the current prefix, and it indexes best_memory within bounds.", "quantifier": "all reachable states, all completions", "why_tests_cant": "All completions of all states.", "anchors": ["mbqc_scheduling/src/search.rs: minimum_path_length"]}
{"id": "C38", "title": "num_remaining_nodes counts the nodes left to be measured", "statement": "PathGenerator::num_remaining_nodes is documented as the number of nodes left to be measured. This is FALSE: it counts only the unmeasured nodes that are not yet measurable; the two agree iff nothing is measurable.", "quantifier": "all reachable states", "why_tests_cant": "All states.", "anchors": ["mbqc_scheduling/src/scheduler/time.rs: num_remaining_nodes"]}
{"id": "C39", "title": "The trade-off curve does not depend on the representation", "statement": "The list of (time, space) pairs returned by the exhaustive search is unchanged if adjacency lists are reordered or neighbours repeated, qubits are reordered inside their layers, dependency lists are reordered, or all nodes are renamed by a permutation.", "quantifier": "all inputs, all such re-presentations", "why_tests_cant": "All permutations.", "anchors": ["mbqc_scheduling/src/search.rs: search", "mbqc_scheduling/src/scheduler/space.rs: Graph::new", "mbqc_scheduling/src/scheduler/time.rs: from_dependency_graph"]}
{"id": "C40", "title": "More constraints never improve the trade-off curve", "statement": "Adding edges to the graph or dependencies to the ordering never makes the exhaustive search return a point that is not weakly dominated by a point returned for the original input.", "quantifier": "all inputs, all extensions", "why_tests_cant": "All pairs of inputs.", "anchors": ["mbqc_scheduling/src/search.rs: search"]}
{"id": "C41", "title": "Empty ordering", "statement": "For an ordering without qubits the time-optimal mode returns one path with time 0, space 0 and no steps, whereas every search mode returns the empty list.", "quantifier": "all graphs, all modes, all timeouts", "why_tests_cant": "All graphs and modes.", "anchors": ["mbqc_scheduling/src/search.rs: get_time_optimal, do_search", "mbqc_scheduling/src/scheduler/tree.rs: Sweep::next"]}
{"id": "C42", "title": "Serialising a schedule never needs more memory", "statement": "Splitting a step of a valid schedule into two consecutive steps gives a valid schedule with at most the same space; hence the least space returned by the exhaustive search is attained by measuring one qubit at a time.", "quantifier": "all schedules, all splits", "why_tests_cant": "All schedules.", "anchors": ["mbqc_scheduling/src/scheduler/space.rs: update_memory", "mbqc_scheduling/src/search.rs: search"]}
{"id": "C43", "title": "nthreads below 2 means single threaded; task_bound is then irrelevant", "statement": "run with nthreads 0 and 1 gives the same result, independent of task_bound; the default task bound is 100000; without search nthreads, timeout, task_bound and accept function are ignored.", "quantifier": "all inputs", "why_tests_cant": "All arguments.", "anchors": ["mbqc_scheduling/src/interface.rs: run", "mbqc_scheduling/src/search.rs: search"]}
{"id": "C44", "title": "Space bounds", "statement": "For a non-empty ordering every returned path has 1 <= space <= number of nodes and 1 <= time <= number of qubits of the ordering; the space is at least the number of nodes that are, together with some measured qubit, still unmeasured neighbours at its measurement.", "quantifier": "all inputs, all modes", "why_tests_cant": "All inputs.", "anchors": ["mbqc_scheduling/src/interface.rs: Path"]}
{"id": "C45", "title": "The worker threads cannot deadlock", "statement": "In every reachable state of the lock protocol of the multi-threaded search (shared best memory, shared results) some unfinished task can take a step, and no two tasks hold the same lock.", "quantifier": "all numbers of tasks, all interleavings", "why_tests_cant": "Interleavings.", "anchors": ["mbqc_scheduling/src/search/threaded.rs: task, update, do_search"]}
{"id": "C46", "title": "The generator of the published data", "statement": "For every random stream, get_graph returns a symmetric, loop-free and repetition-free adjacency list with an edge exactly where the draw for the pair is below the density, with one draw per pair in lexicographic order; get_order passes to induced_order a permutation of the qubits and frames in which every qubit depends only on qubits measured before; hence, if induced_order meets its documentation, every instance is well formed. do_it never panics, and the collected numbers are, shot by shot, those of valid schedules: the first pair of rows has the least possible number of steps, the exact search (up to MAX_EXACT_SIZE) always contributes, its first path is as short as the time-optimal one and its last path is not larger, and nothing exceeds the number of qubits. The timeouts of the density sweep (integers) and of the node sweep (f64) times the number of shots stay within the walltime minus the buffer; the density sweep does not fit into the walltime its script requests. In exact arithmetic the three densities are probabilities and give an expected number of neighbours of factor * (size - 1), factor, and factor * sqrt(size - 1); a comment in the code states the last one wrongly. do_it completes: for every number of qubits there is a number N such that it returns whenever every search may take N iterations and every worker gets N moves, whatever the instances, timeouts and interleavings.", "quantifier": "all sizes below 2^64 - 1, all random streams, all densities, all schedulings of the threads, all functions induced_order that meet their documentation", "why_tests_cant": "All random streams and all interleavings of thirty threads; the budget of the whole job would take eight days to observe.", "anchors": ["results/src/plots.rs: do_it, get_graph, get_order, Density", "results/src/plots/density.rs: timeouts", "results/src/plots/node.rs: timeouts", "results/src/lib.rs: timeout_per_single_shot_sweep", "results/scripts/exe_density_hpc.bash:13"]}
{"id": "C47", "title": "The command line passes its arguments through", "statement": "The CLI accepts exactly the argument vectors made of six positional arguments with -s/--search, -p/--probablistic, -t/--timeout, -n/--nthreads, -b/--task-bound in any place and notation, each at most once and with a number in range, and maps them to run_serialized one to one: defaults nthreads = 1, no timeout, no search; the timeout is in seconds; -p selects the built-in accept function. Anything else reads and writes nothing; the correctly spelled --probabilistic is rejected.", "quantifier": "all argument vectors accepted by the parser", "why_tests_cant": "All argument vectors.", "anchors": ["mbqc_scheduling/src/main.rs: main", "mbqc_scheduling/src/cli.rs: parse"]}
{"id": "C48", "title": "Manual scheduling keeps time and space in sync", "statement": "For any sequence of Scheduler::focus_inplace calls with arbitrary sets (not longer than the measurable set), failing calls leave the scheduler unchanged and after the successful ones, time and space describe the same set of measured qubits; the graph update never reports AlreadyMeasured; Scheduler::focus returns exactly what focus_inplace makes of a clone, and nothing if that fails.", "quantifier": "all well-formed inputs, all instruction sequences", "why_tests_cant": "All histories.", "anchors": ["mbqc_scheduling/src/scheduler.rs: Focus for Scheduler"]}
{"id": "C49", "title": "Paths survive the file formats", "statement": "Decoding the bincode or JSON encoding of any list of paths (sizes and numbers below 2^64) gives the same list. Every accepted bincode file starts with the encoding of the value it is read as, and every accepted JSON file of a graph or an ordering is, apart from white space, the encoding of the value it is read as.", "quantifier": "all lists of paths, all inputs, all files", "why_tests_cant": "All values.", "anchors": ["mbqc_scheduling/src/interface.rs: serialize_to_file, deserialize_from_file", "mbqc_scheduling/src/interface.rs: Path derive(Serialize, Deserialize)"]}
{"id": "C50", "title": "Hash map iteration order never shows", "statement": "The list returned by search does not depend on the iteration order of the hash maps used inside.", "quantifier": "all inputs, all iteration orders", "why_tests_cant": "Iteration order varies per process.", "anchors": ["mbqc_scheduling/src/search.rs: search (filtered_results.into_iter)"]}
{"id": "C51", "title": "The multi-threaded search always finds a shortest schedule", "statement": "Whatever the interleaving and however often the tasks refresh their tables, an uninterrupted multi-threaded deterministic search returns a non-empty list whose first path has the minimum number of steps of all valid schedules. The stronger claim that this path also has the least memory among the schedules with as many steps, which holds with one thread (C10), is FALSE for the code: with every number of threads from two on it can fail (7 qubits, default arguments).", "quantifier": "all well-formed inputs with a non-empty ordering, all interleavings, all thread counts >= 2, all task bounds", "why_tests_cant": "The refresh does lose other optimal points under particular interleavings (C28); that the shortest one survives every interleaving cannot be sampled.", "anchors": ["mbqc_scheduling/src/search/threaded.rs:102-186", "mbqc_scheduling/src/search.rs:86-143"]}
{"id": "C52", "title": "What an accept function is asked", "statement": "Each iteration of a probabilistic search asks the accept function at most once, about a step that continues the current steps towards a valid schedule, with these arguments: the least memory found for a path with at most as many steps as a completion of the current path must have; the least memory found at all (both usize::MAX if none); the peak memory of the current steps; the memory held after them; the memory held after the considered step; the number of bits whose dependencies are not all measured after it; the number of nodes. The step is taken iff the answer is at least 1 or a fresh random number is below it. The result depends on the accept function only through these answers. (The documented meaning of the 5th and 6th argument, 'memory required for the current step' and 'nodes still left to measure', is wrong.)", "quantifier": "all inputs, all accept functions, all random streams", "why_tests_cant": "The arguments are internal and depend on the whole history of the search.", "anchors": ["mbqc_scheduling/src/search.rs: do_probabilistic_search, probabilistic_forward", "mbqc_scheduling/src/probabilistic.rs: Accept"]}
{"id": "C53", "title": "Reproducibility", "statement": "Without a timeout, a single-threaded run (or one without search) that is deterministic or given a seed returns a result that is a function of the arguments: build profile, iteration order of the hash map, speed and entropy of the machine do not matter. With several threads the result is a function of the arguments, the interleaving of the tasks and the moments at which the timer fires, because the seeds of the tasks are drawn from the given seed in order; fixing the seed alone is not enough, as documented. Without a seed the same call can return different costs.", "quantifier": "all well-formed inputs, all accept functions, all generators of random numbers, all pairs of machines", "why_tests_cant": "A test repeats a call on one machine; the claim compares all pairs of machines, hash map orders and interleavings.", "anchors": ["mbqc_scheduling/src/interface.rs:60-67", "mbqc_scheduling/src/search.rs:230-245", "mbqc_scheduling/src/search/threaded.rs:47-57,69-72,92-95,256"]}
{"id": "C54", "title": "Inputs whose dependencies are wrong", "statement": "If the qubits of the ordering are distinct nodes of the graph (nothing is required of the dependencies, and those of the first layer are ignored), run neither panics nor diverges in any mode. Call the part of an ordering what is left after dropping, layer by layer, the qubits of later layers whose dependencies are empty, repeated, or not all in the part of earlier layers. Then every returned path is a valid schedule of the part with exact costs; the qubits outside of the part are dropped silently. Without search the path is a shortest schedule of the part. An exhaustive single-threaded search returns for every schedule of the part a path that needs no more memory and at most one step more; without this additional step the claim is false as soon as a qubit is dropped. A qubit of the ordering that is no node of the graph is an index out of bounds in every mode.", "quantifier": "all graphs, all orderings with distinct qubits and arbitrary dependencies, all modes, seeds, accept functions, interleavings, both build profiles", "why_tests_cant": "The malformed inputs are an unbounded family that the tests do not touch; that a qubit which can never be measured costs at most one step is a statement about all schedules.", "anchors": ["mbqc_scheduling/src/scheduler/time.rs: PathGenerator::from_dependency_graph, update_unchecked", "mbqc_scheduling/src/search.rs: do_search, minimum_path_length, get_time_optimal", "mbqc_scheduling/src/interface.rs: run"]}
{"id": "C55", "title": "Which of the equally good paths is returned", "statement": "List all paths in the order in which a plain sweep over the scheduler (the loop of the documentation, without skip_current) reports them. The single-threaded deterministic search returns, sorted by time, exactly the entries that belong to the curve of this list, and for each costs on the curve the path that comes first in the list. If it is interrupted by the timeout, it returns the same for an initial segment of the list. With several threads other paths with the same costs may be returned.", "quantifier": "all well-formed problems, all timeouts, both build profiles, all hash map orders", "why_tests_cant": "tests/roundtrip.rs compares the two lists on random problems with at most 8 nodes and without a timeout; here it is every problem and every moment of interruption.", "anchors": ["mbqc_scheduling/src/search.rs: do_search, search", "mbqc_scheduling/tests/roundtrip.rs:110-208", "mbqc_scheduling/src/scheduler/tree.rs: Sweep"]}
{"id": "C56", "title": "The documented recipe for parallelisation is correct and balanced", "statement": "Collect the steps of a sweep over a PathGenerator, split them with split_instructions into k > 0 tasks, and let an own copy of the Graph follow the steps of each task (the recipe the documentation points to). No task panics. The results of the tasks, one after the other, are exactly the paths that a sweep over the Scheduler reports, in the same order, with the same lengths and memories: every valid schedule exactly once (steps compared as sets) with its exact peak memory. There are k tasks, or one if there are fewer than k paths, and the numbers of paths of two tasks differ by at most one. k = 0 panics with a division by zero.", "quantifier": "all well-formed problems with at least one measured qubit, all k, both build profiles", "why_tests_cant": "tests/roundtrip.rs tries k = 4 on random problems with at most 8 nodes, compares sets only and says nothing about the balance; here it is every problem and every k, with order and sizes.", "anchors": ["mbqc_scheduling/xdocs/scheduler.md:290-298", "mbqc_scheduling/tests/roundtrip.rs:208-384: split_instructions, InstructedSweep", "mbqc_scheduling/src/scheduler/tree.rs: Sweep", "mbqc_scheduling/src/scheduler/space.rs: Graph::focus"]}
{"id": "C57", "title": "Means, deviations and layout of the published data", "statement": "The generator of the published data writes, for every point of a sweep, mean and deviation of each row of collected numbers. For a row of n numbers between lo and hi, computed with f64: the mean is the exact mean rounded once, lo <= mean <= hi, 0 <= deviation <= hi - lo, the square of the deviation is the population variance up to (n + 9) hi^2 / 2^53, equal numbers give this number and deviation 0 exactly, an empty row gives NaN, and the mean is monotone in the numbers. The sweep over the number of qubits never panics once its densities are accepted and writes 16 rows: rows 2i and 2i+1 are means and deviations of the numbers number i for the sizes 2..45 (i < 4) or 2..20 (4 <= i < 8), the indexing used by the plotting script. Rows 8 and 9 repeat the first 19 entries of rows 0 and 1 bit for bit. With f64 the means of the deterministic searches lie between 0 and the number of qubits, row 8 <= row 12 and row 14 <= row 10 in every column. The sweep over densities accepts multipliers between 0 and 22, refuses negative ones, never panics otherwise, uses the densities k/22 and writes 8 rows of 21 entries. Shot by shot: each draws a graph, an order and a seed, in this order, runs the three searches on exactly this instance, with this seed and the timeout of the point, and the rows consist of the numbers of the first path of the time optimal run, of the last path of the probabilistic search and of the first and last path of the exhaustive search. Both sweeps complete if their searches get enough iterations and moves.", "quantifier": "all streams of random numbers, all thread interleavings and clocks, all densities that are accepted, all numbers of shots up to 2^53/45^2; layout for every floating point arithmetic", "why_tests_cant": "there are no tests for results; one run takes eight days on 30 cores, and a wrong index or a deviation with n - 1 gives a plausible plot.", "anchors": ["results/src/plots.rs:36-112: do_it", "results/src/plots/node.rs:64-135: run", "results/src/plots/density.rs:21-106: density, run", "results/plotting/nodes.py"]}
{"id": "C58", "title": "The random instances have the intended distribution", "statement": "If the generator makes independent draws in which an index below n is uniformly distributed and a number is below a density d with probability p, then: get_graph returns every simple graph on n nodes with m edges with probability p^m (1-p)^(n(n-1)/2-m) (Erdos-Renyi model); get_order draws every order of the n qubits with probability 1/n!, and a given order with given m dependencies on earlier qubits with probability p^m (1-p)^(n(n-1)/2-m)/n!; graph and dependencies of one instance are independent; two nodes are neighbours with probability p and the expected number of neighbours of a node is (n-1)p, which for exact uniform numbers is factor*(n-1), factor and factor*sqrt(n-1) for the three kinds of density. The shots of a point are independent of each other: the draws of shot i start at the fixed position i*(n(n-1)+n+1), whatever the searches do, and the probability of given instances for all shots is the product of their probabilities.", "quantifier": "all sizes, all graphs, orders and dependencies, all densities, all probability spaces for a single draw that are fair as stated (exact uniform numbers and numbers rounded to b bits are instances)", "why_tests_cant": "A test can estimate frequencies for small sizes; it cannot tell a slightly biased permutation (e.g. an index range that does not shrink) from chance, and says nothing about independence for all sizes.", "anchors": ["results/src/plots.rs:232-250: get_graph", "results/src/plots.rs:252-283: get_order", "results/src/plots.rs:184-197: Density::get", "results/src/plots.rs:41-57: the loop of do_it"]}
{"id": "C59", "title": "The trade-off is that of path decompositions", "statement": "Let all neighbour lists be symmetric between measured qubits. Every path returned by run, in any mode, gives a path decomposition with one bag per step whose largest bag has as many nodes as the reported space (bags: what is in memory during a step; a qubit is given up after the ones it depends on; nodes that are never measured are never given up). An exhaustive search returns a path with at most t steps and at most m qubits in memory exactly if there is such a path decomposition with at most t bags of at most m nodes. If all nodes of a graph are measured and nothing depends on anything, these are the ordinary path decompositions of the graph, and the space of the last path is the pathwidth of the graph plus one; this also holds starting with GraphBuffer::new on a list of edges. With dependencies and in every mode, no path needs less.", "quantifier": "all well-formed inputs with symmetric neighbour lists, all graphs; equality for exhaustive searches, bounds for every mode, interleaving and clock", "why_tests_cant": "Relates the answer of the search to a quantity defined by a minimum over all path decompositions of a graph, whose computation is NP-hard; tests compare with a few recorded paths.", "anchors": ["mbqc_scheduling/src/interface.rs: run", "mbqc_scheduling/src/search.rs: search", "mbqc_scheduling/src/scheduler/space.rs: Graph", "README.md: the space-time optimization problem"]}
{"id": "C60", "title": "Lower bounds from the graph, and the linear cluster state", "statement": "For every path returned by run, in any mode and with any dependencies, on a graph of n nodes that are all measured: if the graph is connected, n <= time * (space - 1) + 1; space is at least the size of every clique, and at least the minimum degree plus one. For the linear cluster state on n qubits without dependencies the first bound is sharp: an exhaustive search returns a path with at most t steps and at most m qubits in memory exactly if t, m >= 1 and n <= t * (m - 1) + 1.", "quantifier": "all graphs, all dependencies, all modes, interleavings and clocks; all n, t, m for the linear cluster state", "why_tests_cant": "The bounds hold for every number of qubits; an error in the memory counter that makes long runs too cheap would violate them only on large inputs.", "anchors": ["mbqc_scheduling/src/scheduler/space.rs:173-229: measure, update_memory", "mbqc_scheduling/src/search.rs: search", "mbqc_scheduling/src/interface.rs: run"]}
{"id": "C61", "title": "Neighbours that are no nodes", "statement": "Let the adjacency lists contain numbers that are no nodes of the graph. If run returns without a panic, in any mode, it returns exactly what it returns on the graph without these numbers, and no qubit on a returned path has such a neighbour: there is never a silently wrong answer. If no qubit of the ordering has such a neighbour, the runs on the two graphs are equal (lists of nodes that are not measured may contain anything). If the qubits of the ordering are distinct nodes, a panic is an index out of bounds and there is a qubit of the ordering with such a neighbour; conversely, if a qubit that can be measured has such a neighbour, run panics with it or the search ends without a path. On an input that is well-formed otherwise, run without search, an exhaustive search and a multi-threaded search without timeout panic exactly if some qubit has such a neighbour.", "quantifier": "all graphs (arbitrary numbers in the lists) and all orderings for the first two parts; all modes, interleavings, clocks, accept functions and build profiles", "why_tests_cant": "Whether such an entry is read depends on which steps the search visits; tests use graphs without such entries, and one that panics does not show that another one that does not panic is right.", "anchors": ["mbqc_scheduling/src/scheduler/space.rs:173-229: measure, update_memory", "mbqc_scheduling/src/interface.rs: run", "mbqc_scheduling/src/search.rs: search"]}
{"id": "C62", "title": "No input whatsoever makes a debug build return a wrong path", "statement": "Nothing is assumed about the input (repeated qubits, arbitrary numbers, arbitrary dependencies). For every path returned by run, in every mode and both build profiles: time is the number of steps, no step is empty, only nodes that the ordering mentions are measured, the list is strictly monotone in time and space, the space is the peak of the steps if no qubit is measured twice, and a qubit that is not in the first layer is measured after the qubits that it depends on. In a debug build no qubit is ever measured twice, so the space is always right. In a release build both is false: a qubit that is twice in the first layer is measured twice and the space is too small. The condition on the first layer is needed in both.", "quantifier": "all inputs without any assumption, all modes, interleavings, clocks and accept functions", "why_tests_cant": "Tests use inputs of the intended form; the claim is about every list of numbers a caller can pass.", "anchors": ["mbqc_scheduling/src/interface.rs: run", "mbqc_scheduling/src/scheduler.rs:90-108: next_and_focus", "mbqc_scheduling/src/scheduler/space.rs:170-260", "mbqc_scheduling/src/scheduler/time.rs:224-248: update_unchecked"]}
{"id": "C63", "title": "What a debug build returns a release build returns too", "statement": "On every input whatsoever, with the same clock, interleaving and random numbers: if run returns in a debug build, it returns the same in a release build; if it panics in a release build, it panics in a debug build. So where a debug build does not panic, the paths of a release build measure no qubit twice and have the right space. The converse is false: a debug build can panic where a release build returns a path.", "quantifier": "all inputs without any assumption, all modes, interleavings, clocks and accept functions", "why_tests_cant": "Tests run in one profile; the unchecked functions of the release build are different code (measure_unchecked), and the equality is needed for all states that can arise.", "anchors": ["mbqc_scheduling/src/scheduler.rs:61-108: cfg!(debug_assertions)", "mbqc_scheduling/src/scheduler/space.rs:170-260: impl_measure", "mbqc_scheduling/src/interface.rs: run"]}
{"id": "C64", "title": "How soon a timeout is noticed", "statement": "With a timeout and nthreads below 2, run ends the search with the first iteration at whose end the time is over. With at least two threads, once the time is over no task makes more than 1003 further moves (its start, 1001 iterations, merging its results), whatever the interleaving; there are at most 2^(size of the first layer) + 1 tasks and at most task_bound + 1. On the other hand, no task looks at the timer in its first 1000 iterations: as long as no task makes more, neither the timeout nor the clock has any effect. So the documented empty list for a timeout that is too short is returned single-threaded, whereas several threads can return the complete list.", "quantifier": "all inputs without any assumption, both build profiles, with and without accept functions, all clocks and all interleavings", "why_tests_cant": "A test sees one clock and one interleaving; the bound counts moves of every task in every interleaving, and inputs for which the search would otherwise not end in reasonable time.", "anchors": ["mbqc_scheduling/src/search.rs:150-280: do_search, do_probabilistic_search", "mbqc_scheduling/src/search/threaded.rs: UPDATE_INTERVAL, update", "mbqc_scheduling/src/interface.rs:42-47: documentation of timeout"]}
{"id": "C65", "title": "What of the lists in an input is seen", "statement": "run does exactly the same (the same paths in the same order, the same panics) for two inputs that differ only in: the order and repetitions of the neighbours in an adjacency list, self-loops, the order of the dependencies of a qubit, and whatever is given as dependencies of the first layer. For well-formed orderings the division into layers makes no difference either: only the list of the entries counts. On the other hand, a repeated dependency, the order of the qubits in a layer (which of equally good paths is returned) and, for orderings that are not well-formed, the division into layers do make a difference.", "quantifier": "all inputs without any assumption (layers: all well-formed inputs), all modes, both build profiles, all clocks, interleavings, accept functions and random numbers", "why_tests_cant": "The lists typically come out of hash sets with a random order; a test sees one order. The equality is needed for every state of the search, including panics.", "anchors": ["mbqc_scheduling/src/scheduler/space.rs: Graph::new, measure, initialize", "mbqc_scheduling/src/scheduler/time.rs:127-198: from_dependency_graph", "mbqc_scheduling/src/interface.rs: run"]}
{"id": "C66", "title": "Accept functions with a state, and ones that fail", "statement": "An accept function may remember its calls, answer the same question differently each time, and panic (a Python callback: raise, or return something that is not a number). Whatever it does: every path that run returns is a valid schedule with its exact time and space and the list is strictly monotone; the run ends within a number of iterations that depends on the number of qubits only; a panic on a well-formed input is a panic of the accept function, and in a single-threaded run (the only one possible with a Python callback) one at a question whose seven numbers belong to a partial schedule and the paths found so far. A failure at the first question, which is the same for all accept functions, always ends in a panic. A state that does not show in the answers changes nothing. The state is passed from call to call: a returned path of t steps has cost at least t calls, with threads t - 1. On the other hand, with a state a fixed seed does not make a single-threaded run reproducible.", "quantifier": "all well-formed inputs, all modes, all callbacks and states, both build profiles, all clocks, seeds, random numbers and interleavings (the question of a panic: single-threaded)", "why_tests_cant": "A test fixes one callback and one history of calls. Answers that depend on the history take the search to states that no function of the seven numbers reaches, and a failure can happen at any call.", "anchors": ["mbqc_scheduling/src/probabilistic.rs:22: Accept", "mbqc_scheduling/src/search.rs:226-318: do_probabilistic_search, probabilistic_forward", "mbqc_scheduling/src/search/threaded.rs:259-288", "python_lib/rust/src/probabilistic.rs:129-157: AcceptFunc::to_real", "python_lib/rust/src/lib.rs:187-192"]}
{"id": "C67", "title": "How many iterations a search takes", "statement": "Iterating a scheduler to the end takes exactly 2k + 1 calls of next, where k is the number of non-empty beginnings of valid schedules (steps compared as sets). A single-threaded search, with or without accept function, ends within so many iterations whatever the timer does; the tasks of a thread pool together need no more, and one less for every task that is split off, in any interleaving. With u qubits k is at most 2a - 1, where a is the u-th ordered Bell number, with equality without dependencies; so 4 u^u iterations are always enough. A deterministic search without a timeout cannot skip a beginning if it and its beginnings have a smaller peak than every schedule of the length that they have to reach, and needs more than two iterations for each of those; for u >= 3 isolated qubits these are so many that the search is not done after u! iterations. So the documented worst case (between factorial and double exponential) is right; it is much closer to the factorial.", "quantifier": "all well-formed inputs, both build profiles, all accept functions (with and without a state), clocks, random numbers, task bounds and interleavings (lower bound: deterministic, single-threaded, no timeout)", "why_tests_cant": "The numbers grow faster than exponentially, so a test can count only for a handful of qubits; a scaling is a statement about all sizes.", "anchors": ["mbqc_scheduling/src/interface.rs:60-63: scaling", "README.md:37-39: scaling", "python_lib/rust/src/lib.rs:185", "mbqc_scheduling/src/search.rs:144-223: do_search, minimum_path_length, forward, backward", "mbqc_scheduling/src/search/threaded.rs:60-103", "mbqc_scheduling/src/scheduler/tree.rs: Sweep"]}
{"id": "C68", "title": "Parts of an input, and inputs with independent parts", "statement": "Let P' be found in P: some of the nodes (renamed) with some of the edges between them, dependencies at least as strong in P, and a node to be measured in both or in none. Then every path returned by any run for P is weakly dominated by one that the exhaustive search returns for P'. If P consists of two parts with nothing between them, then for every two paths returned for the parts, and every delay with which the second one is started, the exhaustive search for P returns a path that is not longer and needs at most the largest sum of the two memories at one time; in particular at most the longer time with the sum of the spaces (in parallel) and at most the sum of the times with the larger space, nodes of the first part that are never measured added (one after the other). The shortest time for P is the larger one of the two, and so is the least space if all initialised nodes are measured. FALSE: that all of the trade-off curve of P comes from those two combinations; that one may drop the measurement of a node.", "quantifier": "all well-formed inputs, all runs on the parts, all delays", "why_tests_cant": "Relates the results for three inputs of any size and shape.", "anchors": ["mbqc_scheduling/src/search.rs: search, search_single_task", "mbqc_scheduling/src/interface.rs: run"]}
{"id": "C69", "title": "What the published figures show", "statement": "For every run of the sweep over the number of qubits the script nodes.py succeeds, and its curves go through the points (size, mean of the collected numbers of this size): sizes 2..45 for the time optimal and the approximate search, 2..20 for the shortest and the smallest path of the exact search; FALSE: that the axes show all points (they end at 44). For 21 runs of the sweep over the densities for 20 qubits with the multipliers 1..21, computed with f64, densities.py draws four images: pixel (e - 1, k - 1) of image i is the mean of the numbers i of the call of do_it with edge density e/22 and correction density k/22, rounded once; the range of the colours is exactly the range of the drawn numbers and lies between 0 and 20; if for one point no shot contributed a number (the mean is NaN, written as null), the script fails with a TypeError. The measured times are the sums over the shots divided by 3000, rounded down; they survive the way through the file to the nanosecond; runtimes.py draws them over the right sizes and over the right densities, with exactly their range as colours if one of them is at most 999 minutes. FALSE: that it would draw them at the right sizes if the exact search had a gap.", "quantifier": "all streams of random numbers, thread interleavings and clocks, all densities that are accepted, all numbers of shots up to 2^53/400, all measured times below 3000 * 2^64 ns", "why_tests_cant": "The scripts run on data that take days to produce; a shifted index or a transposed image gives a plausible figure.", "anchors": ["results/plotting/nodes.py", "results/plotting/densities.py: draw_images", "results/plotting/runtimes.py", "results/src/plots.rs:26-92"]}
{"id": "C70", "title": "A multi-threaded search does not come back empty-handed", "statement": "If there is a schedule of at most 1001 steps (so with at most 1001 qubits), a multi-threaded search returns at least one path, however short the timeout is and however the tasks are interleaved, if it is exhaustive or if the accept function answers with at least 1 as long as no path is known; the built-in function does (at most 2^53 nodes). Without a timeout, or if the time is never over, this holds for any number of steps. On the other hand, if every schedule has more than 1001 steps and the time is over from the beginning on, the list is empty; so FALSE: that an exhaustive multi-threaded search with a timeout always returns a path. For the published data (f64, at most 45 qubits): every shot contributes a schedule of the approximate search, which takes at least as long as the time-optimal one; the file of the sweep over the number of qubits contains numbers between 0 and 45 only, no NaN, and the curve of the approximate time is nowhere below that of the least time; the script for the images never fails for lack of numbers.", "quantifier": "all well-formed inputs with a non-empty ordering, all interleavings, random numbers and clocks, all thread counts >= 2, all task bounds, all accept functions with the stated property, both build profiles", "why_tests_cant": "Whether a path is found depends on the interleaving, the clock and the random numbers: another task may publish a bound or the time may be over at any moment. The published data take days to produce.", "anchors": ["mbqc_scheduling/src/search/threaded.rs:102-186", "mbqc_scheduling/src/search/threaded.rs:33: UPDATE_INTERVAL", "mbqc_scheduling/src/probabilistic.rs: builtin_heavyside", "results/src/plots.rs:26-92"]}
{"id": "C71", "title": "When the first schedule is found", "statement": "Let T be the least number of steps of a valid schedule. The single-threaded search, exhaustive or with an accept function that answers with at least 1 as long as no path is known, goes straight to a schedule of T steps: if the time is not over before iteration T (counted from 0) or there is no timeout, the first returned path has T steps. If the time is over in iteration T-1 or earlier, the list is empty, whatever the accept function is. If it is over exactly in iteration T, the result is that of the mode without search: one path of the same time and space, with the same steps up to the order within a step. In particular a probabilistic search with the built-in function and no timeout returns a path of least time first, whatever the random numbers are. The multi-threaded exhaustive search returns a path of least time first under any timeout and any interleaving if T <= 1001. FALSE: that a multi-threaded search with such an accept function returns a path of least time; a longer path found by one task can make the function reject the shortest one in another.", "quantifier": "all well-formed inputs with a non-empty ordering, all clocks, random numbers, interleavings and thread counts, both build profiles, all hash orders", "why_tests_cant": "The clock, the random numbers and the interleaving are not under a test's control, and the number of iterations up to the first schedule is a statement about all graphs and orderings.", "anchors": ["mbqc_scheduling/src/search.rs:146-224: do_search, forward, backward", "mbqc_scheduling/src/search.rs:226-330: do_probabilistic_search", "mbqc_scheduling/src/search.rs:47-84: get_time_optimal", "mbqc_scheduling/src/search/threaded.rs:106-240", "mbqc_scheduling/src/timer.rs"]}
{"id": "C72", "title": "Executing a returned path as in the example of the Python package", "statement": "python_lib/examples/compile_flow.py executes a path step by step: a qubit and its neighbours are initialised, the Pauli corrections collected so far are performed, the qubit is measured, and if the outcome is 1 the frame that belongs to the qubit is added to the corrections. If the ordering makes every qubit wait, directly or indirectly, for the measurements whose frames act on it (what get_order of pauli_tracker is for) and no qubit is flagged twice, then for all outcomes: every qubit is measured exactly once and with exactly the corrections due by all outcomes of the whole execution, so none comes too late; what remains on other qubits are the corrections due there; if outcomes are a function of the qubit and its correction, all paths returned by any calls, with any order inside the steps, lead to the same corrections and outcomes; never are more qubits initialised than the space of the path. A buffer tracker has two frames per input of the next widget and, read at the positions 2*idx and 2*idx+1, gives the corrections of the previous widget moved through the gates, the same as one tracker for both widgets. FALSE: that the positions idx and idx+1 used in the example do (wrong for every widget with at least two inputs); that 'if Z ... elif X' performs the correction (a Y, which occurs in the example itself, becomes a Z); that a qubit with two frames is handled.", "quantifier": "all well-formed inputs, all arguments and returned paths, all frames and flags, all Clifford circuits from H, S, CZ, SWAP, all measurement outcomes, all correction strings", "why_tests_cant": "The outcomes are random: for u qubits there are 2^u executions, times all schedules and all circuits.", "anchors": ["python_lib/examples/compile_flow.py:37-245", "mbqc_scheduling/src/interface.rs:71-96: run"]}
{"id": "C73", "title": "The project's own property test passes for every input", "statement": "mbqc_scheduling/tests/roundtrip.rs draws random inputs with at most seven nodes. From the dependency graph on, its body passes for every list of edges between n nodes (loops and repeated edges included) and every well-formed time ordering, for every n: no index is out of bounds, no unwrap fails, and every assertion holds. That is: its branch-and-bound loop and its filter over all paths lead to equal maps from length to (memory, path), with identical paths; the paths of the sweep are distinct, so are the paths found by the four tasks of the split recipe; and the two sets of (length, memory, path) are equal. The copy of the search in the test, which starts from another table, computes what the library's uninterrupted search returns: the same costs and the same paths.", "quantifier": "all edge lists, all numbers of nodes, all well-formed orderings, both build profiles", "why_tests_cant": "It is the test itself, for all inputs instead of a random sample with at most seven nodes.", "anchors": ["mbqc_scheduling/tests/roundtrip.rs:102-384", "mbqc_scheduling/src/search.rs:86-222"]}
{"id": "C74", "title": "The random operations of the property test always lead to a usable ordering", "statement": "mbqc_scheduling/tests/roundtrip.rs turns random gates and teleportations on n qubits into Pauli frames and a list of measured qubits, with the Instructor of pauli_tracker's own test, and asks get_order for the dependency graph. If no operand is within 74 of the largest usize, then for every list of operations, in both build profiles: no unwrap, index or remainder fails; the result does not depend on the profile; every qubit has exactly one stack; every measured qubit is recorded once and at least one qubit is never measured; and a stack of a measured qubit only has operators at positions of earlier measurements. So the documented behaviour of get_order is possible, and for every get_order with that behaviour the whole test passes, for every edge list. With one qubit the test returns without looking at anything. FALSE: that this holds for all operands, although the strategies draw any usize: in a debug build Rz(2^64-4) panics in `a + 73`; in a release build `bit_b + 1` wraps, a teleportation gets the same qubit twice, and the qubit would have to be measured before itself, for which no ordering exists.", "quantifier": "all lists of operations with operands below 2^64-74, all numbers of qubits from 1 to 2^64-2, all edge lists, both build profiles, every get_order with the documented behaviour", "why_tests_cant": "It is about the generator of the test: random testing would need about 2^57 draws to meet an operand for which it fails, and cannot show that there is no other.", "anchors": ["mbqc_scheduling/tests/roundtrip.rs:46-90", "pauli_tracker/pauli_tracker/tests/roundtrips/tracking.rs:212-449"]}
{"id": "C75", "title": "The order in which patterns are tried", "statement": "The interface documentation says that \"the algorithm always first tries the more time optimal patterns\". For every well-formed, nonempty input the sweep over a scheduler goes through the valid schedules in a fixed order that is given by the input alone: of two schedules the one whose step is larger at the first point where they differ comes first; of two steps of the same size the one that leaves out the first ready qubit on which they differ. The list of ready qubits starts with the dependency-free qubits in the order of the input; what becomes ready is appended in the order in which the measured qubits release it. Every valid schedule is there exactly once, with its steps in the order of the ready list. The first schedule with a given beginning is the shortest one with that beginning. An exhaustive, single-threaded, uninterrupted search returns, for each cost on the curve, the schedule of that cost that comes first in this order; so no schedule of the same cost that begins with the same steps goes on with a larger step. FALSE: that shorter schedules always come before longer ones.", "quantifier": "all well-formed nonempty problems, all schedules, both build profiles, all fuels from some number on; for the returned path all environments in which the time is not over", "why_tests_cant": "The order of all schedules of every input; tests compare sets or fixed examples.", "anchors": ["mbqc_scheduling/src/interface.rs:69", "python_lib/rust/src/lib.rs:156", "mbqc_scheduling/src/scheduler/time.rs:127-312", "mbqc_scheduling/src/scheduler/tree.rs:80-120", "mbqc_scheduling/src/scheduler/combinatoric.rs:21-50"]}
{"id": "C76", "title": "What the approximate search can and cannot reach", "statement": "For an uninterrupted single-threaded search with a probabilistic accept function. (a) For every accept function: if every question about a step of a valid schedule S is answered so that the step is taken, as long as everything found so far needs more memory than S, then the search returns a path that needs no more memory than S. (b) Let d be how much the memory held after the step and the peak before it are below the least memory found so far, d > 0, and rem the number of blocked bits. The answer of the built-in function is positive if n rem <= 680 d^3 (n - rem), or if d = 1 and n rem <= 738 (n - rem). For at most 48 nodes this covers every step that matters, so with the luckiest random numbers the search returns a path with the least memory of all schedules. (c) The exponential can underflow: if 810 d^3 (n - rem) <= n rem, or d = 1 and 749 (n - rem) <= n rem, the answer is exactly 0 and the step is rejected for every random number. (d) If all k-th steps that would stay below c qubits are turned down once a path is known, nothing below c qubits is returned. (e) For a random number s below 1 the step is taken exactly if the answer is plus infinity or a number greater than s; NaN and minus infinity are a no. FALSE: that the search can find every optimal path given enough luck: with 49 nodes (two free bits and a chain of 47 that waits for both) one qubit is enough, but for all random numbers, timeouts and accuracies of exp and powi every returned path needs at least two (c, d); and on a problem with four nodes the luckiest search returns costs (2,4) and (3,3) although (2,3) is possible. All of this for IEEE 754 binary64 with its exponent range, signed zeros, infinities and NaN; exp and powi are arbitrary functions with a relative error of at most 1/16 (in the range of the normal numbers; between 2^-1070 and 2^-1022 the result of exp only has to be positive).", "quantifier": "all well-formed problems, all accept functions (a, d), all generators and seeds, all f64::exp and f64::powi within the stated accuracy; (b, c) at most 2^53 nodes, the consequence of (b) at most 48 nodes", "why_tests_cant": "It is about all random numbers at once, including sequences that no test would ever draw, and about every accuracy of the platform's exp and powi.", "anchors": ["mbqc_scheduling/src/probabilistic.rs:27-46", "mbqc_scheduling/src/probabilistic.rs:115-117", "mbqc_scheduling/src/search.rs:225-318"]}
{"id": "C77", "title": "Which parametrised accept functions find a path", "statement": "AcceptFunc::ParametrizedHeavyside takes a cutoff and five exponents without any check. For at most 2^20 nodes: if the cutoff is at most 2^63, the exponent in front is 1..12, and in the exponential function the exponent e of the distance is at most 3, those of the number of nodes (>= 0) and of the blocked nodes (>= 1) add up to at most 3e, and that of the other nodes is 0..2, then every question is answered with at least 1 as long as no path is known. So an uninterrupted single-threaded search returns at least one path for all random numbers, and a multi-threaded one, even with a timeout, if there is a schedule with at most 1001 steps. FALSE: that every choice of parameters finds a path on every well-formed input. A cutoff above 2^65: nothing is ever accepted. A negative exponent of the number of blocked nodes: the last step of every path is answered with exp(-inf) = 0, so no path is completed. The exponent -1 or -2 of the distance: every first step underflows to 0 if some qubit needs another that needs a third. In these three cases a single-threaded search returns the empty list for all random numbers. A negative exponent in front: the empty list if no random number is below 0.6.", "quantifier": "all well-formed problems with at most 2^20 nodes (2^53 for the cutoff), all parameters in the stated ranges, all environments, seeds and random numbers, all f64::exp and f64::powi with a relative error of at most 1/16", "why_tests_cant": "The one test uses the parameters of the built-in function; infinitely many parameters, and all random numbers at once.", "anchors": ["mbqc_scheduling/src/probabilistic.rs:49-83", "mbqc_scheduling/src/search.rs:225-318", "python_lib/rust/src/probabilistic.rs:8-30", "python_lib/tests/main.py:24"]}
{"id": "C78", "title": "From a line of parameters to a figure", "statement": "The runs behind the published figures are started from the lines of results/parameters/*.dat and their files are found again by name. (a) The three ways in which a finite number is written (Display of f64, serde_json, repr of Python) denote the same number, so runs with different arguments write different files. (b) For a line `e c kind kind` the run of `results node` gets e as the density of edges and c as the density of corrections, and nodes.py shows its data if each of e, c is 0, or in [1e-4, 1e16), or below 1e-9; otherwise the file is not found (Python writes 5e-05, serde_json 0.00005). (c) For lines `20 m` with whole, nonnegative m the images of densities.py show in every row the data of the run of this line, in whatever order the runs end; the array jobs 1-21 on the cluster are the runs of the local script. A run that fails leaves every file as it is; without a file of an earlier time the script then stops instead of drawing a part of the data. FALSE: that the rows belong to the lines for all multipliers (int() cuts 2.5 to 2 and the row of the line with 2 is drawn again), and that every line that starts a run can be plotted (two blanks between the numbers).", "quantifier": "all numbers given by their shortest decimal representation, all lines of the given form, all contents of files, all orders in which runs end", "why_tests_cant": "the names are computed independently in Rust and in Python; the pipeline has been run for one set of parameters, for which both agree", "anchors": ["results/src/cli.rs", "results/src/plots/node.rs:64-77", "results/src/plots/density.rs:40-51", "results/scripts/exe_density_local.bash", "results/scripts/exe_density_hpc.bash", "results/scripts/exe_node_hpc.bash", "results/plotting/utils.py:4-10", "results/plotting/densities.py:90-118", "results/plotting/nodes.py:150-157"]}
{"id": "C79", "title": "How likely the approximate search finds a schedule", "statement": "The random numbers of a single-threaded approximate search are drawn uniformly and independently (for any finite set of values; for rand's Uniform::new(0., 1.) the 2^52 multiples of 2^-52). (a) If every question about a step of a schedule S is answered with at least 1, or such that at least z of the |Omega| values lead to the step, as long as no path with at most T steps was found that needs no more memory than S, then an uninterrupted search returns a path with at most T steps and no more memory than S with a probability of at least (z/|Omega|)^|S|, whatever is answered otherwise. (b) If every question about a step of S is answered below 1 and at most w values lead to the step, S is returned with a probability of at most (w/|Omega|)^|S|, with or without a timeout. (c) So with an accept function that always answers r < 1 (the example of python_lib: 0.5), with q = r rounded up to a multiple of 2^-52, a path as good as S in time and memory comes with a probability of at least q^|S|, K independent runs find one with at least 1-(1-q^|S|)^K, and for a row of n qubits, each waiting for the one before, anything at all is returned with a probability of exactly q^n. (d) With the built-in function and at most 48 nodes every schedule is matched in memory with a probability of at least 2^(-52|S|).", "quantifier": "all well-formed inputs, schedules, accept functions, finite uniform distributions, timers, numbers of runs", "why_tests_cant": "a probability is a statement about all sequences of random numbers; a test sees one sequence per seed, and events of probability 2^-n do not show up", "anchors": ["mbqc_scheduling/src/search.rs:226-318", "mbqc_scheduling/src/probabilistic.rs:22-115", "python_lib/tests/main.py:31-40"]}
{"id": "C80", "title": "What a small change of the input changes", "statement": "Compare the results of run for an input and for a changed one. (a) Edges: with k further edges, the exhaustive search returns for every path that any run returned before a path with no more steps and at most k more qubits of memory (and C40: nothing gets better). (b) Qubits: a further qubit that no qubit waits for and whose neighbours are all measured costs at most one step and one qubit of memory; no step if it waits for nothing itself. (c) Dependencies: k further dependencies make the time-optimal path at most k+1 times as long, with and without search. (d) There is no such bound for the memory: for every n there is an input with n qubits for which 2 qubits of memory are enough, and which needs all n after a single further dependency.", "quantifier": "all pairs of well-formed inputs that differ in this way, all modes for the first, every uninterrupted exhaustive search for the second", "why_tests_cant": "relates the results of two runs for all pairs of inputs; the bounds are tight, so a test on random inputs hardly ever comes near them", "anchors": ["mbqc_scheduling/src/interface.rs:14-60", "mbqc_scheduling/src/search.rs:86-143", "mbqc_scheduling/src/scheduler/space.rs:158-225"]}
{"id": "C81", "title": "What a pool with a fixed number of workers does", "statement": "The multi-threaded search hands its tasks to a pool of nthreads workers. At every moment at most nthreads tasks have been begun and have not returned, and if a task has been begun then fewer than nthreads of the tasks before it have not returned. A larger pool can do everything that a smaller one can do, with the same result, but not the other way around. The workers never get stuck: whatever they have done so far, they can go on such that the search returns. If no task pauses for another one (no task makes a move, then another task, then the first one again), an uninterrupted exhaustive search dominates every valid schedule, whatever the refresh does (so that the losses of C28 need tasks that alternate); every pool can work in this way, and if it does so in the order of the queue the result is unique in every mode.", "quantifier": "all inputs, all interleavings, all numbers of workers, all modes, all task bounds", "why_tests_cant": "The scheduler of the operating system decides about the interleavings; a test sees a few of them, and none that shows that a loss is impossible.", "anchors": ["mbqc_scheduling/src/search/threaded.rs:35-186"]}
{"id": "C82", "title": "How much a sweep keeps", "statement": "Whatever calls of next and skip_current a client makes on a Sweep of a Scheduler, there are never more saved states than qubits to measure (b), every state has exactly one entry per node (n) and one per unmeasured qubit, and the current state and the saved ones together never have more than (b+1)(2n+b)/2 entries. Plain iteration reaches both bounds for every well-formed input. So the number of states is linear, but the memory is not linear in the size of the input, contrary to what the documentation of the scheduler module can be read to say. The same bounds hold for the sweep inside the exact and the approximate search at every moment. With threads: a pool of w workers holds at most one state per task plus w*b saved ones; the number of tasks is 2^k without a bound, and min(2^k-1, bound)+1 with one, where k is the number of qubits without dependencies.", "quantifier": "all well-formed inputs, all sequences of calls, all modes, all timers, all interleavings", "why_tests_cant": "a bound over all sequences of calls that is attained only at certain moments of the iteration", "anchors": ["mbqc_scheduling/xdocs/scheduler.md:5-14", "mbqc_scheduling/src/scheduler/tree.rs:64-119", "mbqc_scheduling/src/search/threaded.rs:60-125"]}
{"id": "C83", "title": "Sweeping through any tree", "statement": "Sweep works for every type that implements FocusIterator, not only for the schedulers. If the calls of next_and_focus on a state describe a finite tree (and it keeps returning None after None), then for every sequence of next and skip_current on Sweep::new of this state a caller sees exactly what moving in that tree shows; in particular plain iteration enters every node once, in the order of the children, visits everything below it, leaves it once with the value of at_leaf, and then returns None forever. A client that calls skip_current on some nodes collects exactly the leaves that are neither such a node nor below one, in the same order. For every implementor, finite or not, the number of stored states is the number of steps forward minus steps backward minus successful skips. The Scheduler and the PathGenerator of every well-formed input describe the same tree, whose leaves are the valid schedules, each once, with their peak memory. Sweep itself does not remember its end: for an implementor that offers something after None, next can return Some after None.", "quantifier": "all types with the methods of FocusIterator, all finite trees, all sequences of calls, all skip policies", "why_tests_cant": "quantifies over all implementors of a trait and all interleavings of calls", "anchors": ["mbqc_scheduling/src/scheduler/tree.rs:29-45", "mbqc_scheduling/src/scheduler/tree.rs:64-119", "mbqc_scheduling/src/scheduler/time.rs:293-317", "mbqc_scheduling/src/scheduler.rs:86-117"]}
{"id": "C84", "title": "One qubit to begin with", "statement": "If only one qubit waits for nothing, an uninterrupted exhaustive search with threads returns exactly the list of paths (time, space and steps) of the search without threads, whatever the interleaving, the number of threads from two on and the task bound are, and however often the tasks refresh their tables. So two such searches return the same, and the result dominates every valid schedule, for inputs of every size (compare C28). It is FALSE with two such qubits, even for the costs, and FALSE for the approximate search: with an accept function that rejects everything the search without threads returns nothing, but with threads the first steps are made without asking, and a task whose first step is already a schedule returns it.", "quantifier": "all well-formed inputs with one qubit without dependencies, all interleavings, all thread counts and task bounds", "why_tests_cant": "quantifies over all interleavings and sizes; an agreement on the tested interleavings does not exclude a loss after a refresh", "anchors": ["mbqc_scheduling/src/search/threaded.rs:35-104", "mbqc_scheduling/src/search/threaded.rs:106-240", "mbqc_scheduling/src/search.rs:86-143"]}
{"id": "C85", "title": "More time with threads", "statement": "FALSE: that with several threads, too, more time never makes the answer worse (C11). For every number of threads from two on there is an input (8 qubits) and an interleaving that the pool can make, for which the exhaustive search without a timeout returns a list that does not even dominate the list which the same search returns, in the same interleaving, with a timeout that is over at once. What remains true: the first path of an uninterrupted search has no more steps than any path that any other run returns; nothing gets worse if there are fewer than 500 beginnings of valid schedules, or if only one qubit waits for nothing. In the latter case a multi-threaded exhaustive search with a timeout returns exactly what a single-threaded one returns whose time is over at some moment, so that of two runs (any timeouts, any interleavings) one is at least as good as the other.", "quantifier": "all well-formed inputs, all interleavings, all moments of timeout, all thread counts", "why_tests_cant": "the failure needs a rare interleaving; the rest quantifies over all interleavings and timeouts", "anchors": ["mbqc_scheduling/src/search/threaded.rs:137-185", "mbqc_scheduling/src/search/threaded.rs:187-240", "mbqc_scheduling/src/timer.rs:82-90"]}
{"id": "C86", "title": "The log of the multi-threaded search", "statement": "Every task of a multi-threaded search writes one line DONE with its results and its table best_memory into the debug log, numbered 0, 1, 2, ... and -1 for the last one. For every accept function and timeout: every result in the log is a valid schedule with the time and memory written there, and every returned path is in the log. For an uninterrupted exhaustive search the log contains, in every interleaving, for every valid schedule one that is at least as good in both costs: whatever C28 loses is lost when the tasks merge their results. If something in the log (in particular, a Pareto-optimal schedule of an uninterrupted exhaustive search) has no equally good path in the answer, then a line of the log contradicts itself: its best_memory at t is m, the least memory in the log for at most t steps (and fewer steps need more), while its own result of t steps needs more than m. So the log tells when the answer can be trusted. FALSE: that everything in the log has an equally good path in the answer (from two threads on, 8 qubits).", "quantifier": "all well-formed inputs with something to measure, all interleavings, thread counts, task bounds, accept functions, seeds, timeouts", "why_tests_cant": "quantifies over all interleavings; the losses need thousands of iterations and a particular interleaving", "anchors": ["mbqc_scheduling/src/search/threaded.rs:115-157", "mbqc_scheduling/src/search/threaded.rs:160-185", "mbqc_scheduling/src/search/threaded.rs:187-240"]}
{"id": "C87", "title": "Which task of a multi-threaded search finds what", "statement": "Every task writes one line START with the step it begins with and, before the search returns, one line DONE with what it has found, both with the same number. The first steps are the non-empty sets of qubits that wait for nothing, larger ones first, equally large ones in a fixed order that depends on the input only; the first task_bound of them (100000 by default; all of them if it is 0) have a task of their own. Everything such a task finds begins with its step; everything the last task (number -1) finds begins with none of these steps. So no two tasks find the same schedule, not even up to the order in the steps. If the task bound is 0 or larger than the number of sets (by default: if at most 16 qubits wait for nothing) every possible first step has a task of its own and the last task finds nothing. FALSE: that the last task never finds anything (small task bound).", "quantifier": "all well-formed inputs with something to measure, all interleavings, thread counts, task bounds, accept functions, seeds, timeouts", "why_tests_cant": "quantifies over all inputs and interleavings; up to 100001 tasks", "anchors": ["mbqc_scheduling/src/search/threaded.rs:60-100", "mbqc_scheduling/src/search/threaded.rs:105-135", "mbqc_scheduling/src/scheduler.rs"]}
{"id": "C88", "title": "The tasks in the order of the queue", "statement": "If the tasks of an uninterrupted exhaustive search with threads are worked on in the order of the queue, each one until it returns, the search returns exactly the list of paths (time, space and steps) of the search without threads, whatever the number of threads from two on and the task bound are, and however often the tasks refresh their tables. So the result without threads is always among the possible results with threads, for every number of workers and every task bound. FALSE if the tasks are worked on one after another in another order (the costs are the same, C81, but the steps need not be), and FALSE for the approximate search (the first steps are made without asking the accept function).", "quantifier": "all well-formed inputs, all thread counts and task bounds", "why_tests_cant": "quantifies over all inputs and task bounds; the operating system chooses the order of the tasks, a test cannot", "anchors": ["mbqc_scheduling/src/search/threaded.rs:35-104", "mbqc_scheduling/src/search/threaded.rs:106-240", "mbqc_scheduling/src/search.rs:86-143"]}
{"id": "C89", "title": "Which paths are returned if the tasks work one after another", "statement": "If the tasks of an exhaustive search with threads work one after another, in any order, each one until it returns, the search returns the curve of the paths that a plain sweep over the scheduler reports, rearranged task by task: first those of the task that works first, then those of the next one, inside a task in the order of the sweep. For every cost on the curve the first path of this list is returned (C55 is the case without threads, C88 the case in the order of the queue). Of a task that the timeout interrupts a beginning of its part remains; a task that is not told that the time is up contributes its whole part. So, without a timeout, the order of the tasks determines the result, the number of threads and the length of the turns do not. It is FALSE for tasks that alternate: neither the order in which the tasks begin nor the order in which they return determines which of the equally good paths is returned, even with two workers.", "quantifier": "all well-formed inputs, all orders of the tasks, all thread counts and task bounds, all timeouts", "why_tests_cant": "quantifies over all inputs, task bounds and orders of the tasks; the operating system chooses the order, a test cannot", "anchors": ["mbqc_scheduling/src/search/threaded.rs:35-104", "mbqc_scheduling/src/search/threaded.rs:106-240", "mbqc_scheduling/src/search.rs:86-143"]}
{"id": "C90", "title": "Tasks that work one after another miss nothing", "statement": "If the tasks of an exhaustive search with threads work one after another, in any order, each one until it returns, then for every valid schedule whose task is not told that the time is up the search returns a path that is at least as good in both costs. The task of a schedule is the one whose line START names its first step, or the last one if no line does. So without an interruption the result is exactly the Pareto front, although that is false for tasks that overlap (C28).", "quantifier": "all well-formed inputs, all orders of the tasks, all thread counts, task bounds and timeouts, all valid schedules", "why_tests_cant": "quantifies over all inputs, orders of the tasks and schedules; the operating system chooses the order, a test cannot", "anchors": ["mbqc_scheduling/src/search/threaded.rs:35-104", "mbqc_scheduling/src/search/threaded.rs:106-240"]}
{"id": "C91", "title": "Only a disturbed long task loses paths", "statement": "If in an uninterrupted exhaustive search with threads no other task does anything between two actions of a task that makes more than 1000 loop iterations (UPDATE_INTERVAL), the search misses nothing and returns exactly the Pareto front. The shorter tasks may overlap in any way, also begin before a long one and go on after it. It is FALSE if only the long tasks do not disturb each other: a short task that returns while a long one is working can make the long one overwrite a better path, with any number of threads from two on.", "quantifier": "all well-formed inputs, all interleavings in which the long tasks are undisturbed, all thread counts and task bounds", "why_tests_cant": "quantifies over all inputs and interleavings; a test cannot control when the threads refresh their tables", "anchors": ["mbqc_scheduling/src/search/threaded.rs:33", "mbqc_scheduling/src/search/threaded.rs:106-190", "mbqc_scheduling/src/search/threaded.rs:192-240"]}
