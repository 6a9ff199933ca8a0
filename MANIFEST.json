{
 "claims": [
  {
   "property": "C01",
   "status": "proved",
   "theorems": [
    "Verif.C01_valid"
   ],
   "note": ""
  },
  {
   "property": "C02",
   "status": "proved",
   "theorems": [
    "Verif.C02_time"
   ],
   "note": ""
  },
  {
   "property": "C03",
   "status": "proved",
   "theorems": [
    "Verif.C03_space"
   ],
   "note": ""
  },
  {
   "property": "C04",
   "status": "proved",
   "theorems": [
    "Verif.C04_least_memory"
   ],
   "note": ""
  },
  {
   "property": "C05",
   "status": "proved",
   "theorems": [
    "Verif.C05_time_optimal"
   ],
   "note": ""
  },
  {
   "property": "C06",
   "status": "proved",
   "theorems": [
    "Verif.C06_earliest"
   ],
   "note": ""
  },
  {
   "property": "C07",
   "status": "proved",
   "theorems": [
    "Verif.C07_exhaustive"
   ],
   "note": ""
  },
  {
   "property": "C08",
   "status": "proved",
   "theorems": [
    "Verif.C08_monotone"
   ],
   "note": ""
  },
  {
   "property": "C09",
   "status": "proved",
   "theorems": [
    "Verif.C09_pareto"
   ],
   "note": ""
  },
  {
   "property": "C10",
   "status": "proved",
   "theorems": [
    "Verif.C10_first_last"
   ],
   "note": ""
  },
  {
   "property": "C11",
   "status": "proved",
   "theorems": [
    "Verif.C11_later"
   ],
   "note": ""
  },
  {
   "property": "C12",
   "status": "proved",
   "theorems": [
    "Verif.C12_terminates"
   ],
   "note": ""
  },
  {
   "property": "C13",
   "status": "proved",
   "theorems": [
    "Verif.C13_no_panic"
   ],
   "note": ""
  },
  {
   "property": "C14",
   "status": "proved",
   "theorems": [
    "Verif.C14_order_irrelevant"
   ],
   "note": ""
  },
  {
   "property": "C15",
   "status": "proved",
   "theorems": [
    "Verif.C15_counters"
   ],
   "note": ""
  },
  {
   "property": "C16",
   "status": "proved",
   "theorems": [
    "Verif.C16_double_measure",
    "Verif.C16_inplace_not_atomic"
   ],
   "note": ""
  },
  {
   "property": "C17",
   "status": "proved",
   "theorems": [
    "Verif.C17_measurable",
    "Verif.C17_sweep"
   ],
   "note": ""
  },
  {
   "property": "C18",
   "status": "proved",
   "theorems": [
    "Verif.C18_focus",
    "Verif.C18_panics"
   ],
   "note": ""
  },
  {
   "property": "C19",
   "status": "proved",
   "theorems": [
    "Verif.C19_enumerates"
   ],
   "note": ""
  },
  {
   "property": "C20",
   "status": "proved",
   "theorems": [
    "Verif.C20_ordered_bell"
   ],
   "note": ""
  },
  {
   "property": "C21",
   "status": "proved",
   "theorems": [
    "Verif.C21_skip",
    "Verif.C21_skip_fails"
   ],
   "note": ""
  },
  {
   "property": "C22",
   "status": "proved",
   "theorems": [
    "Verif.C22_partition"
   ],
   "note": ""
  },
  {
   "property": "C23",
   "status": "proved",
   "theorems": [
    "Verif.C23_space",
    "Verif.C23_time",
    "Verif.C23_valid"
   ],
   "note": ""
  },
  {
   "property": "C24",
   "status": "proved",
   "theorems": [
    "Verif.C24_buffer_reuse"
   ],
   "note": ""
  },
  {
   "property": "C25",
   "status": "proved",
   "theorems": [
    "Verif.C25_checked",
    "Verif.C25_symmetric",
    "Verif.C25_unchecked",
    "Verif.C25_panics"
   ],
   "note": ""
  },
  {
   "property": "C26",
   "status": "proved",
   "theorems": [
    "Verif.C26_manual",
    "Verif.C26_profiles"
   ],
   "note": ""
  },
  {
   "property": "C27",
   "status": "proved",
   "theorems": [
    "Verif.C27_threaded_sound"
   ],
   "note": ""
  },
  {
   "property": "C28",
   "status": "proved",
   "theorems": [
    "Verif.C28_no_refresh",
    "Verif.C28_few",
    "Verif.C28_few_each",
    "Verif.C28_small",
    "Verif.C28_refuted",
    "Verif.C28_least_refuted",
    "Verif.C28_least_two_refuted"
   ],
   "note": "The full claim is false of the code, for every number of threads from two on (C28_refuted: a concrete run with the default arguments that a pool of this size can make; C28_least_refuted: from four threads on even the least memory can be lost); proved for all interleavings in which no task reaches the refresh interval (C28_no_refresh), which is so for every interleaving if there are few schedules (C28_few, C28_few_each) or few qubits (C28_small); see also C81_one_after_another."
  },
  {
   "property": "C29",
   "status": "proved",
   "theorems": [
    "Verif.C29_split",
    "Verif.C29_zero_unbounded"
   ],
   "note": ""
  },
  {
   "property": "C30",
   "status": "proved",
   "theorems": [
    "Verif.C30_always",
    "Verif.C30_no_randomness"
   ],
   "note": ""
  },
  {
   "property": "C31",
   "status": "proved",
   "theorems": [
    "Verif.C31_dominated",
    "Verif.C31_reject",
    "Verif.C31_reject_threads"
   ],
   "note": ""
  },
  {
   "property": "C32",
   "status": "proved",
   "theorems": [
    "Verif.C32_unknown",
    "Verif.C32_finds",
    "Verif.C32_zero",
    "Verif.C32_free",
    "Verif.C32_step_refuted",
    "Verif.C32_equal",
    "Verif.C32_equal_binary64",
    "Verif.C32_free_binary64"
   ],
   "note": "For any floating point arithmetic with the laws stated in Proofs/Float.lean; a model of f64 (Model/Float.lean) has them. C32_step_refuted shows that the memory during the step is not compared."
  },
  {
   "property": "C33",
   "status": "proved",
   "theorems": [
    "Verif.C33_same",
    "Verif.C33_run",
    "Verif.C33_cutoff",
    "Verif.C33_binary64"
   ],
   "note": "Uses powi(x, 1) = x, which the model of f64 satisfies."
  },
  {
   "property": "C34",
   "status": "proved",
   "theorems": [
    "Verif.C34_not_early",
    "Verif.C34_never",
    "Verif.C34_stays",
    "Verif.C34_fires",
    "Verif.C34_unblocked",
    "Verif.C34_drop_progress",
    "Verif.C34_drop_bound",
    "Verif.C34_joined",
    "Verif.C34_detached"
   ],
   "note": ""
  },
  {
   "property": "C35",
   "status": "proved",
   "theorems": [
    "Verif.C35_input_error",
    "Verif.C35_reads",
    "Verif.C35_ok",
    "Verif.C35_decodes",
    "Verif.C35_succeeds",
    "Verif.C35_format_late",
    "Verif.C35_full"
   ],
   "note": ""
  },
  {
   "property": "C36",
   "status": "proved",
   "theorems": [
    "Verif.Python.C36_paths",
    "Verif.Python.C36_graph",
    "Verif.Python.C36_new_graph",
    "Verif.Python.C36_new_path",
    "Verif.Python.C36_accept_func",
    "Verif.Python.C36_parameters",
    "Verif.Python.C36_doc_refuted",
    "Verif.Python.C36_callback_threads",
    "Verif.Python.C36_run",
    "Verif.Python.C36_range",
    "Verif.Python.C36_two_threads_refuted"
   ],
   "note": ""
  },
  {
   "property": "C37",
   "status": "proved",
   "theorems": [
    "Verif.C37_lower_bound"
   ],
   "note": ""
  },
  {
   "property": "C38",
   "status": "proved",
   "theorems": [
    "Verif.C38_counts_blocked",
    "Verif.C38_refuted"
   ],
   "note": ""
  },
  {
   "property": "C39",
   "status": "proved",
   "theorems": [
    "Verif.C39_representation"
   ],
   "note": ""
  },
  {
   "property": "C40",
   "status": "proved",
   "theorems": [
    "Verif.C40_monotone"
   ],
   "note": ""
  },
  {
   "property": "C41",
   "status": "proved",
   "theorems": [
    "Verif.C41_empty"
   ],
   "note": ""
  },
  {
   "property": "C42",
   "status": "proved",
   "theorems": [
    "Verif.C42_split",
    "Verif.C42_serial"
   ],
   "note": ""
  },
  {
   "property": "C43",
   "status": "proved",
   "theorems": [
    "Verif.C43_args"
   ],
   "note": ""
  },
  {
   "property": "C44",
   "status": "proved",
   "theorems": [
    "Verif.C44_bounds"
   ],
   "note": ""
  },
  {
   "property": "C45",
   "status": "proved",
   "theorems": [
    "Verif.C45_exclusive",
    "Verif.C45_no_deadlock",
    "Verif.C45_terminates",
    "Verif.C45_atomic"
   ],
   "note": ""
  },
  {
   "property": "C46",
   "status": "proved",
   "theorems": [
    "Verif.Results.C46_completes",
    "Verif.Results.C46_degree",
    "Verif.Results.C46_degree_comment_refuted",
    "Verif.Results.C46_graph",
    "Verif.Results.C46_order",
    "Verif.Results.C46_induced_exists",
    "Verif.Results.C46_density",
    "Verif.Results.C46_instance",
    "Verif.Results.C46_do_it",
    "Verif.Results.C46_sweep",
    "Verif.Results.C46_density_budget",
    "Verif.Results.C46_density_script_refuted",
    "Verif.Results.C46_node_budget",
    "Verif.Results.C46_node_timeouts",
    "Verif.Results.C46_new_density"
   ],
   "note": ""
  },
  {
   "property": "C47",
   "status": "proved",
   "theorems": [
    "Verif.Cli.C47_parse",
    "Verif.Cli.C47_main",
    "Verif.Cli.C47_rejected",
    "Verif.Cli.C47_defaults",
    "Verif.Cli.C47_misspelled"
   ],
   "note": ""
  },
  {
   "property": "C48",
   "status": "proved",
   "theorems": [
    "Verif.C48_sync",
    "Verif.C48_focus"
   ],
   "note": ""
  },
  {
   "property": "C49",
   "status": "proved",
   "theorems": [
    "Verif.C49_bincode",
    "Verif.C49_canonical",
    "Verif.C49_json",
    "Verif.C49_inputs",
    "Verif.C49_json_canonical"
   ],
   "note": ""
  },
  {
   "property": "C50",
   "status": "proved",
   "theorems": [
    "Verif.C50_hash_order"
   ],
   "note": ""
  },
  {
   "property": "C51",
   "status": "proved",
   "theorems": [
    "Verif.C51_min_time",
    "Verif.C51_head",
    "Verif.C51_memory_refuted"
   ],
   "note": "C51_memory_refuted: the memory of the first path need not be the least for its number of steps."
  },
  {
   "property": "C52",
   "status": "proved",
   "theorems": [
    "Verif.C52_arguments",
    "Verif.C52_congr",
    "Verif.C52_doc_refuted"
   ],
   "note": "C52_doc_refuted: the documented meaning of two arguments is wrong."
  },
  {
   "property": "C53",
   "status": "proved",
   "theorems": [
    "Verif.C53_reproducible",
    "Verif.C53_interleaving",
    "Verif.C53_entropy",
    "Verif.C53_threads"
   ],
   "note": ""
  },
  {
   "property": "C54",
   "status": "proved",
   "theorems": [
    "Verif.C54_no_panic",
    "Verif.C54_terminates",
    "Verif.C54_paths",
    "Verif.C54_dropped",
    "Verif.C54_time_optimal",
    "Verif.C54_one_step",
    "Verif.C54_optimal_refuted",
    "Verif.C54_out_of_range"
   ],
   "note": ""
  },
  {
   "property": "C55",
   "status": "proved",
   "theorems": [
    "Verif.C55_first",
    "Verif.C55_threads_refuted"
   ],
   "note": ""
  },
  {
   "property": "C56",
   "status": "proved",
   "theorems": [
    "Verif.C56_split",
    "Verif.C56_no_task"
   ],
   "note": ""
  },
  {
   "property": "C57",
   "status": "proved",
   "theorems": [
    "Verif.Results.C57_density_completes",
    "Verif.Results.C57_node_completes",
    "Verif.Results.C57_statistics",
    "Verif.Results.C57_empty",
    "Verif.Results.C57_constant",
    "Verif.Results.C57_mono",
    "Verif.Results.C57_node",
    "Verif.Results.C57_exact_time",
    "Verif.Results.C57_density",
    "Verif.Results.C57_multiplier",
    "Verif.Results.C57_multiplier_negative",
    "Verif.Results.C57_density_points",
    "Verif.Results.C57_density_f64",
    "Verif.Results.C57_node_f64",
    "Verif.Results.C57_shots"
   ],
   "note": "C57_empty: NaN if no shot contributed a number; by C70 this does not happen."
  },
  {
   "property": "C58",
   "status": "proved",
   "theorems": [
    "Verif.Results.C58_graph",
    "Verif.Results.C58_order",
    "Verif.Results.C58_uniform",
    "Verif.Results.C58_instance",
    "Verif.Results.C58_edge",
    "Verif.Results.C58_degree",
    "Verif.Results.C58_expected_degree",
    "Verif.Results.C58_positions",
    "Verif.Results.C58_problem",
    "Verif.Results.C58_shots"
   ],
   "note": "For independent draws from any probability space that is fair in the sense of Fair; the generator of the rand crate is not modelled."
  },
  {
   "property": "C59",
   "status": "proved",
   "theorems": [
    "Verif.C59_path",
    "Verif.C59_curve",
    "Verif.C59_graph",
    "Verif.C59_pathwidth",
    "Verif.C59_lower",
    "Verif.C59_edges"
   ],
   "note": ""
  },
  {
   "property": "C60",
   "status": "proved",
   "theorems": [
    "Verif.C60_volume",
    "Verif.C60_clique",
    "Verif.C60_degree",
    "Verif.C60_linear"
   ],
   "note": ""
  },
  {
   "property": "C61",
   "status": "proved",
   "theorems": [
    "Verif.C61_no_difference",
    "Verif.C61_outputs",
    "Verif.C61_cause",
    "Verif.C61_panic_or_empty",
    "Verif.C61_exactly",
    "Verif.C61_timeout_refuted"
   ],
   "note": "C61_timeout_refuted: with a timeout the search can end before it reaches the stray neighbour."
  },
  {
   "property": "C62",
   "status": "proved",
   "theorems": [
    "Verif.C62_paths",
    "Verif.C62_debug",
    "Verif.C62_order",
    "Verif.C62_release_refuted",
    "Verif.C62_first_layer_refuted"
   ],
   "note": "C62_release_refuted: the claims about distinct qubits and the space fail in release builds; C62_first_layer_refuted: the condition on the first layer is needed."
  },
  {
   "property": "C63",
   "status": "proved",
   "theorems": [
    "Verif.C63_debug_release",
    "Verif.C63_panic",
    "Verif.C63_release",
    "Verif.C63_converse_refuted"
   ],
   "note": "C63_converse_refuted: the converse is false."
  },
  {
   "property": "C64",
   "status": "proved",
   "theorems": [
    "Verif.C64_single",
    "Verif.C64_threads",
    "Verif.C64_ignored",
    "Verif.C64_empty_refuted"
   ],
   "note": "C64_empty_refuted: the documented empty list for a timeout that is too short is not what several threads return."
  },
  {
   "property": "C65",
   "status": "proved",
   "theorems": [
    "Verif.C65_same",
    "Verif.C65_shuffled",
    "Verif.C65_layers",
    "Verif.C65_repeated_refuted",
    "Verif.C65_qubits_refuted",
    "Verif.C65_layers_refuted"
   ],
   "note": "C65_repeated_refuted, C65_qubits_refuted, C65_layers_refuted: what does make a difference."
  },
  {
   "property": "C66",
   "status": "proved",
   "theorems": [
    "Verif.C66_paths",
    "Verif.C66_raise",
    "Verif.C66_question",
    "Verif.C66_terminates",
    "Verif.C66_same",
    "Verif.C66_calls",
    "Verif.C66_first",
    "Verif.C66_python",
    "Verif.C66_seed_refuted"
   ],
   "note": "C66_seed_refuted: a fixed seed is not enough for reproducibility with a stateful callback. A panic of a task in the thread pool ends the search at once in the model; scoped_threadpool reports it when the pool is joined."
  },
  {
   "property": "C67",
   "status": "proved",
   "theorems": [
    "Verif.C67_sweep",
    "Verif.C67_exists",
    "Verif.C67_search",
    "Verif.C67_callback",
    "Verif.C67_threads",
    "Verif.C67_count",
    "Verif.C67_scaling",
    "Verif.C67_lower",
    "Verif.C67_factorial",
    "Verif.C67_exact_refuted"
   ],
   "note": "C67_exact_refuted: a search may take fewer iterations than a sweep. The lower bound is for the deterministic single-threaded search without a timeout."
  },
  {
   "property": "C68",
   "status": "proved",
   "theorems": [
    "Verif.C68_part",
    "Verif.C68_together",
    "Verif.C68_parallel",
    "Verif.C68_sequential",
    "Verif.C68_ends",
    "Verif.C68_beside",
    "Verif.C68_combine_refuted",
    "Verif.C68_measured_refuted"
   ],
   "note": "C68_combine_refuted and C68_measured_refuted show what cannot be added."
  },
  {
   "property": "C69",
   "status": "proved",
   "theorems": [
    "Verif.Results.C69_nodes",
    "Verif.Results.C69_last_refuted",
    "Verif.Results.C69_images",
    "Verif.Results.C69_densities",
    "Verif.Results.C69_runtimes",
    "Verif.Results.C69_gap_refuted",
    "Verif.Results.C69_runtime_image",
    "Verif.Results.C69_runtime_densities"
   ],
   "note": "C69_last_refuted and C69_gap_refuted are the parts that are false."
  },
  {
   "property": "C70",
   "status": "proved",
   "theorems": [
    "Verif.C70_finds",
    "Verif.C70_late",
    "Verif.C70_builtin",
    "Verif.C70_size_refuted",
    "Verif.Results.C70_do_it",
    "Verif.Results.C70_images",
    "Verif.Results.C70_node"
   ],
   "note": "C70_size_refuted is the part that is false: 1002 qubits in a chain and a timer that has run off."
  },
  {
   "property": "C71",
   "status": "proved",
   "theorems": [
    "Verif.C71_single",
    "Verif.C71_builtin",
    "Verif.C71_early",
    "Verif.C71_exact",
    "Verif.C71_threads",
    "Verif.C71_bold_threads_refuted"
   ],
   "note": "C71_bold_threads_refuted is the part that is false: three nodes, two threads, an accept function that rejects everything after the first path."
  },
  {
   "property": "C72",
   "status": "proved",
   "theorems": [
    "Verif.C72_corrections",
    "Verif.C72_independent",
    "Verif.C72_memory",
    "Verif.C72_buffer",
    "Verif.C72_global",
    "Verif.C72_stitch_refuted",
    "Verif.C72_y_refuted",
    "Verif.C72_flags_refuted"
   ],
   "note": "C72_stitch_refuted, C72_y_refuted and C72_flags_refuted are the parts that are false. The contract of get_order is a hypothesis (Induced); pauli_tracker is not in the repository."
  },
  {
   "property": "C73",
   "status": "proved",
   "theorems": [
    "Verif.C73_passes",
    "Verif.C73_copy"
   ],
   "note": "The dependency graph is an input; that the pauli_tracker produces a well-formed one from the random operations is not modelled."
  },
  {
   "property": "C74",
   "status": "proved",
   "theorems": [
    "Verif.C74_frames",
    "Verif.C74_order_exists",
    "Verif.C74_test",
    "Verif.C74_one_qubit",
    "Verif.C74_overflow_refuted",
    "Verif.C74_wrap_refuted"
   ],
   "note": "get_order and the tracker types of the crate pauli_tracker are not in the repository: get_order is a parameter with its documented contract (shown to be satisfiable), the tracker is modelled after its documentation. The two refuted statements are about operands next to 2^64."
  },
  {
   "property": "C75",
   "status": "proved",
   "theorems": [
    "Verif.C75_order",
    "Verif.C75_shortest",
    "Verif.C75_returned",
    "Verif.C75_greedy",
    "Verif.C75_length_refuted"
   ],
   "note": "C75_length_refuted is the literal reading of the documentation, which is false."
  },
  {
   "property": "C76",
   "status": "proved",
   "theorems": [
    "Verif.C76_least",
    "Verif.C76_positive",
    "Verif.C76_builtin",
    "Verif.C76_underflow",
    "Verif.C76_yes",
    "Verif.C76_decision",
    "Verif.C76_front_refuted",
    "Verif.C76_gate",
    "Verif.C76_chain_refuted"
   ],
   "note": "binary64 with subnormals, signed zeros, infinities and NaN; exp and powi arbitrary within a relative error of 1/16 for normal numbers, no flush to zero above 2^-1070 (structure Libm, inhabited by the correctly rounded functions). The expectations that luck is enough are refuted (C76_chain_refuted, C76_front_refuted). 48 nodes is the exact threshold: C76_builtin up to 48, C76_chain_refuted with 49."
  },
  {
   "property": "C77",
   "status": "proved",
   "theorems": [
    "Verif.C77_unknown",
    "Verif.C77_finds",
    "Verif.C77_threads",
    "Verif.C77_cutoff_refuted",
    "Verif.C77_remaining_refuted",
    "Verif.C77_diff_refuted",
    "Verif.C77_linear_refuted"
   ],
   "note": "Over binary64 with arbitrary exp and powi within a relative error of 1/16 (structure Libm). That every choice of parameters finds a path is refuted in four ways (single-threaded)."
  },
  {
   "property": "C78",
   "status": "proved",
   "theorems": [
    "Verif.Files.C78_texts",
    "Verif.Files.C78_repr",
    "Verif.Files.C78_names",
    "Verif.Files.C78_kinds",
    "Verif.Files.C78_node",
    "Verif.Files.C78_density",
    "Verif.Files.C78_kept",
    "Verif.Files.C78_missing",
    "Verif.Files.C78_hpc",
    "Verif.Files.C78_fraction_refuted",
    "Verif.Files.C78_blanks_refuted"
   ],
   "note": "Shortest decimal numbers are data (digits and position of the point); the writers of Rust, ryu and Python are modelled after their documentation. Files.C78_fraction_refuted, Files.C78_blanks_refuted: the parts that are false."
  },
  {
   "property": "C79",
   "status": "proved",
   "theorems": [
    "Verif.C79_often",
    "Verif.C79_seldom",
    "Verif.C79_single",
    "Verif.C79_repeat",
    "Verif.C79_custom",
    "Verif.C79_custom_repeat",
    "Verif.C79_builtin",
    "Verif.C79_row"
   ],
   "note": "Probabilities are counted: the part of all sequences of N values, N at least the number of iterations (C67). That rand draws uniformly and independently is an assumption about the generator; uniform52 is the set of numbers of UniformFloat<f64> in rand 0.8."
  },
  {
   "property": "C80",
   "status": "proved",
   "theorems": [
    "Verif.C80_edges",
    "Verif.C80_qubit",
    "Verif.C80_free_qubit",
    "Verif.C80_dependencies",
    "Verif.C80_dependencies_search",
    "Verif.C80_space_refuted"
   ],
   "note": "Bounds for edges, qubits and dependencies, each reached by an example; for the memory and dependencies the refutation C80_space_refuted is a family for all sizes."
  },
  {
   "property": "C81",
   "status": "proved",
   "theorems": [
    "Verif.C81_workers",
    "Verif.C81_more_workers",
    "Verif.C81_progress",
    "Verif.C81_one_after_another",
    "Verif.C81_in_order",
    "Verif.C81_in_order_unique",
    "Verif.C81_smaller_refuted"
   ],
   "note": "The worker limit, monotonicity, progress, and completeness of exhaustive searches whose tasks do not alternate. C81_smaller_refuted: a smaller pool cannot do everything."
  },
  {
   "property": "C82",
   "status": "proved",
   "theorems": [
    "Verif.C82_states",
    "Verif.C82_reached",
    "Verif.C82_linear_refuted",
    "Verif.C82_search",
    "Verif.C82_probabilistic",
    "Verif.C82_threads",
    "Verif.C82_queue"
   ],
   "note": "Bounds on the saved states and their entries for every client of a sweep, attained by iteration; C82_linear_refuted: the memory is not linear in the input."
  },
  {
   "property": "C83",
   "status": "proved",
   "theorems": [
    "Verif.C83_refines",
    "Verif.C83_depth_first",
    "Verif.C83_balance",
    "Verif.C83_skip",
    "Verif.C83_implementors",
    "Verif.C83_fused_refuted"
   ],
   "note": "Sweep refines a zipper on the tree that any implementor of FocusIterator describes; C83_fused_refuted: Sweep itself is not fused."
  },
  {
   "property": "C84",
   "status": "proved",
   "theorems": [
    "Verif.C84_same",
    "Verif.C84_unique",
    "Verif.C84_complete",
    "Verif.C84_two_refuted",
    "Verif.C84_approximate_refuted"
   ],
   "note": "Equality with the search without threads for every interleaving. C84_two_refuted, C84_approximate_refuted: false with two first qubits and for the approximate search."
  },
  {
   "property": "C85",
   "status": "proved",
   "theorems": [
    "Verif.C85_refuted",
    "Verif.C85_shortest",
    "Verif.C85_one_first",
    "Verif.C85_one_same",
    "Verif.C85_one_chain",
    "Verif.C85_few"
   ],
   "note": "C85_refuted: a timeout can improve the result. The other theorems say what remains true of C11 with threads."
  },
  {
   "property": "C86",
   "status": "proved",
   "theorems": [
    "Verif.C86_lines",
    "Verif.C86_valid",
    "Verif.C86_found",
    "Verif.C86_kept",
    "Verif.C86_lost",
    "Verif.C86_all_refuted"
   ],
   "note": "C86_found, C86_kept, C86_lost for every interleaving with refreshes; C86_all_refuted: the answer need not have everything that is in the log."
  },
  {
   "property": "C87",
   "status": "proved",
   "theorems": [
    "Verif.C87_starts",
    "Verif.C87_own",
    "Verif.C87_pairs",
    "Verif.C87_disjoint",
    "Verif.C87_all",
    "Verif.C87_rest_refuted"
   ],
   "note": "C87_rest_refuted: with a small task bound the last task does find schedules. The table in the line START is not modelled."
  },
  {
   "property": "C88",
   "status": "proved",
   "theorems": [
    "Verif.C88_same",
    "Verif.C88_reachable",
    "Verif.C88_order_refuted",
    "Verif.C88_approximate_refuted"
   ],
   "note": "C88_order_refuted, C88_approximate_refuted: neither another order nor the approximate search agree in general."
  },
  {
   "property": "C89",
   "status": "proved",
   "theorems": [
    "Verif.C89_interrupted",
    "Verif.C89_first",
    "Verif.C89_unique",
    "Verif.C89_alternate_refuted"
   ],
   "note": "C89_alternate_refuted: false for tasks that alternate."
  },
  {
   "property": "C90",
   "status": "proved",
   "theorems": [
    "Verif.C90_task",
    "Verif.C90_front"
   ],
   "note": "C90_task also covers interrupted searches."
  },
  {
   "property": "C91",
   "status": "proved",
   "theorems": [
    "Verif.C91_front",
    "Verif.C91_short_refuted"
   ],
   "note": "C91_short_refuted: false if only the long tasks do not disturb each other."
  }
 ]
}
