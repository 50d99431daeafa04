{
 "claims": [
  {
   "property": "C01",
   "status": "proved",
   "theorems": [
    "RG.Props.C01_collect_eq_record",
    "RG.Props.C01_record_after_collect"
   ],
   "note": "for every arithmetic, in particular F64"
  },
  {
   "property": "C02",
   "status": "proved",
   "theorems": [
    "RG.Props.C02_min"
   ],
   "note": ""
  },
  {
   "property": "C03",
   "status": "proved",
   "theorems": [
    "RG.Props.C03_max"
   ],
   "note": ""
  },
  {
   "property": "C04",
   "status": "proved",
   "theorems": [
    "RG.Props.C04_nan_later",
    "RG.Props.C04_nan_first"
   ],
   "note": ""
  },
  {
   "property": "C05",
   "status": "proved",
   "theorems": [
    "RG.Props.C05_mean_var",
    "RG.Props.C05_std"
   ],
   "note": "the statement is about exact arithmetic: the generic Stats code instantiated at an ordered field / the reals; rounding is covered by C06"
  },
  {
   "property": "C06",
   "status": "proved",
   "theorems": [
    "RG.Props.C06_f64_bounds",
    "RG.Props.C06_overflow_counterexample"
   ],
   "note": "proved for |x| < 2^1023 and fewer than 2^64 samples; the need for a magnitude bound is shown by C06_overflow_counterexample"
  },
  {
   "property": "C07",
   "status": "proved",
   "theorems": [
    "RG.Props.C07_snapshot",
    "RG.Props.C07_snapshot_history",
    "RG.Props.C07_setters"
   ],
   "note": ""
  },
  {
   "property": "C08",
   "status": "proved",
   "theorems": [
    "RG.Props.C08_new",
    "RG.Props.C08_replace"
   ],
   "note": "for every sort function that returns a permutation ordered by compare_fitness"
  },
  {
   "property": "C09",
   "status": "proved",
   "theorems": [
    "RG.Props.C09_neighbours_differ",
    "RG.Props.C09_unique",
    "RG.Props.C09_duplicates_counterexample"
   ],
   "note": "the documented uniqueness is false in general (C09_duplicates_counterexample); the true part is C09_neighbours_differ and C09_unique"
  },
  {
   "property": "C10",
   "status": "proved",
   "theorems": [
    "RG.Props.C10_fittest"
   ],
   "note": ""
  },
  {
   "property": "C11",
   "status": "proved",
   "theorems": [
    "RG.Props.C11_nonempty",
    "RG.Props.C11_round_trip"
   ],
   "note": ""
  },
  {
   "property": "C12",
   "status": "proved",
   "theorems": [
    "RG.Props.C12_counters",
    "RG.Props.C12_old_individuals"
   ],
   "note": ""
  },
  {
   "property": "C13",
   "status": "proved",
   "theorems": [
    "RG.Props.C13_stats"
   ],
   "note": ""
  },
  {
   "property": "C14",
   "status": "proved",
   "theorems": [
    "RG.Props.C14_order",
    "RG.Props.C14_nan_equal",
    "RG.Props.C14_nan_not_transitive_counterexample",
    "RG.Props.C14_wrapper"
   ],
   "note": ""
  },
  {
   "property": "C15",
   "status": "proved",
   "theorems": [
    "RG.Props.C15_random_pair",
    "RG.Props.C15_random_pair_uniform"
   ],
   "note": ""
  },
  {
   "property": "C16",
   "status": "proved",
   "theorems": [
    "RG.Props.C16_bounded_random_range",
    "RG.Props.C16_bounded_random_range_panics",
    "RG.Props.C16_random_range"
   ],
   "note": ""
  },
  {
   "property": "C17",
   "status": "proved",
   "theorems": [
    "RG.Props.C17_distribution",
    "RG.Props.C17_not_uniform_counterexample",
    "RG.Props.C17_random_range_two_counterexample"
   ],
   "note": "the documented uniformity is refuted by a witness"
  },
  {
   "property": "C18",
   "status": "proved",
   "theorems": [
    "RG.Props.C18_exact",
    "RG.Props.C18_f64",
    "RG.Props.C18_f64_monotone",
    "RG.Props.C18_f64_exceeds_counterexample"
   ],
   "note": "f64 interpolation can exceed its upper bound by rounding (C18_f64_exceeds_counterexample)"
  },
  {
   "property": "C19",
   "status": "proved",
   "theorems": [
    "RG.Props.C19_between",
    "RG.Props.C19_ends",
    "RG.Props.C19_strict",
    "RG.Props.C19_panic"
   ],
   "note": ""
  },
  {
   "property": "C20",
   "status": "proved",
   "theorems": [
    "RG.Props.C20_common_neighbors",
    "RG.Props.C20_short",
    "RG.Props.C20_asymmetric_counterexample",
    "RG.Props.C20_sound"
   ],
   "note": ""
  },
  {
   "property": "C21",
   "status": "proved",
   "theorems": [
    "RG.Props.C21_partitions",
    "RG.Props.C21_permutation",
    "RG.Props.C21_maximal_end",
    "RG.Props.C21_not_maximal_counterexample"
   ],
   "note": "holds for arbitrary genomes; for duplicates the partitions contain each distinct gene once"
  },
  {
   "property": "C22",
   "status": "proved",
   "theorems": [
    "RG.Props.C22_gpx2",
    "RG.Props.C22_permutation",
    "RG.Props.C22_any_order"
   ],
   "note": ""
  },
  {
   "property": "C23",
   "status": "proved",
   "theorems": [
    "RG.Props.C23_scx",
    "RG.Props.C23_short"
   ],
   "note": "also which gene follows which (ScxStep)"
  },
  {
   "property": "C24",
   "status": "proved",
   "theorems": [
    "RG.Props.C24_erx",
    "RG.Props.C24_short"
   ],
   "note": "also which gene follows which (ErxStep), for every hash iteration order"
  },
  {
   "property": "C25",
   "status": "proved",
   "theorems": [
    "RG.Props.C25_pmx",
    "RG.Props.C25_empty_range"
   ],
   "note": "termination = success with any fuel above n"
  },
  {
   "property": "C26",
   "status": "proved",
   "theorems": [
    "RG.Props.C26_ox",
    "RG.Props.C26_empty_range_counterexample",
    "RG.Props.C26_end_range_counterexample"
   ],
   "note": "empty ranges: C26_empty_range_counterexample and the endless loop of C26_end_range_counterexample"
  },
  {
   "property": "C27",
   "status": "proved",
   "theorems": [
    "RG.Props.C27_cx",
    "RG.Props.C27_positions",
    "RG.Props.C27_no_diverge"
   ],
   "note": "also which cycle comes from which parent (CxResult)"
  },
  {
   "property": "C28",
   "status": "proved",
   "theorems": [
    "RG.Props.C28_spx",
    "RG.Props.C28_positions"
   ],
   "note": ""
  },
  {
   "property": "C29",
   "status": "proved",
   "theorems": [
    "RG.Props.C29_length_mismatch",
    "RG.Props.C29_strategy_mismatch",
    "RG.Props.C29_gpx2_counterexample",
    "RG.Props.C29_empty"
   ],
   "note": "GPX2 does not panic, contrary to the documentation (C29_gpx2_counterexample)"
  },
  {
   "property": "C30",
   "status": "proved",
   "theorems": [
    "RG.Props.C30_permutation",
    "RG.Props.C30_single_point"
   ],
   "note": ""
  },
  {
   "property": "C31",
   "status": "proved",
   "theorems": [
    "RG.Props.C31_pmx_infinite",
    "RG.Props.C31_ox_infinite",
    "RG.Props.C31_pmx_dichotomy",
    "RG.Props.C31_pmx_infinite_iff",
    "RG.Props.C31_ox_infinite_iff",
    "RG.Props.C31_range_panics"
   ],
   "note": "exact conditions for the endless loops of PMX and OX on arbitrary genomes"
  },
  {
   "property": "C32",
   "status": "proved",
   "theorems": [
    "RG.Props.C32_swap",
    "RG.Props.C32_swap_uniform",
    "RG.Props.C32_swap_perm",
    "RG.Props.C32_swap_differs"
   ],
   "note": ""
  },
  {
   "property": "C33",
   "status": "proved",
   "theorems": [
    "RG.Props.C33_scramble",
    "RG.Props.C33_shuffle_uniform"
   ],
   "note": ""
  },
  {
   "property": "C34",
   "status": "proved",
   "theorems": [
    "RG.Props.C34_inversion",
    "RG.Props.C34_inversion_differs"
   ],
   "note": ""
  },
  {
   "property": "C35",
   "status": "proved",
   "theorems": [
    "RG.Props.C35_insertion",
    "RG.Props.C35_insertion_uniform",
    "RG.Props.C35_insertion_perm",
    "RG.Props.C35_insertion_only_earlier"
   ],
   "note": ""
  },
  {
   "property": "C36",
   "status": "proved",
   "theorems": [
    "RG.Props.C36_duplicate"
   ],
   "note": ""
  },
  {
   "property": "C37",
   "status": "proved",
   "theorems": [
    "RG.Props.C37_length",
    "RG.Props.C37_short",
    "RG.Props.C37_permutation",
    "RG.Props.C37_duplicate_not_permutation"
   ],
   "note": ""
  },
  {
   "property": "C38",
   "status": "proved",
   "theorems": [
    "RG.Props.C38_member",
    "RG.Props.C38_empty"
   ],
   "note": "Linear is treated in C44"
  },
  {
   "property": "C39",
   "status": "proved",
   "theorems": [
    "RG.Props.C39_best_of_sample",
    "RG.Props.C39_probability"
   ],
   "note": ""
  },
  {
   "property": "C40",
   "status": "proved",
   "theorems": [
    "RG.Props.C40_probability",
    "RG.Props.C40_fallback_unreachable",
    "RG.Props.C40_overflow"
   ],
   "note": "from 2^32 individuals on the total rank overflows (C40_overflow)"
  },
  {
   "property": "C41",
   "status": "proved",
   "theorems": [
    "RG.Props.C41_uniform",
    "RG.Props.C41_documentation_counterexample"
   ],
   "note": "the documentation calls the ratio the proportion selected; it is the proportion excluded (C41_documentation_counterexample)"
  },
  {
   "property": "C42",
   "status": "proved",
   "theorems": [
    "RG.Props.C42_prepare",
    "RG.Props.C42_draws",
    "RG.Props.C42_probability",
    "RG.Props.C42_f64_wheel",
    "RG.Props.C42_f64_zero_fitness",
    "RG.Props.C42_total_nonneg",
    "RG.Props.C42_f64_draw_zero",
    "RG.Props.C42_f64_probability"
   ],
   "note": "probabilities in exact arithmetic and in f64 (within n*2^-49, for any summation order of rayon, if the exact sum is between 2^-960 and 2^1000 and n <= 2^40)"
  },
  {
   "property": "C43",
   "status": "proved",
   "theorems": [
    "RG.Props.C43_cooling",
    "RG.Props.C43_prepare",
    "RG.Props.C43_select",
    "RG.Props.C43_f64_probability"
   ],
   "note": "exp is an arbitrary function; f64 probabilities within n*2^-49 as for C42"
  },
  {
   "property": "C44",
   "status": "proved",
   "theorems": [
    "RG.Props.C44_exact_in_range",
    "RG.Props.C44_exact_antitone",
    "RG.Props.C44_exact_draws",
    "RG.Props.C44_f64_counterexample",
    "RG.Props.C44_f64_can_panic",
    "RG.Props.C44_f64_more_counterexamples",
    "RG.Props.C44_bias_one",
    "RG.Props.C44_bias_nan",
    "RG.Props.C44_f64_antitone",
    "RG.Props.C44_f64_criterion",
    "RG.Props.C44_safe_bias",
    "RG.Props.C44_f64_safe"
   ],
   "note": "exact arithmetic; in f64 the claim fails (C44_f64_counterexample), with a criterion and safe biases"
  },
  {
   "property": "C45",
   "status": "proved",
   "theorems": [
    "RG.Props.C45_distinct",
    "RG.Props.C45_never_excluded",
    "RG.Props.C45_attempts",
    "RG.Props.C45_give_up_probability"
   ],
   "note": ""
  },
  {
   "property": "C46",
   "status": "proved",
   "theorems": [
    "RG.Props.C46_selector",
    "RG.Props.C46_prepare",
    "RG.Props.C46_select",
    "RG.Props.C46_dynamic",
    "RG.Props.C46_tournament",
    "RG.Props.C46_boltzmann",
    "RG.Props.C46_elitist",
    "RG.Props.C46_create",
    "RG.Props.C46_history"
   ],
   "note": ""
  },
  {
   "property": "C47",
   "status": "proved",
   "theorems": [
    "RG.Props.C47_outcomes",
    "RG.Props.C47_keep_best",
    "RG.Props.C47_default_survive",
    "RG.Props.C47_defaults",
    "RG.Props.C47_valid"
   ],
   "note": "the operators are arbitrary programs; selectors supplied by the user must return members of the population"
  },
  {
   "property": "C48",
   "status": "proved",
   "theorems": [
    "RG.Props.C48_crossover_probability",
    "RG.Props.C48_no_crossover",
    "RG.Props.C48_crossover_distinct",
    "RG.Props.C48_no_mutation",
    "RG.Props.C48_always_mutation",
    "RG.Props.C48_mutation_probability"
   ],
   "note": ""
  },
  {
   "property": "C49",
   "status": "proved",
   "theorems": [
    "RG.Props.C49_extend",
    "RG.Props.C49_extend_with",
    "RG.Props.C49_total"
   ],
   "note": ""
  },
  {
   "property": "C50",
   "status": "proved",
   "theorems": [
    "RG.Props.C50_ga",
    "RG.Props.C50_aga",
    "RG.Props.C50_ga_configure",
    "RG.Props.C50_aga_configure",
    "RG.Props.C50_run",
    "RG.Props.C50_defaults",
    "RG.Props.C50_default_values",
    "RG.Props.C50_fresh"
   ],
   "note": "the ends of a rate range are not compared with each other by the code"
  },
  {
   "property": "C51",
   "status": "proved",
   "theorems": [
    "RG.Props.C51_ga_configure",
    "RG.Props.C51_aga_configure",
    "RG.Props.C51_elites",
    "RG.Props.C51_default_elites"
   ],
   "note": ""
  },
  {
   "property": "C52",
   "status": "proved",
   "theorems": [
    "RG.Props.C52_generate",
    "RG.Props.C52_size_partial",
    "RG.Props.C52_size_counterexample",
    "RG.Props.C52_population_one",
    "RG.Props.C52_run_one",
    "RG.Props.C52_run_panics"
   ],
   "note": "the intended property (always the configured size) is false: C52_size_counterexample, C52_run_panics"
  },
  {
   "property": "C53",
   "status": "proved",
   "theorems": [
    "RG.Props.C53_monotone",
    "RG.Props.C53_equality_counterexample"
   ],
   "note": "needs that individuals that compare equal have equal fitness (C53_equality_counterexample)"
  },
  {
   "property": "C54",
   "status": "proved",
   "theorems": [
    "RG.Props.C54_best_partial",
    "RG.Props.C54_counterexample",
    "RG.Props.C54_counterexample_rate"
   ],
   "note": "proved with at least one elite (C54_best_partial); the documented claim without that condition is false, with elitism rate 0 (C54_counterexample) and with a positive rate that makes no elite (C54_counterexample_rate)"
  },
  {
   "property": "C55",
   "status": "proved",
   "theorems": [
    "RG.Props.C55_size"
   ],
   "note": "generation 0 has at most as many individuals as the initial vector; a larger vector is not cut"
  },
  {
   "property": "C56",
   "status": "proved",
   "theorems": [
    "RG.Props.C56_generation",
    "RG.Props.C56_run",
    "RG.Props.C56_individual",
    "RG.Props.C56_builtin",
    "RG.Props.C56_protocol",
    "RG.Props.C56_result",
    "RG.Props.C56_more_calls"
   ],
   "note": ""
  },
  {
   "property": "C57",
   "status": "proved",
   "theorems": [
    "RG.Props.C57_first",
    "RG.Props.C57_later",
    "RG.Props.C57_exact",
    "RG.Props.C57_f64",
    "RG.Props.C57_prepare"
   ],
   "note": ""
  },
  {
   "property": "C58",
   "status": "proved",
   "theorems": [
    "RG.Props.C58_nan",
    "RG.Props.C58_no_operators"
   ],
   "note": ""
  },
  {
   "property": "C59",
   "status": "proved",
   "theorems": [
    "RG.Props.C59_ga_prepare",
    "RG.Props.C59_ga",
    "RG.Props.C59_aga",
    "RG.Props.C59_aga_run"
   ],
   "note": ""
  },
  {
   "property": "C60",
   "status": "proved",
   "theorems": [
    "RG.Props.C60_valid",
    "RG.Props.C60_finite"
   ],
   "note": ""
  },
  {
   "property": "C61",
   "status": "proved",
   "theorems": [
    "RG.Props.C61_not_worse"
   ],
   "note": "needs that individuals that compare equal have equal fitness"
  },
  {
   "property": "C62",
   "status": "proved",
   "theorems": [
    "RG.Props.C62_initialize",
    "RG.Props.C62_panics"
   ],
   "note": ""
  },
  {
   "property": "C63",
   "status": "proved",
   "theorems": [
    "RG.Props.C63_ratio",
    "RG.Props.C63_strict",
    "RG.Props.C63_one_iff",
    "RG.Props.C63_empty",
    "RG.Props.C63_operators",
    "RG.Props.C63_run",
    "RG.Props.C63_solved",
    "RG.Props.C63_no_new_bits",
    "RG.Props.C63_best",
    "RG.Props.C63_empty_run",
    "RG.Props.C63_both",
    "RG.Props.C63_individual",
    "RG.Props.C63_new_random",
    "RG.Props.C63_crossover",
    "RG.Props.C63_mutate"
   ],
   "note": "OneMax: evaluation (exact rounding, strict monotonicity below 2^53 bits, 1 iff all true, NaN when empty), operators, whole runs of both algorithms; also that no run can create a bit value absent from its initial population."
  },
  {
   "property": "C64",
   "status": "proved",
   "theorems": [
    "RG.Props.C64_run",
    "RG.Props.C64_random",
    "RG.Props.C64_individual"
   ],
   "note": "For both built-in algorithms (ga_safe, aga_safe) and every selection strategy but Linear, whose index can leave the population (C44)."
  },
  {
   "property": "C65",
   "status": "proved",
   "theorems": [
    "RG.Props.C65_evaluated"
   ],
   "note": "For the default breed and selectors that return members (built-in ones do)."
  },
  {
   "property": "C66",
   "status": "proved",
   "theorems": [
    "RG.Props.C66_mutation_dispatch",
    "RG.Props.C66_scramble",
    "RG.Props.C66_inversion",
    "RG.Props.C66_swap",
    "RG.Props.C66_insertion",
    "RG.Props.C66_duplicate",
    "RG.Props.C66_scx",
    "RG.Props.C66_erx",
    "RG.Props.C66_pmx",
    "RG.Props.C66_ox",
    "RG.Props.C66_cx",
    "RG.Props.C66_spx",
    "RG.Props.C66_gpx2"
   ],
   "note": "distributions of all mutation and crossover strategies; assumes uniform independent draws"
  },
  {
   "property": "C67",
   "status": "proved",
   "theorems": [
    "RG.Props.C67_missed",
    "RG.Props.C67_ends",
    "RG.Props.C67_almost_surely",
    "RG.Props.C67_run"
   ],
   "note": "geometric bound for evolve_population and run; assumes uniform independent draws and the hypotheses of C64"
  },
  {
   "property": "C68",
   "status": "proved",
   "theorems": [
    "RG.Props.C68_stuck",
    "RG.Props.C68_probability",
    "RG.Props.C68_contrast"
   ],
   "note": "stuck state closed under generations; probability bound from a single initial individual"
  },
  {
   "property": "C69",
   "status": "proved",
   "theorems": [
    "RG.Props.C69_expected",
    "RG.Props.C69_missed",
    "RG.Props.C69_ends",
    "RG.Props.C69_almost_surely",
    "RG.Props.C69_selects_last",
    "RG.Props.C69_selects",
    "RG.Props.C69_selects_roulette"
   ],
   "note": "expected number of progress calls, binomial tail bound and almost sure end for levels climbed by mutation; selection probability proved for tournament, rank, elitist and (with a good bias, such as 1.25) linear selection (1/n) and for roulette wheel selection (1/(2n)); a hypothesis for Boltzmann selection"
  },
  {
   "property": "C70",
   "status": "proved",
   "theorems": [
    "RG.Props.C70_expected",
    "RG.Props.C70_almost_surely",
    "RG.Props.C70_ends"
   ],
   "note": "Genetic algorithm on the OneMax model, from any initial population with a true bit; tournament, rank, elitist and roulette wheel selection (Linear and Boltzmann are not covered); populations of at most 2^24; at least one elite and two bred individuals."
  },
  {
   "property": "C71",
   "status": "proved",
   "theorems": [
    "RG.Props.C71_at_most",
    "RG.Props.C71_at_least",
    "RG.Props.C71_limit",
    "RG.Props.C71_documentation"
   ],
   "note": "`run` with random initial individuals; progress stops exactly when the fitness 1 is reached (lower bound and limit) or is arbitrary (upper bound)."
  },
  {
   "property": "C72",
   "status": "proved",
   "theorems": [
    "RG.Props.C72_missed",
    "RG.Props.C72_ends",
    "RG.Props.C72_almost_surely",
    "RG.Props.C72_expected",
    "RG.Props.C72_ladder_ends",
    "RG.Props.C72_ladder_almost_surely",
    "RG.Props.C72_contrast"
   ],
   "note": "evolve_population; all strategies but Linear (C44); fitness values of evaluated individuals finite and below 2^1023 in absolute value, so that the f64 standard deviation is not NaN; the ladder version needs a crossover range below 1, as the default range up to 1 leaves no chance without crossover."
  },
  {
   "property": "C73",
   "status": "proved",
   "theorems": [
    "RG.Props.C73_ga_generation",
    "RG.Props.C73_aga_generation",
    "RG.Props.C73_ga_run",
    "RG.Props.C73_aga_run",
    "RG.Props.C73_result",
    "RG.Props.C73_ga_law",
    "RG.Props.C73_aga_law"
   ],
   "note": "Both built-in algorithms; the steps and runs that return are characterised (panics and endless loops: C52, C62, C64); the law of a generation is for the default pre_generation and at least two missing individuals."
  },
  {
   "property": "C74",
   "status": "proved",
   "theorems": [
    "RG.Props.C74_scx",
    "RG.Props.C74_erx",
    "RG.Props.C74_pmx",
    "RG.Props.C74_ox",
    "RG.Props.C74_cx",
    "RG.Props.C74_strategy",
    "RG.Props.C74_gpx2_edges"
   ],
   "note": "Converse of C22-C28. The summary for CrossoverStrategy is for at least three genes that are totally ordered by `<` (GPX2 depends on it); the theorems of the single operators for at least two. The iteration orders of the hash sets are arbitrary permutations in every iteration."
  },
  {
   "property": "C75",
   "status": "proved",
   "theorems": [
    "RG.Props.C75_partitions",
    "RG.Props.C75_short",
    "RG.Props.C75_edges"
   ],
   "note": "Strengthens C21 (which holds for arbitrary genomes and comparisons). It shows which common edges are cut: only the one between the last and the first gene of the first genome, if the first run has more than one gene."
  },
  {
   "property": "C76",
   "status": "proved",
   "theorems": [
    "RG.Props.C76_select",
    "RG.Props.C76_select_distinct",
    "RG.Props.C76_rank_counterexample",
    "RG.Props.C76_interpolate",
    "RG.Props.C76_interpolate_counterexample",
    "RG.Props.C76_bounded_range",
    "RG.Props.C76_bounded_range_counterexample"
   ],
   "note": "All other properties are proved for checked arithmetic; by C76 they carry over to release builds for populations below 2^32 individuals. The counters of generations, stagnation and samples are unbounded in the model (they would overflow after 2^64 steps)."
  },
  {
   "property": "C77",
   "status": "proved",
   "theorems": [
    "RG.Props.C77_text",
    "RG.Props.C77_snapshot",
    "RG.Props.C77_readable"
   ],
   "note": "How the standard library writes an f64 is a parameter of the model (FloatFormat). Only the precision of the Formatter is represented; write errors are not."
  },
  {
   "property": "C78",
   "status": "proved",
   "theorems": [
    "RG.Props.C78_zero",
    "RG.Props.C78_equal",
    "RG.Props.C78_finite",
    "RG.Props.C78_counterexample",
    "RG.Props.C78_integers",
    "RG.Props.C78_population"
   ],
   "note": "The separation conditions are sufficient; the exact condition is in C78_zero. GoodSpread (finite and positive) is the hypothesis on the first population in C72."
  },
  {
   "property": "C79",
   "status": "proved",
   "theorems": [
    "RG.Props.C79_parents",
    "RG.Props.C79_ga_expected",
    "RG.Props.C79_ga_ends",
    "RG.Props.C79_ga_almost_surely",
    "RG.Props.C79_aga_expected",
    "RG.Props.C79_aga_ends",
    "RG.Props.C79_aga_almost_surely"
   ],
   "note": "C69 and C72 count only generations without crossover, so they say nothing for the default range of the adaptive algorithm, whose crossover rate is 1 at first. The example is OneMax in C80."
  },
  {
   "property": "C80",
   "status": "proved",
   "theorems": [
    "RG.Props.C80_ga_expected",
    "RG.Props.C80_ga_almost_surely",
    "RG.Props.C80_spread",
    "RG.Props.C80_aga_expected",
    "RG.Props.C80_aga_almost_surely",
    "RG.Props.C80_aga_stuck",
    "RG.Props.C80_contrast"
   ],
   "note": "In the last sentence rho is rounded up to a multiple of 2^-53, the resolution of the random numbers."
  },
  {
   "property": "C81",
   "status": "proved",
   "theorems": [
    "RG.Props.C81_round",
    "RG.Props.C81_unique",
    "RG.Props.C81_determined",
    "RG.Props.C81_operations",
    "RG.Props.C81_special",
    "RG.Props.C81_sqrt",
    "RG.Props.C81_sqrt_special",
    "RG.Props.C81_compare",
    "RG.Props.C81_convert"
   ],
   "note": "The model of f64 that all other theorems about numbers use, compared with a separate statement of the standard in SpecFloat.lean. Payloads and the sign of NaN are not modelled."
  },
  {
   "property": "C82",
   "status": "proved",
   "theorems": [
    "RG.Props.C82_rank_based",
    "RG.Props.C82_roulette",
    "RG.Props.C82_dominates",
    "RG.Props.C82_expected",
    "RG.Props.C82_linear",
    "RG.Props.C82_linear_bias"
   ],
   "note": "C82_dominates and C82_expected hold of any selection that favours the fit, and so of tournament, rank and elitist selection by C82_rank_based. Linear selection is in exact arithmetic (reals); the floating-point formula is treated in C44."
  },
  {
   "property": "C83",
   "status": "proved",
   "theorems": [
    "RG.Props.C83_ends",
    "RG.Props.C83_probability",
    "RG.Props.C83_not_favoured",
    "RG.Props.C83_zero"
   ],
   "note": "The documentation does not restrict the fitness values. Values of mixed sign are covered only by C42_f64_wheel, which says which draw selects which index."
  },
  {
   "property": "C84",
   "status": "proved",
   "theorems": [
    "RG.Props.C84_share",
    "RG.Props.C84_probability",
    "RG.Props.C84_rarely_panics",
    "RG.Props.C84_favours_fit",
    "RG.Props.C84_fittest"
   ],
   "note": "Error analysis of every rounded operation of the index formula, including the NaN case of a negative number under the root; the bounds are in terms of the draw. The hypotheses on SafeBias in C69 and later are not needed here. C44 keeps the counterexample for bias 1.1."
  },
  {
   "property": "C85",
   "status": "proved",
   "theorems": [
    "RG.Props.C85_overflow",
    "RG.Props.C85_totals",
    "RG.Props.C85_expected",
    "RG.Props.C85_concentration",
    "RG.Props.C85_frequencies",
    "RG.Props.C85_tests",
    "RG.Props.C85_test_linear"
   ],
   "note": "collectLoop models the loop of collect_samples, including the index and u32 overflow checks (C85_overflow: the loop panics exactly when a counter would reach 2^32); the rounding in the assertions of the tests is not modelled (the tolerance is compared exactly)."
  },
  {
   "property": "C86",
   "status": "proved",
   "theorems": [
    "RG.Props.C86_uniform",
    "RG.Props.C86_primitives",
    "RG.Props.C86_upper_half",
    "RG.Props.C86_outcomes",
    "RG.Props.C86_probability",
    "RG.Props.C86_limit",
    "RG.Props.C86_generator"
   ],
   "note": "The procedures of rand 0.8.5 are modelled from its published source, which is not in /repo (64-bit targets). The loops are given a bound on the number of words."
  },
  {
   "property": "C87",
   "status": "proved",
   "theorems": [
    "RG.Props.C87_documentation",
    "RG.Props.C87_periodic",
    "RG.Props.C87_nonzero",
    "RG.Props.C87_seed",
    "RG.Props.C87_equidistributed",
    "RG.Props.C87_three_words"
   ],
   "note": "SmallRng is modelled from the published source of rand 0.8.5 and rand_core 0.6.4; C87_documentation compares it with the results stated in /repo. Seeding from entropy is an arbitrary state."
  },
  {
   "property": "C88",
   "status": "proved",
   "theorems": [
    "RG.Props.C88_arrangements",
    "RG.Props.C88_scramble_reaches",
    "RG.Props.C88_scramble_solves"
   ],
   "note": "The problem is a client of the library written like OneMax (Route.lean), not code of /repo; the operators are those of the library."
  },
  {
   "property": "C89",
   "status": "proved",
   "theorems": [
    "RG.Props.C89_trapped",
    "RG.Props.C89_local_optimum",
    "RG.Props.C89_contrast"
   ],
   "note": ""
  },
  {
   "property": "C90",
   "status": "proved",
   "theorems": [
    "RG.Props.C90_average",
    "RG.Props.C90_variance",
    "RG.Props.C90_thousand",
    "RG.Props.C90_inexact"
   ],
   "note": "C90_average, C90_variance (also the deviation), C90_thousand; C90_inexact: some error is unavoidable. Rounding error analysis of the f64 recurrences against the same recurrences over the rationals (which are exact by C05)."
  },
  {
   "property": "C91",
   "status": "proved",
   "theorems": [
    "RG.Props.C91_probability",
    "RG.Props.C91_outcomes",
    "RG.Props.C91_independent",
    "RG.Props.C91_sequential",
    "RG.Props.C91_library",
    "RG.Props.C91_generation"
   ],
   "note": "C91_probability, C91_outcomes, C91_independent; C91_sequential: the relation is inhabited; C91_library, C91_generation: the loops of the library."
  },
  {
   "property": "C92",
   "status": "proved",
   "theorems": [
    "RG.Props.C92_outcomes",
    "RG.Props.C92_generate",
    "RG.Props.C92_one_thread",
    "RG.Props.C92_generate_one_thread",
    "RG.Props.C92_all_outcomes",
    "RG.Props.C92_exclusive",
    "RG.Props.C92_same_seed"
   ],
   "note": "C92_outcomes, C92_generate, C92_one_thread, C92_generate_one_thread, C92_all_outcomes, C92_same_seed."
  },
  {
   "property": "C93",
   "status": "proved",
   "theorems": [
    "RG.Props.C93_builtin",
    "RG.Props.C93_scheduled",
    "RG.Props.C93_sequential",
    "RG.Props.C93_pooled",
    "RG.Props.C93_transfer",
    "RG.Props.C93_pooled_results",
    "RG.Props.C93_one_thread"
   ],
   "note": "C93_scheduled, C93_pooled, C93_transfer, C93_pooled_results, C93_one_thread; C93_builtin and C93_sequential: the hypotheses are met."
  },
  {
   "property": "C94",
   "status": "proved",
   "theorems": [
    "RG.Props.C94_roundtrip",
    "RG.Props.C94_shortest",
    "RG.Props.C94_fixed",
    "RG.Props.C94_monotone",
    "RG.Props.C94_negative",
    "RG.Props.C94_text",
    "RG.Props.C94_precision"
   ],
   "note": "C94_roundtrip, C94_shortest, C94_fixed, C94_monotone, C94_text, C94_precision. About the standard library's formatting as stated in FloatText.lean (from memory), applied to the modelled Display."
  },
  {
   "property": "C95",
   "status": "proved",
   "theorems": [
    "RG.Props.C95_ends",
    "RG.Props.C95_target",
    "RG.Props.C95_early",
    "RG.Props.C95_run",
    "RG.Props.C95_probability",
    "RG.Props.C95_million",
    "RG.Props.C95_documentation"
   ],
   "note": "C95_ends, C95_target, C95_early, C95_run, C95_probability, C95_million, C95_documentation. README.md uses ONE_MAX_LENGTH without defining it; 100 is taken from the other two."
  },
  {
   "property": "C96",
   "status": "proved",
   "theorems": [
    "RG.Props.C96_stats",
    "RG.Props.C96_display",
    "RG.Props.C96_partitions",
    "RG.Props.C96_crossover",
    "RG.Props.C96_interpolate"
   ],
   "note": "C96_stats, C96_display, C96_partitions, C96_crossover, C96_interpolate."
  },
  {
   "property": "C97",
   "status": "proved",
   "theorems": [
    "RG.Props.C97_parents",
    "RG.Props.C97_crossover",
    "RG.Props.C97_crossover_empty",
    "RG.Props.C97_mutation",
    "RG.Props.C97_stats",
    "RG.Props.C97_variance",
    "RG.Props.C97_million",
    "RG.Props.C97_stats_empty"
   ],
   "note": "C97_parents, C97_crossover, C97_crossover_empty, C97_mutation, C97_stats, C97_variance, C97_million, C97_stats_empty."
  },
  {
   "property": "C98",
   "status": "proved",
   "theorems": [
    "RG.Props.C98_expected",
    "RG.Props.C98_variety",
    "RG.Props.C98_uniform",
    "RG.Props.C98_winner",
    "RG.Props.C98_limit",
    "RG.Props.C98_no_new_gene",
    "RG.Props.C98_benchmark",
    "RG.Props.C98_onemax"
   ],
   "note": "C98_expected, C98_variety, C98_uniform, C98_winner, C98_limit, C98_no_new_gene, C98_benchmark, C98_onemax."
  },
  {
   "property": "C99",
   "status": "proved",
   "theorems": [
    "RG.Props.C99_blind",
    "RG.Props.C99_stationary",
    "RG.Props.C99_scramble_mixes",
    "RG.Props.C99_swap_parity",
    "RG.Props.C99_swap_never_back"
   ],
   "note": "C99_blind, C99_stationary, C99_scramble_mixes, C99_swap_parity, C99_swap_never_back."
  },
  {
   "property": "C100",
   "status": "proved",
   "theorems": [
    "RG.Props.C100_aloof",
    "RG.Props.C100_aloof_run",
    "RG.Props.C100_continues",
    "RG.Props.C100_safe",
    "RG.Props.C100_tidy",
    "RG.Props.C100_size",
    "RG.Props.C100_counterexample"
   ],
   "note": "C100_aloof, C100_aloof_run, C100_continues, C100_safe, C100_tidy, C100_size, C100_counterexample."
  },
  {
   "property": "C101",
   "status": "proved",
   "theorems": [
    "RG.Props.C101_renaming",
    "RG.Props.C101_single_point",
    "RG.Props.C101_any_order",
    "RG.Props.C101_permutations",
    "RG.Props.C101_needed"
   ],
   "note": "C101_renaming, C101_single_point, C101_any_order, C101_permutations, C101_needed."
  },
  {
   "property": "C102",
   "status": "proved",
   "theorems": [
    "RG.Props.C102_ends",
    "RG.Props.C102_oneMax",
    "RG.Props.C102_needed"
   ],
   "note": "C102_ends, C102_oneMax; C102_needed: without elites, for every bound there are draws with which the run is not finished."
  },
  {
   "property": "C103",
   "status": "proved",
   "theorems": [
    "RG.Props.C103_population",
    "RG.Props.C103_run",
    "RG.Props.C103_individual",
    "RG.Props.C103_ga",
    "RG.Props.C103_aga",
    "RG.Props.C103_step",
    "RG.Props.C103_refit",
    "RG.Props.C103_oneMax",
    "RG.Props.C103_wheel",
    "RG.Props.C103_adaptive"
   ],
   "note": "C103_population, C103_run, C103_individual for all corresponding models and algorithms; C103_ga, C103_aga: the built-in algorithms are such; C103_step: what running in step implies for executions and probabilities; C103_refit: a model and itself with the fitness read through an order preserving function correspond; C103_oneMax; C103_wheel and C103_adaptive: counterexamples for the roulette wheel and for adjusted rates."
  },
  {
   "property": "C104",
   "status": "proved",
   "theorems": [
    "RG.Props.C104_sort",
    "RG.Props.C104_population",
    "RG.Props.C104_evolve",
    "RG.Props.C104_run",
    "RG.Props.C104_individual",
    "RG.Props.C104_ga",
    "RG.Props.C104_aga",
    "RG.Props.C104_scored",
    "RG.Props.C104_ties",
    "RG.Props.C104_wheel"
   ],
   "note": "C104_sort, C104_population: the order is unique; C104_evolve, C104_run, C104_individual: runs; C104_ga, C104_aga: the built-in algorithms; C104_scored: bits with a score that tells genomes apart; C104_ties and C104_wheel: counterexamples for ties and for the roulette wheel."
  },
  {
   "property": "C105",
   "status": "proved",
   "theorems": [
    "RG.Props.C105_overflow",
    "RG.Props.C105_positive",
    "RG.Props.C105_negative",
    "RG.Props.C105_cools",
    "RG.Props.C105_cold",
    "RG.Props.C105_late",
    "RG.Props.C105_ga",
    "RG.Props.C105_aga",
    "RG.Props.C105_run",
    "RG.Props.C105_exact"
   ],
   "note": "C105_overflow: the wheel once weights are infinite; C105_positive, C105_negative: at a low temperature; C105_cools, C105_cold: the temperature falls; C105_late: after enough preparations; C105_ga, C105_aga: one preparation per generation of a run; C105_run: late generations of runs; C105_exact: exact arithmetic does what the documentation says. The range of f64::exp is a hypothesis (ExpRange)."
  },
  {
   "property": "C106",
   "status": "proved",
   "theorems": [
    "RG.Props.C106_breed",
    "RG.Props.C106_ga_run",
    "RG.Props.C106_aga_run",
    "RG.Props.C106_ga",
    "RG.Props.C106_aga",
    "RG.Props.C106_copies",
    "RG.Props.C106_aga_copies",
    "RG.Props.C106_single_point",
    "RG.Props.C106_onemax",
    "RG.Props.C106_random",
    "RG.Props.C106_at_most",
    "RG.Props.C106_aga_at_most"
   ],
   "note": "C106_breed: one offspring; C106_ga_run, C106_aga_run: relations that hold for everything bred hold throughout a run; C106_ga, C106_aga: genes by position; C106_copies, C106_aga_copies: both rates zero; C106_single_point: the crossover; C106_onemax, C106_random, C106_at_most, C106_aga_at_most: OneMax."
  },
  {
   "property": "C107",
   "status": "proved",
   "theorems": [
    "RG.Props.C107_swap",
    "RG.Props.C107_insertion",
    "RG.Props.C107_inversion",
    "RG.Props.C107_window",
    "RG.Props.C107_duplicate",
    "RG.Props.C107_gained",
    "RG.Props.C107_length",
    "RG.Props.C107_idle",
    "RG.Props.C107_changes",
    "RG.Props.C107_inversion_idle"
   ],
   "note": "C107_swap, C107_insertion, C107_inversion, C107_duplicate, C107_window: edges lost; C107_gained, C107_length: consequences; C107_idle, C107_changes, C107_inversion_idle: inversions without effect. Examples show that the bounds are met."
  },
  {
   "property": "C108",
   "status": "proved",
   "theorems": [
    "RG.Props.C108_same_trip",
    "RG.Props.C108_erx",
    "RG.Props.C108_gpx2",
    "RG.Props.C108_gpx2_strategy",
    "RG.Props.C108_scx",
    "RG.Props.C108_scx_trip",
    "RG.Props.C108_self",
    "RG.Props.C108_strategy",
    "RG.Props.C108_positions_counterexample"
   ],
   "note": "C108_same_trip: the writings of a trip; C108_erx, C108_gpx2, C108_gpx2_strategy, C108_scx, C108_scx_trip, C108_strategy: parents with the same trip; C108_self: all strategies, equal parents; C108_positions_counterexample: PMX, OX, CX."
  },
  {
   "property": "C109",
   "status": "proved",
   "theorems": [
    "RG.Props.C109_monotone",
    "RG.Props.C109_accuracy",
    "RG.Props.C109_range",
    "RG.Props.C109_ends",
    "RG.Props.C109_adjust",
    "RG.Props.C109_exceeds_counterexample"
   ],
   "note": "C109_monotone; C109_accuracy; C109_range; C109_ends; C109_adjust: these are the rates of Aga.adjust with the spread of generation 0 as reference; C109_exceeds_counterexample: the bound 2^-53 is met."
  },
  {
   "property": "C110",
   "status": "proved",
   "theorems": [
    "RG.Props.C110_pmx",
    "RG.Props.C110_cx",
    "RG.Props.C110_spx",
    "RG.Props.C110_positions",
    "RG.Props.C110_positions_counterexample",
    "RG.Props.C110_gpx2",
    "RG.Props.C110_gpx2_closing_counterexample",
    "RG.Props.C110_gpx2_new",
    "RG.Props.C110_edges_counterexample",
    "RG.Props.C110_ga",
    "RG.Props.C110_aga",
    "RG.Props.C110_positions_closed",
    "RG.Props.C110_trip_closed"
   ],
   "note": "C110_pmx, C110_cx, C110_spx, C110_positions: positions; C110_gpx2, C110_gpx2_new: edges of GPX2; C110_positions_counterexample, C110_gpx2_closing_counterexample, C110_edges_counterexample: what is not kept; C110_ga, C110_aga: runs; C110_positions_closed, C110_trip_closed: what stays in problems over arrangements."
  },
  {
   "property": "C111",
   "status": "proved",
   "theorems": [
    "RG.Props.C111_ga",
    "RG.Props.C111_aga",
    "RG.Props.C111_one_max",
    "RG.Props.C111_one_max_aga",
    "RG.Props.C111_reach",
    "RG.Props.C111_round_trips",
    "RG.Props.C111_round_trips_aga"
   ],
   "note": "C111_ga, C111_aga: any model with a pace; C111_one_max, C111_one_max_aga: OneMax; C111_reach, C111_round_trips, C111_round_trips_aga: round trips."
  },
  {
   "property": "C112",
   "status": "proved",
   "theorems": [
    "RG.Props.C112_ga",
    "RG.Props.C112_aga",
    "RG.Props.C112_almost_surely",
    "RG.Props.C112_aga_almost_surely",
    "RG.Props.C112_stays",
    "RG.Props.C112_aga_stays"
   ],
   "note": "C112_ga, C112_aga: the bound; C112_almost_surely, C112_aga_almost_surely: the limit; C112_stays, C112_aga_stays: it stays so. Roulette selection and others are not covered, as they need not select the last individual with probability 1/n."
  },
  {
   "property": "C113",
   "status": "proved",
   "theorems": [
    "RG.Props.C113_breed",
    "RG.Props.C113_replace",
    "RG.Props.C113_ga",
    "RG.Props.C113_aga",
    "RG.Props.C113_run",
    "RG.Props.C113_evolve_individual",
    "RG.Props.C113_prob",
    "RG.Props.C113_overflow_counterexample"
   ],
   "note": "C113_breed, C113_replace: the parts; C113_ga, C113_aga, C113_run, C113_evolve_individual: runs; C113_prob: equal probabilities; C113_overflow_counterexample: the bound on generations is needed. Not covered: usize arithmetic in the operators of the user's model, and the counter of samples of the statistics, which is at most the number of individuals."
  },
  {
   "property": "C114",
   "status": "proved",
   "theorems": [
    "RG.Props.C114_run",
    "RG.Props.C114_evolve_individual",
    "RG.Props.C114_calls",
    "RG.Props.C114_oneMax",
    "RG.Props.C114_oneMax_aga",
    "RG.Props.C114_aga_stuck",
    "RG.Props.C114_route",
    "RG.Props.C114_aga_stuck_default"
   ],
   "note": "C114_run, C114_evolve_individual, C114_calls: general; C114_oneMax, C114_oneMax_aga, C114_route: applications; C114_aga_stuck, C114_aga_stuck_default: the adaptive algorithm can get stuck."
  },
  {
   "property": "C115",
   "status": "proved",
   "theorems": [
    "RG.Props.C115_same_ga",
    "RG.Props.C115_same_aga",
    "RG.Props.C115_counted",
    "RG.Props.C115_breed",
    "RG.Props.C115_generate",
    "RG.Props.C115_ga",
    "RG.Props.C115_aga",
    "RG.Props.C115_budget",
    "RG.Props.C115_extend_with"
   ],
   "note": "C115_same_ga, C115_same_aga: the marks that count calls do not change the law of a run; C115_counted: every outcome has a count; C115_breed, C115_generate, C115_ga, C115_aga, C115_budget, C115_extend_with: the counts."
  },
  {
   "property": "C116",
   "status": "proved",
   "theorems": [
    "RG.Props.C116_spread",
    "RG.Props.C116_scramble_solves",
    "RG.Props.C116_run",
    "RG.Props.C116_stuck",
    "RG.Props.C116_contrast"
   ],
   "note": "C116_spread: the initial deviation; C116_scramble_solves: the bound and almost sure success; C116_run: the same for run; C116_stuck: the failure without a spread; C116_contrast: both for one problem with the default parameters."
  },
  {
   "property": "C117",
   "status": "proved",
   "theorems": [
    "RG.Props.C117_options",
    "RG.Props.C117_handed",
    "RG.Props.C117_string",
    "RG.Props.C117_buffer",
    "RG.Props.C117_closed"
   ],
   "note": "C117_options: only the precision matters; C117_handed: any writer; C117_string: a String; C117_buffer: limited room; C117_closed: a writer that refuses everything."
  },
  {
   "property": "C118",
   "status": "proved",
   "theorems": [
    "RG.Props.C118_population",
    "RG.Props.C118_enlarged",
    "RG.Props.C118_same_population",
    "RG.Props.C118_run",
    "RG.Props.C118_individual",
    "RG.Props.C118_same_run",
    "RG.Props.C118_overflow"
   ],
   "note": "C118_population, C118_enlarged, C118_run, C118_individual: the capacities; C118_same_population, C118_same_run: the results; C118_overflow: too large a population."
  },
  {
   "property": "C119",
   "status": "proved",
   "theorems": [
    "RG.Props.C119_swap",
    "RG.Props.C119_copies",
    "RG.Props.C119_ladder",
    "RG.Props.C119_ladder_aga",
    "RG.Props.C119_markov",
    "RG.Props.C119_ga_expected",
    "RG.Props.C119_any_rate",
    "RG.Props.C119_aga_expected",
    "RG.Props.C119_aga_any_rate",
    "RG.Props.C119_ends",
    "RG.Props.C119_solved",
    "RG.Props.C119_evolve_individual",
    "RG.Props.C119_contrast"
   ],
   "note": "C119_swap, C119_copies: the operators; C119_ladder, C119_ladder_aga: climbing with a crossover that may keep the first parent; C119_ga_expected, C119_any_rate, C119_aga_expected, C119_aga_any_rate: the bounds; C119_markov, C119_ends, C119_solved, C119_evolve_individual: the end of the run; C119_contrast: Insertion."
  },
  {
   "property": "C120",
   "status": "proved",
   "theorems": [
    "RG.Props.C120_builtin",
    "RG.Props.C120_covered",
    "RG.Props.C120_breed",
    "RG.Props.C120_breeds_valid",
    "RG.Props.C120_outcome",
    "RG.Props.C120_valid",
    "RG.Props.C120_size",
    "RG.Props.C120_monotone",
    "RG.Props.C120_best",
    "RG.Props.C120_not_worse",
    "RG.Props.C120_no_panic",
    "RG.Props.C120_refines",
    "RG.Props.C120_refines_builtin",
    "RG.Props.C120_alone",
    "RG.Props.C120_cache",
    "RG.Props.C120_not_independent",
    "RG.Props.C120_schedule_matters"
   ],
   "note": "C120_builtin, C120_covered, C120_breed, C120_outcome: there is an outcome, and each is one of a model without shared state; C120_breeds_valid, C120_valid, C120_size, C120_monotone, C120_best, C120_not_worse, C120_no_panic: what carries over; C120_refines, C120_refines_builtin, C120_alone, C120_cache: state that makes no difference; C120_not_independent, C120_schedule_matters: what does not carry over."
  },
  {
   "property": "C121",
   "status": "proved",
   "theorems": [
    "RG.Props.C121_outcomes",
    "RG.Props.C121_outcomes_run",
    "RG.Props.C121_ga",
    "RG.Props.C121_aga",
    "RG.Props.C121_cached_oneMax",
    "RG.Props.C121_schedule_matters"
   ],
   "note": "C121_outcomes, C121_outcomes_run: there is always a play, and plays have the outcomes of C120; C121_ga, C121_aga: same probabilities under every schedule; C121_cached_oneMax: OneMax with a memo table; C121_schedule_matters: probabilities 1/4, 1/2, 3/4."
  },
  {
   "property": "C122",
   "status": "proved",
   "theorems": [
    "RG.Props.C122_same",
    "RG.Props.C122_cx",
    "RG.Props.C122_pmx",
    "RG.Props.C122_ox",
    "RG.Props.C122_quadratic",
    "RG.Props.C122_scx",
    "RG.Props.C122_erx",
    "RG.Props.C122_attained"
   ],
   "note": "C122_same: the counters change nothing; C122_cx: exact count; C122_pmx, C122_ox: bounds; C122_quadratic: neither exceeds CX; C122_scx, C122_erx: bounds; C122_attained: the bounds of PMX and OX are attained."
  },
  {
   "property": "C123",
   "status": "proved",
   "theorems": [
    "RG.Props.C123_same",
    "RG.Props.C123_neighbors",
    "RG.Props.C123_partitions",
    "RG.Props.C123_assembly",
    "RG.Props.C123_assembly_bounds",
    "RG.Props.C123_expected",
    "RG.Props.C123_gpx2",
    "RG.Props.C123_attained"
   ],
   "note": "C123_same: the counters change nothing; C123_neighbors: exact; C123_partitions: bounds for any genomes; C123_assembly: exact in terms of the order of the partitions; C123_assembly_bounds, C123_attained: extremes; C123_expected: the mean; C123_gpx2: totals."
  },
  {
   "property": "C124",
   "status": "proved",
   "theorems": [
    "RG.Props.C124_same",
    "RG.Props.C124_cycle",
    "RG.Props.C124_range",
    "RG.Props.C124_thirds",
    "RG.Props.C124_gpx2",
    "RG.Props.C124_bound"
   ],
   "note": "C124_same: the counters change neither draws nor offspring; C124_cycle, C124_range, C124_thirds, C124_gpx2: means; C124_bound: worst case for every strategy."
  },
  {
   "property": "C125",
   "status": "proved",
   "theorems": [
    "RG.Props.C125_ga",
    "RG.Props.C125_aga",
    "RG.Props.C125_same",
    "RG.Props.C125_same_run",
    "RG.Props.C125_left",
    "RG.Props.C125_ga_model",
    "RG.Props.C125_aga_model",
    "RG.Props.C125_ga_again",
    "RG.Props.C125_aga_again",
    "RG.Props.C125_ga_configure",
    "RG.Props.C125_aga_configure",
    "RG.Props.C125_ga_prepare",
    "RG.Props.C125_aga_prepare",
    "RG.Props.C125_rejected",
    "RG.Props.C125_halfway"
   ],
   "note": "C125_ga, C125_aga, C125_same, C125_same_run: the code with what it leaves is the code of the other properties; C125_left, C125_ga_model, C125_aga_model: what a run leaves; C125_ga_again, C125_aga_again: later runs; C125_ga_configure, C125_aga_configure, C125_ga_prepare, C125_aga_prepare, C125_rejected, C125_halfway: what the methods leave when they panic."
  },
  {
   "property": "C126",
   "status": "proved",
   "theorems": [
    "RG.Props.C126_crossover",
    "RG.Props.C126_crossover_exact",
    "RG.Props.C126_mutation",
    "RG.Props.C126_breed",
    "RG.Props.C126_any",
    "RG.Props.C126_holland",
    "RG.Props.C126_generation",
    "RG.Props.C126_oneMax",
    "RG.Props.C126_unlike",
    "RG.Props.C126_keep_best"
   ],
   "note": "C126_crossover, C126_crossover_exact, C126_mutation: the operators; C126_breed, C126_holland, C126_any: breed; C126_generation: a generation; C126_oneMax: the OneMax module qualifies; C126_unlike, C126_keep_best: where the usual forms fail."
  },
  {
   "property": "C127",
   "status": "proved",
   "theorems": [
    "RG.Props.C127_counted",
    "RG.Props.C127_positions",
    "RG.Props.C127_short",
    "RG.Props.C127_mutate",
    "RG.Props.C127_scramble",
    "RG.Props.C127_crossover",
    "RG.Props.C127_partitions",
    "RG.Props.C127_select",
    "RG.Props.C127_distinct",
    "RG.Props.C127_breed",
    "RG.Props.C127_generate",
    "RG.Props.C127_ga",
    "RG.Props.C127_aga",
    "RG.Props.C127_budget",
    "RG.Props.C127_extend",
    "RG.Props.C127_extend_with",
    "RG.Props.C127_onemax",
    "RG.Props.C127_onemax_run"
   ],
   "note": "C127_counted: nothing is left uncounted; C127_positions, C127_short, C127_mutate, C127_scramble, C127_crossover, C127_partitions, C127_select, C127_distinct: the operators; C127_breed, C127_generate, C127_ga, C127_aga, C127_budget: runs; C127_extend, C127_extend_with: initial populations; C127_onemax, C127_onemax_run: OneMax. Machine words spent by the generator on one value are not counted."
  },
  {
   "property": "C128",
   "status": "proved",
   "theorems": [
    "RG.Props.C128_breed",
    "RG.Props.C128_threshold",
    "RG.Props.C128_mean",
    "RG.Props.C128_generation",
    "RG.Props.C128_merging",
    "RG.Props.C128_any_rule"
   ],
   "note": "C128_breed, C128_threshold, C128_mean, C128_generation; the limits: C128_merging, C128_any_rule."
  },
  {
   "property": "C129",
   "status": "proved",
   "theorems": [
    "RG.Props.C129_same",
    "RG.Props.C129_prepare",
    "RG.Props.C129_select",
    "RG.Props.C129_select_range",
    "RG.Props.C129_breed_wheel",
    "RG.Props.C129_breed_other",
    "RG.Props.C129_generate",
    "RG.Props.C129_collect",
    "RG.Props.C129_roulette_mean",
    "RG.Props.C129_breed_mean",
    "RG.Props.C129_generate_mean",
    "RG.Props.C129_quadratic"
   ],
   "note": "C129_same (the counter changes nothing), C129_prepare, C129_select, C129_select_range, C129_breed_wheel, C129_breed_other, C129_generate, C129_collect; averages: C129_roulette_mean, C129_breed_mean, C129_generate_mean, C129_quadratic. The calls made by the sort and by user code are not counted."
  },
  {
   "property": "C130",
   "status": "proved",
   "theorems": [
    "RG.Props.C130_selected",
    "RG.Props.C130_breed",
    "RG.Props.C130_generation",
    "RG.Props.C130_variance",
    "RG.Props.C130_boltzmann"
   ],
   "note": "C130_selected, C130_breed, C130_generation, C130_variance, C130_boltzmann."
  },
  {
   "property": "C131",
   "status": "proved",
   "theorems": [
    "RG.Props.C131_tournament",
    "RG.Props.C131_rank",
    "RG.Props.C131_elitist",
    "RG.Props.C131_order",
    "RG.Props.C131_measure",
    "RG.Props.C131_places"
   ],
   "note": "C131_tournament, C131_rank, C131_elitist, C131_order, C131_measure, C131_places."
  },
  {
   "property": "C132",
   "status": "proved",
   "theorems": [
    "RG.Props.C132_rank",
    "RG.Props.C132_rank_coin",
    "RG.Props.C132_linear",
    "RG.Props.C132_linear_each",
    "RG.Props.C132_linear_average",
    "RG.Props.C132_bias_two",
    "RG.Props.C132_rank_linear",
    "RG.Props.C132_place"
   ],
   "note": "C132_rank, C132_rank_coin, C132_linear, C132_linear_each, C132_linear_average, C132_bias_two, C132_rank_linear, C132_place."
  },
  {
   "property": "C133",
   "status": "proved",
   "theorems": [
    "RG.Props.C133_tails",
    "RG.Props.C133_tails_exact",
    "RG.Props.C133_ga",
    "RG.Props.C133_run",
    "RG.Props.C133_aga",
    "RG.Props.C133_run_aga",
    "RG.Props.C133_scramble",
    "RG.Props.C133_scramble_aga"
   ],
   "note": "C133_tails, C133_tails_exact, C133_ga, C133_run, C133_aga, C133_run_aga, C133_scramble, C133_scramble_aga."
  },
  {
   "property": "C134",
   "status": "proved",
   "theorems": [
    "RG.Props.C134_breed",
    "RG.Props.C134_ga",
    "RG.Props.C134_calls",
    "RG.Props.C134_any"
   ],
   "note": "C134_breed, C134_ga, C134_calls, C134_any."
  },
  {
   "property": "C135",
   "status": "proved",
   "theorems": [
    "RG.Props.C135_upper",
    "RG.Props.C135_lower",
    "RG.Props.C135_lower_bounded",
    "RG.Props.C135_lower_limit",
    "RG.Props.C135_one_max",
    "RG.Props.C135_one_max_aga"
   ],
   "note": "C135_upper, C135_lower, C135_lower_bounded, C135_lower_limit, C135_one_max, C135_one_max_aga."
  },
  {
   "property": "C136",
   "status": "proved",
   "theorems": [
    "RG.Props.C136_calls",
    "RG.Props.C136_one_max",
    "RG.Props.C136_one_max_aga"
   ],
   "note": "C136_calls, C136_one_max, C136_one_max_aga. The term for unended runs vanishes only in the limit."
  },
  {
   "property": "C137",
   "status": "proved",
   "theorems": [
    "RG.Props.C137_equal",
    "RG.Props.C137_equivalence",
    "RG.Props.C137_behave",
    "RG.Props.C137_selectors",
    "RG.Props.C137_opposite",
    "RG.Props.C137_default",
    "RG.Props.C137_ga",
    "RG.Props.C137_aga",
    "RG.Props.C137_run"
   ],
   "note": "C137_equal, C137_equivalence, C137_behave, C137_selectors, C137_default, C137_ga, C137_aga, C137_run, C137_opposite. For the exception the range of f64::exp is assumed (infinite from 1024 on, zero up to -1024), as in C105."
  },
  {
   "property": "C138",
   "status": "proved",
   "theorems": [
    "RG.Props.C138_nan",
    "RG.Props.C138_infinite",
    "RG.Props.C138_heats",
    "RG.Props.C138_stalls",
    "RG.Props.C138_sign",
    "RG.Props.C138_weight",
    "RG.Props.C138_preference"
   ],
   "note": "C138_nan, C138_infinite, C138_heats, C138_stalls, C138_sign, C138_weight, C138_preference. The properties used of exp are hypotheses."
  },
  {
   "property": "C139",
   "status": "proved",
   "theorems": [
    "RG.Props.C139_new",
    "RG.Props.C139_draws",
    "RG.Props.C139_range",
    "RG.Props.C139_extreme",
    "RG.Props.C139_infinite",
    "RG.Props.C139_huge",
    "RG.Props.C139_panics",
    "RG.Props.C139_select_panics",
    "RG.Props.C139_generation",
    "RG.Props.C139_run"
   ],
   "note": "C139_new, C139_draws, C139_range, C139_extreme (exact arithmetic, real numbers); C139_infinite, C139_huge, C139_panics, C139_select_panics, C139_generation, C139_run (f64). For smaller biases outside [0, 2] the rounding of f64 is not covered."
  },
  {
   "property": "C140",
   "status": "proved",
   "theorems": [
    "RG.Props.C140_breed",
    "RG.Props.C140_results",
    "RG.Props.C140_never_called",
    "RG.Props.C140_only_fittest",
    "RG.Props.C140_ga",
    "RG.Props.C140_ga_any",
    "RG.Props.C140_aga_any",
    "RG.Props.C140_fixed"
   ],
   "note": "C140_breed, C140_results, C140_never_called, C140_only_fittest, C140_ga, C140_ga_any, C140_aga_any, C140_fixed. Runs are not covered for Boltzmann selection with NaN."
  },
  {
   "property": "C141",
   "status": "proved",
   "theorems": [
    "RG.Props.C141_dominant",
    "RG.Props.C141_tournament",
    "RG.Props.C141_breed",
    "RG.Props.C141_cold",
    "RG.Props.C141_cold_negative",
    "RG.Props.C141_flat",
    "RG.Props.C141_flat_breed",
    "RG.Props.C141_ga",
    "RG.Props.C141_aga"
   ],
   "note": "C141_breed, C141_cold, C141_cold_negative, C141_flat, C141_flat_breed, C141_ga, C141_aga, C141_dominant, C141_tournament. The runs are stated for the roulette wheel."
  },
  {
   "property": "C142",
   "status": "proved",
   "theorems": [
    "RG.Props.C142_neither",
    "RG.Props.C142_neither_elitist",
    "RG.Props.C142_tournament",
    "RG.Props.C142_rank",
    "RG.Props.C142_population",
    "RG.Props.C142_none",
    "RG.Props.C142_some",
    "RG.Props.C142_calls",
    "RG.Props.C142_unequal",
    "RG.Props.C142_at_most",
    "RG.Props.C142_elitist"
   ],
   "note": "C142_none, C142_some, C142_calls, C142_unequal, C142_at_most, C142_elitist, C142_neither, C142_neither_elitist, C142_tournament, C142_rank, C142_population. A call is observed as a panic: crossover is replaced by one that panics (crossPanics)."
  },
  {
   "property": "C143",
   "status": "proved",
   "theorems": [
    "RG.Props.C143_pair",
    "RG.Props.C143_order",
    "RG.Props.C143_fitter_first",
    "RG.Props.C143_elitist"
   ],
   "note": "C143_pair, C143_order, C143_fitter_first, C143_elitist. A call is observed as a panic: crossover is replaced by one that panics for the given pair (pairPanics)."
  },
  {
   "property": "C144",
   "status": "proved",
   "theorems": [
    "RG.Props.C144_returns",
    "RG.Props.C144_crossover",
    "RG.Props.C144_change"
   ],
   "note": "C144_returns, C144_crossover, C144_change. A call is observed as a panic (crossPanics, changePanics)."
  }
 ]
}