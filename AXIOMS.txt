'RG.Props.C01_collect_eq_record' depends on axioms: [propext, Quot.sound]
'RG.Props.C01_record_after_collect' depends on axioms: [propext, Quot.sound]
'RG.Props.C02_min' depends on axioms: [propext, Classical.choice, Quot.sound]
'RG.Props.C03_max' depends on axioms: [propext, Classical.choice, Quot.sound]
'RG.Props.C04_nan_later' depends on axioms: [propext, Classical.choice, Quot.sound]
'RG.Props.C04_nan_first' depends on axioms: [propext, Classical.choice, Quot.sound]
'RG.Props.C05_mean_var' depends on axioms: [propext, Classical.choice, Quot.sound]
'RG.Props.C05_std' depends on axioms: [propext, Classical.choice, Quot.sound]
'RG.Props.C06_f64_bounds' depends on axioms: [propext, Classical.choice, Quot.sound]
'RG.Props.C06_overflow_counterexample' depends on axioms: [propext, Classical.choice, Quot.sound]
'RG.Props.C07_snapshot' depends on axioms: [propext, Classical.choice, Quot.sound]
'RG.Props.C07_snapshot_history' depends on axioms: [propext, Quot.sound]
'RG.Props.C07_setters' depends on axioms: [propext, Quot.sound]
'RG.Props.C08_new' depends on axioms: [propext, Classical.choice, Quot.sound]
'RG.Props.C08_replace' depends on axioms: [propext, Classical.choice, Quot.sound]
'RG.Props.C09_neighbours_differ' depends on axioms: [propext, Classical.choice, Quot.sound]
'RG.Props.C09_unique' depends on axioms: [propext, Classical.choice, Quot.sound]
'RG.Props.C09_duplicates_counterexample' depends on axioms: [propext, Classical.choice, Quot.sound]
'RG.Props.C10_fittest' depends on axioms: [propext, Classical.choice, Quot.sound]
'RG.Props.C11_nonempty' depends on axioms: [propext, Classical.choice, Quot.sound]
'RG.Props.C11_round_trip' depends on axioms: [propext, Classical.choice, Quot.sound]
'RG.Props.C12_counters' depends on axioms: [propext, Classical.choice, Quot.sound]
'RG.Props.C12_old_individuals' depends on axioms: [propext, Classical.choice, Quot.sound]
'RG.Props.C13_stats' depends on axioms: [propext, Classical.choice, Quot.sound]
'RG.Props.C14_order' depends on axioms: [propext, Classical.choice, Quot.sound]
'RG.Props.C14_nan_equal' depends on axioms: [propext, Classical.choice, Quot.sound]
'RG.Props.C14_nan_not_transitive_counterexample' depends on axioms: [propext, Classical.choice, Quot.sound]
'RG.Props.C14_wrapper' depends on axioms: [propext, Classical.choice, Quot.sound]
'RG.Props.C15_random_pair' depends on axioms: [propext, Classical.choice, Quot.sound]
'RG.Props.C15_random_pair_uniform' depends on axioms: [propext, Classical.choice, Quot.sound]
'RG.Props.C16_bounded_random_range' depends on axioms: [propext, Classical.choice, Quot.sound]
'RG.Props.C16_bounded_random_range_panics' depends on axioms: [propext, Classical.choice, Quot.sound]
'RG.Props.C16_random_range' depends on axioms: [propext, Classical.choice, Quot.sound]
'RG.Props.C17_distribution' depends on axioms: [propext, Classical.choice, Quot.sound]
'RG.Props.C17_not_uniform_counterexample' depends on axioms: [propext, Classical.choice, Quot.sound]
'RG.Props.C17_random_range_two_counterexample' depends on axioms: [propext, Classical.choice, Quot.sound]
'RG.Props.C18_exact' depends on axioms: [propext, Classical.choice, Quot.sound]
'RG.Props.C18_f64' depends on axioms: [propext, Classical.choice, Quot.sound]
'RG.Props.C18_f64_monotone' depends on axioms: [propext, Classical.choice, Quot.sound]
'RG.Props.C18_f64_exceeds_counterexample' depends on axioms: [propext, Classical.choice, Quot.sound]
'RG.Props.C19_between' depends on axioms: [propext, Classical.choice, Quot.sound]
'RG.Props.C19_ends' depends on axioms: [propext, Classical.choice, Quot.sound]
'RG.Props.C19_strict' depends on axioms: [propext, Classical.choice, Quot.sound]
'RG.Props.C19_panic' depends on axioms: [propext, Classical.choice, Quot.sound]
'RG.Props.C20_common_neighbors' depends on axioms: [propext, Classical.choice, Quot.sound]
'RG.Props.C20_short' depends on axioms: [propext]
'RG.Props.C20_asymmetric_counterexample' depends on axioms: [propext]
'RG.Props.C20_sound' depends on axioms: [propext, Classical.choice, Quot.sound]
'RG.Props.C21_partitions' depends on axioms: [propext, Classical.choice, Quot.sound]
'RG.Props.C21_permutation' depends on axioms: [propext, Classical.choice, Quot.sound]
'RG.Props.C21_maximal_end' depends on axioms: [propext, Classical.choice, Quot.sound]
'RG.Props.C21_not_maximal_counterexample' depends on axioms: [propext, Classical.choice, Quot.sound]
'RG.Props.C22_gpx2' depends on axioms: [propext, Classical.choice, Quot.sound]
'RG.Props.C22_permutation' depends on axioms: [propext, Classical.choice, Quot.sound]
'RG.Props.C22_any_order' depends on axioms: [propext, Classical.choice, Quot.sound]
'RG.Props.C23_scx' depends on axioms: [propext, Classical.choice, Quot.sound]
'RG.Props.C23_short' depends on axioms: [propext, Quot.sound]
'RG.Props.C24_erx' depends on axioms: [propext, Classical.choice, Quot.sound]
'RG.Props.C24_short' depends on axioms: [propext, Quot.sound]
'RG.Props.C25_pmx' depends on axioms: [propext, Classical.choice, Quot.sound]
'RG.Props.C25_empty_range' depends on axioms: [propext, Classical.choice, Quot.sound]
'RG.Props.C26_ox' depends on axioms: [propext, Classical.choice, Quot.sound]
'RG.Props.C26_empty_range_counterexample' depends on axioms: [propext, Classical.choice, Quot.sound]
'RG.Props.C26_end_range_counterexample' depends on axioms: [propext, Classical.choice, Quot.sound]
'RG.Props.C27_cx' depends on axioms: [propext, Classical.choice, Quot.sound]
'RG.Props.C27_positions' depends on axioms: [propext, Classical.choice, Quot.sound]
'RG.Props.C27_no_diverge' depends on axioms: [propext, Classical.choice, Quot.sound]
'RG.Props.C28_spx' depends on axioms: [propext, Quot.sound]
'RG.Props.C28_positions' depends on axioms: [propext, Classical.choice, Quot.sound]
'RG.Props.C29_length_mismatch' depends on axioms: [propext, Classical.choice, Quot.sound]
'RG.Props.C29_strategy_mismatch' depends on axioms: [propext, Classical.choice, Quot.sound]
'RG.Props.C29_gpx2_counterexample' depends on axioms: [propext, Classical.choice, Quot.sound]
'RG.Props.C29_empty' depends on axioms: [propext]
'RG.Props.C30_permutation' depends on axioms: [propext, Classical.choice, Quot.sound]
'RG.Props.C30_single_point' depends on axioms: [propext, Quot.sound]
'RG.Props.C31_pmx_infinite' depends on axioms: [propext, Classical.choice, Quot.sound]
'RG.Props.C31_ox_infinite' depends on axioms: [propext, Classical.choice, Quot.sound]
'RG.Props.C31_pmx_dichotomy' depends on axioms: [propext, Classical.choice, Quot.sound]
'RG.Props.C31_pmx_infinite_iff' depends on axioms: [propext, Classical.choice, Quot.sound]
'RG.Props.C31_ox_infinite_iff' depends on axioms: [propext, Classical.choice, Quot.sound]
'RG.Props.C31_range_panics' depends on axioms: [propext, Quot.sound]
'RG.Props.C32_swap' depends on axioms: [propext, Classical.choice, Quot.sound]
'RG.Props.C32_swap_uniform' depends on axioms: [propext, Classical.choice, Quot.sound]
'RG.Props.C32_swap_perm' depends on axioms: [propext, Classical.choice, Quot.sound]
'RG.Props.C32_swap_differs' depends on axioms: [propext, Quot.sound]
'RG.Props.C33_scramble' depends on axioms: [propext, Classical.choice, Quot.sound]
'RG.Props.C33_shuffle_uniform' depends on axioms: [propext, Classical.choice, Quot.sound]
'RG.Props.C34_inversion' depends on axioms: [propext, Classical.choice, Quot.sound]
'RG.Props.C34_inversion_differs' depends on axioms: [propext, Classical.choice, Quot.sound]
'RG.Props.C35_insertion' depends on axioms: [propext, Classical.choice, Quot.sound]
'RG.Props.C35_insertion_uniform' depends on axioms: [propext, Classical.choice, Quot.sound]
'RG.Props.C35_insertion_perm' depends on axioms: [propext, Classical.choice, Quot.sound]
'RG.Props.C35_insertion_only_earlier' depends on axioms: [propext, Classical.choice, Quot.sound]
'RG.Props.C36_duplicate' depends on axioms: [propext, Classical.choice, Quot.sound]
'RG.Props.C37_length' depends on axioms: [propext, Classical.choice, Quot.sound]
'RG.Props.C37_short' depends on axioms: [propext]
'RG.Props.C37_permutation' depends on axioms: [propext, Classical.choice, Quot.sound]
'RG.Props.C37_duplicate_not_permutation' depends on axioms: [propext, Classical.choice, Quot.sound]
'RG.Props.C38_member' depends on axioms: [propext, Classical.choice, Quot.sound]
'RG.Props.C38_empty' depends on axioms: [propext, Classical.choice, Quot.sound]
'RG.Props.C39_best_of_sample' depends on axioms: [propext, Classical.choice, Quot.sound]
'RG.Props.C39_probability' depends on axioms: [propext, Classical.choice, Quot.sound]
'RG.Props.C40_probability' depends on axioms: [propext, Classical.choice, Quot.sound]
'RG.Props.C40_fallback_unreachable' depends on axioms: [propext, Classical.choice, Quot.sound]
'RG.Props.C40_overflow' depends on axioms: [propext, Classical.choice, Quot.sound]
'RG.Props.C41_uniform' depends on axioms: [propext, Classical.choice, Quot.sound]
'RG.Props.C41_documentation_counterexample' depends on axioms: [propext, Classical.choice, Quot.sound]
'RG.Props.C42_prepare' depends on axioms: [propext, Classical.choice, Quot.sound]
'RG.Props.C42_draws' depends on axioms: [propext, Classical.choice, Quot.sound]
'RG.Props.C42_probability' depends on axioms: [propext, Classical.choice, Quot.sound]
'RG.Props.C42_f64_wheel' depends on axioms: [propext, Classical.choice, Quot.sound]
'RG.Props.C42_f64_zero_fitness' depends on axioms: [propext, Classical.choice, Quot.sound]
'RG.Props.C42_total_nonneg' depends on axioms: [propext, Classical.choice, Quot.sound]
'RG.Props.C42_f64_draw_zero' depends on axioms: [propext, Classical.choice, Quot.sound]
'RG.Props.C42_f64_probability' depends on axioms: [propext, Classical.choice, Quot.sound]
'RG.Props.C43_cooling' depends on axioms: [propext, Quot.sound]
'RG.Props.C43_prepare' depends on axioms: [propext, Classical.choice, Quot.sound]
'RG.Props.C43_select' depends on axioms: [propext, Classical.choice, Quot.sound]
'RG.Props.C43_f64_probability' depends on axioms: [propext, Classical.choice, Quot.sound]
'RG.Props.C44_exact_in_range' depends on axioms: [propext, Classical.choice, Quot.sound]
'RG.Props.C44_exact_antitone' depends on axioms: [propext, Classical.choice, Quot.sound]
'RG.Props.C44_exact_draws' depends on axioms: [propext, Classical.choice, Quot.sound]
'RG.Props.C44_f64_counterexample' depends on axioms: [propext, Classical.choice, Quot.sound]
'RG.Props.C44_f64_can_panic' depends on axioms: [propext, Classical.choice, Quot.sound]
'RG.Props.C44_f64_more_counterexamples' depends on axioms: [propext, Classical.choice, Quot.sound]
'RG.Props.C44_bias_one' depends on axioms: [propext, Classical.choice, Quot.sound]
'RG.Props.C44_bias_nan' depends on axioms: [propext, Classical.choice, Quot.sound]
'RG.Props.C44_f64_antitone' depends on axioms: [propext, Classical.choice, Quot.sound]
'RG.Props.C44_f64_criterion' depends on axioms: [propext, Classical.choice, Quot.sound]
'RG.Props.C44_safe_bias' depends on axioms: [propext, Classical.choice, Quot.sound]
'RG.Props.C44_f64_safe' depends on axioms: [propext, Classical.choice, Quot.sound]
'RG.Props.C45_distinct' depends on axioms: [propext, Classical.choice, Quot.sound]
'RG.Props.C45_never_excluded' depends on axioms: [propext, Classical.choice, Quot.sound]
'RG.Props.C45_attempts' depends on axioms: [propext, Classical.choice, Quot.sound]
'RG.Props.C45_give_up_probability' depends on axioms: [propext, Classical.choice, Quot.sound]
'RG.Props.C46_selector' depends on axioms: [propext, Classical.choice, Quot.sound]
'RG.Props.C46_prepare' depends on axioms: [propext, Classical.choice, Quot.sound]
'RG.Props.C46_select' depends on axioms: [propext, Classical.choice, Quot.sound]
'RG.Props.C46_dynamic' depends on axioms: [propext, Classical.choice, Quot.sound]
'RG.Props.C46_tournament' depends on axioms: [propext, Quot.sound]
'RG.Props.C46_boltzmann' depends on axioms: [propext, Classical.choice, Quot.sound]
'RG.Props.C46_elitist' depends on axioms: [propext, Classical.choice, Quot.sound]
'RG.Props.C46_create' depends on axioms: [propext, Classical.choice, Quot.sound]
'RG.Props.C46_history' depends on axioms: [propext, Classical.choice, Quot.sound]
'RG.Props.C47_outcomes' depends on axioms: [propext, Classical.choice, Quot.sound]
'RG.Props.C47_keep_best' depends on axioms: [propext, Classical.choice, Quot.sound]
'RG.Props.C47_default_survive' depends on axioms: [propext, Classical.choice, Quot.sound]
'RG.Props.C47_defaults' depends on axioms: [propext, Classical.choice, Quot.sound]
'RG.Props.C47_valid' depends on axioms: [propext, Classical.choice, Quot.sound]
'RG.Props.C48_crossover_probability' depends on axioms: [propext, Classical.choice, Quot.sound]
'RG.Props.C48_no_crossover' depends on axioms: [propext, Classical.choice, Quot.sound]
'RG.Props.C48_crossover_distinct' depends on axioms: [propext, Classical.choice, Quot.sound]
'RG.Props.C48_no_mutation' depends on axioms: [propext, Classical.choice, Quot.sound]
'RG.Props.C48_always_mutation' depends on axioms: [propext, Classical.choice, Quot.sound]
'RG.Props.C48_mutation_probability' depends on axioms: [propext, Classical.choice, Quot.sound]
'RG.Props.C49_extend' depends on axioms: [propext, Classical.choice, Quot.sound]
'RG.Props.C49_extend_with' depends on axioms: [propext, Classical.choice, Quot.sound]
'RG.Props.C49_total' depends on axioms: [propext, Classical.choice, Quot.sound]
'RG.Props.C50_ga' depends on axioms: [propext, Classical.choice, Quot.sound]
'RG.Props.C50_aga' depends on axioms: [propext, Classical.choice, Quot.sound]
'RG.Props.C50_ga_configure' depends on axioms: [propext, Classical.choice, Quot.sound]
'RG.Props.C50_aga_configure' depends on axioms: [propext, Classical.choice, Quot.sound]
'RG.Props.C50_run' depends on axioms: [propext, Classical.choice, Quot.sound]
'RG.Props.C50_defaults' depends on axioms: [propext, Classical.choice, Quot.sound]
'RG.Props.C50_default_values' depends on axioms: [propext, Classical.choice, Quot.sound]
'RG.Props.C50_fresh' depends on axioms: [propext, Classical.choice, Quot.sound]
'RG.Props.C51_ga_configure' depends on axioms: [propext, Classical.choice, Quot.sound]
'RG.Props.C51_aga_configure' depends on axioms: [propext, Classical.choice, Quot.sound]
'RG.Props.C51_elites' depends on axioms: [propext, Classical.choice, Quot.sound]
'RG.Props.C51_default_elites' depends on axioms: [propext, Classical.choice, Quot.sound]
'RG.Props.C52_generate' depends on axioms: [propext, Classical.choice, Quot.sound]
'RG.Props.C52_size_partial' depends on axioms: [propext, Classical.choice, Quot.sound]
'RG.Props.C52_size_counterexample' depends on axioms: [propext, Classical.choice, Quot.sound]
'RG.Props.C52_population_one' depends on axioms: [propext, Classical.choice, Quot.sound]
'RG.Props.C52_run_one' depends on axioms: [propext, Classical.choice, Quot.sound]
'RG.Props.C52_run_panics' depends on axioms: [propext, Classical.choice, Quot.sound]
'RG.Props.C53_monotone' depends on axioms: [propext, Classical.choice, Quot.sound]
'RG.Props.C53_equality_counterexample' depends on axioms: [propext, Classical.choice, Quot.sound]
'RG.Props.C54_best_partial' depends on axioms: [propext, Classical.choice, Quot.sound]
'RG.Props.C54_counterexample' depends on axioms: [propext, Classical.choice, Quot.sound]
'RG.Props.C54_counterexample_rate' depends on axioms: [propext, Classical.choice, Quot.sound]
'RG.Props.C55_size' depends on axioms: [propext, Classical.choice, Quot.sound]
'RG.Props.C56_generation' depends on axioms: [propext, Classical.choice, Quot.sound]
'RG.Props.C56_run' depends on axioms: [propext, Classical.choice, Quot.sound]
'RG.Props.C56_individual' depends on axioms: [propext, Classical.choice, Quot.sound]
'RG.Props.C56_builtin' depends on axioms: [propext, Classical.choice, Quot.sound]
'RG.Props.C56_protocol' depends on axioms: [propext, Classical.choice, Quot.sound]
'RG.Props.C56_result' depends on axioms: [propext, Classical.choice, Quot.sound]
'RG.Props.C56_more_calls' depends on axioms: [propext, Classical.choice, Quot.sound]
'RG.Props.C57_first' depends on axioms: [propext, Classical.choice, Quot.sound]
'RG.Props.C57_later' depends on axioms: [propext, Classical.choice, Quot.sound]
'RG.Props.C57_exact' depends on axioms: [propext, Classical.choice, Quot.sound]
'RG.Props.C57_f64' depends on axioms: [propext, Classical.choice, Quot.sound]
'RG.Props.C57_prepare' depends on axioms: [propext, Classical.choice, Quot.sound]
'RG.Props.C58_nan' depends on axioms: [propext, Classical.choice, Quot.sound]
'RG.Props.C58_no_operators' depends on axioms: [propext, Classical.choice, Quot.sound]
'RG.Props.C59_ga_prepare' depends on axioms: [propext, Classical.choice, Quot.sound]
'RG.Props.C59_ga' depends on axioms: [propext, Classical.choice, Quot.sound]
'RG.Props.C59_aga' depends on axioms: [propext, Classical.choice, Quot.sound]
'RG.Props.C59_aga_run' depends on axioms: [propext, Classical.choice, Quot.sound]
'RG.Props.C60_valid' depends on axioms: [propext, Classical.choice, Quot.sound]
'RG.Props.C60_finite' depends on axioms: [propext, Classical.choice, Quot.sound]
'RG.Props.C61_not_worse' depends on axioms: [propext, Classical.choice, Quot.sound]
'RG.Props.C62_initialize' depends on axioms: [propext, Classical.choice, Quot.sound]
'RG.Props.C62_panics' depends on axioms: [propext, Classical.choice, Quot.sound]
'RG.Props.C63_ratio' depends on axioms: [propext, Classical.choice, Quot.sound]
'RG.Props.C63_strict' depends on axioms: [propext, Classical.choice, Quot.sound]
'RG.Props.C63_one_iff' depends on axioms: [propext, Classical.choice, Quot.sound]
'RG.Props.C63_empty' depends on axioms: [propext, Classical.choice, Quot.sound]
'RG.Props.C63_operators' depends on axioms: [propext, Classical.choice, Quot.sound]
'RG.Props.C63_run' depends on axioms: [propext, Classical.choice, Quot.sound]
'RG.Props.C63_solved' depends on axioms: [propext, Classical.choice, Quot.sound]
'RG.Props.C63_no_new_bits' depends on axioms: [propext, Classical.choice, Quot.sound]
'RG.Props.C63_best' depends on axioms: [propext, Classical.choice, Quot.sound]
'RG.Props.C63_empty_run' depends on axioms: [propext, Classical.choice, Quot.sound]
'RG.Props.C63_both' depends on axioms: [propext, Classical.choice, Quot.sound]
'RG.Props.C63_individual' depends on axioms: [propext, Classical.choice, Quot.sound]
'RG.Props.C63_new_random' depends on axioms: [propext, Classical.choice, Quot.sound]
'RG.Props.C63_crossover' depends on axioms: [propext, Classical.choice, Quot.sound]
'RG.Props.C63_mutate' depends on axioms: [propext, Classical.choice, Quot.sound]
'RG.Props.C64_run' depends on axioms: [propext, Classical.choice, Quot.sound]
'RG.Props.C64_random' depends on axioms: [propext, Classical.choice, Quot.sound]
'RG.Props.C64_individual' depends on axioms: [propext, Classical.choice, Quot.sound]
'RG.Props.C65_evaluated' depends on axioms: [propext, Classical.choice, Quot.sound]
'RG.Props.C66_mutation_dispatch' depends on axioms: [propext]
'RG.Props.C66_scramble' depends on axioms: [propext, Classical.choice, Quot.sound]
'RG.Props.C66_inversion' depends on axioms: [propext, Classical.choice, Quot.sound]
'RG.Props.C66_swap' depends on axioms: [propext, Classical.choice, Quot.sound]
'RG.Props.C66_insertion' depends on axioms: [propext, Classical.choice, Quot.sound]
'RG.Props.C66_duplicate' depends on axioms: [propext, Classical.choice, Quot.sound]
'RG.Props.C66_scx' depends on axioms: [propext, Classical.choice, Quot.sound]
'RG.Props.C66_erx' depends on axioms: [propext, Classical.choice, Quot.sound]
'RG.Props.C66_pmx' depends on axioms: [propext, Classical.choice, Quot.sound]
'RG.Props.C66_ox' depends on axioms: [propext, Classical.choice, Quot.sound]
'RG.Props.C66_cx' depends on axioms: [propext]
'RG.Props.C66_spx' depends on axioms: [propext, Classical.choice, Quot.sound]
'RG.Props.C66_gpx2' depends on axioms: [propext, Classical.choice, Quot.sound]
'RG.Props.C67_missed' depends on axioms: [propext, Classical.choice, Quot.sound]
'RG.Props.C67_ends' depends on axioms: [propext, Classical.choice, Quot.sound]
'RG.Props.C67_almost_surely' depends on axioms: [propext, Classical.choice, Quot.sound]
'RG.Props.C67_run' depends on axioms: [propext, Classical.choice, Quot.sound]
'RG.Props.C68_stuck' depends on axioms: [propext, Classical.choice, Quot.sound]
'RG.Props.C68_probability' depends on axioms: [propext, Classical.choice, Quot.sound]
'RG.Props.C68_contrast' depends on axioms: [propext, Classical.choice, Quot.sound]
'RG.Props.C69_expected' depends on axioms: [propext, Classical.choice, Quot.sound]
'RG.Props.C69_missed' depends on axioms: [propext, Classical.choice, Quot.sound]
'RG.Props.C69_ends' depends on axioms: [propext, Classical.choice, Quot.sound]
'RG.Props.C69_almost_surely' depends on axioms: [propext, Classical.choice, Quot.sound]
'RG.Props.C69_selects_last' depends on axioms: [propext, Classical.choice, Quot.sound]
'RG.Props.C69_selects' depends on axioms: [propext, Classical.choice, Quot.sound]
'RG.Props.C69_selects_roulette' depends on axioms: [propext, Classical.choice, Quot.sound]
'RG.Props.C70_expected' depends on axioms: [propext, Classical.choice, Quot.sound]
'RG.Props.C70_almost_surely' depends on axioms: [propext, Classical.choice, Quot.sound]
'RG.Props.C70_ends' depends on axioms: [propext, Classical.choice, Quot.sound]
'RG.Props.C71_at_most' depends on axioms: [propext, Classical.choice, Quot.sound]
'RG.Props.C71_at_least' depends on axioms: [propext, Classical.choice, Quot.sound]
'RG.Props.C71_limit' depends on axioms: [propext, Classical.choice, Quot.sound]
'RG.Props.C71_documentation' depends on axioms: [propext, Classical.choice, Quot.sound]
'RG.Props.C72_missed' depends on axioms: [propext, Classical.choice, Quot.sound]
'RG.Props.C72_ends' depends on axioms: [propext, Classical.choice, Quot.sound]
'RG.Props.C72_almost_surely' depends on axioms: [propext, Classical.choice, Quot.sound]
'RG.Props.C72_expected' depends on axioms: [propext, Classical.choice, Quot.sound]
'RG.Props.C72_ladder_ends' depends on axioms: [propext, Classical.choice, Quot.sound]
'RG.Props.C72_ladder_almost_surely' depends on axioms: [propext, Classical.choice, Quot.sound]
'RG.Props.C72_contrast' depends on axioms: [propext, Classical.choice, Quot.sound]
'RG.Props.C73_ga_generation' depends on axioms: [propext, Classical.choice, Quot.sound]
'RG.Props.C73_aga_generation' depends on axioms: [propext, Classical.choice, Quot.sound]
'RG.Props.C73_ga_run' depends on axioms: [propext, Classical.choice, Quot.sound]
'RG.Props.C73_aga_run' depends on axioms: [propext, Classical.choice, Quot.sound]
'RG.Props.C73_result' depends on axioms: [propext, Classical.choice, Quot.sound]
'RG.Props.C73_ga_law' depends on axioms: [propext, Classical.choice, Quot.sound]
'RG.Props.C73_aga_law' depends on axioms: [propext, Classical.choice, Quot.sound]
'RG.Props.C74_scx' depends on axioms: [propext, Classical.choice, Quot.sound]
'RG.Props.C74_erx' depends on axioms: [propext, Classical.choice, Quot.sound]
'RG.Props.C74_pmx' depends on axioms: [propext, Classical.choice, Quot.sound]
'RG.Props.C74_ox' depends on axioms: [propext, Classical.choice, Quot.sound]
'RG.Props.C74_cx' depends on axioms: [propext, Classical.choice, Quot.sound]
'RG.Props.C74_strategy' depends on axioms: [propext, Classical.choice, Quot.sound]
'RG.Props.C74_gpx2_edges' depends on axioms: [propext, Classical.choice, Quot.sound]
'RG.Props.C75_partitions' depends on axioms: [propext, Classical.choice, Quot.sound]
'RG.Props.C75_short' depends on axioms: [propext, Quot.sound]
'RG.Props.C75_edges' depends on axioms: [propext, Classical.choice, Quot.sound]
'RG.Props.C76_select' depends on axioms: [propext, Classical.choice, Quot.sound]
'RG.Props.C76_select_distinct' depends on axioms: [propext, Classical.choice, Quot.sound]
'RG.Props.C76_rank_counterexample' depends on axioms: [propext, Classical.choice, Quot.sound]
'RG.Props.C76_interpolate' depends on axioms: [propext, Classical.choice, Quot.sound]
'RG.Props.C76_interpolate_counterexample' depends on axioms: [propext, Classical.choice, Quot.sound]
'RG.Props.C76_bounded_range' depends on axioms: [propext, Quot.sound]
'RG.Props.C76_bounded_range_counterexample' depends on axioms: [propext, Classical.choice, Quot.sound]
'RG.Props.C77_text' depends on axioms: [propext, Classical.choice, Quot.sound]
'RG.Props.C77_snapshot' depends on axioms: [propext, Quot.sound]
'RG.Props.C77_readable' depends on axioms: [propext, Classical.choice, Quot.sound]
'RG.Props.C78_zero' depends on axioms: [propext, Classical.choice, Quot.sound]
'RG.Props.C78_equal' depends on axioms: [propext, Classical.choice, Quot.sound]
'RG.Props.C78_finite' depends on axioms: [propext, Classical.choice, Quot.sound]
'RG.Props.C78_counterexample' depends on axioms: [propext, Classical.choice, Quot.sound]
'RG.Props.C78_integers' depends on axioms: [propext, Classical.choice, Quot.sound]
'RG.Props.C78_population' depends on axioms: [propext, Classical.choice, Quot.sound]
'RG.Props.C79_parents' depends on axioms: [propext, Classical.choice, Quot.sound]
'RG.Props.C79_ga_expected' depends on axioms: [propext, Classical.choice, Quot.sound]
'RG.Props.C79_ga_ends' depends on axioms: [propext, Classical.choice, Quot.sound]
'RG.Props.C79_ga_almost_surely' depends on axioms: [propext, Classical.choice, Quot.sound]
'RG.Props.C79_aga_expected' depends on axioms: [propext, Classical.choice, Quot.sound]
'RG.Props.C79_aga_ends' depends on axioms: [propext, Classical.choice, Quot.sound]
'RG.Props.C79_aga_almost_surely' depends on axioms: [propext, Classical.choice, Quot.sound]
'RG.Props.C80_ga_expected' depends on axioms: [propext, Classical.choice, Quot.sound]
'RG.Props.C80_ga_almost_surely' depends on axioms: [propext, Classical.choice, Quot.sound]
'RG.Props.C80_spread' depends on axioms: [propext, Classical.choice, Quot.sound]
'RG.Props.C80_aga_expected' depends on axioms: [propext, Classical.choice, Quot.sound]
'RG.Props.C80_aga_almost_surely' depends on axioms: [propext, Classical.choice, Quot.sound]
'RG.Props.C80_aga_stuck' depends on axioms: [propext, Classical.choice, Quot.sound]
'RG.Props.C80_contrast' depends on axioms: [propext, Classical.choice, Quot.sound]
'RG.Props.C81_round' depends on axioms: [propext, Classical.choice, Quot.sound]
'RG.Props.C81_unique' depends on axioms: [propext, Classical.choice, Quot.sound]
'RG.Props.C81_determined' depends on axioms: [propext, Classical.choice, Quot.sound]
'RG.Props.C81_operations' depends on axioms: [propext, Classical.choice, Quot.sound]
'RG.Props.C81_special' depends on axioms: [propext, Classical.choice, Quot.sound]
'RG.Props.C81_sqrt' depends on axioms: [propext, Classical.choice, Quot.sound]
'RG.Props.C81_sqrt_special' depends on axioms: [propext, Classical.choice, Quot.sound]
'RG.Props.C81_compare' depends on axioms: [propext, Classical.choice, Quot.sound]
'RG.Props.C81_convert' depends on axioms: [propext, Classical.choice, Quot.sound]
'RG.Props.C82_rank_based' depends on axioms: [propext, Classical.choice, Quot.sound]
'RG.Props.C82_roulette' depends on axioms: [propext, Classical.choice, Quot.sound]
'RG.Props.C82_dominates' depends on axioms: [propext, Classical.choice, Quot.sound]
'RG.Props.C82_expected' depends on axioms: [propext, Classical.choice, Quot.sound]
'RG.Props.C82_linear' depends on axioms: [propext, Classical.choice, Quot.sound]
'RG.Props.C82_linear_bias' depends on axioms: [propext, Classical.choice, Quot.sound]
'RG.Props.C83_ends' depends on axioms: [propext, Classical.choice, Quot.sound]
'RG.Props.C83_probability' depends on axioms: [propext, Classical.choice, Quot.sound]
'RG.Props.C83_not_favoured' depends on axioms: [propext, Classical.choice, Quot.sound]
'RG.Props.C83_zero' depends on axioms: [propext, Classical.choice, Quot.sound]
'RG.Props.C84_share' depends on axioms: [propext, Classical.choice, Quot.sound]
'RG.Props.C84_probability' depends on axioms: [propext, Classical.choice, Quot.sound]
'RG.Props.C84_rarely_panics' depends on axioms: [propext, Classical.choice, Quot.sound]
'RG.Props.C84_favours_fit' depends on axioms: [propext, Classical.choice, Quot.sound]
'RG.Props.C84_fittest' depends on axioms: [propext, Classical.choice, Quot.sound]
'RG.Props.C85_overflow' depends on axioms: [propext, Classical.choice, Quot.sound]
'RG.Props.C85_totals' depends on axioms: [propext, Classical.choice, Quot.sound]
'RG.Props.C85_expected' depends on axioms: [propext, Classical.choice, Quot.sound]
'RG.Props.C85_concentration' depends on axioms: [propext, Classical.choice, Quot.sound]
'RG.Props.C85_frequencies' depends on axioms: [propext, Classical.choice, Quot.sound]
'RG.Props.C85_tests' depends on axioms: [propext, Classical.choice, Quot.sound]
'RG.Props.C85_test_linear' depends on axioms: [propext, Classical.choice, Quot.sound]
'RG.Props.C86_uniform' depends on axioms: [propext, Classical.choice, Quot.sound]
'RG.Props.C86_primitives' depends on axioms: [propext, Classical.choice, Quot.sound]
'RG.Props.C86_upper_half' depends on axioms: [propext, Quot.sound]
'RG.Props.C86_outcomes' depends on axioms: [propext, Classical.choice, Quot.sound]
'RG.Props.C86_probability' depends on axioms: [propext, Classical.choice, Quot.sound]
'RG.Props.C86_limit' depends on axioms: [propext, Classical.choice, Quot.sound]
'RG.Props.C86_generator' depends on axioms: [propext, Classical.choice, Quot.sound]
'RG.Props.C87_documentation' depends on axioms: [propext, Quot.sound]
'RG.Props.C87_periodic' depends on axioms: [propext, Classical.choice, Quot.sound]
'RG.Props.C87_nonzero' depends on axioms: [propext, Quot.sound]
'RG.Props.C87_seed' depends on axioms: [propext, Quot.sound]
'RG.Props.C87_equidistributed' depends on axioms: [propext, Classical.choice, Quot.sound]
'RG.Props.C87_three_words' depends on axioms: [propext, Classical.choice, Quot.sound]
'RG.Props.C88_arrangements' depends on axioms: [propext, Classical.choice, Quot.sound]
'RG.Props.C88_scramble_reaches' depends on axioms: [propext, Classical.choice, Quot.sound]
'RG.Props.C88_scramble_solves' depends on axioms: [propext, Classical.choice, Quot.sound]
'RG.Props.C89_trapped' depends on axioms: [propext, Classical.choice, Quot.sound]
'RG.Props.C89_local_optimum' depends on axioms: [propext, Classical.choice, Quot.sound]
'RG.Props.C89_contrast' depends on axioms: [propext, Classical.choice, Quot.sound]
'RG.Props.C90_average' depends on axioms: [propext, Classical.choice, Quot.sound]
'RG.Props.C90_variance' depends on axioms: [propext, Classical.choice, Quot.sound]
'RG.Props.C90_thousand' depends on axioms: [propext, Classical.choice, Quot.sound]
'RG.Props.C90_inexact' depends on axioms: [propext, Classical.choice, Quot.sound]
'RG.Props.C91_probability' depends on axioms: [propext, Classical.choice, Quot.sound]
'RG.Props.C91_outcomes' depends on axioms: [propext, Quot.sound]
'RG.Props.C91_independent' depends on axioms: [propext, Classical.choice, Quot.sound]
'RG.Props.C91_sequential' depends on axioms: [propext, Quot.sound]
'RG.Props.C91_library' does not depend on any axioms
'RG.Props.C91_generation' depends on axioms: [propext, Classical.choice, Quot.sound]
'RG.Props.C92_outcomes' depends on axioms: [propext, Quot.sound]
'RG.Props.C92_generate' depends on axioms: [propext, Classical.choice, Quot.sound]
'RG.Props.C92_one_thread' depends on axioms: [propext, Classical.choice, Quot.sound]
'RG.Props.C92_generate_one_thread' depends on axioms: [propext, Classical.choice, Quot.sound]
'RG.Props.C92_all_outcomes' depends on axioms: [propext, Classical.choice, Quot.sound]
'RG.Props.C92_exclusive' depends on axioms: [propext, Classical.choice, Quot.sound]
'RG.Props.C92_same_seed' depends on axioms: [propext, Quot.sound]
'RG.Props.C93_builtin' depends on axioms: [propext, Classical.choice, Quot.sound]
'RG.Props.C93_scheduled' depends on axioms: [propext, Classical.choice, Quot.sound]
'RG.Props.C93_sequential' depends on axioms: [propext, Classical.choice, Quot.sound]
'RG.Props.C93_pooled' depends on axioms: [propext, Classical.choice, Quot.sound]
'RG.Props.C93_transfer' depends on axioms: [propext, Classical.choice, Quot.sound]
'RG.Props.C93_pooled_results' depends on axioms: [propext, Classical.choice, Quot.sound]
'RG.Props.C93_one_thread' depends on axioms: [propext, Classical.choice, Quot.sound]
'RG.Props.C94_roundtrip' depends on axioms: [propext, Classical.choice, Quot.sound]
'RG.Props.C94_shortest' depends on axioms: [propext, Classical.choice, Quot.sound]
'RG.Props.C94_fixed' depends on axioms: [propext, Classical.choice, Quot.sound]
'RG.Props.C94_monotone' depends on axioms: [propext, Classical.choice, Quot.sound]
'RG.Props.C94_negative' depends on axioms: [propext, Classical.choice, Quot.sound]
'RG.Props.C94_text' depends on axioms: [propext, Classical.choice, Quot.sound]
'RG.Props.C94_precision' depends on axioms: [propext, Classical.choice, Quot.sound]
'RG.Props.C95_ends' depends on axioms: [propext, Classical.choice, Quot.sound]
'RG.Props.C95_target' depends on axioms: [propext, Classical.choice, Quot.sound]
'RG.Props.C95_early' depends on axioms: [propext, Classical.choice, Quot.sound]
'RG.Props.C95_run' depends on axioms: [propext, Classical.choice, Quot.sound]
'RG.Props.C95_probability' depends on axioms: [propext, Classical.choice, Quot.sound]
'RG.Props.C95_million' depends on axioms: [propext, Classical.choice, Quot.sound]
'RG.Props.C95_documentation' depends on axioms: [propext, Classical.choice, Quot.sound]
'RG.Props.C96_stats' depends on axioms: [propext, Classical.choice, Quot.sound]
'RG.Props.C96_display' depends on axioms: [propext, Classical.choice, Quot.sound]
'RG.Props.C96_partitions' depends on axioms: [propext]
'RG.Props.C96_crossover' depends on axioms: [propext, Classical.choice, Quot.sound]
'RG.Props.C96_interpolate' depends on axioms: [propext, Classical.choice, Quot.sound]
'RG.Props.C97_parents' depends on axioms: [propext, Classical.choice, Quot.sound]
'RG.Props.C97_crossover' depends on axioms: [propext, Classical.choice, Quot.sound]
'RG.Props.C97_crossover_empty' depends on axioms: [propext, Quot.sound]
'RG.Props.C97_mutation' depends on axioms: [propext, Classical.choice, Quot.sound]
'RG.Props.C97_stats' depends on axioms: [propext, Classical.choice, Quot.sound]
'RG.Props.C97_variance' depends on axioms: [propext, Classical.choice, Quot.sound]
'RG.Props.C97_million' depends on axioms: [propext, Classical.choice, Quot.sound]
'RG.Props.C97_stats_empty' depends on axioms: [propext, Classical.choice, Quot.sound]
'RG.Props.C98_expected' depends on axioms: [propext, Classical.choice, Quot.sound]
'RG.Props.C98_variety' depends on axioms: [propext, Classical.choice, Quot.sound]
'RG.Props.C98_uniform' depends on axioms: [propext, Classical.choice, Quot.sound]
'RG.Props.C98_winner' depends on axioms: [propext, Classical.choice, Quot.sound]
'RG.Props.C98_limit' depends on axioms: [propext, Classical.choice, Quot.sound]
'RG.Props.C98_no_new_gene' depends on axioms: [propext, Classical.choice, Quot.sound]
'RG.Props.C98_benchmark' depends on axioms: [propext, Classical.choice, Quot.sound]
'RG.Props.C98_onemax' depends on axioms: [propext, Classical.choice, Quot.sound]
'RG.Props.C99_blind' depends on axioms: [propext, Classical.choice, Quot.sound]
'RG.Props.C99_stationary' depends on axioms: [propext, Classical.choice, Quot.sound]
'RG.Props.C99_scramble_mixes' depends on axioms: [propext, Classical.choice, Quot.sound]
'RG.Props.C99_swap_parity' depends on axioms: [propext, Classical.choice, Quot.sound]
'RG.Props.C99_swap_never_back' depends on axioms: [propext, Classical.choice, Quot.sound]
'RG.Props.C100_aloof' depends on axioms: [propext, Classical.choice, Quot.sound]
'RG.Props.C100_aloof_run' depends on axioms: [propext, Classical.choice, Quot.sound]
'RG.Props.C100_continues' depends on axioms: [propext, Classical.choice, Quot.sound]
'RG.Props.C100_safe' depends on axioms: [propext, Classical.choice, Quot.sound]
'RG.Props.C100_tidy' depends on axioms: [propext, Classical.choice, Quot.sound]
'RG.Props.C100_size' depends on axioms: [propext, Classical.choice, Quot.sound]
'RG.Props.C100_counterexample' depends on axioms: [propext, Classical.choice, Quot.sound]
'RG.Props.C101_renaming' depends on axioms: [propext, Quot.sound]
'RG.Props.C101_single_point' depends on axioms: [propext, Quot.sound]
'RG.Props.C101_any_order' depends on axioms: [propext, Classical.choice, Quot.sound]
'RG.Props.C101_permutations' depends on axioms: [propext, Classical.choice, Quot.sound]
'RG.Props.C101_needed' depends on axioms: [propext]
'RG.Props.C102_ends' depends on axioms: [propext, Classical.choice, Quot.sound]
'RG.Props.C102_oneMax' depends on axioms: [propext, Classical.choice, Quot.sound]
'RG.Props.C102_needed' depends on axioms: [propext, Classical.choice, Quot.sound]
'RG.Props.C103_population' depends on axioms: [propext, Classical.choice, Quot.sound]
'RG.Props.C103_run' depends on axioms: [propext, Classical.choice, Quot.sound]
'RG.Props.C103_individual' depends on axioms: [propext, Classical.choice, Quot.sound]
'RG.Props.C103_ga' depends on axioms: [propext, Classical.choice, Quot.sound]
'RG.Props.C103_aga' depends on axioms: [propext, Classical.choice, Quot.sound]
'RG.Props.C103_step' depends on axioms: [propext, Classical.choice, Quot.sound]
'RG.Props.C103_refit' depends on axioms: [propext, Classical.choice, Quot.sound]
'RG.Props.C103_oneMax' depends on axioms: [propext, Classical.choice, Quot.sound]
'RG.Props.C103_wheel' depends on axioms: [propext, Classical.choice, Quot.sound]
'RG.Props.C103_adaptive' depends on axioms: [propext, Classical.choice, Quot.sound]
'RG.Props.C104_sort' depends on axioms: [propext, Classical.choice, Quot.sound]
'RG.Props.C104_population' depends on axioms: [propext, Classical.choice, Quot.sound]
'RG.Props.C104_evolve' depends on axioms: [propext, Classical.choice, Quot.sound]
'RG.Props.C104_run' depends on axioms: [propext, Classical.choice, Quot.sound]
'RG.Props.C104_individual' depends on axioms: [propext, Classical.choice, Quot.sound]
'RG.Props.C104_ga' depends on axioms: [propext, Classical.choice, Quot.sound]
'RG.Props.C104_aga' depends on axioms: [propext, Classical.choice, Quot.sound]
'RG.Props.C104_scored' depends on axioms: [propext, Classical.choice, Quot.sound]
'RG.Props.C104_ties' depends on axioms: [propext, Classical.choice, Quot.sound]
'RG.Props.C104_wheel' depends on axioms: [propext, Classical.choice, Quot.sound]
'RG.Props.C105_overflow' depends on axioms: [propext, Classical.choice, Quot.sound]
'RG.Props.C105_positive' depends on axioms: [propext, Classical.choice, Quot.sound]
'RG.Props.C105_negative' depends on axioms: [propext, Classical.choice, Quot.sound]
'RG.Props.C105_cools' depends on axioms: [propext, Classical.choice, Quot.sound]
'RG.Props.C105_cold' depends on axioms: [propext, Classical.choice, Quot.sound]
'RG.Props.C105_late' depends on axioms: [propext, Classical.choice, Quot.sound]
'RG.Props.C105_ga' depends on axioms: [propext, Classical.choice, Quot.sound]
'RG.Props.C105_aga' depends on axioms: [propext, Classical.choice, Quot.sound]
'RG.Props.C105_run' depends on axioms: [propext, Classical.choice, Quot.sound]
'RG.Props.C105_exact' depends on axioms: [propext, Classical.choice, Quot.sound]
'RG.Props.C106_breed' depends on axioms: [propext, Classical.choice, Quot.sound]
'RG.Props.C106_ga_run' depends on axioms: [propext, Classical.choice, Quot.sound]
'RG.Props.C106_aga_run' depends on axioms: [propext, Classical.choice, Quot.sound]
'RG.Props.C106_ga' depends on axioms: [propext, Classical.choice, Quot.sound]
'RG.Props.C106_aga' depends on axioms: [propext, Classical.choice, Quot.sound]
'RG.Props.C106_copies' depends on axioms: [propext, Classical.choice, Quot.sound]
'RG.Props.C106_aga_copies' depends on axioms: [propext, Classical.choice, Quot.sound]
'RG.Props.C106_single_point' depends on axioms: [propext, Classical.choice, Quot.sound]
'RG.Props.C106_onemax' depends on axioms: [propext, Classical.choice, Quot.sound]
'RG.Props.C106_random' depends on axioms: [propext, Classical.choice, Quot.sound]
'RG.Props.C106_at_most' depends on axioms: [propext, Classical.choice, Quot.sound]
'RG.Props.C106_aga_at_most' depends on axioms: [propext, Classical.choice, Quot.sound]
'RG.Props.C107_swap' depends on axioms: [propext, Classical.choice, Quot.sound]
'RG.Props.C107_insertion' depends on axioms: [propext, Classical.choice, Quot.sound]
'RG.Props.C107_inversion' depends on axioms: [propext, Classical.choice, Quot.sound]
'RG.Props.C107_window' depends on axioms: [propext, Classical.choice, Quot.sound]
'RG.Props.C107_duplicate' depends on axioms: [propext, Classical.choice, Quot.sound]
'RG.Props.C107_gained' depends on axioms: [propext, Classical.choice, Quot.sound]
'RG.Props.C107_length' depends on axioms: [propext, Classical.choice, Quot.sound]
'RG.Props.C107_idle' depends on axioms: [propext, Classical.choice, Quot.sound]
'RG.Props.C107_changes' depends on axioms: [propext, Classical.choice, Quot.sound]
'RG.Props.C107_inversion_idle' depends on axioms: [propext, Classical.choice, Quot.sound]
'RG.Props.C108_same_trip' depends on axioms: [propext, Classical.choice, Quot.sound]
'RG.Props.C108_erx' depends on axioms: [propext, Classical.choice, Quot.sound]
'RG.Props.C108_gpx2' depends on axioms: [propext, Classical.choice, Quot.sound]
'RG.Props.C108_gpx2_strategy' depends on axioms: [propext, Classical.choice, Quot.sound]
'RG.Props.C108_scx' depends on axioms: [propext, Classical.choice, Quot.sound]
'RG.Props.C108_scx_trip' depends on axioms: [propext, Classical.choice, Quot.sound]
'RG.Props.C108_self' depends on axioms: [propext, Classical.choice, Quot.sound]
'RG.Props.C108_strategy' depends on axioms: [propext, Classical.choice, Quot.sound]
'RG.Props.C108_positions_counterexample' depends on axioms: [propext, Classical.choice, Quot.sound]
'RG.Props.C109_monotone' depends on axioms: [propext, Classical.choice, Quot.sound]
'RG.Props.C109_accuracy' depends on axioms: [propext, Classical.choice, Quot.sound]
'RG.Props.C109_range' depends on axioms: [propext, Classical.choice, Quot.sound]
'RG.Props.C109_ends' depends on axioms: [propext, Classical.choice, Quot.sound]
'RG.Props.C109_adjust' depends on axioms: [propext, Classical.choice, Quot.sound]
'RG.Props.C109_exceeds_counterexample' depends on axioms: [propext, Classical.choice, Quot.sound]
'RG.Props.C110_pmx' depends on axioms: [propext, Classical.choice, Quot.sound]
'RG.Props.C110_cx' depends on axioms: [propext, Classical.choice, Quot.sound]
'RG.Props.C110_spx' depends on axioms: [propext, Classical.choice, Quot.sound]
'RG.Props.C110_positions' depends on axioms: [propext, Classical.choice, Quot.sound]
'RG.Props.C110_positions_counterexample' depends on axioms: [propext, Classical.choice, Quot.sound]
'RG.Props.C110_gpx2' depends on axioms: [propext, Classical.choice, Quot.sound]
'RG.Props.C110_gpx2_closing_counterexample' depends on axioms: [propext, Classical.choice, Quot.sound]
'RG.Props.C110_gpx2_new' depends on axioms: [propext, Classical.choice, Quot.sound]
'RG.Props.C110_edges_counterexample' depends on axioms: [propext, Classical.choice, Quot.sound]
'RG.Props.C110_ga' depends on axioms: [propext, Classical.choice, Quot.sound]
'RG.Props.C110_aga' depends on axioms: [propext, Classical.choice, Quot.sound]
'RG.Props.C110_positions_closed' depends on axioms: [propext, Classical.choice, Quot.sound]
'RG.Props.C110_trip_closed' depends on axioms: [propext, Classical.choice, Quot.sound]
'RG.Props.C111_ga' depends on axioms: [propext, Classical.choice, Quot.sound]
'RG.Props.C111_aga' depends on axioms: [propext, Classical.choice, Quot.sound]
'RG.Props.C111_one_max' depends on axioms: [propext, Classical.choice, Quot.sound]
'RG.Props.C111_one_max_aga' depends on axioms: [propext, Classical.choice, Quot.sound]
'RG.Props.C111_reach' depends on axioms: [propext, Classical.choice, Quot.sound]
'RG.Props.C111_round_trips' depends on axioms: [propext, Classical.choice, Quot.sound]
'RG.Props.C111_round_trips_aga' depends on axioms: [propext, Classical.choice, Quot.sound]
'RG.Props.C112_ga' depends on axioms: [propext, Classical.choice, Quot.sound]
'RG.Props.C112_aga' depends on axioms: [propext, Classical.choice, Quot.sound]
'RG.Props.C112_almost_surely' depends on axioms: [propext, Classical.choice, Quot.sound]
'RG.Props.C112_aga_almost_surely' depends on axioms: [propext, Classical.choice, Quot.sound]
'RG.Props.C112_stays' depends on axioms: [propext, Classical.choice, Quot.sound]
'RG.Props.C112_aga_stays' depends on axioms: [propext, Classical.choice, Quot.sound]
'RG.Props.C113_breed' depends on axioms: [propext, Classical.choice, Quot.sound]
'RG.Props.C113_replace' depends on axioms: [propext, Classical.choice, Quot.sound]
'RG.Props.C113_ga' depends on axioms: [propext, Classical.choice, Quot.sound]
'RG.Props.C113_aga' depends on axioms: [propext, Classical.choice, Quot.sound]
'RG.Props.C113_run' depends on axioms: [propext, Classical.choice, Quot.sound]
'RG.Props.C113_evolve_individual' depends on axioms: [propext, Classical.choice, Quot.sound]
'RG.Props.C113_prob' depends on axioms: [propext, Classical.choice, Quot.sound]
'RG.Props.C113_overflow_counterexample' depends on axioms: [propext, Classical.choice, Quot.sound]
'RG.Props.C114_run' depends on axioms: [propext, Classical.choice, Quot.sound]
'RG.Props.C114_evolve_individual' depends on axioms: [propext, Classical.choice, Quot.sound]
'RG.Props.C114_calls' depends on axioms: [propext, Classical.choice, Quot.sound]
'RG.Props.C114_oneMax' depends on axioms: [propext, Classical.choice, Quot.sound]
'RG.Props.C114_oneMax_aga' depends on axioms: [propext, Classical.choice, Quot.sound]
'RG.Props.C114_aga_stuck' depends on axioms: [propext, Classical.choice, Quot.sound]
'RG.Props.C114_route' depends on axioms: [propext, Classical.choice, Quot.sound]
'RG.Props.C114_aga_stuck_default' depends on axioms: [propext, Classical.choice, Quot.sound]
'RG.Props.C115_same_ga' depends on axioms: [propext, Classical.choice, Quot.sound]
'RG.Props.C115_same_aga' depends on axioms: [propext, Classical.choice, Quot.sound]
'RG.Props.C115_counted' depends on axioms: [propext]
'RG.Props.C115_breed' depends on axioms: [propext, Classical.choice, Quot.sound]
'RG.Props.C115_generate' depends on axioms: [propext, Classical.choice, Quot.sound]
'RG.Props.C115_ga' depends on axioms: [propext, Classical.choice, Quot.sound]
'RG.Props.C115_aga' depends on axioms: [propext, Classical.choice, Quot.sound]
'RG.Props.C115_budget' depends on axioms: [propext, Classical.choice, Quot.sound]
'RG.Props.C115_extend_with' depends on axioms: [propext, Classical.choice, Quot.sound]
'RG.Props.C116_spread' depends on axioms: [propext, Classical.choice, Quot.sound]
'RG.Props.C116_scramble_solves' depends on axioms: [propext, Classical.choice, Quot.sound]
'RG.Props.C116_run' depends on axioms: [propext, Classical.choice, Quot.sound]
'RG.Props.C116_stuck' depends on axioms: [propext, Classical.choice, Quot.sound]
'RG.Props.C116_contrast' depends on axioms: [propext, Classical.choice, Quot.sound]
'RG.Props.C117_options' depends on axioms: [propext, Quot.sound]
'RG.Props.C117_handed' depends on axioms: [propext, Classical.choice, Quot.sound]
'RG.Props.C117_string' depends on axioms: [propext, Classical.choice, Quot.sound]
'RG.Props.C117_buffer' depends on axioms: [propext, Classical.choice, Quot.sound]
'RG.Props.C117_closed' depends on axioms: [propext, Classical.choice, Quot.sound]
'RG.Props.C118_population' depends on axioms: [propext, Classical.choice, Quot.sound]
'RG.Props.C118_enlarged' depends on axioms: [propext, Classical.choice, Quot.sound]
'RG.Props.C118_same_population' depends on axioms: [propext, Classical.choice, Quot.sound]
'RG.Props.C118_run' depends on axioms: [propext, Classical.choice, Quot.sound]
'RG.Props.C118_individual' depends on axioms: [propext, Classical.choice, Quot.sound]
'RG.Props.C118_same_run' depends on axioms: [propext, Classical.choice, Quot.sound]
'RG.Props.C118_overflow' depends on axioms: [propext, Classical.choice, Quot.sound]
'RG.Props.C119_swap' depends on axioms: [propext, Classical.choice, Quot.sound]
'RG.Props.C119_copies' depends on axioms: [propext, Classical.choice, Quot.sound]
'RG.Props.C119_ladder' depends on axioms: [propext, Classical.choice, Quot.sound]
'RG.Props.C119_ladder_aga' depends on axioms: [propext, Classical.choice, Quot.sound]
'RG.Props.C119_markov' depends on axioms: [propext, Classical.choice, Quot.sound]
'RG.Props.C119_ga_expected' depends on axioms: [propext, Classical.choice, Quot.sound]
'RG.Props.C119_any_rate' depends on axioms: [propext, Classical.choice, Quot.sound]
'RG.Props.C119_aga_expected' depends on axioms: [propext, Classical.choice, Quot.sound]
'RG.Props.C119_aga_any_rate' depends on axioms: [propext, Classical.choice, Quot.sound]
'RG.Props.C119_ends' depends on axioms: [propext, Classical.choice, Quot.sound]
'RG.Props.C119_solved' depends on axioms: [propext, Classical.choice, Quot.sound]
'RG.Props.C119_evolve_individual' depends on axioms: [propext, Classical.choice, Quot.sound]
'RG.Props.C119_contrast' depends on axioms: [propext, Classical.choice, Quot.sound]
'RG.Props.C120_builtin' depends on axioms: [propext, Classical.choice, Quot.sound]
'RG.Props.C120_covered' depends on axioms: [propext, Classical.choice, Quot.sound]
'RG.Props.C120_breed' depends on axioms: [propext, Classical.choice, Quot.sound]
'RG.Props.C120_breeds_valid' depends on axioms: [propext, Classical.choice, Quot.sound]
'RG.Props.C120_outcome' depends on axioms: [propext, Classical.choice, Quot.sound]
'RG.Props.C120_valid' depends on axioms: [propext, Classical.choice, Quot.sound]
'RG.Props.C120_size' depends on axioms: [propext, Classical.choice, Quot.sound]
'RG.Props.C120_monotone' depends on axioms: [propext, Classical.choice, Quot.sound]
'RG.Props.C120_best' depends on axioms: [propext, Classical.choice, Quot.sound]
'RG.Props.C120_not_worse' depends on axioms: [propext, Classical.choice, Quot.sound]
'RG.Props.C120_no_panic' depends on axioms: [propext, Classical.choice, Quot.sound]
'RG.Props.C120_refines' depends on axioms: [propext, Classical.choice, Quot.sound]
'RG.Props.C120_refines_builtin' depends on axioms: [propext, Classical.choice, Quot.sound]
'RG.Props.C120_alone' depends on axioms: [propext, Classical.choice, Quot.sound]
'RG.Props.C120_cache' depends on axioms: [propext, Classical.choice, Quot.sound]
'RG.Props.C120_not_independent' depends on axioms: [propext, Classical.choice, Quot.sound]
'RG.Props.C120_schedule_matters' depends on axioms: [propext, Classical.choice, Quot.sound]
'RG.Props.C121_outcomes' depends on axioms: [propext, Classical.choice, Quot.sound]
'RG.Props.C121_outcomes_run' depends on axioms: [propext, Classical.choice, Quot.sound]
'RG.Props.C121_ga' depends on axioms: [propext, Classical.choice, Quot.sound]
'RG.Props.C121_aga' depends on axioms: [propext, Classical.choice, Quot.sound]
'RG.Props.C121_cached_oneMax' depends on axioms: [propext, Classical.choice, Quot.sound]
'RG.Props.C121_schedule_matters' depends on axioms: [propext, Classical.choice, Quot.sound]
/root/work/ax.lean:614:14: error(lean.unknownIdentifier): Unknown constant `RG.Props.C122_same`
/root/work/ax.lean:615:14: error(lean.unknownIdentifier): Unknown constant `RG.Props.C122_cx`
/root/work/ax.lean:616:14: error(lean.unknownIdentifier): Unknown constant `RG.Props.C122_pmx`
/root/work/ax.lean:617:14: error(lean.unknownIdentifier): Unknown constant `RG.Props.C122_ox`
/root/work/ax.lean:618:14: error(lean.unknownIdentifier): Unknown constant `RG.Props.C122_quadratic`
/root/work/ax.lean:619:14: error(lean.unknownIdentifier): Unknown constant `RG.Props.C122_scx`
/root/work/ax.lean:620:14: error(lean.unknownIdentifier): Unknown constant `RG.Props.C122_erx`
/root/work/ax.lean:621:14: error(lean.unknownIdentifier): Unknown constant `RG.Props.C122_attained`
/root/work/ax.lean:622:14: error(lean.unknownIdentifier): Unknown constant `RG.Props.C123_same`
/root/work/ax.lean:623:14: error(lean.unknownIdentifier): Unknown constant `RG.Props.C123_neighbors`
/root/work/ax.lean:624:14: error(lean.unknownIdentifier): Unknown constant `RG.Props.C123_partitions`
/root/work/ax.lean:625:14: error(lean.unknownIdentifier): Unknown constant `RG.Props.C123_assembly`
/root/work/ax.lean:626:14: error(lean.unknownIdentifier): Unknown constant `RG.Props.C123_assembly_bounds`
/root/work/ax.lean:627:14: error(lean.unknownIdentifier): Unknown constant `RG.Props.C123_expected`
/root/work/ax.lean:628:14: error(lean.unknownIdentifier): Unknown constant `RG.Props.C123_gpx2`
/root/work/ax.lean:629:14: error(lean.unknownIdentifier): Unknown constant `RG.Props.C123_attained`
/root/work/ax.lean:630:14: error(lean.unknownIdentifier): Unknown constant `RG.Props.C124_same`
/root/work/ax.lean:631:14: error(lean.unknownIdentifier): Unknown constant `RG.Props.C124_cycle`
/root/work/ax.lean:632:14: error(lean.unknownIdentifier): Unknown constant `RG.Props.C124_range`
/root/work/ax.lean:633:14: error(lean.unknownIdentifier): Unknown constant `RG.Props.C124_thirds`
/root/work/ax.lean:634:14: error(lean.unknownIdentifier): Unknown constant `RG.Props.C124_gpx2`
/root/work/ax.lean:635:14: error(lean.unknownIdentifier): Unknown constant `RG.Props.C124_bound`
'RG.Props.C125_ga' depends on axioms: [propext, Classical.choice, Quot.sound]
'RG.Props.C125_aga' depends on axioms: [propext, Classical.choice, Quot.sound]
'RG.Props.C125_same' depends on axioms: [propext, Classical.choice, Quot.sound]
'RG.Props.C125_same_run' depends on axioms: [propext, Classical.choice, Quot.sound]
'RG.Props.C125_left' depends on axioms: [propext, Classical.choice, Quot.sound]
'RG.Props.C125_ga_model' depends on axioms: [propext, Classical.choice, Quot.sound]
'RG.Props.C125_aga_model' depends on axioms: [propext, Classical.choice, Quot.sound]
'RG.Props.C125_ga_again' depends on axioms: [propext, Classical.choice, Quot.sound]
'RG.Props.C125_aga_again' depends on axioms: [propext, Classical.choice, Quot.sound]
'RG.Props.C125_ga_configure' depends on axioms: [propext, Classical.choice, Quot.sound]
'RG.Props.C125_aga_configure' depends on axioms: [propext, Classical.choice, Quot.sound]
'RG.Props.C125_ga_prepare' depends on axioms: [propext, Classical.choice, Quot.sound]
'RG.Props.C125_aga_prepare' depends on axioms: [propext, Classical.choice, Quot.sound]
'RG.Props.C125_rejected' depends on axioms: [propext, Classical.choice, Quot.sound]
'RG.Props.C125_halfway' depends on axioms: [propext, Classical.choice, Quot.sound]
'RG.Props.C126_crossover' depends on axioms: [propext, Classical.choice, Quot.sound]
'RG.Props.C126_crossover_exact' depends on axioms: [propext, Classical.choice, Quot.sound]
'RG.Props.C126_mutation' depends on axioms: [propext, Classical.choice, Quot.sound]
'RG.Props.C126_breed' depends on axioms: [propext, Classical.choice, Quot.sound]
'RG.Props.C126_any' depends on axioms: [propext, Classical.choice, Quot.sound]
'RG.Props.C126_holland' depends on axioms: [propext, Classical.choice, Quot.sound]
'RG.Props.C126_generation' depends on axioms: [propext, Classical.choice, Quot.sound]
'RG.Props.C126_oneMax' depends on axioms: [propext, Classical.choice, Quot.sound]
'RG.Props.C126_unlike' depends on axioms: [propext, Classical.choice, Quot.sound]
'RG.Props.C126_keep_best' depends on axioms: [propext, Classical.choice, Quot.sound]
'RG.Props.C127_counted' does not depend on any axioms
'RG.Props.C127_positions' depends on axioms: [propext, Quot.sound]
'RG.Props.C127_short' depends on axioms: [propext]
'RG.Props.C127_mutate' depends on axioms: [propext, Classical.choice, Quot.sound]
'RG.Props.C127_scramble' depends on axioms: [propext, Classical.choice, Quot.sound]
'RG.Props.C127_crossover' depends on axioms: [propext, Classical.choice, Quot.sound]
'RG.Props.C127_partitions' depends on axioms: [propext, Classical.choice, Quot.sound]
'RG.Props.C127_select' depends on axioms: [propext, Classical.choice, Quot.sound]
'RG.Props.C127_distinct' depends on axioms: [propext, Classical.choice, Quot.sound]
'RG.Props.C127_breed' depends on axioms: [propext, Classical.choice, Quot.sound]
'RG.Props.C127_generate' depends on axioms: [propext, Classical.choice, Quot.sound]
'RG.Props.C127_ga' depends on axioms: [propext, Classical.choice, Quot.sound]
'RG.Props.C127_aga' depends on axioms: [propext, Classical.choice, Quot.sound]
'RG.Props.C127_budget' depends on axioms: [propext, Classical.choice, Quot.sound]
'RG.Props.C127_extend' depends on axioms: [propext, Classical.choice, Quot.sound]
'RG.Props.C127_extend_with' depends on axioms: [propext, Classical.choice, Quot.sound]
'RG.Props.C127_onemax' depends on axioms: [propext, Classical.choice, Quot.sound]
'RG.Props.C127_onemax_run' depends on axioms: [propext, Classical.choice, Quot.sound]
'RG.Props.C128_breed' depends on axioms: [propext, Classical.choice, Quot.sound]
'RG.Props.C128_threshold' depends on axioms: [propext, Classical.choice, Quot.sound]
'RG.Props.C128_mean' depends on axioms: [propext, Classical.choice, Quot.sound]
'RG.Props.C128_generation' depends on axioms: [propext, Classical.choice, Quot.sound]
'RG.Props.C128_merging' depends on axioms: [propext, Classical.choice, Quot.sound]
'RG.Props.C128_any_rule' depends on axioms: [propext, Classical.choice, Quot.sound]
'RG.Props.C129_same' depends on axioms: [propext, Classical.choice, Quot.sound]
'RG.Props.C129_prepare' depends on axioms: [propext, Classical.choice, Quot.sound]
'RG.Props.C129_select' depends on axioms: [propext, Classical.choice, Quot.sound]
'RG.Props.C129_select_range' depends on axioms: [propext, Classical.choice, Quot.sound]
'RG.Props.C129_breed_wheel' depends on axioms: [propext, Classical.choice, Quot.sound]
'RG.Props.C129_breed_other' depends on axioms: [propext, Classical.choice, Quot.sound]
'RG.Props.C129_generate' depends on axioms: [propext, Classical.choice, Quot.sound]
'RG.Props.C129_collect' depends on axioms: [propext, Classical.choice, Quot.sound]
'RG.Props.C129_roulette_mean' depends on axioms: [propext, Classical.choice, Quot.sound]
'RG.Props.C129_breed_mean' depends on axioms: [propext, Classical.choice, Quot.sound]
'RG.Props.C129_generate_mean' depends on axioms: [propext, Classical.choice, Quot.sound]
'RG.Props.C129_quadratic' depends on axioms: [propext, Classical.choice, Quot.sound]
'RG.Props.C130_selected' depends on axioms: [propext, Classical.choice, Quot.sound]
'RG.Props.C130_breed' depends on axioms: [propext, Classical.choice, Quot.sound]
'RG.Props.C130_generation' depends on axioms: [propext, Classical.choice, Quot.sound]
'RG.Props.C130_variance' depends on axioms: [propext, Classical.choice, Quot.sound]
'RG.Props.C130_boltzmann' depends on axioms: [propext, Classical.choice, Quot.sound]
'RG.Props.C131_tournament' depends on axioms: [propext, Classical.choice, Quot.sound]
'RG.Props.C131_rank' depends on axioms: [propext, Classical.choice, Quot.sound]
'RG.Props.C131_elitist' depends on axioms: [propext, Classical.choice, Quot.sound]
'RG.Props.C131_order' depends on axioms: [propext, Classical.choice, Quot.sound]
'RG.Props.C131_measure' depends on axioms: [propext, Classical.choice, Quot.sound]
'RG.Props.C131_places' depends on axioms: [propext, Classical.choice, Quot.sound]
'RG.Props.C132_rank' depends on axioms: [propext, Classical.choice, Quot.sound]
'RG.Props.C132_rank_coin' depends on axioms: [propext, Classical.choice, Quot.sound]
'RG.Props.C132_linear' depends on axioms: [propext, Classical.choice, Quot.sound]
'RG.Props.C132_linear_each' depends on axioms: [propext, Classical.choice, Quot.sound]
'RG.Props.C132_linear_average' depends on axioms: [propext, Classical.choice, Quot.sound]
'RG.Props.C132_bias_two' depends on axioms: [propext, Classical.choice, Quot.sound]
'RG.Props.C132_rank_linear' depends on axioms: [propext, Classical.choice, Quot.sound]
'RG.Props.C132_place' depends on axioms: [propext, Classical.choice, Quot.sound]
'RG.Props.C133_tails' depends on axioms: [propext, Classical.choice, Quot.sound]
'RG.Props.C133_tails_exact' depends on axioms: [propext, Classical.choice, Quot.sound]
'RG.Props.C133_ga' depends on axioms: [propext, Classical.choice, Quot.sound]
'RG.Props.C133_run' depends on axioms: [propext, Classical.choice, Quot.sound]
'RG.Props.C133_aga' depends on axioms: [propext, Classical.choice, Quot.sound]
'RG.Props.C133_run_aga' depends on axioms: [propext, Classical.choice, Quot.sound]
'RG.Props.C133_scramble' depends on axioms: [propext, Classical.choice, Quot.sound]
'RG.Props.C133_scramble_aga' depends on axioms: [propext, Classical.choice, Quot.sound]
'RG.Props.C134_breed' depends on axioms: [propext, Classical.choice, Quot.sound]
'RG.Props.C134_ga' depends on axioms: [propext, Classical.choice, Quot.sound]
'RG.Props.C134_calls' depends on axioms: [propext, Classical.choice, Quot.sound]
'RG.Props.C134_any' depends on axioms: [propext, Classical.choice, Quot.sound]
'RG.Props.C135_upper' depends on axioms: [propext, Classical.choice, Quot.sound]
'RG.Props.C135_lower' depends on axioms: [propext, Classical.choice, Quot.sound]
'RG.Props.C135_lower_bounded' depends on axioms: [propext, Classical.choice, Quot.sound]
'RG.Props.C135_lower_limit' depends on axioms: [propext, Classical.choice, Quot.sound]
'RG.Props.C135_one_max' depends on axioms: [propext, Classical.choice, Quot.sound]
'RG.Props.C135_one_max_aga' depends on axioms: [propext, Classical.choice, Quot.sound]
'RG.Props.C136_calls' depends on axioms: [propext, Classical.choice, Quot.sound]
'RG.Props.C136_one_max' depends on axioms: [propext, Classical.choice, Quot.sound]
'RG.Props.C136_one_max_aga' depends on axioms: [propext, Classical.choice, Quot.sound]
'RG.Props.C137_equal' depends on axioms: [propext, Classical.choice, Quot.sound]
'RG.Props.C137_equivalence' depends on axioms: [propext, Classical.choice, Quot.sound]
'RG.Props.C137_behave' depends on axioms: [propext, Classical.choice, Quot.sound]
'RG.Props.C137_selectors' depends on axioms: [propext, Classical.choice, Quot.sound]
'RG.Props.C137_opposite' depends on axioms: [propext, Classical.choice, Quot.sound]
'RG.Props.C137_default' depends on axioms: [propext, Classical.choice, Quot.sound]
'RG.Props.C137_ga' depends on axioms: [propext, Classical.choice, Quot.sound]
'RG.Props.C137_aga' depends on axioms: [propext, Classical.choice, Quot.sound]
'RG.Props.C137_run' depends on axioms: [propext, Classical.choice, Quot.sound]
'RG.Props.C138_nan' depends on axioms: [propext, Classical.choice, Quot.sound]
'RG.Props.C138_infinite' depends on axioms: [propext, Classical.choice, Quot.sound]
'RG.Props.C138_heats' depends on axioms: [propext, Classical.choice, Quot.sound]
'RG.Props.C138_stalls' depends on axioms: [propext, Classical.choice, Quot.sound]
'RG.Props.C138_sign' depends on axioms: [propext, Classical.choice, Quot.sound]
'RG.Props.C138_weight' depends on axioms: [propext, Classical.choice, Quot.sound]
'RG.Props.C138_preference' depends on axioms: [propext, Classical.choice, Quot.sound]
'RG.Props.C139_new' depends on axioms: [propext, Classical.choice, Quot.sound]
'RG.Props.C139_draws' depends on axioms: [propext, Classical.choice, Quot.sound]
'RG.Props.C139_range' depends on axioms: [propext, Classical.choice, Quot.sound]
'RG.Props.C139_extreme' depends on axioms: [propext, Classical.choice, Quot.sound]
'RG.Props.C139_infinite' depends on axioms: [propext, Classical.choice, Quot.sound]
'RG.Props.C139_huge' depends on axioms: [propext, Classical.choice, Quot.sound]
'RG.Props.C139_panics' depends on axioms: [propext, Classical.choice, Quot.sound]
'RG.Props.C139_select_panics' depends on axioms: [propext, Classical.choice, Quot.sound]
'RG.Props.C139_generation' depends on axioms: [propext, Classical.choice, Quot.sound]
'RG.Props.C139_run' depends on axioms: [propext, Classical.choice, Quot.sound]
'RG.Props.C140_breed' depends on axioms: [propext, Classical.choice, Quot.sound]
'RG.Props.C140_results' depends on axioms: [propext, Classical.choice, Quot.sound]
'RG.Props.C140_never_called' depends on axioms: [propext, Classical.choice, Quot.sound]
'RG.Props.C140_only_fittest' depends on axioms: [propext, Classical.choice, Quot.sound]
'RG.Props.C140_ga' depends on axioms: [propext, Classical.choice, Quot.sound]
'RG.Props.C140_ga_any' depends on axioms: [propext, Classical.choice, Quot.sound]
'RG.Props.C140_aga_any' depends on axioms: [propext, Classical.choice, Quot.sound]
'RG.Props.C140_fixed' depends on axioms: [propext, Classical.choice, Quot.sound]
'RG.Props.C141_dominant' depends on axioms: [propext, Classical.choice, Quot.sound]
'RG.Props.C141_tournament' depends on axioms: [propext, Classical.choice, Quot.sound]
'RG.Props.C141_breed' depends on axioms: [propext, Classical.choice, Quot.sound]
'RG.Props.C141_cold' depends on axioms: [propext, Classical.choice, Quot.sound]
'RG.Props.C141_cold_negative' depends on axioms: [propext, Classical.choice, Quot.sound]
'RG.Props.C141_flat' depends on axioms: [propext, Classical.choice, Quot.sound]
'RG.Props.C141_flat_breed' depends on axioms: [propext, Classical.choice, Quot.sound]
'RG.Props.C141_ga' depends on axioms: [propext, Classical.choice, Quot.sound]
'RG.Props.C141_aga' depends on axioms: [propext, Classical.choice, Quot.sound]
'RG.Props.C142_neither' depends on axioms: [propext, Classical.choice, Quot.sound]
'RG.Props.C142_neither_elitist' depends on axioms: [propext, Classical.choice, Quot.sound]
'RG.Props.C142_tournament' depends on axioms: [propext, Classical.choice, Quot.sound]
'RG.Props.C142_rank' depends on axioms: [propext, Classical.choice, Quot.sound]
'RG.Props.C142_population' depends on axioms: [propext, Classical.choice, Quot.sound]
'RG.Props.C142_none' depends on axioms: [propext, Classical.choice, Quot.sound]
'RG.Props.C142_some' depends on axioms: [propext, Classical.choice, Quot.sound]
'RG.Props.C142_calls' depends on axioms: [propext, Classical.choice, Quot.sound]
'RG.Props.C142_unequal' depends on axioms: [propext, Classical.choice, Quot.sound]
'RG.Props.C142_at_most' depends on axioms: [propext, Classical.choice, Quot.sound]
'RG.Props.C142_elitist' depends on axioms: [propext, Classical.choice, Quot.sound]
'RG.Props.C143_pair' depends on axioms: [propext, Classical.choice, Quot.sound]
'RG.Props.C143_order' depends on axioms: [propext, Classical.choice, Quot.sound]
'RG.Props.C143_fitter_first' depends on axioms: [propext, Classical.choice, Quot.sound]
'RG.Props.C143_elitist' depends on axioms: [propext, Classical.choice, Quot.sound]
'RG.Props.C144_returns' depends on axioms: [propext, Classical.choice, Quot.sound]
'RG.Props.C144_crossover' depends on axioms: [propext, Classical.choice, Quot.sound]
'RG.Props.C144_change' depends on axioms: [propext, Classical.choice, Quot.sound]
