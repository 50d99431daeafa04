{"id": "C01", "title": "Collecting equals recording one by one", "statement": "Collecting any sequence of f64 samples into a Stats gives exactly the same Stats as starting from Stats::default() and calling record on each sample in order, and count() is the number of samples.", "quantifier": "every finite sequence of f64 values, including NaN, infinities and signed zeros", "why_tests_cant": "two separately written loops must agree on every sequence of every length; tests sample a few sequences", "anchors": ["src/stats.rs:Stats::record", "src/stats.rs:FromIterator<f64> for Stats::from_iter", "src/stats.rs:Stats::count"]}
{"id": "C02", "title": "min and arg_min are the smallest sample and its first position", "statement": "For a non-empty sequence with no NaN, min() is a sample that is <= every sample and arg_min() is the first position holding a sample equal to it; for an empty sequence both are None.", "quantifier": "every non-empty NaN-free sequence of f64 values", "why_tests_cant": "ties, signed zeros and any length/position of the minimum must all be right", "anchors": ["src/stats.rs:Stats::min", "src/stats.rs:Stats::arg_min", "src/stats.rs:Stats::record"]}
{"id": "C03", "title": "max and arg_max are the largest sample and its first position", "statement": "For a non-empty sequence with no NaN, max() is a sample that is >= every sample and arg_max() is the first position holding a sample equal to it; for an empty sequence both are None.", "quantifier": "every non-empty NaN-free sequence of f64 values", "why_tests_cant": "ties, signed zeros and any length/position of the maximum must all be right", "anchors": ["src/stats.rs:Stats::max", "src/stats.rs:Stats::arg_max", "src/stats.rs:Stats::record"]}
{"id": "C04", "title": "Effect of NaN samples on min/max", "statement": "If the first sample is not NaN, NaN samples never change min()/max(): they are those of the non-NaN samples. If the first sample is NaN, min() and max() stay NaN and arg_min()/arg_max() stay 0 whatever follows.", "quantifier": "every f64 sequence", "why_tests_cant": "NaN may appear at any position any number of times", "anchors": ["src/stats.rs:Stats::record", "src/stats.rs:Stats::min", "src/stats.rs:Stats::max"]}
{"id": "C05", "title": "avg and var are the mean and the unbiased sample variance", "statement": "In exact arithmetic avg() is the arithmetic mean of the samples and var() is sum((x-mean)^2)/(n-1) for n >= 2 and 0 for n = 1; both are None for no sample.", "quantifier": "every finite sequence of samples", "why_tests_cant": "the online (Welford) recurrence must equal the two-pass definition for every sequence; only induction shows that", "anchors": ["src/stats.rs:Stats::avg", "src/stats.rs:Stats::var", "src/stats.rs:Stats::record"]}
{"id": "C06", "title": "f64 average stays between min and max and the variance is never negative", "statement": "With IEEE-754 rounding, for samples of magnitude at most 2^1022, avg() lies between min() and max(), var() is >= 0 and neither var() nor std() is NaN. (Without the magnitude bound this is false: overflow can make std() NaN for finite samples.)", "quantifier": "every finite sequence of f64 samples with |x| <= 2^1022 and fewer than 2^53 samples", "why_tests_cant": "rounding errors accumulate over arbitrarily long sequences; no finite test set bounds them", "anchors": ["src/stats.rs:Stats::record", "src/stats.rs:Stats::avg", "src/stats.rs:Stats::var", "src/stats.rs:Stats::std"]}
{"id": "C07", "title": "Snapshots exist exactly for non-empty stats and agree with them", "statement": "snapshot() and PopulatedStats::try_from succeed exactly when at least one sample was recorded, and every accessor of the PopulatedStats equals the Some-value of the same accessor of the Stats at that moment, whatever is recorded later; set_arg_min/set_arg_max panic exactly when the index is out of bounds and otherwise change only that index.", "quantifier": "every history of record and snapshot operations", "why_tests_cant": "ranges over all histories", "anchors": ["src/stats.rs:Stats::snapshot", "src/stats.rs:PopulatedStats", "src/stats.rs:TryFrom<Stats> for PopulatedStats", "src/stats.rs:PopulatedStats::set_arg_min", "src/stats.rs:PopulatedStats::set_arg_max"]}
{"id": "C08", "title": "A population is sorted and keeps every individual up to duplicates", "statement": "If no fitness is NaN, after Population::new (or replace) the individuals are in ascending fitness order, each one is one of the given individuals, and every given individual is equal to one kept.", "quantifier": "every vector of individuals, every (unstable, parallel) sort result allowed for it", "why_tests_cant": "any input order, any tie-breaking of the unstable parallel sort", "anchors": ["src/population.rs:Population::new", "src/population.rs:sort_dedup_and_collect_stats"]}
{"id": "C09", "title": "Individuals in a population are unique", "statement": "The documentation says the individuals in the population are unique. No two neighbouring individuals are equal; and all are pairwise distinct whenever different individuals never share a fitness. In general uniqueness FAILS: equal individuals separated by a third with the same fitness are both kept.", "quantifier": "every vector of individuals, every allowed sort result", "why_tests_cant": "depends on every possible tie order produced by the sort", "anchors": ["src/population.rs:Population", "src/population.rs:sort_dedup_and_collect_stats"]}
{"id": "C10", "title": "fittest() is a fittest individual", "statement": "If no fitness is NaN, fittest() and take_fittest() never panic, return the same individual, it belongs to the population, and its fitness is >= that of every individual and equals stats().max().", "quantifier": "every population reachable through new and replace", "why_tests_cant": "all populations and all histories", "anchors": ["src/population.rs:Population::fittest", "src/population.rs:Population::take_fittest"]}
{"id": "C11", "title": "Populations are never empty", "statement": "Population::new and replace panic exactly on an empty vector; try_from returns Err with the same (empty) vector exactly then; every population therefore has at least one individual.", "quantifier": "every vector of individuals", "why_tests_cant": "all inputs and histories", "anchors": ["src/population.rs:Population::new", "src/population.rs:Population::replace", "src/population.rs:TryFrom<Vec<I>> for Population<I>"]}
{"id": "C12", "title": "Generation and stagnation counters", "statement": "After any sequence of k replace calls, generation() is k and stagnation() is the number of replacements since the last one that strictly increased the best fitness (k if none did); the vector passed to replace receives the previous individuals.", "quantifier": "every sequence of replace calls of any length", "why_tests_cant": "an invariant over unbounded histories", "anchors": ["src/population.rs:Population::replace", "src/population.rs:Population::generation", "src/population.rs:Population::stagnation"]}
{"id": "C13", "title": "Population statistics describe the current individuals", "statement": "stats() of a population always equals the statistics of the fitness values of its current individuals in order, so count() equals the population length, whatever the history.", "quantifier": "every population reachable through new and replace", "why_tests_cant": "all histories", "anchors": ["src/population.rs:Population::stats", "src/population.rs:Population::replace"]}
{"id": "C14", "title": "Fitness order", "statement": "compare_fitness and the Ord of IndividualWrapper are a total preorder on individuals whose fitness is not NaN (consistent with f64 <); a NaN fitness compares Equal to everything, so with NaN the relation is not transitive. Wrapping and take() return the same individual.", "quantifier": "every triple of individuals", "why_tests_cant": "needs all pairs and triples of f64 values", "anchors": ["src/operators.rs:compare_fitness", "src/individual.rs:IndividualWrapper"]}
{"id": "C15", "title": "random_pair returns two distinct valid indices, uniformly", "statement": "random_pair(n) panics exactly for n < 2; otherwise it returns (a,b) with a != b, a < n, b < n, and each of the n(n-1) ordered pairs has the same probability.", "quantifier": "every n and every random source", "why_tests_cant": "all n; the distribution cannot be established by sampling", "anchors": ["src/operators.rs:random_pair"]}
{"id": "C16", "title": "Random ranges are valid", "statement": "bounded_random_range(n,min,max) with min <= max <= n never panics and returns start..end with end <= n and min <= end-start <= max, and every such range is possible; it panics for min > max and may panic for max > n. random_range(n) panics exactly for n = 0 and returns a non-empty subrange of 0..n.", "quantifier": "every n, min_len, max_len and random source", "why_tests_cant": "all sizes and random outcomes", "anchors": ["src/operators.rs:bounded_random_range", "src/operators.rs:random_range"]}
{"id": "C17", "title": "Distribution of random ranges", "statement": "bounded_random_range draws the length uniformly and then the start uniformly, so range s..s+len has probability 1/((max-min+1)(n-len+1)). The documented claim that ranges are uniformly distributed is false as soon as two lengths are possible.", "quantifier": "every n, min_len <= max_len <= n and every range", "why_tests_cant": "exact probabilities cannot be tested by sampling", "anchors": ["src/operators.rs:bounded_random_range", "src/operators.rs:random_range"]}
{"id": "C18", "title": "interpolate_f64 stays between its bounds", "statement": "In exact arithmetic interpolate_f64(a,b,0)=a, (a,b,1)=b, it is monotone in the ratio and stays between a and b for ratios in [0,1]; in IEEE-754 arithmetic with 0 <= a,b <= 1 and a ratio in [0,1] the result is in [0,1].", "quantifier": "every a, b and ratio in [0,1]", "why_tests_cant": "all reals / all f64 triples with rounding", "anchors": ["src/lib.rs:interpolate_f64"]}
{"id": "C19", "title": "interpolate_usize stays between its bounds", "statement": "For min <= max <= 2^53 and a ratio in [0,1] interpolate_usize never panics and its f64-rounded result is between min and max; ratio 0 gives min and ratio 1 gives max; with min = 0 < max and ratio < 1 it is strictly below max. It panics (overflow check) when max < min.", "quantifier": "every min, max up to 2^53 and every f64 ratio", "why_tests_cant": "f64 rounding could push a result across an integer boundary for some input", "anchors": ["src/lib.rs:interpolate_usize"]}
{"id": "C20", "title": "common_neighbors finds exactly the shared cyclic adjacencies", "statement": "For totally ordered genes and genomes of length >= 3, common_neighbors returns exactly the unordered pairs that are cyclically adjacent in both genomes, each as (smaller, larger); with fewer than 2 genes in the first or fewer than 3 in the second it returns nothing.", "quantifier": "every two genomes of any length", "why_tests_cant": "all genomes", "anchors": ["src/operators.rs:common_neighbors"]}
{"id": "C21", "title": "common_partitions partitions the first genome", "statement": "common_partitions always terminates without panicking; for a duplicate-free first genome every gene appears in exactly one partition exactly once, no partition is empty, and consecutive genes of a partition are cyclically adjacent in both genomes.", "quantifier": "every two genomes", "why_tests_cant": "termination and partitioning for all genomes of all sizes", "anchors": ["src/operators.rs:common_partitions"]}
{"id": "C22", "title": "GPX2 produces a permutation that keeps common partitions contiguous", "statement": "For a duplicate-free first parent and any selector closure returning indices in range, generalized_partition_2_crossover terminates, does not panic, returns a permutation of parent1, and every common partition occurs contiguously in the offspring.", "quantifier": "every pair of genomes and every (stateful) selector", "why_tests_cant": "all selectors and genomes", "anchors": ["src/operators/crossover.rs:generalized_partition_2_crossover"]}
{"id": "C23", "title": "SCX produces a permutation starting at the pivot", "statement": "For parents that are permutations of the same distinct genes and a pivot among them, sequential_constructive_crossover does not panic, and returns a permutation of the parents starting with the pivot (for n >= 2).", "quantifier": "all permutations of all sizes and all pivots", "why_tests_cant": "the fallback branches and unwraps must be safe on every input", "anchors": ["src/operators/crossover.rs:sequential_constructive_crossover"]}
{"id": "C24", "title": "ERX produces a permutation whatever the hash order", "statement": "For parents that are permutations of the same distinct genes and a pivot among them, edge_recombination_crossover does not panic and returns a permutation of the parents starting with the pivot (for n >= 2), for every iteration order of the hash sets.", "quantifier": "all permutations, pivots and hash iteration orders", "why_tests_cant": "HashSet order is randomised per run", "anchors": ["src/operators/crossover.rs:edge_recombination_crossover"]}
{"id": "C25", "title": "PMX terminates and produces a permutation", "statement": "For parents that are permutations of the same distinct genes and any range start<=end<=n, partially_mapped_crossover terminates without panic and returns a permutation of the parents that equals parent1 inside the range, and equals parent2 at each position outside the range whose parent2 gene is not in parent1's range segment.", "quantifier": "all permutations and ranges", "why_tests_cant": "termination of the mapping chain for all inputs", "anchors": ["src/operators/crossover.rs:partially_mapped_crossover"]}
{"id": "C26", "title": "OX terminates and produces a permutation preserving parent2's order", "statement": "For parents that are permutations of the same distinct genes and any non-empty range within 0..n, order_crossover terminates without panic and returns a permutation equal to parent1 inside the range, the remaining positions read cyclically from the range end holding the remaining genes in parent2's cyclic order from the same point. For an EMPTY range (start=end<n) the result is parent1[0] repeated, not a permutation.", "quantifier": "all permutations and ranges", "why_tests_cant": "wrap-around index arithmetic and termination for all inputs", "anchors": ["src/operators/crossover.rs:order_crossover"]}
{"id": "C27", "title": "CX terminates and produces a permutation position by position", "statement": "For parents that are permutations of the same distinct genes, cycle_crossover terminates without panic and returns a permutation whose gene at each position is the gene of parent1 or of parent2 at that position; it is deterministic.", "quantifier": "all permutations of all sizes", "why_tests_cant": "cycle structure of arbitrary permutations", "anchors": ["src/operators/crossover.rs:cycle_crossover"]}
{"id": "C28", "title": "SPX copies a prefix and a suffix", "statement": "For equal-length parents single_point_crossover returns the first `point` genes of parent1 followed by the genes of parent2 from `point` on (all of parent1 if point >= n), without panic.", "quantifier": "all genomes and points", "why_tests_cant": "all sizes", "anchors": ["src/operators/crossover.rs:single_point_crossover"]}
{"id": "C29", "title": "Crossover panics on length mismatch", "statement": "The six crossover functions other than GPX2 panic whenever the parents' lengths differ. (GPX2 does not, although the documentation of CrossoverStrategy::crossover says it does.) On empty parents CrossoverStrategy::crossover panics for SCX, ERX, PMX, OX and SPX and returns an empty genome for GPX2 and CX.", "quantifier": "every pair of genomes of different length; empty genomes", "why_tests_cant": "all inputs", "anchors": ["src/operators/crossover.rs:CrossoverStrategy::crossover", "src/operators/crossover.rs:assert!(parent1.len() == parent2.len())"]}
{"id": "C30", "title": "Every permutation crossover strategy yields a permutation for every random source", "statement": "For non-empty parents that are permutations of the same distinct genes, CrossoverStrategy::crossover with any strategy but SinglePoint terminates without panic and returns a permutation of the parents, for every random source; SinglePoint returns a genome of the same length taking each position from one of the parents.", "quantifier": "all strategies, permutations and random sources", "why_tests_cant": "all random outcomes", "anchors": ["src/operators/crossover.rs:CrossoverStrategy::crossover"]}
{"id": "C31", "title": "Behaviour of PMX and OX outside permutations", "statement": "With duplicate genes PMX and OX can loop forever: there are equal-length parents and in-bounds ranges on which the loop never ends. For PMX the loop is infinite exactly when it has not ended within n steps.", "quantifier": "all fuel bounds (non-termination); all genomes", "why_tests_cant": "non-termination cannot be observed by a test", "anchors": ["src/operators/crossover.rs:partially_mapped_crossover", "src/operators/crossover.rs:order_crossover"]}
{"id": "C32", "title": "swap_mutation exchanges two positions", "statement": "For n >= 2 the genome after swap_mutation is the old one with two distinct positions exchanged, each unordered pair being equally likely; so it is a permutation, and differs from a duplicate-free original.", "quantifier": "every genome and random source", "why_tests_cant": "all sizes and random outcomes", "anchors": ["src/operators/mutation.rs:swap_mutation"]}
{"id": "C33", "title": "scramble_mutation permutes only a window", "statement": "The genome after scramble_mutation is a permutation of the original that leaves everything outside one window of length >= 2 unchanged; any rearrangement of any such window is possible.", "quantifier": "every genome and random source", "why_tests_cant": "all sizes and random outcomes", "anchors": ["src/operators/mutation.rs:scramble_mutation"]}
{"id": "C34", "title": "inversion_mutation reverses a window", "statement": "The genome after inversion_mutation is the original with one window of length >= 2 reversed; every window is possible; it differs from a duplicate-free original.", "quantifier": "every genome and random source", "why_tests_cant": "all sizes and random outcomes", "anchors": ["src/operators/mutation.rs:inversion_mutation"]}
{"id": "C35", "title": "insertion_mutation moves one gene", "statement": "The genome after insertion_mutation is the original with the gene at some position j removed and re-inserted at an earlier position i<j, each such (i,j) equally likely; it is a permutation. (A gene is never moved more than one place towards the end, contrary to what 'another position' suggests.)", "quantifier": "every genome and random source", "why_tests_cant": "all sizes and random outcomes", "anchors": ["src/operators/mutation.rs:insertion_mutation"]}
{"id": "C36", "title": "duplicate_mutation copies one gene over another", "statement": "The genome after duplicate_mutation differs from the original only at one position, which now holds the gene of another position; length is unchanged.", "quantifier": "every genome and random source", "why_tests_cant": "all sizes and random outcomes", "anchors": ["src/operators/mutation.rs:duplicate_mutation"]}
{"id": "C37", "title": "Mutations never panic and keep the length", "statement": "MutationStrategy::mutate never panics, never changes the genome length, is the identity for fewer than two genes, and for every strategy but Duplicate yields a permutation of the original.", "quantifier": "every strategy, genome and random source", "why_tests_cant": "all sizes and random outcomes", "anchors": ["src/operators/mutation.rs:MutationStrategy::mutate"]}
{"id": "C38", "title": "Selection returns a member of the population", "statement": "For every non-empty population (below 2^53 individuals, and 2^32 for Rank), every built-in selector other than Linear returns, without panicking, (i, individual at i) with i a valid index, whatever the fitness values (NaN, infinite, negative), prepared state and random source.", "quantifier": "all populations, selector states, fitness values and random sources", "why_tests_cant": "fall-through branches and float comparisons for all values", "anchors": ["src/operators/selection.rs:SelectionMechanism::select"]}
{"id": "C39", "title": "Tournament selection picks the best of its sample", "statement": "Tournament(k) returns the individual of highest rank among k uniformly drawn ones, so rank i (0 = worst of n) has probability ((i+1)^k - i^k)/n^k.", "quantifier": "all k >= 1, n >= 1 and i", "why_tests_cant": "exact probabilities for all sizes", "anchors": ["src/operators/selection.rs:TournamentSelection"]}
{"id": "C40", "title": "Rank selection is proportional to rank", "statement": "Rank selection returns index i with probability (i+1)/(n(n+1)/2); its final fallback is unreachable and no usize overflow happens for n < 2^32.", "quantifier": "all n and i", "why_tests_cant": "exact probabilities for all sizes", "anchors": ["src/operators/selection.rs:RankSelection"]}
{"id": "C41", "title": "Elitist selection is uniform over the top individuals", "statement": "Elitist(ratio) selects uniformly among indices >= floor(n*ratio) (f64 product), that set is never empty for a ratio in [0,1) and n <= 2^53, and nothing below is ever selected. (So `ratio` is the share of individuals excluded, not selected.)", "quantifier": "all n <= 2^53 and f64 ratios in [0,1)", "why_tests_cant": "f64 rounding of n*ratio could reach n for some input", "anchors": ["src/operators/selection.rs:ElitistSelection"]}
{"id": "C42", "title": "Roulette-wheel selection is fitness proportionate", "statement": "With non-negative fitness and exact arithmetic, index i is selected for exactly the draws u with cum(i-1) < u*total <= cum(i), so its probability is within 2^-53 of fitness/total. In f64: if fitness values are non-negative and the target is positive, an individual with zero fitness is selected only if it is the last one and rounding left the target unreached.", "quantifier": "all populations and draws", "why_tests_cant": "exact probabilities and rounding for all populations", "anchors": ["src/operators/selection.rs:RouletteWheelSelection"]}
{"id": "C43", "title": "Boltzmann selection cools geometrically", "statement": "In exact arithmetic the temperature after k prepare calls is T*c^k, prepare never changes the cooling rate, and the selected index is the first whose cumulative exp(fitness/T) reaches the target (the last index otherwise).", "quantifier": "all k, temperatures and populations", "why_tests_cant": "unbounded number of generations", "anchors": ["src/operators/selection.rs:BoltzmannSelection"]}
{"id": "C44", "title": "Linear selection index", "statement": "In exact arithmetic, for every bias != 1 and draw in [0,1) the formula gives an in-range index, larger draws never select fitter individuals. In f64 this is FALSE: for some bias the index computation underflows and panics; and for bias = 1 it always selects the fittest.", "quantifier": "all biases, population sizes and draws", "why_tests_cant": "rare draws trigger the rounding failure", "anchors": ["src/operators/selection.rs:LinearSelection"]}
{"id": "C45", "title": "select_distinct never returns the excluded individual", "statement": "select_distinct returns an individual that is != the excluded one with its index, or None after exactly max_tries selections that all gave an equal individual; it performs at most max_tries selections.", "quantifier": "all populations, selectors, max_tries and random sources", "why_tests_cant": "all random outcomes", "anchors": ["src/operators/selection.rs:SelectionMechanism::select_distinct"]}
{"id": "C46", "title": "Selector construction enforces its parameter range", "statement": "TournamentSelection::new/set_size panic exactly for 0, BoltzmannSelection::new/set_cooling_rate exactly for 0.0 (either sign), ElitistSelection::new/set_ratio exactly outside [0,1) (NaN included), and create_selector panics exactly in those cases; after any sequence of successful setter calls the parameter is in range.", "quantifier": "all parameter values and setter histories", "why_tests_cant": "all f64 values and histories", "anchors": ["src/operators/selection.rs:TournamentSelection::new", "src/operators/selection.rs:BoltzmannSelection::new", "src/operators/selection.rs:ElitistSelection::new", "src/operators/selection.rs:SelectionStrategy::create_selector"]}
{"id": "C47", "title": "Breeding is keep-best", "statement": "With the default breed/can_survive, the bred individual is either a valid offspring whose fitness is >= that of the fittest of its parents, or a clone of that fittest parent (a member of the population); in every case its fitness is >= that of the first selected parent (NaN-free population), and it is valid if the population is.", "quantifier": "all populations, models, parameters and random sources", "why_tests_cant": "user operators and random outcomes are arbitrary", "anchors": ["src/model.rs:EvolutionModel::breed", "src/model.rs:EvolutionModel::can_survive"]}
{"id": "C48", "title": "Crossover and mutation rates are respected at the extremes", "statement": "With crossover_rate <= 0 or NaN (or a one-individual population) breed never calls crossover; with mutation_rate <= 0 or NaN never mutate; with mutation_rate >= 1 always mutate; crossover is only called with two individuals that compare different, and in general mutate is called with probability ceil(rate*2^53)/2^53.", "quantifier": "all models, populations and random sources", "why_tests_cant": "all random outcomes", "anchors": ["src/model.rs:EvolutionModel::breed", "src/model.rs:ReproductionParameters"]}
{"id": "C49", "title": "Extending a population adds exactly `size` individuals", "statement": "extend_population and extend_population_with keep the existing individuals, append exactly `size` new ones, and for size >= 1 the first one appended by extend_population_with is the given individual itself, the others being mutated copies of it.", "quantifier": "all sizes, vectors and random sources", "why_tests_cant": "all sizes and schedules", "anchors": ["src/model.rs:EvolutionModel::extend_population", "src/model.rs:EvolutionModel::extend_population_with"]}
{"id": "C50", "title": "Parameter validation", "statement": "GeneticAlgorithmParameters::validate and AdaptiveGeneticAlgorithmParameters::validate (hence configure and every run) panic exactly when population_size is 0, elitism_rate is not in [0,1), or a crossover/mutation rate (bound) is not in [0,1], NaN counting as outside; the defaults pass.", "quantifier": "all parameter values", "why_tests_cant": "all f64 values", "anchors": ["src/algorithms/ga.rs:GeneticAlgorithmParameters::validate", "src/algorithms/aga.rs:AdaptiveGeneticAlgorithmParameters::validate"]}
{"id": "C51", "title": "Elites are the fittest individuals", "statement": "After configure the elite count is floor(population_size*elitism_rate) (f64) and is strictly below population_size; select_elites appends exactly min(elite count, population length) individuals of the population, in order, and no individual left out is fitter than one taken.", "quantifier": "all parameters with population_size <= 2^53 and all populations", "why_tests_cant": "f64 rounding for all parameter values", "anchors": ["src/algorithms/ga.rs:GeneticAlgorithm::select_elites", "src/algorithms/aga.rs:AdaptiveGeneticAlgorithm::select_elites", "src/algorithms/ga.rs:GeneticAlgorithm::configure"]}
{"id": "C52", "title": "A new generation has the configured number of individuals", "statement": "generate_new_population should fill the offspring vector up to the configured population size. It does so exactly when the number of missing individuals is not 1; when exactly one is missing the bred individual is dropped, and with population_size = 1 (elite count 0) the next generation is empty and the run panics.", "quantifier": "all population sizes, elite counts and random sources", "why_tests_cant": "a boundary case at one specific size", "anchors": ["src/algorithms.rs:EvolutionAlgorithm::generate_new_population"]}
{"id": "C53", "title": "The best fitness never decreases under elitism", "statement": "If the elite count is at least 1 and fitness values are NaN-free, the best fitness of the population passed to progress never decreases from one generation to the next, for every model, selector, and random source.", "quantifier": "all runs of any length", "why_tests_cant": "an invariant over all histories", "anchors": ["src/evolution.rs:Evolution::evolve_population", "src/algorithms/ga.rs:GeneticAlgorithm", "src/algorithms/aga.rs:AdaptiveGeneticAlgorithm"]}
{"id": "C54", "title": "The returned individual is the best one found", "statement": "run and evolve_individual are documented to return the individual with the best fitness found during the execution. With elite count >= 1 the returned individual's fitness is >= that of every individual ever shown to progress. With elite count 0 (e.g. elitism_rate 0, or population_size*elitism_rate < 1) this is FALSE.", "quantifier": "all runs of any length", "why_tests_cant": "all histories", "anchors": ["src/evolution.rs:Evolution::run", "src/evolution.rs:Evolution::evolve_individual"]}
{"id": "C55", "title": "Population size stays bounded", "statement": "After every generation the population has at least 1 and at most population_size individuals.", "quantifier": "all runs of any length", "why_tests_cant": "all histories and random outcomes", "anchors": ["src/evolution.rs:Evolution::evolve_population", "src/algorithms.rs:EvolutionAlgorithm::generate_new_population"]}
{"id": "C56", "title": "The run loop protocol", "statement": "progress is called first on the initial population (generation 0), then once per generation with generation() = 1,2,3,..., until it first returns false; evolve_population then returns exactly the population of that last call, run returns its fittest; if progress returns false at call k the loop ends after exactly k-1 generations.", "quantifier": "all progress closures (stateful), models and random sources", "why_tests_cant": "all histories, unbounded length", "anchors": ["src/evolution.rs:Evolution::evolve_population", "src/evolution.rs:Evolution::run"]}
{"id": "C57", "title": "Adaptive rates", "statement": "At generation 0 the crossover rate is the upper end and the mutation rate the lower end of their ranges. At adjustment generations they are start+(end-start)*d and start+(end-start)*(1-d) with d=clamp(std/reference,0,1); in exact arithmetic they stay in their ranges, crossover rises and mutation falls with diversity; otherwise (and always with interval 0) they are unchanged. In f64 they always stay in [0,1] unless NaN.", "quantifier": "all populations, generations, parameters", "why_tests_cant": "all f64 values", "anchors": ["src/algorithms/aga.rs:AdaptiveGeneticAlgorithm::prepare_for_next_population"]}
{"id": "C58", "title": "Adaptive rates become NaN when the initial population has no spread", "statement": "If the initial population's fitness std is 0 and an adjustment generation also has std 0, both rates become NaN, and breeding then neither crosses nor mutates.", "quantifier": "all parameters and populations with zero spread", "why_tests_cant": "needs IEEE NaN propagation through clamp and comparison", "anchors": ["src/algorithms/aga.rs:AdaptiveGeneticAlgorithm::prepare_for_next_population", "src/model.rs:EvolutionModel::breed"]}
{"id": "C59", "title": "Runs on the same Evolution are independent", "statement": "Running an Evolution again with some parameters behaves as a fresh Evolution built from the current model with the same parameters: nothing of an earlier run's parameters, rates, selector or reference spread is visible.", "quantifier": "all earlier histories and all later runs", "why_tests_cant": "all histories", "anchors": ["src/algorithms/ga.rs:GeneticAlgorithm::configure", "src/algorithms/aga.rs:AdaptiveGeneticAlgorithm::configure", "src/evolution.rs:Evolution::evolve_population"]}
{"id": "C60", "title": "Only valid individuals are ever in a population of a run", "statement": "Every individual of every population passed to progress, and every returned individual, satisfies is_valid(); with the default is_valid its fitness is finite.", "quantifier": "all models with default breed, parameters, random sources and run lengths", "why_tests_cant": "an invariant over all histories", "anchors": ["src/algorithms.rs:EvolutionAlgorithm::initialize_population", "src/model.rs:EvolutionModel::breed", "src/evolution.rs:Evolution::evolve_population"]}
{"id": "C61", "title": "evolve_individual never returns something worse than its argument", "statement": "If the elite count is at least 1 and the given individual is valid once evaluated, the individual returned by evolve_individual has fitness >= that of the evaluated given individual.", "quantifier": "all models, parameters, random sources and run lengths", "why_tests_cant": "all histories", "anchors": ["src/evolution.rs:Evolution::evolve_individual", "src/model.rs:EvolutionModel::extend_population_with"]}
{"id": "C62", "title": "Initial populations are evaluated and filtered", "statement": "initialize_population evaluates every individual, keeps exactly the valid ones (up to duplicates), and panics exactly when none is valid.", "quantifier": "all models and vectors", "why_tests_cant": "all inputs", "anchors": ["src/algorithms.rs:EvolutionAlgorithm::initialize_population"]}
{"id": "C63", "title": "OneMax", "statement": "OneMax evaluation gives the f64 ratio of true bits: always in [0,1] for a non-empty genome of fewer than 2^53 bits, equal to 1 exactly when all bits are true; an empty genome gives NaN and is invalid. Crossover and mutation keep the genome length, so every individual of a run has the requested length.", "quantifier": "all genomes, random sources and run lengths", "why_tests_cant": "f64 rounding for all lengths; all histories", "anchors": ["src/lib.rs:one_max::OneMaxEvolutionModel"]}
{"id": "C64", "title": "Runs of the built-in algorithms do not panic", "statement": "If the model's operators are total and keep a property P of individuals, pre_generation and breed are the defaults, the parameters and the selection strategy are valid, the strategy is not Linear, the population size is at least 2 and below 2^32, progress is total, and some initial individual is valid once evaluated, then evolve_population, run and evolve_individual never panic or diverge within any number of generations, and every individual ever shown or returned has property P.", "quantifier": "all models, parameters, random sources, schedules and run lengths", "why_tests_cant": "all histories of an open-ended randomised loop", "anchors": ["src/evolution.rs:Evolution::evolve_population", "src/evolution.rs:Evolution::run", "src/evolution.rs:Evolution::evolve_individual", "src/model.rs:EvolutionModel::breed"]}
{"id": "C65", "title": "Only evaluated individuals enter a population", "statement": "With the default breed, every individual of every population shown to progress, and of the final population, is the result of a call of evaluate.", "quantifier": "all models, parameters, random sources and run lengths", "why_tests_cant": "all histories", "anchors": ["src/model.rs:EvolutionModel::breed", "src/algorithms.rs:EvolutionAlgorithm::initialize_population"]}
{"id": "C66", "title": "Which operator each strategy applies, and with which probabilities", "statement": "MutationStrategy::mutate and CrossoverStrategy::crossover apply the operator their variant names to the parents in the given order. Scramble and Inversion draw a window length uniformly from 2..=n and then its position uniformly; Scramble replaces the window by a uniformly drawn rearrangement (also with equal genes). Swap, Insertion and Duplicate draw an ordered pair of distinct positions uniformly. SCX and ERX take the gene at a uniform position of the first parent as pivot, PMX and OX a random non-empty range, SPX a uniform point below n, GPX2 every order of the common partitions with equal probability; CX is deterministic.", "quantifier": "all genomes of at least two (mutation) or one (crossover) genes, all observations of the outcome", "why_tests_cant": "exact distributions over all random sources", "anchors": ["src/operators/mutation.rs:MutationStrategy::mutate", "src/operators/crossover.rs:CrossoverStrategy::crossover"]}
{"id": "C67", "title": "The genetic algorithm reaches its target almost surely", "statement": "If the genetic algorithm runs without panics (as in C64), survival is the default, and mutation followed by improve and evaluate gives a valid individual of at least a target fitness with probability at least d from every individual, then the probability that a run with at least one elite goes on for k generations without reaching the target is at most (1 - m*d)^((n-e)*k), for population size n, e elites and mutation rate m. A run that is stopped once the target is shown ends within k+1 calls of progress with at least one minus that probability, so almost surely if m*d > 0, and run then returns an individual at the target.", "quantifier": "all models, parameters, initial populations, targets, schedules and numbers of generations", "why_tests_cant": "a limit over an unbounded random process", "anchors": ["src/evolution.rs:Evolution::evolve_population", "src/evolution.rs:Evolution::run", "src/algorithms/ga.rs:GeneticAlgorithm"]}
{"id": "C68", "title": "The adaptive algorithm can get stuck for ever", "statement": "Once all individuals have one fitness, the reference spread is zero and the rates are NaN (or will be set before breeding), the adaptive genetic algorithm makes no new individual in any later generation. A run from one individual gets there with a probability of at least (1 - f)^n, where f is the probability that a mutation happens at the lower end of the mutation range, for any number of generations; so with the operators for which the genetic algorithm reaches the target almost surely (C67), the adaptive one does not.", "quantifier": "all models, rate ranges, numbers of generations and random sources", "why_tests_cant": "all later generations; a probability bound independent of the run length", "anchors": ["src/algorithms/aga.rs:AdaptiveGeneticAlgorithm::prepare_for_next_population", "src/evolution.rs:Evolution::evolve_population"]}
{"id": "C69", "title": "The genetic algorithm climbs a ladder of fitness levels", "statement": "Let there be fitness levels 0 to L such that a mutation (followed by improve and evaluate) leads from an individual at level i to one at level i+1 with probability at least d(i), and let the selection pick a parent at the present level with probability at least s. With c(i) = s * P(no crossover) * mutation rate * d(i) and m = population size - elites, a generation fails to climb with probability at most (1-c(i))^m. So with at least one elite, a run stopped at level L calls progress at most 1 + sum of 1/(1-(1-c(i))^m) times on average; with equal d, k generations miss the top with at most the probability of fewer than L successes in k trials, and the run ends almost surely. Tournament, rank and elitist selection have s >= 1/n.", "quantifier": "all models, levels, parameters, initial populations, schedules and numbers of generations", "why_tests_cant": "expected value and limit over an unbounded random process", "anchors": ["src/evolution.rs:Evolution::evolve_population", "src/algorithms/ga.rs:GeneticAlgorithm", "src/model.rs:EvolutionModel::breed"]}
{"id": "C70", "title": "The genetic algorithm solves OneMax, with a bound on the expected time", "statement": "A run of the genetic algorithm on OneMax genomes of n bits that stops when the fitness 1 is reached, from an initial population with at least one true bit, calls progress at most n + 4 B (n-1) H(n-1) / (m k r) times on average. B bounds the sizes of the populations, m is the number of bred individuals per generation, k the probability of no crossover, r the mutation rate, H the harmonic numbers. So it ends almost surely. This holds for tournament, rank, elitist and roulette wheel selection (with f64 arithmetic).", "quantifier": "all n < 2^53, valid parameters with at least one elite, population sizes up to 2^24, initial populations with a true bit, schedules and numbers of generations", "why_tests_cant": "expected value and limit over an unbounded random process", "anchors": ["src/lib.rs:OneMaxEvolutionModel", "src/evolution.rs:Evolution::evolve_population", "src/algorithms/ga.rs:GeneticAlgorithm"]}
{"id": "C71", "title": "The probability that run solves OneMax", "statement": "The probability that run solves OneMax with a random initial population of N individuals of n bits tends to 1 - 2^(-nN) with the number of generations, and never exceeds it: an initial population without true bits cannot be improved by the shipped operators.", "quantifier": "all n < 2^53, valid parameters with at least one elite, a positive mutation rate and no certain crossover, population sizes up to 2^24, numbers of generations", "why_tests_cant": "a limit of probabilities over an unbounded random process; the exception has probability 2^(-nN)", "anchors": ["src/lib.rs:OneMaxEvolutionModel", "src/evolution.rs:Evolution::run", "src/algorithms/ga.rs:GeneticAlgorithm"]}
{"id": "C72", "title": "The adaptive genetic algorithm converges if its initial population has a spread", "statement": "With ordered rate ranges and an initial population whose fitness standard deviation is a finite positive number (or adjustment_interval 0), the adaptive algorithm reaches a fitness level that mutation can reach, with the rate of the lower end of the mutation range: the probability of missing it decays geometrically. If mutation only climbs one level of a ladder at a time, the expected number of calls of progress is bounded by the sum of the waiting times, provided that the crossover range leaves a chance of no crossover. Without a spread this fails (C68).", "quantifier": "all models with the default breeding and survival rule, lawful environments, initial populations, valid parameters with a non-linear strategy, numbers of generations", "why_tests_cant": "a limit of probabilities over an unbounded random process with adjusted rates", "anchors": ["src/algorithms/aga.rs:AdaptiveGeneticAlgorithm", "src/evolution.rs:Evolution::evolve_population"]}
{"id": "C73", "title": "What happens in one generation, and in a run", "statement": "A state follows another in the loop of evolve_population exactly if: pre_generation turned the old model and settings (for the adaptive algorithm after the adjustment of the rates) into the new ones, the selector was then prepared for the old population, the last elite_size individuals of the old population were kept, the missing ones were bred from the old population with the new settings (one only is bred and dropped), and the new population is made of these, sorted, without equal neighbours, with the statistics, generation and stagnation belonging to it. The outcomes of a run are exactly the chains of such steps from the evaluated and filtered initial population, with progress returning true before every step and false at the end; run and evolve_individual return the first fittest of the last population. With the default pre_generation all of m >= 2 bred individuals have a property with probability q^m, where q is the probability for one call of breed.", "quantifier": "all models, settings, states, environments, progress closures and numbers of generations", "why_tests_cant": "an equivalence between all outcomes of a random program and a relation; exact probabilities", "anchors": ["src/evolution.rs:Evolution::evolve_population", "src/algorithms/ga.rs:GeneticAlgorithm::prepare_for_next_population", "src/algorithms/aga.rs:AdaptiveGeneticAlgorithm::prepare_for_next_population", "src/algorithms.rs:EvolutionAlgorithm::generate_new_population"]}
{"id": "C74", "title": "The offspring of a crossover are exactly those its rule allows", "statement": "For parents that are permutations of the same distinct genes, the possible results of CrossoverStrategy::crossover (over all random draws and all iteration orders of the hash sets) are exactly the offspring the rule of the strategy allows: for SCX the tour prescribed for a pivot; for ERX every tour from a pivot that always goes on to a neighbour with the fewest unvisited neighbours (each is reached for some iteration orders); for PMX and OX the offspring of a non-empty range; for CX the offspring alternating the cycles; for SPX the offspring of a point; for GPX2 every concatenation of the common partitions. GPX2 keeps every common edge inside the first parent.", "quantifier": "all parents of at least two (strategies as a whole: three) distinct genes, all pivots and ranges", "why_tests_cant": "a rule is obeyed by all results and every result the rule allows occurs; ERX depends on the hash seed", "anchors": ["src/operators/crossover.rs:CrossoverStrategy::crossover", "src/operators/crossover.rs:edge_recombination_crossover", "src/operators/crossover.rs:sequential_constructive_crossover", "src/operators/crossover.rs:partially_mapped_crossover", "src/operators/crossover.rs:order_crossover", "src/operators/crossover.rs:cycle_crossover", "src/operators/crossover.rs:generalized_partition_2_crossover"]}
{"id": "C75", "title": "The common partitions of two permutations in closed form", "statement": "For permutations of at least three distinct, totally ordered genes, common_partitions returns exactly the longest runs of the first genome in which neighbours are also neighbours in the second, in the order of the first genome; only if the first run is a single gene, and the last gene of the last run is its neighbour in the second genome, these two runs form one partition: the single gene followed by the last run backwards. With fewer genes every gene is a partition. Two consecutive genes of the first genome that are neighbours in the second are therefore consecutive in some partition.", "quantifier": "all permutations and all total orders of the genes", "why_tests_cant": "an equation with a closed form for all genomes", "anchors": ["src/operators.rs:common_partitions", "src/operators.rs:common_neighbors"]}
{"id": "C76", "title": "Release builds: usize arithmetic that wraps around", "statement": "Without overflow checks, on populations of fewer than 2^32 individuals, every built-in selector (and select_distinct) behaves exactly as with checks: same results, panics and probabilities; where the index computation of linear selection would fail the check, the wrapped index is out of bounds. interpolate_usize behaves the same for min <= max, bounded_random_range for max_len <= n. Outside these conditions the builds differ: with 2^32 individuals rank selection can only select the worst 2^16; interpolate_usize(10, 0, 0.5) is 2^63; bounded_random_range(3, 5, 5) returns ranges outside 0..3 or with their end before their start.", "quantifier": "all selectors, populations, lengths and ratios", "why_tests_cant": "tests run in one build profile; equality of random programs", "anchors": ["src/operators/selection.rs:RankSelection::select", "src/operators/selection.rs:LinearSelection::select", "src/operators/selection.rs:RouletteWheelSelection::select", "src/operators/selection.rs:BoltzmannSelection::select", "src/lib.rs:interpolate_usize", "src/operators.rs:bounded_random_range"]}
{"id": "C77", "title": "The text of the statistics", "statement": "Displaying Stats writes nothing when no sample was recorded; otherwise it writes 'Samples: n; Min: a; Max: b; Average: c; Variance: d; STD: e' where n is the number of samples in decimal and a..e are the values the accessors return, all written with the requested precision if one is given and plainly if not; a snapshot writes the same text. If written numbers contain no semicolon, the text can be read back: two texts are equal only if the counts are equal and the five written values are equal.", "quantifier": "all sample sequences, precisions and number formats", "why_tests_cant": "a statement about all sample sequences and formats", "anchors": ["src/stats.rs:Display for Stats", "src/stats.rs:Display for PopulatedStats"]}
{"id": "C78", "title": "When the standard deviation computed in f64 is zero", "statement": "For two or more finite samples (below 2^1023, different ones at least 2^-400 apart, fewer than 2^64) the standard deviation and the variance computed in f64 are zero exactly when the average of the first two samples, as computed, equals the second and all further samples equal the second; otherwise both are positive. If different samples moreover differ by at least the 2^-50-th part of their size (for example integers up to 2^50), they are zero exactly when all samples are equal. For at most 2^53 samples of magnitude at most 2^450 both are finite. Hence the reference spread of the adaptive algorithm is finite and positive as soon as two members of the first population have different fitness. Without the separation this fails: the standard deviation of 1-2^-53 and 1 is zero.", "quantifier": "all sample sequences and populations within the bounds", "why_tests_cant": "rounding in every step of Welford's algorithm, for sequences of any length", "anchors": ["src/stats.rs:Stats::record", "src/stats.rs:Stats::var", "src/stats.rs:Stats::std", "src/algorithms/aga.rs:AdaptiveGeneticAlgorithm::prepare_for_next_population"]}
{"id": "C79", "title": "Climbing a ladder of fitness levels at any crossover rate", "statement": "Suppose elitism keeps the best individual, and levels 0..L are such that, for two individuals of which the second is at level i, crossing them and then mutating the offspring gives level i+1 with probability at least delta_i, and likewise mutating a lone individual at level i. With sigma a lower bound for the probability that the selection mechanism returns an individual at the present level, and rho the mutation rate (the lower end of the range, for the adaptive algorithm), each bred individual climbs with probability at least sigma*rho*delta_i/2 whatever the crossover rate is, even 1. Hence a run that stops at the top level calls progress at most 1 + sum_i 1/(1-(1-sigma*rho*delta_i/2)^m) times on average (m bred individuals per generation), and ends almost surely. With at least half the probability of selecting an individual of a set S, the second parent is in S, or there is none and the first parent is in S.", "quantifier": "all models with default breeding, all selection strategies that are total, all parameters, levels and numbers of generations", "why_tests_cant": "a bound on expectations and probabilities of runs of any length, at every crossover rate", "anchors": ["src/model.rs:EvolutionModel::breed", "src/operators/selection.rs:SelectionMechanism::select_distinct", "src/algorithms/ga.rs:GeneticAlgorithm", "src/algorithms/aga.rs:AdaptiveGeneticAlgorithm"]}
{"id": "C80", "title": "OneMax is solved at any crossover rate, also by the adaptive algorithm", "statement": "For OneMax with n bits, a strategy that prefers fitter individuals and at least one elite, the genetic algorithm finds the all-ones genome almost surely at every crossover rate, even 1, with at most n + 8Bn(n-1)H(n-1)/(m rho) calls of progress on average (B the larger of the population size and the number of initial individuals, m the bred individuals per generation, rho the mutation rate, H the harmonic numbers). The same holds for the adaptive algorithm with ordered ranges, rho being the lower end of the mutation range, if the rates are never adjusted or two initial individuals have different numbers of ones. The spread of an initial population is zero exactly if all its individuals have the same number of ones, otherwise it is finite and positive (n up to 2^49). The condition on the start is needed: from a single unsolved genome the adaptive algorithm, adjusting in every generation, goes on forever with probability at least (1-rho)^N.", "quantifier": "all genome lengths, initial populations, parameters within the stated bounds, seeds and numbers of generations", "why_tests_cant": "expectations over all seeds of runs of unbounded length", "anchors": ["src/lib.rs:OneMaxEvolutionModel", "src/algorithms/aga.rs:AdaptiveGeneticAlgorithm::prepare_for_next_population", "src/algorithms/aga.rs:AdaptiveGeneticAlgorithm", "src/operators/crossover.rs:single_point_crossover"]}
{"id": "C81", "title": "The floating-point arithmetic of the model is IEEE 754 binary64", "statement": "Every sum, difference, product, quotient and square root of finite numbers is the exact real result rounded to the nearest binary64 number, ties to the even significand; results that round to 2^1024 or more are infinite; zeros get the sign of the standard; NaN and infinities propagate as in the standard; comparisons are those of the extended real line and false for NaN; conversions from and to usize round, truncate and saturate as Rust does. These rules determine each result uniquely.", "quantifier": "for all f64 values, finite or not, all rationals and all usize values", "why_tests_cant": "Testing covers a tiny part of the 2^128 pairs of arguments, and a test on the same hardware cannot show that a model used in proofs is the arithmetic of the code.", "anchors": ["src/stats.rs:Stats::record", "src/stats.rs:Stats::std", "src/operators/selection.rs:BoltzmannSelection", "src/algorithms/aga.rs:AdaptiveGeneticAlgorithm::prepare_for_next_population"]}
{"id": "C82", "title": "Selection pressure: fitter individuals are selected at least as often", "statement": "Under tournament, rank and elitist selection the probability that an individual is selected does not decrease with its rank; under roulette-wheel selection with non-negative fitness a fitter individual is at most n/2^48 less likely than a less fit one; under linear selection in exact arithmetic the interval of draws that select an individual grows linearly with its rank for a bias between 1 and 2 (and shrinks for a bias below 1), and a larger bias never selects a less fit individual from the same draw. Consequently a selection whose probabilities do not decrease with the rank, such as the first three, picks one of the m fittest of n with probability at least m/n, and the expected fitness of the selected individual is at least the average of the population.", "quantifier": "for all populations, sizes, strategies, parameters, ranks and draws", "why_tests_cant": "A test samples a few selections; it cannot establish an inequality between probabilities, nor an expectation, for every population and parameter.", "anchors": ["src/operators/selection.rs:TournamentSelection", "src/operators/selection.rs:RankSelection", "src/operators/selection.rs:ElitistSelection", "src/operators/selection.rs:RouletteWheelSelection", "src/operators/selection.rs:LinearSelection"]}
{"id": "C83", "title": "The roulette wheel with fitness values that are not positive", "statement": "If no fitness is positive or NaN, roulette-wheel selection (the default strategy) selects only the least fit or the fittest individual, whatever the prepared total. With s the share of the least fit individual in the total, it selects the least fit with probability 1 - s and the fittest with probability s, up to n/2^49. So with three or more individuals selection does not follow fitness. If every fitness is zero, it always selects the first individual.", "quantifier": "for all populations, orders of the parallel sum and draws; the probabilities for finite fitness values whose sum is between -2^1000 and -2^-960 and at most 2^40 individuals", "why_tests_cant": "A test would have to suspect that negative fitness values matter, and then sample many selections; no test states a probability for every population.", "anchors": ["src/operators/selection.rs:RouletteWheelSelection"]}
{"id": "C84", "title": "Linear selection in f64 follows its exact distribution", "statement": "For a bias b with 1 < b <= 2 and a population of n <= 2^53 individuals, the f64 computation of LinearSelection::select picks one of the T fittest with a probability that differs from F(T/n), F(x) = b x - (b-1) x^2, by at most 2^-48/(b-1); each index with a probability within 2^-47/(b-1) of the exact one; it panics with a probability of at most 2^-48/(b-1); fitter individuals are preferred up to that error; and with b >= 1 + 2^-7 the fittest of 2 <= n < 2^32 individuals is selected with probability at least 1/n.", "quantifier": "for all finite biases in (1,2], all populations of at most 2^53 individuals, all indices", "why_tests_cant": "A test samples a few thousand draws of a few biases; errors of this size, and panics on single draws out of 2^53, are invisible to it.", "anchors": ["src/operators/selection.rs:434-475"]}
{"id": "C85", "title": "Frequencies of repeated selections", "statement": "Make N < 2^32 selections from n individuals with any program that selects, and count how often each index comes up. The counts add up to N; the expected count of i is N times the probability p_i; the probability that one of the frequencies is δ or more away from p_i is at most 2 n exp(-2 N δ²). With random draws in place of the seed 0, the unit tests of tournament, roulette wheel, rank, elitist and Boltzmann selection (100 000 selections from ten individuals, tolerance 0.01) pass with probability at least 1 - 10^-6, and the test of linear selection with probability at least 0.999.", "quantifier": "all programs that select, all numbers of selections and tolerances; for the tests all lawful sorts, parallel sums and exp functions within [1,2] on the scaled fitness values", "why_tests_cant": "The tests run one seed; a tolerance of 0.01 would not detect a small bias, and whether the tests pass by luck cannot be seen from them.", "anchors": ["src/operators/selection.rs:479-620", "src/operators/selection.rs:508-522"]}
{"id": "C86", "title": "Random draws from random words", "statement": "gen_range, choose/shuffle, Uniform, gen::<f64> and Standard bits of rand 0.8.5 make a number from 64-bit words, rejecting some. With independent uniform words every number in the range has the same probability, nothing else comes out, and more than t words are rejected with probability at most 2^-t. A program of the model whose choices are replaced by these procedures has no outcome that the model does not have, whatever generator supplies the words, except that a loop may not have ended; and its probabilities differ from those of the model by at most (number of choices) * 2^-t, which vanishes in the limit.", "quantifier": "all methods of drawing, all ranges that fit, all programs over random choices, all generators of 64-bit words", "why_tests_cant": "A test draws finitely often from one generator; a bias of the multiply-and-reject scheme of 2^-20 is far below what the tests could notice.", "anchors": ["Cargo.toml:14", "src/operators.rs:41-54", "src/operators.rs:102-112", "src/operators/mutation.rs:127-136", "src/operators/selection.rs:170-185", "src/model.rs:150-176"]}
{"id": "C87", "title": "The generator SmallRng", "statement": "With SmallRng (xoshiro256++, seeded by seed_from_u64) the model gives the results that the documentation states for random_pair, random_range, bounded_random_range and the five mutation strategies. The step of the generator is a bijection of the 2^256 states, so each state recurs; no seed leads to the state of zeros and no other state does; for all w0, w1, w2 and t exactly 2^64 states give w0, w1, w2 as words t, t+1, t+2; so a program that takes at most three words behaves from a random state exactly as with independent uniform words.", "quantifier": "all states, seeds, positions and triples of words; all programs over at most three words", "why_tests_cant": "The documentation examples run single seeds. Bijectivity and equidistribution are statements about all 2^256 states.", "anchors": ["src/lib.rs:136-141", "src/operators.rs:31-39", "src/operators.rs:63-70", "src/operators.rs:92-100", "src/operators/mutation.rs:79-89", "src/operators/mutation.rs:115-125", "src/operators/mutation.rs:152-162", "src/operators/mutation.rs:189-198", "src/operators/mutation.rs:230-239"]}
{"id": "C88", "title": "Problems over permutations", "statement": "A user's problem whose individuals are arrangements of distinct genes, with any crossover strategy but SinglePoint, any mutation strategy but Duplicate and any objective: runs of both algorithms neither panic nor hang, and every individual of every population is an arrangement of the genes. With Scramble as mutation the genetic algorithm solves every such problem: a run that stops at the fitness of a given arrangement ends almost surely, within k + 1 calls of progress with probability at least 1 - (1 - ρ/((n-1) n!))^(m k), where ρ is the mutation rate and m the number of individuals bred per generation.", "quantifier": "all gene types, numbers of genes, objectives, strategies, parameters, environments and random sources; both algorithms", "why_tests_cant": "A property of whole runs of any length over all problems; the tests run each operator on one pair of genomes.", "anchors": ["src/operators/crossover.rs:68-102", "src/operators/mutation.rs:56-66", "src/operators/mutation.rs:127-136", "src/model.rs:144-185", "src/algorithms/ga.rs:1-199"]}
{"id": "C89", "title": "Local optima", "statement": "Call a set of individuals a trap if the children of its members are in the set, not valid, or worse than a parent. Once all individuals are in a trap, no population of a run contains anything else, for both algorithms and whatever the parameters. So a run over arrangements from copies of a strict local optimum of the mutation never finds anything else. There is a problem with four genes for which the genetic algorithm with default parameters finds the best arrangement almost surely with Scramble, and never with Swap, Inversion, Insertion or Duplicate, whatever the crossover.", "quantifier": "all models with the default breed and can_survive, all traps, all algorithms with the default generation step, all parameters, numbers of generations and random sources", "why_tests_cant": "That something never happens, however long a run lasts, cannot be tested.", "anchors": ["src/model.rs:144-214", "src/algorithms.rs:211-235", "src/operators/mutation.rs:56-66"]}
{"id": "C90", "title": "How accurate average, variance and standard deviation are", "statement": "For samples between lo and hi whose magnitude is at most M, the average that Stats computes in f64 differs from the exact mean of the samples by at most (M(n+1)/2 + 3(hi-lo))*2^-53 plus a term of the order of the smallest positive number; for at least two samples the computed variance is finite and differs from the exact sample variance by at most (M W (n+1) + W^2 (2n+12))*2^-53 (W = hi-lo) plus such a term, and the square of the computed standard deviation by at most (M W (n+1) + W^2 (2n+21))*2^-53. For up to a thousand samples the average is within 10^-13 M of the mean.", "quantifier": "All lists of at most 2^53 (variance: 2^50) finite samples below 2^1023 (variance: up to 2^450) in magnitude, all enclosing bounds.", "why_tests_cant": "A test compares a handful of averages with a tolerance; how rounding errors accumulate over the steps of Welford's recurrence, for every order and magnitude of the samples, needs an error analysis.", "anchors": ["src/stats.rs:134-159", "src/stats.rs:207-248", "src/stats.rs:88-109"]}
{"id": "C91", "title": "Scheduling of parallel tasks does not matter", "statement": "With independent random draws: however the draws of parallel tasks are interleaved, even if the next task to run is chosen with knowledge of everything drawn so far, the probability of every property of the list of results, the probability of a failure, and the set of possible results are those of running the tasks one after another; the results of different tasks are independent; a failure of the whole is a failure of some task. In particular the distribution of a new generation does not depend on the schedule.", "quantifier": "All lists of programs, all adaptive interleavings of their draws (an inductive relation), all properties of the results.", "why_tests_cant": "A test sees the few schedules that the thread pool happens to produce on one machine.", "anchors": ["src/algorithms.rs:169-171", "src/algorithms.rs:211-232", "src/model.rs:243-247", "src/model.rs:280-286"]}
{"id": "C92", "title": "The pool of generators", "statement": "With concrete generators taken from and given back to the pool: whatever the threads do, the result of every item is a possible outcome of its program, so generate_new_population can only produce what the model with independent draws allows. With a single thread the result and the generator afterwards are those of running all items one after another with the generator on top of the pool, however the items are cut into pieces, so a seeded run can be repeated. Every outcome of the model occurs with some generator. If rng() always returns a generator with the same seed and every item is handled by a piece of its own before any piece ends, all new individuals are equal.", "quantifier": "All generators (state type, draw function in range), pools, event sequences (start, item, end of pieces) and programs.", "why_tests_cant": "Which thread takes which generator is decided by timing; tests with one seed and one machine cannot cover the schedules.", "anchors": ["src/algorithms.rs:211-232", "src/evolution.rs:152", "src/lib.rs:140-143"]}
{"id": "C93", "title": "What the model says about runs holds for every schedule", "statement": "However the tasks of each generation and of the initial evaluation are interleaved, the result of evolve_population has exactly the distribution that the sequential model gives (with independent draws), and the same possible outcomes. With concrete generators and the pool, whatever the threads do, every result of evolve_population, run and evolve_individual is a possible outcome of the sequential model; so what is proved of all outcomes holds of all concurrent runs. With one thread, a seeded run of the model is a run of the library.", "quantifier": "All models and algorithms using the default methods (both built-in ones do), all schedules, generators, thread counts, closures, numbers of generations.", "why_tests_cant": "A run of a test is one schedule out of astronomically many; equality of distributions cannot be tested.", "anchors": ["src/evolution.rs:48-183", "src/algorithms.rs:165-175", "src/algorithms.rs:211-232", "src/model.rs:233-287"]}
{"id": "C94", "title": "The text of the numbers loses nothing, or as little as the precision allows", "statement": "Without a precision every f64 written in the text of the statistics is read back exactly (also -0, infinities and NaN), with as few digits as possible, so the text determines all values of the summary. With precision p a finite number is written with exactly p digits after the point, off by at most half a unit of the last place, ties to an even digit, and keeping the order.", "quantifier": "All f64, all precisions, all summaries.", "why_tests_cant": "There are 2^64 numbers and unboundedly many precisions.", "anchors": ["src/stats.rs:250-254", "src/stats.rs:392-416"]}
{"id": "C95", "title": "The programs of the documentation: they end, and how likely their assertion holds", "statement": "The closure `fittest().fitness() < 0.999999 && generation() <= 100` ends every run after at most 102 calls, at the first population that reaches the target or with generation 101. With fewer than a million bits a returned OneMax genome is all true exactly if its fitness is at least 0.999999, and otherwise 101 generations were bred; the assertion of the three programs holds with probability at least 1-(1-2^-100)^100 and at most 1-2^-10000. From a million bits on the closure may stop at once with a false bit left.", "quantifier": "All lawful sorts and numerical environments, all random draws; the closure for every target, limit, model with safe operators and both algorithms; OneMax with every number of bits.", "why_tests_cant": "A documentation test runs a program once with one seed; that its assertion can fail has probability about 2^-10000 per initial population.", "anchors": ["README.md:143-159", "src/algorithms/ga.rs:111-131", "src/algorithms/aga.rs:129-147", "src/lib.rs:160-166", "src/evolution.rs:48-62"]}
{"id": "C96", "title": "Every other assertion of the documentation holds", "statement": "The assertions of the documentation about statistics, their text, common neighbours and partitions, the crossover operators and interpolation hold of the model; that of edge recombination for every iteration order of the sets. (Those with seeded generators are C87, those of the two algorithms C95.)", "quantifier": "The assertions themselves; edge recombination: all iteration orders of hash sets; the text: both choices between equally near decimals.", "why_tests_cant": "The assertions are tests; here they check the model against the code it describes, and the one on edge recombination is shown for every order of a hash set, of which a test sees one.", "anchors": ["src/stats.rs:19-31", "src/stats.rs:113-132", "src/stats.rs:165-197", "src/stats.rs:262-279", "src/operators.rs:127-135", "src/operators.rs:194-202", "src/operators/crossover.rs:131-151", "src/operators/crossover.rs:210-218", "src/operators/crossover.rs:309-325", "src/operators/crossover.rs:409-417", "src/operators/crossover.rs:473-481", "src/operators/crossover.rs:541-549", "src/operators/crossover.rs:623-631", "src/lib.rs:33-37", "src/lib.rs:57-61"]}
{"id": "C97", "title": "What the benchmarks compute", "statement": "The parents of the crossover benchmarks are two arrangements of 0..n, every pair equally likely. Every crossover benchmark ends without panic, with offspring of length n that are arrangements of 0..n (except with SinglePoint); with no genes five of the seven would panic. The mutation benchmarks keep the length, and except for Duplicate the arrangement. The benchmark of Stats gets count, minimum, maximum and positions right, the average (n-1)/2 exactly, and the variance n(n+1)/12 rounded once up to 378000 samples and up to a share of (n+2)/2^52 beyond.", "quantifier": "All genome lengths, numbers of calls, draws and hash orders; all numbers of samples up to 2^26.", "why_tests_cant": "A benchmark is run with one seed and its results are thrown away.", "anchors": ["benches/benchmarks.rs:5-81", "benches/benchmarks.rs:83-123", "benches/benchmarks.rs:125-132", "src/stats.rs:207-248", "src/operators/crossover.rs:70-120", "src/operators/mutation.rs:50-70"]}
{"id": "C98", "title": "Repeated duplicate mutation makes all genes equal", "statement": "k duplicate mutations of a genome leave the expected number of copies of each gene as it was and shrink the expected number of pairs of positions with different genes by exactly (1-2/(n(n-1)))^k. So the genes become all equal with probability tending to 1 at that rate, and each gene wins with the share it had at the beginning. The benchmark of Duplicate, which starts with 1000 different genes, measures a genome of equal genes after ten million mutations with probability more than 0.9995.", "quantifier": "All genomes, genes and numbers of mutations; probabilities for uniform independent draws.", "why_tests_cant": "The statement is about distributions over arbitrarily many steps.", "anchors": ["src/operators/mutation.rs:206-249", "benches/benchmarks.rs:96-101", "src/lib.rs:100-168"]}
{"id": "C99", "title": "Repeated mutation of arrangements: what mixes and what does not", "statement": "No mutation strategy looks at the genes. Every strategy but Duplicate keeps the uniform distribution on the arrangements of a genome. Repeated Scramble mutation approaches it: after k mutations of n genes every average over the result differs from the one over all arrangements by at most ((n-2)/(n-1))^k times the largest deviation. Repeated Swap mutation does not: k swaps permute the genes with the parity of k, so an odd number never gives back a genome of different genes.", "quantifier": "All strategies, genomes, numbers of mutations and observables; probabilities for uniform independent draws.", "why_tests_cant": "Distributions over n! arrangements after arbitrarily many steps.", "anchors": ["src/operators/mutation.rs:72-205", "benches/benchmarks.rs:83-123"]}
{"id": "C100", "title": "Runs started by the progress closure of another run", "statement": "No borrow of the algorithm is held while progress is called, so the closure may start runs of the same Evolution value, to any depth, and none of them panics for that. But the inner run configures the shared algorithm, and the outer run goes on with what it leaves: sizes, rates, selector and model. The populations of the outer run then have at most the number of individuals the inner parameters say, may be larger than the outer parameters allow, and may lose the best individual although the outer parameters ask for an elite. If the closure leaves the Evolution value alone, the run is the one without a cell.", "quantifier": "All algorithms of the standard form, models, closures, parameters, initial populations and draws.", "why_tests_cant": "The documentation does not mention nested runs and no test makes one; the tests would have to try every pair of parameters.", "anchors": ["src/evolution.rs:19", "src/evolution.rs:48-62", "src/evolution.rs:88-105", "src/evolution.rs:132-183", "src/evolution.rs:200-210"]}
{"id": "C101", "title": "Crossover does not depend on how genes are represented", "statement": "Renaming the genes of both parents by an injective function renames those of the offspring, draw for draw, including panics and endless loops, for every crossover strategy. GeneralizedPartition2 uses the order of the genes: the renaming has to keep it, except for permutations, where any two total orders give the same result. EdgeRecombination uses the order in which hash sets are iterated, which has to be renamed as well. The others use nothing but equality, and SinglePoint not even that.", "quantifier": "All strategies, gene types, injective renamings, orders, hash orders, parents of any length (also different lengths and not permutations), draws.", "why_tests_cant": "The statement relates executions on arbitrary gene types.", "anchors": ["src/operators/crossover.rs:68-102", "src/operators/crossover.rs:152-186", "src/operators/crossover.rs:219-285", "src/operators/crossover.rs:326-386", "src/operators/crossover.rs:418-450", "src/operators/crossover.rs:482-519", "src/operators/crossover.rs:550-600", "src/operators/crossover.rs:632-648", "src/operators.rs:136-239"]}
{"id": "C102", "title": "Stopping on stagnation ends every run with elites", "statement": "A run whose progress closure is `population.stagnation() < k` always ends if there is at least one elite and the fitness takes finitely many values: if the individuals that can occur are ranked 0..=B such that fitter ones have a higher rank, at most (B + 1) * k generations are bred, for either algorithm and whatever is drawn, and the run ends exactly when the best fitness has not improved for k generations. For OneMax with n bits this is (n + 1) * k generations. Without elites it is false: the best individual can be lost and found again forever, for every k of at least 2.", "quantifier": "All algorithms built the standard way (both built-in ones), models with safe operators, rankings, k, parameters with an elite, initial populations, draws, thread schedules.", "why_tests_cant": "Whether all executions end, and the worst case over all draws, cannot be observed by running some of them; without elites all but a null set of executions may still end.", "anchors": ["src/population.rs:57-80", "src/evolution.rs:131-189", "src/algorithms/ga.rs:166-175", "src/algorithms/aga.rs:186-195", "src/lib.rs:71-168"]}
{"id": "C103", "title": "Runs that select by rank see only the order of fitness", "statement": "If parents are selected by tournament, rank, linear or elitist selection, a run of the genetic algorithm depends on the fitness only through its order: two models whose individuals are ordered, valid and equal alike, and whose operators correspond, make runs that go in step. With the same draws they draw from the same ranges, call progress equally often on corresponding populations with the same generation and stagnation, end or panic alike and return corresponding individuals; corresponding events have the same probability. The same holds for the adaptive algorithm with adjustment interval 0. For example OneMax with any score that ranks genomes by their number of ones makes the runs of OneMax. It is false for roulette wheel selection, and for the adaptive algorithm if it adjusts its rates.", "quantifier": "All pairs of corresponding models, parameters with such a selection strategy, initial individuals, progress closures that treat corresponding populations alike, numbers of generations, draws, and sorts that act alike on corresponding lists.", "why_tests_cant": "It relates all executions of two programs; a test compares two runs for some seeds and one transformation of the fitness.", "anchors": ["src/operators/selection.rs:112-184", "src/operators/selection.rs:328-475", "src/model.rs:144-185", "src/population.rs:57-139", "src/evolution.rs:131-189", "src/algorithms/ga.rs:155-181", "src/algorithms/aga.rs:174-224"]}
{"id": "C104", "title": "What the unstable sort and the parallel sums can change", "statement": "If individuals that can occur have a fitness that is not NaN, and different ones have different fitness, then all sorts that meet the contract of par_sort_unstable_by give the same order, so the population made from given individuals is determined. Runs that select by tournament, rank, linear or elitist selection are then determined by their draws: with any two lawful environments (sorts, and ways to bracket the parallel sums, which may vary from generation to generation) evolve_population, evolve_individual and run draw from the same ranges and give the same populations, states and results. This holds for the genetic algorithm and for the adaptive one, also while it adjusts its rates. It is false with ties: duplicates are only removed where the sort puts them side by side, so populations of different size can arise. And it is false for roulette wheel selection, which depends on how the sum of the fitness is bracketed.", "quantifier": "All models whose operators keep the invariant, pairs of lawful environments per generation, parameters with such a selection strategy, initial individuals, progress closures, numbers of generations and draws.", "why_tests_cant": "The order of ties and the bracketing depend on the scheduling of threads, which tests do not control; a run of a test sees one of them.", "anchors": ["src/population.rs:57-139", "src/operators/selection.rs:195-227", "src/model.rs:144-185", "src/evolution.rs:131-189", "src/algorithms/ga.rs:155-181", "src/algorithms/aga.rs:174-224"]}
{"id": "C105", "title": "Boltzmann selection when it has cooled down", "statement": "The documentation says that Boltzmann selection encourages exploitation in the later stages. In exact arithmetic this holds: after enough preparations, an individual whose fitness is lower than another one's by at least a given gap has a share in the wheel below any given bound. In f64 it is false. With a finite temperature that is not negative and a cooling rate strictly between 0 and 1, the temperature falls geometrically up to rounding, and is below 2^-1022 for good after finitely many preparations. Then exp(fitness / temperature) overflows for positive fitness and underflows for negative fitness. If some fitness is positive, the total and the target are infinite, and the LEAST fit individual of positive fitness is selected with probability 1 - 2^-53; the draw 0 makes the target NaN and selects the last, fittest individual. If every fitness is negative, all weights are zero and the least fit individual is always selected. More generally this happens from the first individual whose weight makes the running sum infinite. In a run the selector is prepared once per generation, so for given parameters there is a generation from which on every run of either algorithm breeds in this way.", "quantifier": "All temperatures, cooling rates in (0,1), populations of the stated kind, ways to bracket the sums, functions exp that are infinite from 1024 on and zero up to -1024, models that keep the selector, progress closures, initial individuals and numbers of generations.", "why_tests_cant": "The temperature falls over hundreds of generations before the weights overflow, and the effect looks like bad luck: the run goes on without a panic.", "anchors": ["src/operators/selection.rs:230-336", "src/algorithms/ga.rs:155-181", "src/algorithms/aga.rs:174-224", "src/evolution.rs:131-189"]}
{"id": "C106", "title": "Runs without mutation", "statement": "If the mutation rate is zero and crossover takes each gene from one of the parents at the same position, as single-point crossover does, a run brings no gene to a position where no individual had it: in every population of the run each gene of each individual occurs at the same position of an individual of the population before, and of an initial individual. A gene that is missing at a position, or gets lost there, never returns. If the crossover rate is zero too, every individual has the genes of an initial one. Both hold for the genetic algorithm and for the adaptive one with rates from zero to zero, where the adjusted rates are zero or NaN. For OneMax it follows that without mutation run solves the problem at most with the probability that the random initial population has a true bit at every position, which is exactly (1 - 2^-N)^n for N individuals of n bits, however long it runs.", "quantifier": "All models whose crossover, improve and evaluate treat genes in this way and whose other functions are the defaults, lawful environments, parameters with zero rates, initial individuals, progress closures, numbers of generations and draws.", "why_tests_cant": "That something never appears in a run of any length, for any draws, cannot be seen in finitely many runs; the bound on the probability holds uniformly in the number of generations.", "anchors": ["src/model.rs:144-185", "src/operators/crossover.rs:97-100", "src/operators/crossover.rs:632-643", "src/algorithms/ga.rs:155-181", "src/algorithms/aga.rs:174-224", "src/lib.rs:71-168"]}
{"id": "C107", "title": "What a mutation does to a round trip", "statement": "Read a genome as a round trip through its genes. Swapping breaks at most four edges of the trip, insertion at most three, inversion at most two if edges have no direction, duplication at most two, and scrambling (or inversion with directed edges) at most one more than the length of the window. As many edges are new as are lost, so the length of the trip changes by at most the number of lost edges times the difference between the longest and the shortest possible edge. Reversing all genes or all but one leaves the undirected trip as it is; reversing any other window of different genes changes it. So on n >= 3 different genes inversion has no effect on the trip with probability exactly 2 / (n - 1).", "quantifier": "All genomes, also with repeated genes, all draws, all edge functions and edge lengths; all lengths n >= 3 for the probability.", "why_tests_cant": "The bounds hold for every genome and every draw, and the probability is an exact value over all draws; tests see samples of short genomes.", "anchors": ["src/operators/mutation.rs:54-62", "src/operators/mutation.rs:91-99", "src/operators/mutation.rs:127-135", "src/operators/mutation.rs:164-172", "src/operators/mutation.rs:201-212", "src/operators/mutation.rs:241-249", "src/operators.rs:102-112"]}
{"id": "C108", "title": "Crossing two writings of the same round trip", "statement": "Two genomes without repetitions stand for the same round trip (they have the same undirected edges) exactly if one is the other read from another gene on, forwards or backwards. If both parents stand for the same trip, every offspring of GPX2, SCX and ERX stands for it too; GPX2 returns the first parent, and SCX the first parent read from the pivot on if both have the same direction. A genome crossed with itself is returned by every strategy but SCX and ERX, and these return a writing of the same trip. PMX, OX and CX work with positions instead: they can make a different trip of two writings of the same one.", "quantifier": "All genomes of at least three different, totally ordered genes, all pivots, draws and iteration orders of the hash sets.", "why_tests_cant": "Iteration orders of hash sets and draws are quantified over, and the claim is about genomes of every length; a test sees one order and one length at a time.", "anchors": ["src/operators/crossover.rs:68-102", "src/operators/crossover.rs:152-186", "src/operators/crossover.rs:219-285", "src/operators/crossover.rs:326-386", "src/operators/crossover.rs:418-450", "src/operators/crossover.rs:482-519", "src/operators/crossover.rs:550-600"]}
{"id": "C109", "title": "The adaptive rates with every rounding", "statement": "With range ends in [0,1] and a positive reference spread, the rates the adaptive algorithm computes in f64 respond monotonically to the spread: more spread never lowers the crossover rate and never raises the mutation rate. No spread gives exactly the lowest crossover rate, the reference spread or more exactly the lowest mutation rate. The crossover rate is within 4*2^-54 and the mutation rate within 5*2^-54 of the exact formula, for ranges written backwards too. The rates never fall below the lower end of an ordered range; they can exceed the upper end, but by at most 2^-53, and exactly this much for 148/300..299/300 at full diversity.", "quantifier": "All finite spreads, all finite positive references (quotients that overflow included), all ranges with ends in [0,1].", "why_tests_cant": "Monotonicity and an error bound over all pairs of doubles cannot be enumerated; the one-ulp overshoot shows only for particular ranges.", "anchors": ["src/algorithms/aga.rs:198-224"]}
{"id": "C110", "title": "What the parents agree on and crossover keeps", "statement": "PMX, CX and single-point crossover keep every gene that both parents have at the same position; OX, SCX, ERX and GPX2 do not. GPX2 keeps every edge common to both parents except perhaps the one from the last gene of the first parent back to its first, and makes at most as many edges that a parent lacks as there are common partitions; PMX, OX, CX, SCX and ERX can lose other common edges. In runs without mutation, what crossover keeps stays for ever: with PMX or CX the genes on whose positions all initial individuals agree, with GPX2, SCX or ERX the round trip if all initial individuals stand for the same one.", "quantifier": "All permutations, draws, ranges, pivots, partition selectors and (for what is kept) hash orders; all runs of both algorithms with mutation rate zero.", "why_tests_cant": "What all offspring have in common is a statement about every draw and every genome; a run shows one of them.", "anchors": ["src/operators/crossover.rs:68-102", "src/operators/crossover.rs:152-186", "src/operators/crossover.rs:418-450", "src/operators/crossover.rs:550-600", "src/operators/crossover.rs:632-648", "src/model.rs:144-186"]}
{"id": "C111", "title": "No run is faster than its operators", "statement": "What one crossover and one mutation can change at most limits what a run can reach in a given number of generations. In a run of OneMax whose initial individuals have at most B ones, no individual of generation g has more than 2^g (B + 1) - 1 ones, and none more than B + g if there is no crossover. In a problem over round trips without crossover, every individual of generation g lacks at most n g edges of some initial individual, where n is 4 for swap, 3 for insertion, 2 for duplicate, and 2 for inversion if edges have no direction.", "quantifier": "All runs of both algorithms: all draws, initial individuals, parameters, callbacks, numbers of generations and generations shown; any model whose operators have a pace.", "why_tests_cant": "That something is not reached within g generations is a statement about every draw of every run.", "anchors": ["src/algorithms/ga.rs:155-181", "src/algorithms/aga.rs:174-224", "src/evolution.rs:132-183", "src/model.rs:144-185", "src/operators/mutation.rs:54-62", "src/operators/crossover.rs:632-643", "src/lib.rs:71-168"]}
{"id": "C112", "title": "Without crossover and mutation only the elites remain", "statement": "With both rates zero (for the adaptive algorithm: both ranges zero) a run loses the variety it starts with. If the selection strategy is tournament, rank, elitist or linear selection with a usual bias, at least two offspring are bred per generation, and the operators keep genes, then after k generations, with probability at least 1 - (1 - (1/b)^n)^k, the run was stopped by its callback or its individuals have at most max(e, 1) different genes, where n is the population size, e the number of elites and b the larger of n and the number of initial individuals. A run that is never stopped gets there almost surely, and then stays there.", "quantifier": "All models whose improve and evaluate keep the genes, all parameters with these strategies, initial individuals, callbacks, numbers of generations; probabilities over all draws.", "why_tests_cant": "A limit over all numbers of generations and a probability bound for every model cannot be measured by finitely many runs.", "anchors": ["src/algorithms/ga.rs:155-181", "src/algorithms/aga.rs:174-224", "src/algorithms.rs:211-232", "src/evolution.rs:132-183", "src/model.rs:144-185", "src/population.rs:58-68"]}
{"id": "C113", "title": "Whole runs in both kinds of build", "statement": "With a population size and an initial population below 2^32 and fewer than 2^64 calls of progress, evolve_population, run and evolve_individual of both algorithms make the same draws and have the same outcome in a build with overflow checks (in which also the counters of generations and stagnation are checked) and in a release build, in which usize arithmetic wraps around; both are those of the model, which counts without bound. At generation 2^64 - 1 the builds differ: the checked one panics and the release build goes on at generation 0.", "quantifier": "All models with the default breed, operators, selectors of the user, parameters, initial individuals, callbacks, draws and numbers of generations below 2^64.", "why_tests_cant": "Tests run in one build at a time, and compare finitely many runs.", "anchors": ["src/algorithms/ga.rs:155-181", "src/algorithms/aga.rs:174-224", "src/evolution.rs:132-183", "src/model.rs:144-185", "src/population.rs:58-68", "src/lib.rs:63-65"]}
{"id": "C114", "title": "What holds for runs holds for run and evolve_individual", "statement": "If every run of evolve_population from initial_population_size individuals with a property S ends within a number of calls of progress with probability at least c, and progress stops only when the fittest individual has a property g, then run (with random individuals that have S) and evolve_individual (from an individual with S whose mutants have S) return an individual with g with probability at least c; bounds on the expected number of calls carry over too. So evolve_individual of the genetic algorithm solves OneMax almost surely from any genome with a true bit, with a bound on the expected time, and with Scramble it reaches the fitness of any arrangement. The adaptive algorithm does so when its rates are not adjusted; by default it can get stuck for ever, because all mutants of the individual may be equal to it.", "quantifier": "All algorithms that work as the built-in ones do, models with the default extension methods, callbacks, parameters, individuals and draws.", "why_tests_cant": "The statements are about probabilities of outcomes of unbounded runs.", "anchors": ["src/evolution.rs:48-62", "src/evolution.rs:88-105", "src/model.rs:233-248", "src/model.rs:264-287", "src/lib.rs:131-167"]}
{"id": "C115", "title": "How often a run calls the user's methods", "statement": "To breed one individual, the default breed calls improve and evaluate exactly once each, and crossover, mutate and can_survive at most once each. A run of either algorithm therefore calls evaluate once for every initial individual and once for every individual bred, improve once for every individual bred, pre_generation once for every generation, and crossover, mutate and can_survive at most once for every individual bred. The number bred for a generation is the population size less the elites carried over, of which there are as many as configured or as there are individuals; so g generations take between g * (size - elites) and g * size of them, exactly the former if no population has fewer individuals than elites. An individual is bred and evaluated even when it is the only one missing, in which case it is dropped. Filling the initial population of evolve_individual takes size - 1 calls of mutate.", "quantifier": "All models with the default breed, methods and selectors of the user that draw random numbers as they like (but no number from exactly 2^64 + 1 values), population sizes up to 2^53, callbacks, draws and numbers of generations.", "why_tests_cant": "A test counts the calls of finitely many runs with particular methods; the statement holds on every path of every run.", "anchors": ["src/model.rs:144-185", "src/algorithms.rs:165-175", "src/algorithms.rs:211-232", "src/algorithms/ga.rs:166-181", "src/algorithms/aga.rs:186-224", "src/evolution.rs:132-183", "src/model.rs:264-287"]}
{"id": "C116", "title": "The adaptive algorithm on problems over permutations", "statement": "With Scramble as mutation, any crossover strategy except SinglePoint and any objective, the adaptive genetic algorithm whose rates are never adjusted finds the fitness of any chosen arrangement (such as an optimal one) almost surely, and within k + 1 calls of progress with probability at least 1 - (1 - m / ((n - 1) n!))^((size - elites) k), where m is the lower mutation rate and n the number of genes. With rate adjustment the same holds if the objective is an integer of magnitude at most 2^50 and two of the initial arrangements differ in it; the reference deviation is zero exactly if none do. For run, with random arrangements none of whose objective values is likelier than s, the bound is multiplied by 1 - s^(size - 1). Without two different objectives it fails: from a single evaluated arrangement with rates adjusted in every generation, a run that is not stopped there goes on forever with probability at least (1 - m')^size, where m' is the chance that a mutation is performed at the lower rate, and contains nothing but copies of it.", "quantifier": "All gene types, gene lists of length at least 2 without repetitions, objectives as described, crossover strategies for permutations, valid parameters with at least two individuals more than elites and rate ranges in order, callbacks that stop at the wanted fitness, draws, environments and numbers of generations.", "why_tests_cant": "Almost sure termination and running forever cannot be observed by finitely many runs, and the probabilities are too small to estimate.", "anchors": ["src/algorithms/aga.rs:174-224", "src/evolution.rs:132-183", "src/evolution.rs:48-62", "src/operators/mutation.rs:127-135"]}
{"id": "C117", "title": "Writing the statistics to any writer", "statement": "Of all the options of the formatter only the precision has an effect on what Display writes for Stats and PopulatedStats; width, fill, alignment, sign and the alternate flag have none. Whatever the writer, it is given the text of C77 from the front, in pieces, and nothing after the first piece it refuses, and the result is Ok exactly if it accepted all of them. A String receives the whole text. A buffer that refuses what does not fit accepts exactly the texts that fit as a whole, in whatever pieces numbers are handed over, and otherwise ends with a beginning of the text. Without samples the writer is not called and the result is Ok, even if it would refuse everything; with samples such a writer is called exactly once.", "quantifier": "All statistics, sample types, formatter options, writers (also ones that fail or change state when they fail), ways of cutting the numbers into pieces, and buffer sizes.", "why_tests_cant": "Tests print to a String with one or two sets of options; failing writers, other options and other ways of cutting are endlessly many.", "anchors": ["src/stats.rs:250-254", "src/stats.rs:392-416"]}
{"id": "C118", "title": "The vectors of a run and their capacities", "statement": "run and evolve_individual make two vectors with room for population_size individuals; neither is ever enlarged, and together they never hold more than twice population_size individuals. In evolve_population the vector made there is never enlarged; the given one is not enlarged if it has room for population_size individuals, otherwise at most three times in the whole run, not in the first generation, and by the end of the second if it lacks room for population_size - 1. A run with such vectors draws and returns the same as in the rest of the model unless something is too large for a vector. If population_size individuals take more than isize::MAX bytes, run and evolve_individual panic before an individual is made and evolve_population never calls progress, although validate accepts the parameters.", "quantifier": "All models with the default ways of making initial populations, both algorithms with population sizes up to 2^53 (any algorithm and size for the panics), sizes of individuals, policies of the library for enlarging vectors, capacities of the given vector, callbacks, draws and numbers of generations.", "why_tests_cant": "Whether a vector is ever enlarged depends on all generations of a run and on duplicates among the individuals; capacities and peaks are invisible to tests of results.", "anchors": ["src/evolution.rs:54-59", "src/evolution.rs:97-102", "src/evolution.rs:150-180", "src/population.rs:58-59", "src/algorithms.rs:211-232", "src/model.rs:238-247", "src/model.rs:274-287", "src/algorithms/ga.rs:79-85", "src/algorithms/aga.rs:88-94"]}
{"id": "C119", "title": "Genes put in their places by swaps", "statement": "On a problem over arrangements of n distinct genes whose fitness is the number of genes that are in their place, with Swap as mutation: a swap puts more genes in their place with probability at least (n - i)/(n(n-1)) if i are; order and partially mapped crossover copy the first parent with probability at least 1/n. So a run of the genetic algorithm that stops at fitness n calls progress at most n + 1 + 2 B n (n-1) H(n) / (m k r) times on average (B bounds the population, m individuals are bred, k is the probability of no crossover, r the mutation rate), and at most n + 1 + 2 B n^2 (n-1) H(n) / (m r) times with order or partially mapped crossover at any crossover rate; likewise the adaptive algorithm with the ends of its ranges, if two initial individuals differ in the fitness. If C bounds the expected number of calls, the run has ended after K calls with probability at least 1 - C/K, and then its fittest individual is the solution; likewise evolve_individual. With Insertion instead of Swap, the genetic algorithm with its default parameters never solves such a problem with five genes from an arrangement with three in their place.", "quantifier": "All types of genes, genes with 2 to 2^50 elements, strategies except random selection (with valid parameters), all crossovers for arrangements, initial populations, rates, environments, callbacks that stop at fitness n, and numbers of generations.", "why_tests_cant": "A bound on an expected number of generations, over all draws and all lengths of runs; that insertions never solve the problem is about runs without end.", "anchors": ["src/operators/mutation.rs:91-99", "src/operators/mutation.rs:201-212", "src/operators/crossover.rs:418-450", "src/operators/crossover.rs:482-519", "src/model.rs:144-185", "src/evolution.rs:150-180"]}
{"id": "C120", "title": "Models with shared state", "statement": "A model may have state that its methods, the progress closure, new_random and its selectors share through &self (a lock, an atomic, a cache), that parallel tasks access in any order, and that other threads of the program may change at any time. Whatever a run does then, it is something that a run of some model without such state can do. So with shared state too: only valid (and, with the default breed, evaluated) individuals are in the populations, sizes stay bounded, generations are numbered, the best fitness never decreases with an elite, run and evolve_individual return the fittest individual of the last population and with an elite the best one found, and runs do not panic if the methods end normally in every state. If the methods behave the same in all states with some invariant and keep it, the outcomes are exactly those without the state; a memo table for evaluate is such a case, even if entries are dropped or computed twice. But runs are not independent of earlier runs any more, and the schedule matters: with a counter in evaluate, the same call without random choices gives 10, then 11, and two parallel evaluations give best fitness 20 or 21.", "quantifier": "All types of individuals, models and shared states, methods (also a breed of the user's), behaviours of other threads, interleavings of the tasks, environments, callbacks, initial populations, parameters, and numbers of generations.", "why_tests_cant": "Interleavings of parallel tasks with shared state cannot be enumerated or forced by tests; the claims are about all of them.", "anchors": ["src/model.rs:23-30", "src/model.rs:144-185", "src/model.rs:233-248", "src/model.rs:264-287", "src/algorithms.rs:165-175", "src/algorithms.rs:211-232", "src/evolution.rs:48-62", "src/evolution.rs:88-105", "src/evolution.rs:132-183"]}
{"id": "C121", "title": "Probabilities with shared state", "statement": "With shared state (C120), whoever decides which parallel task makes the next step and what other threads do may look at everything drawn so far and at the shared state. If the state makes no difference to what the methods do (they behave the same in all states with some invariant, which everybody keeps), then for every such schedule all results have exactly the probabilities and expected values of the run without the state, for both algorithms and all three ways to start a run. So OneMax with a memo table shared by all tasks is solved almost surely, in the same expected number of generations. If the state makes a difference, the schedule can change probabilities: two individuals are evaluated in parallel with fair coins and a counter, and the probability that one of them wins is 1/4, 1/2 or 3/4, depending on the schedule. Under every behaviour of schedules and other threads that may do nothing, a run has some outcome, and its outcomes are those of C120.", "quantifier": "All types of individuals, models and shared states, schedules that depend on the past in any way, behaviours of other threads, environments, callbacks, initial populations, parameters, and numbers of generations.", "why_tests_cant": "Schedules of parallel tasks cannot be controlled by tests, and probabilities not be measured exactly; the claims hold for all schedules.", "anchors": ["src/model.rs:23-30", "src/model.rs:144-185", "src/model.rs:233-248", "src/model.rs:264-287", "src/algorithms.rs:165-175", "src/algorithms.rs:211-232", "src/evolution.rs:48-62", "src/evolution.rs:88-105", "src/evolution.rs:132-183"]}
{"id": "C122", "title": "What the crossovers spend", "statement": "On two permutations of n genes, CX compares genes exactly n(n+1)/2 times, whatever the permutations. PMX and OX with a range of m genes compare genes at least (n-m)m and at most (n-m)m + m(m+1)/2 times, both bounds are attained, and neither ever compares more often than CX. SCX compares genes at most 4n(n-1) times and makes at most (n-1)(n+3) operations on its set of visited genes, for any genomes and any pivot, also when it panics. ERX compares no genes itself and makes at most 6n + (n-1)(2n+10) operations on hash sets and maps, in whatever order these are iterated.", "quantifier": "All gene types, genome lengths, pairs of permutations (for SCX all genomes), pivots, ranges, and iteration orders of hash sets.", "why_tests_cant": "Tests measure time on examples; the claims are about the worst case over all permutations and ranges, and for CX that there is no better or worse case.", "anchors": ["src/operators/crossover.rs:219-285", "src/operators/crossover.rs:326-386", "src/operators/crossover.rs:418-450", "src/operators/crossover.rs:482-519", "src/operators/crossover.rs:550-600", "src/operators/crossover.rs:645-648"]}
{"id": "C123", "title": "What GPX2 spends", "statement": "common_neighbors makes exactly one comparison (<) and one hash operation for each gene of the two genomes (none at all if the first has fewer than two genes or the second fewer than three). common_partitions searches the list of the c common pairs once for every gene of the first genome: at most n1 + n2 + 2 c n1 comparisons, at least 2 c k for k partitions, and at most 3 n1 + n2 + 2c hash operations, for any two genomes. Assembling the offspring costs j hash operations for every gene of the partition selected as number j, whatever the selector, so between n + k(k-1)/2 and kn - k(k-1)/2 (both attained); with the random selections of the strategy it is n(k+1)/2 on average, whatever the sizes of the partitions. In all, GPX2 of two permutations makes at most 2n(n+1) comparisons and 6n + n(n+1)/2 hash operations.", "quantifier": "All gene types and orders, all genomes (totals: all pairs of permutations), all selectors that select one of the partitions, deterministic, random or with a state.", "why_tests_cant": "Tests measure time on examples; the claims are exact or worst-case counts over all permutations and selectors, and an expected value.", "anchors": ["src/operators.rs:136-176", "src/operators.rs:203-239", "src/operators/crossover.rs:76-80", "src/operators/crossover.rs:152-186"]}
{"id": "C124", "title": "What the crossover strategies spend on average", "statement": "With their random ranges, PartiallyMapped and Order compare genes between (n²-1)/6 and (n+1)(2n+1)/6 times on average, whatever the two permutations of n genes; that is between about one and two thirds of the n(n+1)/2 comparisons of Cycle. The mean number of hash operations of GeneralizedPartition2 is that of common_partitions plus n(k+1)/2 for k partitions. Whatever the strategy, the permutations and the draws, there are at most 4n² comparisons and 2n²+14n hash operations; SinglePoint and EdgeRecombination make no comparisons, PartiallyMapped, Order, Cycle and SinglePoint no hash operations.", "quantifier": "All gene types and orders, all pairs of permutations of at least two genes, all strategies, draws and iteration orders of hash sets; the means are over the draws.", "why_tests_cant": "Tests measure time on examples; the claims are about expected values over all draws, for every pair of permutations, and about the worst case.", "anchors": ["src/operators/crossover.rs:68-102", "src/operators/crossover.rs:418-450", "src/operators/crossover.rs:482-519", "src/operators/crossover.rs:550-600"]}
{"id": "C125", "title": "Panics that a caller catches", "statement": "However a run ends, by returning or by a panic anywhere in it (user methods, the closure, assertions), the RefCell of the Evolution value is not in use afterwards and the model has changed only as pre_generation may change it. If pre_generation keeps the model, the next run, in whichever of the three ways either of them is started, is the same as the first run of a new value. A call with parameters outside their domain panics and leaves the value as it was. A call whose selection strategy is outside its domain panics after the sizes and rates have been assigned: the value then holds those with the old selector, and a run whose closure catches that panic goes on with them.", "quantifier": "All models, algorithms, user methods (random, panicking, changing the model before they panic), closures, environments, parameters and prior states; runs of any length.", "why_tests_cant": "A test catches a panic at a few places; the claims are about panics at every place of a run and about everything that later runs can observe.", "anchors": ["src/evolution.rs:48-62", "src/evolution.rs:88-105", "src/evolution.rs:132-183", "src/algorithms/ga.rs:155-163", "src/algorithms/ga.rs:178-181", "src/algorithms/aga.rs:174-183", "src/algorithms/aga.rs:198-224"]}
{"id": "C126", "title": "Schemata", "statement": "A schema prescribes genes at some positions of a genome of n genes, all of them between first and last; o is the number of prescribed positions. SinglePoint: parents that both match have a matching offspring; if the first one matches, the offspring does with probability at least (n-1-last)/n, if the second one, at least (first+1)/n, and these bounds are attained. Duplicate: a match survives with probability at least 1-o/n. breed with these operators, in a model where every offspring survives, returns a match with probability at least (1-rho*o/n) times ((1-chi) times the chance that a selected parent matches + chi times the mean weight of the matching ones among two parents), rho and chi being the exact chances of mutation and crossover. Holland's form (1-rho*o/n)(1-chi*(last-first)/n) times the chance of the parent follows if second parents match as often as first ones; without this it is false, as select_distinct seeks a partner unlike the first. With any rule for the survival, parents that all match have a matching offspring but for mutation; the full bound is false for OneMax with the default rule. A generation contains on average as many good individuals, of whatever kind, as its elites do, plus the chance of a good offspring for each missing individual; a single missing one is not made.", "quantifier": "All schemata, genomes, populations of at least two, selectors, rates, gene types and models with these operators; the real operators of the OneMax module among them.", "why_tests_cant": "A test estimates a few frequencies; the bounds hold for every schema and every population, exactly.", "anchors": ["src/operators/crossover.rs:97-100", "src/operators/crossover.rs:632-643", "src/operators/mutation.rs:241-249", "src/model.rs:144-185", "src/lib.rs:144-166", "src/algorithms.rs:211-232"]}
{"id": "C127", "title": "Random numbers drawn", "statement": "Counting each value that the library asks of the generator: random_pair, random_range and bounded_random_range draw 2. A mutation of fewer than two genes draws 0; of n >= 2 genes, scramble draws between 3 and n+1, every number of which is attained, and the others exactly 2. Cycle crossover draws 0, SequentialConstructive, EdgeRecombination and SinglePoint 1, PartiallyMapped and Order 2, and GeneralizedPartition2 as many as the parents have common partitions, which is between 1 and the number of genes. A tournament selection draws its size, every other built-in selection 1; select_distinct makes between 1 and max_tries selections, and max_tries if it finds nothing. The default breed with a selection of d draws takes at least d, the decision on crossover (if there are two individuals) and the decision on mutation, and at most 3d and the draws of the user's operators more. A generation and a whole run of either algorithm take this for each individual bred and nothing else; extend_population takes size times the draws of new_random. For OneMax without tournaments, run draws populationSize*length numbers and between 2 and 9 for each individual bred.", "quantifier": "All genomes, gene types, populations, selectors, parameters, progress closures without draws, models whose operators have a bounded number of draws, and all sequences of draws.", "why_tests_cant": "Tests see the values, not how many were drawn; a superfluous or missing draw leaves every result plausible, and the number depends on the draws themselves.", "anchors": ["src/operators.rs:41-50", "src/operators.rs:72-75", "src/operators.rs:102-112", "src/operators/mutation.rs:54-62", "src/operators/crossover.rs:68-102", "src/operators/selection.rs:112-130", "src/operators/selection.rs:178-184", "src/model.rs:144-185", "src/model.rs:233-248", "src/algorithms.rs:211-232"]}
{"id": "C128", "title": "What a generation gains on average", "statement": "With the default can_survive a bred individual is on average at least as good as a selected one, by every measure that does not fall with the fitness. If the selection favours the fit (tournament, rank, elitist; C82), the probability that a bred individual reaches a fitness is at least the proportion of the population that has reached it, its expected fitness is at least the mean of the population, and the elites and bred individuals from which the next population is made have on average at least that mean. The population itself, in which duplicates are merged, can have a lower mean although that list has a higher one; and with another can_survive breeding can lower the mean with certainty.", "quantifier": "All models with the default can_survive and breed, populations without NaN (finite for the means), selections that favour the fit, rates, thresholds, numbers of elites and sizes.", "why_tests_cant": "A test sees single generations, of which some lose; the claim is about expectations for every population.", "anchors": ["src/model.rs:144-185", "src/model.rs:206-214", "src/algorithms.rs:211-232", "src/algorithms/ga.rs:166-175", "src/population.rs:96-139"]}
{"id": "C129", "title": "How often the library asks for the fitness", "statement": "Roulette-wheel and Boltzmann selection ask every individual for its fitness once per prepare, and a select asks the individuals from the least fit one up to the selected one: index + 1 calls. Tournament, rank, linear and elitist selection never ask. Breeding one offspring with the defaults costs between 1 and 5 calls with the latter, whatever the size n of the population, and between 2 and 4n + 4 with a wheel; both upper bounds are reached. A generation costs that for every missing individual, and the statistics one call for every individual kept. With the roulette wheel and fair fitness values in ascending order a selection asks on average at least (n + 1) / 2 individuals, up to rounding, because the fit, which stand at the end of the scan, are selected more often: a generation of n offspring takes quadratically many calls.", "quantifier": "All populations, built-in selectors, rates, operators, sizes and draws; for the averages operators that end normally, and fitness values that are finite, non-negative and of a fair sum.", "why_tests_cant": "fitness() returns a value without a trace; a test with a counting individual would see one population and one sequence of draws.", "anchors": ["src/operators/selection.rs:112-130", "src/operators/selection.rs:212-227", "src/operators/selection.rs:287-317", "src/model.rs:144-214", "src/individual.rs:30-32", "src/algorithms.rs:211-232", "src/population.rs:130-139"]}
{"id": "C130", "title": "What the wheels gain", "statement": "With the roulette wheel and fair fitness values, the expected fitness of a selected individual is the mean of the population plus the variance divided by the mean (Fisher's theorem for proportional selection), up to a relative error of n^2 / 2^49 from the f64 arithmetic. With the default can_survive a bred individual has on average at least that fitness, and the elites and bred individuals from which the next population is made exceed the mean, in total and on average, by at least that gain for every bred individual. The variance is zero exactly if all fitness values are equal to the mean. Boltzmann selection, if its weights rise with the fitness, selects on average at least the mean, up to rounding.", "quantifier": "All populations with finite, non-negative weights of a fair sum (at most 2^40 individuals), rates, numbers of elites and sizes; all models with the default breed and can_survive whose operators end normally with finite fitness.", "why_tests_cant": "The claim is about expectations over all 2^53 draws of each choice and for every population.", "anchors": ["src/operators/selection.rs:212-227", "src/operators/selection.rs:287-317", "src/model.rs:144-214", "src/algorithms.rs:211-232", "src/algorithms/ga.rs:166-175"]}
{"id": "C131", "title": "How strong the selection mechanisms are", "statement": "Of n individuals in ascending order, one of the first m is selected with probability (m/n)^size by a tournament, m(m+1)/(n(n+1)) by rank selection, and (m - bound)/(n - bound), or 0, by elitist selection with the bound of C41. Hence a larger tournament is stronger, a tournament of two is at least as strong as rank selection, rank selection at least as strong as a uniform choice, and elitist selection the stronger the larger its ratio; a stronger selection returns on average at least as much of every measure that does not fall along the population. The expected place (1 is the least fit) is (n+1)/2 for a uniform choice, (2n+1)/3 for rank selection and (n+1)(4n-1)/(6n) for a tournament of two, which is only (n-1)/(6n) more, and n minus the sum of (j/n)^size over j < n for any tournament.", "quantifier": "All populations (below 2^32 individuals), tournament sizes, elitist ratios and measures.", "why_tests_cant": "Exact probabilities and comparisons between mechanisms for every population size; samples only estimate them for one.", "anchors": ["src/operators/selection.rs:178-184", "src/operators/selection.rs:348-361", "src/operators/selection.rs:419-423"]}
{"id": "C132", "title": "Rank and linear selection are mixtures", "statement": "Rank selection from n individuals has exactly the distribution of a tournament of two in n of n + 1 cases and a uniform choice in the other. Linear selection with the bias b in (1, 2], as computed in f64, is a tournament of two with probability b - 1 and a uniform choice with probability 2 - b: the T fittest are selected with a probability that differs by at most 2^-48/(b-1), each position by at most 2^-47/(b-1), and the average of a measure bounded by B by at most n B 2^-47/(b-1). So, up to rounding, bias 2 is a tournament of two, and rank selection is linear selection with the bias 2 - 1/(n+1); with another bias the T fittest are selected with a probability that differs by at most a quarter of the difference of the biases. The expected place under linear selection is (n+1)/2 + (b-1)(n^2-1)/(6n) up to rounding.", "quantifier": "All populations (below 2^32 individuals; linear: up to 2^53), all finite biases in (1, 2], all measures, all numbers of fittest individuals.", "why_tests_cant": "An equality of distributions for every population size, and error bounds for every bias; samples only estimate single probabilities.", "anchors": ["src/operators/selection.rs:178-184", "src/operators/selection.rs:348-361", "src/operators/selection.rs:466-476"]}
{"id": "C133", "title": "How many calls of progress a run makes on average", "statement": "For every algorithm, model and progress: the expected number of calls of progress within a number of calls is at most the sum of the probabilities that the run has not ended after k calls, and exactly this sum if runs neither panic nor hang. So if mutation reaches a fitness level with probability at least delta from everywhere, and progress does not continue once the level is reached, a run of the genetic algorithm with the mutation rate rho that breeds m individuals per generation makes at most 1 + 1/(1 - (1 - rho delta)^m), hence at most 2 + 1/(m rho delta), calls on average, however long one waits; likewise the adaptive algorithm with the lower end of its mutation rates, and, with the second bound, run and evolve_individual of both, if all the initial populations that they can make meet the conditions. A problem over arrangements of n genes with Scramble as mutation takes at most 2 + (n-1) n!/(m rho) calls on average.", "quantifier": "All algorithms, models, environments and progress functions for the sum; all models that mutate to the level, parameters and bounds on the number of calls for the rest.", "why_tests_cant": "An expectation over all runs of unbounded length; tests only see single runs.", "anchors": ["src/evolution.rs:48-62", "src/evolution.rs:88-105", "src/evolution.rs:132-183"]}
{"id": "C134", "title": "How long a run takes at least when only mutations lead to a level", "statement": "If copies of individuals below a fitness level and, unless the crossover rate is zero, offspring of two of them reach it only by a mutation, with probability at most delta per mutation, breeding from a population below the level reaches it with probability at most phi delta, where phi is the probability that the mutation takes place. If moreover the initial individuals are below the level and progress does not stop below it, a run of the genetic algorithm with populations of n has not ended after k + 1 calls of progress with probability at least (1 - phi delta)^(n k), where phi is the mutation rate rounded up to a multiple of 2^-53. It makes at least 1/2 + 1/(2 n phi delta) calls on average, if it may make 1 + 1/(n phi delta). For every algorithm of the crate, also the adaptive one, if the condition holds at every crossover rate, the run has not ended after k + 1 calls with probability at least (1 - delta)^(n k).", "quantifier": "All models, populations, selection strategies, parameters, environments, levels and numbers of calls that meet the conditions.", "why_tests_cant": "A lower bound on the probability of rare successes over all runs.", "anchors": ["src/model.rs:144-185", "src/evolution.rs:132-183", "src/algorithms.rs:211-232"]}
{"id": "C135", "title": "Potential functions bound the length of a run from both sides; OneMax without crossover", "statement": "If a function of the population that is not negative falls on average by at least delta > 0 in each generation that takes place, a run from populations with value at most v calls progress at most v/delta + 1 times on average, for every algorithm, progress function and limit. If it falls by at most delta and progress stops only where it is not positive, a run from values of at least v makes at least v/delta + 1 calls on average, apart from what unended runs still have before them: if the function is at most B, at most B/delta + 1 times their probability, and nothing in the limit if the run ends almost surely. For OneMax over n bits with crossover rate zero, populations of N and a mutation rate that, rounded up to a multiple of 2^-53, is phi: from individuals with at most b ones a run of the genetic algorithm that stops only at fitness 1 makes at least 1 + (n - 1) H(n - b) / (N phi) calls on average in this sense, where H are the harmonic numbers; the same holds for the adaptive algorithm, with 1 for phi, if both ends of its crossover range are zero.", "quantifier": "All algorithms, models, potential functions, progress functions, parameters and limits on the number of calls that meet the conditions.", "why_tests_cant": "Bounds on expectations over all runs, in both directions.", "anchors": ["src/evolution.rs:132-183", "src/model.rs:144-185", "src/lib.rs:OneMaxEvolutionModel"]}
{"id": "C136", "title": "Lower bounds on the length of run and evolve_individual; OneMax without crossover from one individual", "statement": "If runs of evolve_population from all the initial populations that run or evolve_individual can make call progress at least c times on average, but for B times the probability that they have not ended, then so do run and evolve_individual. For evolve_individual on OneMax over n bits from a genome with b >= 1 ones, crossover rate zero, populations of N and a mutation rate that, rounded up to a multiple of 2^-53, is phi: stopped exactly when the fitness 1 is reached, the genetic algorithm makes at least 1 + (n - 1) H(n - b - 1) / (N phi) calls on average, up to any epsilon if it is given enough time. The same holds for the adaptive algorithm with 1 for phi, if it never adjusts its rates and both ends of its crossover range are zero.", "quantifier": "All algorithms that work as the built-in ones do, models, progress functions, parameters and limits on the number of calls that meet the conditions.", "why_tests_cant": "Bounds on expectations over all runs from below.", "anchors": ["src/evolution.rs:48-62", "src/evolution.rs:88-105", "src/model.rs:264-287", "src/lib.rs:156-166"]}
{"id": "C137", "title": "Equality of selection strategies, and what equal strategies do", "statement": "The derived == of SelectionStrategy is symmetric and transitive. Two strategies are equal exactly if they are the same variant with the same fields, apart from the signs of zeros, and no field is NaN; so a strategy equals itself exactly if no field is NaN. Equal strategies do the same: both panic when the selector is created, or their selectors, prepared for the same populations, select the same individuals by the same draws. Tournament, roulette-wheel and linear selectors that are equal by their own derived == select alike, and Boltzmann selectors too if their temperature is not zero. So whole runs of both algorithms, also by run and evolve_individual, with parameters that differ only in equal strategies draw the same numbers, show the same populations to the progress closure, return the same individual, and panic at the same places, if breed and pre_generation only prepare and select with the selector they are given, as the default methods do. The exception is Boltzmann selection with a temperature of zero: Boltzmann(0.0, c) equals Boltzmann(-0.0, c) for every finite c > 0, but for a population whose members have fitness of both signs (each of an absolute value of at least 2^-1000), once prepared for it, the first selects the least fit individual of positive fitness and the second the least fit of all, each with probability 1 - 2^-53, and the last individual otherwise.", "quantifier": "All strategies, with all values of their fields; all sequences of populations. For the exception: all positive finite cooling rates, and all populations with negative fitness values followed by positive ones.", "why_tests_cant": "The signs of zero and NaN are inputs that tests leave out, and that two selectors do the same is a claim about all their draws.", "anchors": ["src/operators/selection.rs:15-42", "src/operators/selection.rs:46-57", "src/operators/selection.rs:139-142", "src/operators/selection.rs:194-197", "src/operators/selection.rs:240-245", "src/operators/selection.rs:433-436", "src/operators/selection.rs:252-259", "src/operators/selection.rs:287-317"]}
{"id": "C138", "title": "Boltzmann selection with any temperature and cooling rate", "statement": "BoltzmannSelection::new rejects only a cooling rate of zero. In f64: if the temperature or the cooling rate is NaN, a prepared selector always selects the last individual of the population. If the temperature is infinite after preparing, each of n <= 2^40 individuals of finite fitness is selected with probability 1/n up to n / 2^49, and it stays infinite for every cooling rate other than zero and NaN. With a finite cooling rate above one in absolute value, every finite temperature of at least 2^-1022 in absolute value becomes infinite for good; but the smallest positive temperature does not change with the cooling rates 0.95 and 1.2. The sign of the temperature after k preparations (unless it is NaN) is that of the first, changed if the cooling rate is negative and k is odd. If the temperature after preparing is finite and not zero and the fitness values are finite, a positive temperature gives a fitter individual at least the weight of a less fit one, and a negative temperature at most that; with fair weights (C43) a fitter individual is then selected at most n / 2^48 less often, or more often, than a less fit one. So with a negative cooling rate the preference is reversed in every other generation.", "quantifier": "All temperatures, cooling rates, sequences of populations prepared for, and populations that meet the conditions; for the infinite temperature all functions exp with exp(0) = exp(-0) = 1, for NaN those with exp(NaN) = NaN, and for the preferences all monotone functions exp; every order of the parallel sum.", "why_tests_cant": "Rates and temperatures of this kind are not in the tests, the claims are about probabilities, and becoming infinite can take more preparations than any test runs.", "anchors": ["src/operators/selection.rs:252-259", "src/operators/selection.rs:267-269", "src/operators/selection.rs:280-283", "src/operators/selection.rs:287-289", "src/operators/selection.rs:298-317"]}
{"id": "C139", "title": "Linear selection with any bias", "statement": "LinearSelection::new and SelectionStrategy::Linear accept every bias, and the selector has that bias. In exact arithmetic, for every bias b other than 1, n individuals and a draw u in [0, 1), the j-th fittest individual (j = 0 is the fittest) is selected exactly if F(c(j/n)) <= u < F(c((j+1)/n)), where F(x) = b x - (b-1) x^2 and c moves its argument into the range from 0 to 1, from 0 to 1/(b-1) if b > 2, and from b/(b-1) to 1 if b < 0. So with a bias above 2 an individual can be selected only if j < n/(b-1), and with a bias below 0 only if j + 1 > n b/(b-1). With a bias of at least n + 1 the fittest individual is always selected, and with a negative bias of at most 1 - n the least fit. In f64, for 0 < n < 2^64: with a bias of at least 2^512, or an infinite one of either sign, the fittest individual is always selected; with a finite bias between -2^1020 and -2^512, every selection panics. So a run of the genetic algorithm with such a bias, the default breed and pre_generation, fewer than 2^64 initial individuals and fewer elites than individuals can return only if progress ends it at its first call.", "quantifier": "All real biases (other than 1 for the first claims), population sizes above zero, draws in [0, 1) and positions; in f64 all biases of the given sizes, population sizes and draws.", "why_tests_cant": "A test can only try a few biases and draws; that an individual is never selected is a claim about all draws.", "anchors": ["src/operators/selection.rs:440-442", "src/operators/selection.rs:450-452", "src/operators/selection.rs:466-476"]}
{"id": "C140", "title": "Selection that always gives the same individual switches crossover off", "statement": "If a built-in selector can only select one individual of the population, and that individual equals itself, then the default breed never calls crossover, whatever the crossover rate: replacing the crossover method by any other changes neither the draws nor the results, and breed has the results and the distribution of mutating (at the mutation rate), improving and evaluating that individual and keeping the better of the two as decided by can_survive. In a population of at most 2^53 individuals these select only the last, fittest one: linear selection with a bias of 1, NaN, plus or minus infinity, or at least 2^512; Boltzmann selection with a NaN temperature or cooling rate, once prepared; elitist selection with a ratio in [0, 1) whose product with the population size n, rounded, is at least n - 1. In every run of the genetic or the adaptive genetic algorithm with the default breed and pre_generation and linear selection with such a bias, each population of at most 2^53 individuals is followed by one that consists of its own individuals and of mutants of its last one; with elitist selection of a ratio r, each population of at most N <= 2^53 individuals, where N (1 - r) <= 1.", "quantifier": "All models, selectors, populations, rates and crossover methods that meet the conditions; all runs of every length, closures and lawful environments; individuals that equal themselves if they are valid.", "why_tests_cant": "That a method is never called, for any state of the random source and in any generation, cannot be seen from finitely many runs.", "anchors": ["src/model.rs:144-185", "src/operators/selection.rs:112-130", "src/operators/selection.rs:419-423", "src/operators/selection.rs:466-476"]}
{"id": "C141", "title": "Selection that nearly always gives the same individual makes crossover rare", "statement": "If a built-in selector selects one individual, which equals itself, with probability 1 - e, then for the default breed the crossover method matters at most 4 e: replacing it by any other changes the expected value of every function of the outcome with values between 0 and 1 by at most 4 e, whatever the crossover rate. A Boltzmann selector whose temperature, once prepared, is finite, not negative and at most 2^-1022, in a population whose fitness values are finite, at most -2^-1000 for the first individuals and at least 2^-1000 for the others (one at least), is such a selector with e at most 2^-53, so the difference is at most 2^-51; if the fitness of all is at most -2^-1000, it gives only the first one. The roulette wheel gives only the first individual if all have the fitness zero, so breed then has the distribution of mutating that individual and keeping the better of the two; and in every run of the genetic algorithm or the adaptive one with the roulette wheel, the default strategy, and the default breed and pre_generation, a population in which all have the fitness zero is followed by one that consists of its own individuals and of mutants of its first. With the roulette wheel and finite fitness values that are not negative, whose sum is between 2^-960 and 2^1000, in a population of n <= 2^40, the crossover method matters at most 4 (1 - s + n / 2^49), where s is the share of any individual in the total fitness; with tournaments of k out of n individuals, at most 4 (1 - 1/n)^k.", "quantifier": "All models, selectors, populations, rates and crossover methods that meet the conditions; all runs of every length, closures and lawful environments; individuals that equal themselves if they are valid; every exp that overflows and underflows as stated in the model.", "why_tests_cant": "A difference of 2^-51 in a probability, or its absence, cannot be measured by sampling.", "anchors": ["src/model.rs:144-185", "src/operators/selection.rs:112-130", "src/operators/selection.rs:212-227", "src/operators/selection.rs:298-317", "src/operators/selection.rs:178-184"]}
{"id": "C142", "title": "How often breed crosses over", "statement": "select_distinct with n tries finds nothing with probability c^n, where c is the probability that the selection gives an individual equal to the excluded one, and finds one with a given property with probability q (1 + c + ... + c^(n-1)), where q is the probability that the selection gives an unequal one with this property. So if the selection by a built-in selector and the other methods of the model always return, the default breed calls crossover with the probability of a draw below the crossover rate (none for a single individual) times the mean, over the first parent, of 1 - c^3. If no two individuals of the population are equal, this mean is 1 minus the sum of the fourth powers of the probabilities with which the individuals are selected. It is at most 1 - 1/n^3 for n individuals, and 1 - 1/m^3 for elitist selection among the top m; for rank selection it is 1 - 8 (2n + 1) (3n^2 + 3n - 1) / (15 n^3 (n + 1)^3); for tournaments of size k it is at most 4 (1 - 1/n)^k. It calls neither crossover nor mutate with the product of the probability that it does not call crossover and that of a draw not below the mutation rate. No two individuals are equal in a new population of individuals whose fitness is not NaN and which are equal exactly if their fitness is.", "quantifier": "All models, built-in selectors, populations and rates that meet the conditions, and every number of tries.", "why_tests_cant": "The exact probability over all states of the random source is not observable in a test, and the missing share may be as small as one in n^3.", "anchors": ["src/model.rs:153-178", "src/operators/selection.rs:112-130", "src/operators/selection.rs:419-423"]}
{"id": "C143", "title": "Which pairs breed crosses over, and in which order", "statement": "If no two individuals of the population are equal, the selection by a built-in selector always returns a member, and the methods of the model always return, then for different indices i and j the default breed calls crossover with the individual i as the first and the individual j as the second parent with the probability of a draw below the crossover rate times p_i p_j (1 + p_i + p_i^2), where p_k is the probability that the individual k is selected. So of two individuals the one that is selected more often is at least as often the first parent of the pair as the second. By rank and by tournament this is the one with the higher index, that is the fitter one of a sorted population. By elitist selection every ordered pair of different ones of the top m has the same probability, that of the draw times (1 + 1/m + 1/m^2) / m^2, and no other pair is crossed over.", "quantifier": "All models, built-in selectors, populations, rates and pairs of different indices that meet the conditions; for rank and tournament up to 2^32 - 1 individuals.", "why_tests_cant": "A skewed order of the parents does not show in any single run, and the exact probabilities over all states of the random source cannot be observed.", "anchors": ["src/model.rs:153-171", "src/operators/selection.rs:112-130", "src/operators/selection.rs:178-184", "src/operators/selection.rs:348-362", "src/operators/selection.rs:419-423"]}
{"id": "C144", "title": "How likely a generation goes without crossover, or without any change", "statement": "The default generate_new_population returns with the probability that breed does, to the power of the number k of offspring that are missing; this includes the single missing one, for which breed is called and its result dropped. So, if no two individuals of the population are equal, the selection by a built-in selector always returns a member and the other methods of the model always return, a generation with the default breed calls crossover not even once with probability (1 - a (1 - s))^k, and neither crossover nor mutate with probability ((1 - a (1 - s)) (1 - m))^k, where a and m are the probabilities of a draw below the crossover and the mutation rate (a is zero for a single individual) and s is the sum of the fourth powers of the probabilities with which the individuals are selected.", "quantifier": "All models, selectors, populations, rates, numbers of offspring and elites that meet the conditions.", "why_tests_cant": "The probability of an event of a whole generation over all states of the random sources is not observable in a test.", "anchors": ["src/algorithms.rs:211-232", "src/model.rs:153-178", "src/operators/selection.rs:112-130"]}
