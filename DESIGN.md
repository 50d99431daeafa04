# Design: a Lean 4 model of rusty_genes

Source modelled: `/repo` (rusty_genes 0.1.3). Everything is in `/verif/lean/Verif`.

## Approach

* **Random programs.** Every use of randomness in the library is a uniform choice from a finite range
  (`gen_range`, `gen::<f64>()` = k/2^53, `choose`, `shuffle`, `Uniform`). A function taking `&mut Rng` becomes a
  `Prog` value: a finite tree of uniform picks with results or panics at the leaves. "For every RNG" is
  "for every path of the tree"; probabilities are exact rationals computed from the same tree.
* **f64.** `F64` is a model of IEEE-754 binary64 with NaN, infinities, signed zeros, subnormals and
  round-to-nearest-even, over rationals. `exp` and the order of the parallel float sum are abstract.
* **Generic arithmetic.** Numerical code (Stats, interpolation, selection formulas, adaptive rates) is written once,
  generic in the arithmetic, and used both at `F64` (the code) and at exact rationals/reals (the ideal).
* **Panics** are explicit values; **loops** without an obvious bound take fuel, and running out of fuel is a
  third, explicit outcome that is proved unreachable (or proved to be true non-termination).
* **Nondeterminism** (unstable parallel sort, hash iteration order, rayon scheduling, pool of RNGs) is an arbitrary
  function constrained only by its documented contract.
* **User code** (crossover, mutate, improve, evaluate, pre_generation, can_survive, progress, selector closures) is an
  arbitrary function, possibly random, possibly stateful.

## Per-property plan

| id | property | model | proof |
|---|---|---|---|
| C01 | Collecting equals recording one by one | Stats generic in its arithmetic; `record` and `collect` as two separate functions, instantiated at F64 | induction over the samples |
| C02 | min and arg_min are the smallest sample and its first position | Stats over F64 | loop invariant over prefixes; spec = first position of a least element |
| C03 | max and arg_max are the largest sample and its first position | Stats over F64 | same, dual |
| C04 | Effect of NaN samples on min/max | Stats over F64 with NaN | induction over samples |
| C05 | avg and var are the mean and the unbiased sample variance | the same generic Stats code instantiated at the reals | Welford invariant by induction over the reals (the f64 code rounds) |
| C06 | f64 average stays between min and max and the variance is never negative | Stats over F64 with IEEE rounding | sign/bound invariants from monotonicity of rounding; overflow counterexample by kernel computation |
| C07 | Snapshots exist exactly for non-empty stats and agree with them | Stats, PopulatedStats as structures; panics as Prog.panic/none | case analysis, history by induction |
| C08 | A population is sorted and keeps every individual up to duplicates | sort = any function returning a sorted permutation (LawfulSort), dedup = Vec::dedup | sortedness/sublist lemmas |
| C09 | Individuals in a population are unique | same | adjacent-distinct + sorted; concrete counterexample |
| C10 | fittest() is a fittest individual | Population over F64 fitness | from C03 |
| C11 | Populations are never empty | panic as explicit value | case analysis |
| C12 | Generation and stagnation counters | replace as state transition | induction over list of replacements against an independent spec |
| C13 | Population statistics describe the current individuals | same | induction over history |
| C14 | Fitness order | partial_cmp on F64 | case analysis on F64 |
| C15 | random_pair returns two distinct valid indices, uniformly | random programs as trees of uniform picks (Prog) | support and exact probability by counting |
| C16 | Random ranges are valid | Prog | support characterisation |
| C17 | Distribution of random ranges | Prog.prob | exact probability computation |
| C18 | interpolate_f64 stays between its bounds | generic interpolate at reals and at F64 | field arithmetic; rounding monotonicity |
| C19 | interpolate_usize stays between its bounds | F64, as-casts with saturation | rounding monotonicity, floor |
| C20 | common_neighbors finds exactly the shared cyclic adjacencies | lists; hash set as membership | extensional characterisation |
| C21 | common_partitions partitions the first genome | fuelled loops proved never to run out | visited-set invariant |
| C22 | GPX2 produces a permutation that keeps common partitions contiguous | selector as stateful function | permutation invariant |
| C23 | SCX produces a permutation starting at the pivot | list model of loop with visited set | visited/perm invariant, pigeonhole |
| C24 | ERX produces a permutation whatever the hash order | hash iteration order = arbitrary permutation oracle per step | same |
| C25 | PMX terminates and produces a permutation | fuelled mapping chain | injectivity of chain, pigeonhole |
| C26 | OX terminates and produces a permutation preserving parent2's order | fuelled two-index loop | cyclic order invariant |
| C27 | CX terminates and produces a permutation position by position | fuelled loops | cycle invariant |
| C28 | SPX copies a prefix and a suffix | lists | direct |
| C29 | Crossover panics on length mismatch | asserts as panic | direct |
| C30 | Every permutation crossover strategy yields a permutation for every random source | Prog dispatch | corollary |
| C31 | Behaviour of PMX and OX outside permutations | fuel as argument | for all fuel, no result |
| C32 | swap_mutation exchanges two positions | Prog | support + prob |
| C33 | scramble_mutation permutes only a window | Prog with Fisher-Yates | support |
| C34 | inversion_mutation reverses a window | Prog | support |
| C35 | insertion_mutation moves one gene | Prog | support + prob |
| C36 | duplicate_mutation copies one gene over another | Prog | support |
| C37 | Mutations never panic and keep the length | Prog | corollary |
| C38 | Selection returns a member of the population | selectors as state machines; F64; sum order and exp abstract | case analysis |
| C39 | Tournament selection picks the best of its sample | Prog | exact counting |
| C40 | Rank selection is proportional to rank | Prog | exact counting |
| C41 | Elitist selection is uniform over the top individuals | F64 + Prog | rounding lemma n*r<n; counting |
| C42 | Roulette-wheel selection is fitness proportionate | generic wheel at rationals/F64; `FairWeights` | cumulative-sum argument; relative rounding errors of sums (`Close`) |
| C43 | Boltzmann selection cools geometrically | generic prepare | induction |
| C44 | Linear selection index | generic index formula at reals and F64 | real analysis; kernel-computed counterexample |
| C45 | select_distinct never returns the excluded individual | Prog loop | induction on max_tries |
| C46 | Selector construction enforces its parameter range | constructors returning Option | case analysis on F64 |
| C47 | Breeding is keep-best | user operators = arbitrary Prog-valued functions | support reasoning |
| C48 | Crossover and mutation rates are respected at the extremes | Prog | support + prob |
| C49 | Extending a population adds exactly `size` individuals | Prog; parallel map = independent per-slot programs | induction |
| C50 | Parameter validation | validate as Bool / panic | case analysis on F64 |
| C51 | Elites are the fittest individuals | F64 floor, list drop | rounding lemma, sortedness |
| C52 | A new generation has the configured number of individuals | generate_new_population as written, with the dropped offspring | case analysis + counterexample |
| C53 | The best fitness never decreases under elitism | transition system of generations | invariant |
| C54 | The returned individual is the best one found | run loop | invariant + counterexample run |
| C55 | Population size stays bounded | transition system | invariant |
| C56 | The run loop protocol | fuelled loop with stateful progress, call log | induction on fuel |
| C57 | Adaptive rates | generic prepare at reals and F64 | field arithmetic; rounding |
| C58 | Adaptive rates become NaN when the initial population has no spread | F64 NaN propagation | computation on symbolic parameters |
| C59 | Runs on the same Evolution are independent | algorithm state + run loop | bisimulation |
| C60 | Only valid individuals are ever in a population of a run | transition system | invariant |
| C61 | evolve_individual never returns something worse than its argument | run loop | invariant |
| C62 | Initial populations are evaluated and filtered | list functions | direct |
| C63 | OneMax | OneMax instance | F64 division rounding; invariant |
| C64 | Runs of the built-in algorithms do not panic | invariants on algorithm states (`SafeAlgo`) and models (`SafeOps`) | support reasoning through the whole loop |
| C65 | Only evaluated individuals enter a population | transition system | invariant |
| C66 | Which operator each strategy applies, and with which probabilities | `Prog.expect` | exact expectation of an arbitrary observable |
| C67 | The genetic algorithm reaches its target almost surely | `Prog.prob`, `Reached`, `Converges` | hypotheses of C64 plus a lower bound on mutation; geometric bound |
| C68 | The adaptive algorithm can get stuck for ever | `NoSpread`, `MayStick` | bound on the probability independent of the run length; contrast with C67 |
| C69 | The genetic algorithm climbs a ladder of fitness levels | `Climbs`, `SelectsFit`, `MutationClimbs`, `fewSuccesses` | expectation of `callsOf`; only individuals below the next level have to climb, as `breed` returns no less fit one than the fitter parent; selection probability proved for all strategies but the random one (roulette wheel: in `Wheel`) |
| C70 | The genetic algorithm solves OneMax, with a bound on the expected time | `OneMaxRun`, `Prefers`, `callsOf`, `harmonic` | an instance of C69: level i is i + 1 `true` bits; a mutation climbs with probability (i+1)(n-i-1)/(n(n-1)) |
| C71 | The probability that `run` solves OneMax | `OneMaxParams`, `Solved` | tends to the probability 1 - 2^(-nN) that the random population has a `true` bit |
| C72 | The adaptive algorithm converges if its initial population has a spread | `AgaRun`, `AgaClimbs`, `lowSkip` | adjusted rates bounded by the ranges (C18, C57 in f64) + loops of C67 and C69; contrast with C68 |
| C73 | What happens in one generation, and in a run | `GaNext`, `AgaNext`, `RunPath` (SpecRun) | the outcomes of the loop body and of `evolve_population` are exactly the paths of a relation; law q^m of the bred individuals |
| C74 | The offspring of a crossover are exactly those its rule allows | `Tour`, `PmxOffspring`, `OxOffspring`, `CommonParts` (SpecOffspring), `AllowedOffspring` | equivalences; uniqueness of what a rule prescribes, and for ERX the construction of iteration orders for a given tour |
| C75 | The common partitions of two permutations in closed form | `commonRuns`, `Wrapped`, `CommonParts` (SpecOffspring) | the inner loop is a walk along the first genome (Proofs/Partitions) |
| C76 | Release builds: usize arithmetic that wraps around | `wrapSub`, `wrapAdd`, `wrapMul`, `Selector.selectW`, `interpolateUsizeW`, `boundedRandomRangeW` (Release) | equality of programs; concrete counterexamples outside the conditions |
| C77 | The text of the statistics | `Stats.fmt`, `PopulatedStats.fmt` (Display) | comparison with a list of labelled items; unambiguity by cutting at semicolons |
| C78 | When the standard deviation computed in f64 is zero | `Stats.record`, `Stats.collect` at `F64` | nearest-rounding argument per step: from the third sample on the new average is never the sample, so the sum of squares gets a positive term |
| C79 | Climbing a ladder of fitness levels at any crossover rate | `breed`, `selectDistinct`, `evolvePopulation`, `ga`, `aga` | the second of two distinct selections is in `S` with at least half the probability; then the ladder argument of C69 |
| C80 | OneMax is solved at any crossover rate, also by the adaptive algorithm | `OneMax.model`, `ga`, `aga`, `Stats.collect` at `F64` | single-point crossover copies the second parent with probability `1/n`; C79; C78 for the spread, C68 for the converse |
| C81 | The floating-point arithmetic of the model is IEEE 754 binary64 | F64, all operations | compared with `SpecFloat.lean`, which states the standard over the reals; ties analysed on the grid of the exponent, square roots of ties are exact; uniqueness of the nearest number |
| C82 | Selection pressure: fitter individuals are selected at least as often | `C82_*` in `Verif/Props/Pressure.lean` | from the exact probabilities of C39-C42 and C44; the expectation by the Chebyshev sum inequality |
| C83 | The roulette wheel with fitness values that are not positive | `C83_*` in `Verif/Props/WheelNeg.lean` | running sums fall, so the scan stops at once or never; probabilities by negating the weights of C42 |
| C84 | Linear selection in f64 follows its exact distribution | index formula of `LinearSelection` at F64 | rounding-error analysis in terms of the draw, counting draws |
| C85 | Frequencies of repeated selections | collectLoop, collectSamples (Sampling.lean) | moment generating function of a count by induction over the selections, Hoeffding's lemma from Mathlib, union bound; probabilities of C39–C43 and C84 |
| C86 | Random draws from random words | realize, Method.draw (Rand.lean) | counting the words that give a number (the accepted products lie in blocks of equal size), induction over the words rejected and over the program |
| C87 | The generator SmallRng | SmallRng (Rand.lean) | kernel computation for the documentation; the state is recovered word by word from the next state, and from three outputs and one more word |
| C88 | Problems over permutations | Route.model (Route.lean) | C30 and C37 as the operators of C64; the full window of scramble_mutation by C66; C67 |
| C89 | Local optima | defaultBreed, generationStep, Route.model | keep-best breeding (C47) keeps the set; invariant of the run; kernel computation for the four genes |
| C90 | How accurate average, variance and standard deviation are | Stats, F64 | Error recurrences of Welford's algorithm: the error of the average is damped by (n-1)/n at each step; the sum of squares collects the errors of the averages times the width. |
| C91 | Scheduling of parallel tasks does not matter | Prog, Runs | Potential argument: the product of the conditional expectations of the tasks is unchanged on average by a draw of any one of them. |
| C92 | The pool of generators | RngPool, Machine, PooledGenerate | Invariants over event sequences; execution of a program by a generator is one path of its tree. |
| C93 | What the model says about runs holds for every schedule | ScheduledRun, PooledRun | Equality of laws is a congruence for bind; C91 and C92 for each generation. |
| C94 | The text of the numbers loses nothing, or as little as the precision allows | FloatText | Search for the largest exponent of a decimal that is read back; rounding is monotone, so only the two neighbours matter. |
| C95 | The programs of the documentation: they end, and how likely their assertion holds | Documentation | Generation counts the calls; rounding is monotone and separates 999998/999999 from 0.999999; the initial population decides the two bounds. |
| C96 | Every other assertion of the documentation holds | DocAsserts | Evaluation of the model by the kernel; C24 for edge recombination. |
| C97 | What the benchmarks compute | Bench | C30, C37 for every call; induction over the samples with every step exact in f64 but the sum of squares. |
| C98 | Repeated duplicate mutation makes all genes equal | Drift | One-step expectations of counts and of pairs of counts; induction; Markov's inequality. |
| C99 | Repeated mutation of arrangements: what mixes and what does not | Mixing | Programs commute with renaming; averages over all arrangements are kept by permuting positions (C66); the full window gives a contraction. |
| C100 | Runs started by the progress closure of another run | Reentrant | The loop with an explicit RefCell; equality with the loop of Evolution.lean; the invariant of C64; concrete runs. |
| C101 | Crossover does not depend on how genes are represented | Renaming | Every function of the operators commutes with the renaming; C75 for the choice of the order. |
| C102 | Stopping on stagnation ends every run with elites | Stagnation | Generation ≤ level of the best * k + stagnation, where the level is the highest rank up to the best fitness; an alternating run without elites. |
| C103 | Runs that select by rank see only the order of fitness | SpecHomomorphism, Homomorphism | Coupling of the two programs draw by draw (`Coupling.lean`), carried through selection, breeding, replacement and the loop. |
| C104 | What the unstable sort and the parallel sums can change | Deterministic | Sorted permutations without ties are equal; then C103 with the identity. |
| C105 | Boltzmann selection when it has cooled down | Cooling | Infinite running sums absorb; geometric bounds with one rounding per step; loop invariant for runs. |
| C106 | Runs without mutation | Loci | Loop invariant over runs; random tables of bits by induction on rows with marked columns. |
| C107 | What a mutation does to a round trip | Tour | Multisets of edges of a trip cut into pieces and rotated. |
| C108 | Crossing two writings of the same round trip | SameTrip | A walk round a cycle that never turns back while it has a choice. |
| C109 | The adaptive rates with every rounding | AdaptiveF64 | Each operation rounds a number of [-1,1], which moves it by at most 2^-54; rounding is monotone and fixes doubles. |
| C110 | What the parents agree on and crossover keeps | Agreement | Closed forms of the operators (C25, C27, C28, C75); closed sets are inherited through runs (C106). |
| C111 | No run is faster than its operators | Speed | Invariant of the run indexed by the generation (C73); reach of the operators (C36, C28, C107). |
| C112 | Without crossover and mutation only the elites remain | Takeover | Each generation is bred from the last individual alone with probability at least (1/b)^n (C69); few genes are absorbing (C106). |
| C113 | Whole runs in both kinds of build | `Build`, `Build.breed`, `Build.replace`, `Build.ga`, `Build.aga` (ReleaseRun) | Equality of programs up to unreachable draws, with the sizes and counters as invariant (C76). |
| C114 | What holds for runs holds for run and evolve_individual | `runRandom`, `evolveIndividual` (Evolution), `defaultExtendWith` (Model) | Conditioning on the initial population; C79, C80 and C88 for each of them. |
| C115 | How often a run calls the user's methods | `EvoModel.counting` (Calls), `defaultBreed`, `defaultGenerate`, `defaultInitialize`, `evolvePopulation` | A mark, a draw of a size that nothing else uses, at the beginning of the method; counting marks along the paths of a program. |
| C116 | The adaptive algorithm on problems over permutations | `Route.model`, `aga`, `evolvePopulation`, `runRandom` | The objective of the arrangements, the probability of stopping; `IntegerObjective`. |
| C117 | Writing the statistics to any writer | `Stats.write`, `PopulatedStats.write` (Writing) | `Handed`: which pieces a writer was given; the writers `buffer`, `sink`, `closed`; the text of C77 |
| C118 | The vectors of a run and their capacities | `generationStepV`, `evolveLoopV`, `evolvePopulationV`, `runRandomV`, `evolveIndividualV` (Memory) | The numbers in `Vecs`: capacities, enlargements, individuals held at the same time; `Prog.Same` |
| C119 | Genes put in their places by swaps | `swapMutation`, `ox`, `pmx`, `defaultBreed`, `evolvePopulation`, `evolveIndividual` on `Route.model` | `placed`, `Placement`, `callsOf`, `harmonic`; C66, C69, C79, C89, Markov's inequality |
| C120 | Models with shared state | `sharedBreed`, `sharedInitialize`, `sharedGenerate`, `sharedExtend`, `sharedExtendWith`, `sharedGa`, `sharedAga`, `sharedPopulation`, `sharedRandom`, `sharedIndividual` (Shared) | `SProg.ends`, `Par` (interleavings with atomic accesses), `SharedModel.over`, `Refines`; the theorems of C53-C65 |
| C121 | Probabilities with shared state | the definitions of C120, interpreted with `plays` (Shared) | `Play`, `ParPlay` (schedules that know the past), `Refines`; the programs of `Evolution.lean`, C80 |
| C122 | What the crossovers spend | `countedScx`, `countedErx`, `countedPmx`, `countedOx`, `countedCx` (Cost) | the counters of `Counted`, the functions of `Crossover.lean` |
| C123 | What GPX2 spends | `countedPartitions`, `countedGpx2` (CostGpx2) | the counters of `Counted`, the functions of `Neighbors.lean` and `Crossover.lean` |
| C124 | What the crossover strategies spend on average | `CrossoverStrategy.counted` (CostStrategy) | `Prog.mean`, the counters of `Counted` |
| C125 | Panics that a caller catches | `Unwinding`, `unwindingRandom`, `Ga.configureUnwinding`, … (Unwind) | `Keeps`, `CellKeeps`, `apart` |
| C126 | Schemata | existing `CrossoverStrategy.crossover`, `duplicateMutation`, `defaultBreed` | `Schema`, `SchemaModel`, `twoParents`, `share`, `chance` |
| C127 | Random numbers drawn | existing operators, `defaultBreed`, `evolvePopulation`, `OneMax` | `Prog.draws`, `DrawsBetween`, `Selector.draws`, `CrossoverStrategy.draws`, `breedLeast`, `breedMost` |
| C128 | What a generation gains on average | existing `defaultBreed`, `defaultGenerate`, `takeElites`, `Population.replace` | `Prog.average`, `FavoursFit`, `meanFitness` |
| C129 | How often the library asks for the fitness | `askWheelSelect`, `Selector.askPrepare`, `askBreed`, `askGenerate`, `askCollect` (Asking) | `CallsAre`, `Asking.mean`, the functions of `Selection.lean`, `Model.lean`, `Algorithm.lean` |
| C130 | What the wheels gain | existing `RouletteWheelSelection`, `BoltzmannSelection`, `defaultBreed`, `defaultGenerate` | `Prog.average`, `meanFitness`, `fitnessVariance`, `FairWeights` |
| C131 | How strong the selection mechanisms are | existing `TournamentSelection.select`, `rankSelect`, `ElitistSelection.select` | `AtLeastAsStrong`, `Prog.prob`, `Prog.average` |
| C132 | Rank and linear selection are mixtures | existing `rankSelect`, `LinearSelection.select`, `TournamentSelection.select` | `coinTournament`, `Prog.prob`, `Prog.average` |
| C133 | How many calls of progress a run makes on average | existing `evolvePopulation`, `runRandom`, `evolveIndividual`, `ga`, `aga` | `callsOf`, `Prog.expect`, `Reached` |
| C134 | How long a run takes at least when only mutations lead to a level | existing `defaultBreed`, `evolvePopulation`, `ga`, `aga` | `Remote`, `OnlyMutation`, `Reached`, `callsOf` |
| C135 | Potential functions bound the length of a run from both sides; OneMax without crossover | existing `evolvePopulation`, `generationStep`, `ga`, `aga`, `OneMax.model` | `Invariant`, `ZeroRange`, `firstState`, `RunState.called`, `average`, `callsOf`, `harmonic`, `ones`, `onesTime` (only in the term for unended runs) |
| C136 | Lower bounds on the length of run and evolve_individual; OneMax without crossover from one individual | existing `runRandom`, `evolveIndividual`, `takeResult`, `ga`, `aga`, `OneMax.model` | `callsIn`, `callsOf`, `harmonic`, `ones`, `OneMaxRun`, `OneMaxAga`, `ZeroRange` |
| C137 | Equality of selection strategies, and what equal strategies do | `SelectionStrategy.equals` and the `equals` of the selectors (StrategyEq.lean); existing `createSelector`, `Selector.prepare`, `Selector.select` | `Twin`, `Alike`, `numbersOf`, `selecting`, `AlmostAlways`, `Coupled`, `OnlySelects`, `ShowsSame` |
| C138 | Boltzmann selection with any temperature and cooling rate | existing `BoltzmannSelection.prepare`, `select` | `preparedFor`, `temperatures`, `ExpMono`, `FairWeights` |
| C139 | Linear selection with any bias | existing `LinearSelection.selectIndex` at the real numbers | `linF`, `linClip`, `linLow`, `linHigh` |
| C140 | Selection that always gives the same individual switches crossover off | existing `defaultBreed`, `selectDistinct`, selectors | `GivesOnly`, `mutantOf`, `MutantsOfFittest`, `Same` |
| C141 | Selection that nearly always gives the same individual makes crossover rare | existing `defaultBreed`, `selectDistinct`, selectors | `strays`, `GivesOnly`, `mutantOf`, `AllZero`, `MutantsOfFirst` |
| C142 | How often breed crosses over | existing `defaultBreed`, `selectDistinct` | `repeats`, `crossPanics`, `attempts`, `PairwiseUnequal`, `probFail` |
| C143 | Which pairs breed crosses over, and in which order | existing `defaultBreed`, `selectDistinct` | `pairPanics`, `attempts`, `PairwiseUnequal`, `probFail` |
| C144 | How likely a generation goes without crossover, or without any change | existing `defaultGenerate`, `defaultBreed` | `crossPanics`, `changePanics`, `attempts`, `chance`, `PairwiseUnequal`, `probFail` |

## Trusted base

**Kernel and axioms.** Lean 4.33.0 and Mathlib. Every theorem listed in `MANIFEST.json` depends on no axiom other than
`propext`, `Classical.choice` and `Quot.sound`; `AXIOMS.txt` gives the list theorem by theorem, as printed by
`#print axioms`. There is no axiom of our own, no `sorry`, no `native_decide` and no `bv_decide`. Concrete
computations (examples and counterexamples) use `decide +kernel`, so they are run by the kernel.

**What has to be believed about the model.**

* The Lean definitions that cite `/repo` say what those lines do. This was done by reading; the Rust was not run.
* `Prog`: `rand` 0.8.5 returns numbers in the documented range. For statements about probabilities only: draws are
  uniform and independent. `gen::<f64>()` is `k/2^53` with `k` uniform below `2^53`. `shuffle` is the Fisher-Yates loop
  of `rand` 0.8.5 from the last position down, and `choose` is one uniform index. C86 derives this from the procedures of
  `rand` that make numbers from 64-bit words, so that what remains to be believed is that `Rand.lean` follows the
  published source of `rand` 0.8.5 (it is not in `/repo`, and was written down from memory; C87 compares it with
  the seeded results in the documentation of `/repo`), that its loops end, and, for probabilities, that the words are
  uniform and independent.
* `F64`: `f64` arithmetic is IEEE-754 binary64 with round to nearest even, with one NaN (C81 proves the model of the
  operations equal to this). `as usize` saturates and truncates. `exp` is an arbitrary function; nothing is assumed about it,
  except in C105: there it is infinite from 1024 on and zero up to -1024 (`ExpRange`), which the correctly rounded function
  and the usual libraries meet with room to spare (709.8 and -745.2).
* `LawfulSort`: the unstable parallel sort returns *some* permutation, sorted by `compare_fitness` if no fitness is NaN.
  With NaN nothing is assumed beyond being a permutation.
  C103 compares two runs and assumes that the sorts of both act alike on lists whose comparisons agree (`SortsAlike`); a
  sort that decides by comparisons alone does (shown for an insertion sort). C104 needs no such assumption: without ties
  all lawful sorts are equal, and it shows what ties change.
* `TreeSum`: a parallel float sum is some bracketing of the sequential order.
* Hash sets and maps are modelled by their content; their iteration order is an arbitrary permutation chosen anew at
  each use. `Hash` and `Eq` of the genes agree.
* A parallel map gives the results in order, each computed by its own program. That running these programs one after another
  is as good as any interleaving is C91. With concrete generators (C92) it is believed that a generator is used by one piece of
  work at a time and that the pool is a stack (`object_pool` is not in `/repo`; from memory).

**Machine arithmetic.** `usize` is a natural number. Additions and multiplications that could overflow for inputs that
fit in memory, and all subtractions that could be negative, are overflow-checked, and a failed check is a panic, as in
the dev and test profiles. In a release build these operations wrap; `Release.lean` models the functions concerned as they
behave then, and C76 says where the builds agree. The generation and stagnation
counters are not bounded in the model of runs; `ReleaseRun.lean` models whole runs with bounded counters in both builds, and
C113 says that runs of fewer than `2^64` generations are the same. The sample counter of `stats.rs` is not bounded.

**What is modelled.** All functions of `stats.rs` (the text of an `f64` in `Display` is a parameter, instantiated for C94 with what the standard library does, from memory; writers that fail and the options of a `Formatter` are in `Writing.lean`), `individual.rs`, `population.rs`, `operators.rs`,
`operators/crossover.rs`, `operators/mutation.rs`, `operators/selection.rs`, `model.rs`, `algorithms.rs`,
`algorithms/ga.rs`, `algorithms/aga.rs`, `evolution.rs`, the interpolation functions of `lib.rs`, the OneMax problem
in its test-utility module, the benchmarks (`Bench.lean`), and the unit tests of `operators/selection.rs` with random draws in place of the seed 0
(the assertions are stated without rounding).

**What is not modelled.**

* The algorithms by which the standard library writes a floating-point number: `FloatText` states their result.
* Memory exhaustion (allocations of at most `isize::MAX` bytes succeed), the capacities of vectors other than the two of a run
  (`Memory.lean`, C118), and how long anything takes, apart from the comparisons of genes and the hash operations of the
  crossovers (`Cost.lean`, `CostGpx2.lean`, `CostStrategy.lean`, C122, C123, C124) and of the calls of `fitness` (`Asking.lean`, C129; not those of the sort).
* The work stealing of `rayon`: `Parallel.lean` allows every way of cutting the items into pieces and every order of events
  (C91, C92, C93). The other parts of the model run the tasks in order with independent draws; C93 carries what they say about
  runs over to all schedules.
* Seeding from entropy (`M::rng()` of the OneMax module): the state is arbitrary. `SmallRng` itself is modelled (C87).
* What `criterion` does in the benchmarks (`benches/`): how often it calls the measured closures is a parameter of `Bench.lean` (C97).
* Interior mutability outside `Shared.lean` (C120): elsewhere a method that takes `&self` does not change the model. In `Shared.lean`, an
  access to shared state is atomic, `fitness`, `is_valid`, `==` and `prepare` of a selector have none, and deadlocks are not described.
* A panic in one of several parallel tasks ends the whole call; what the other tasks did is lost. Panic payloads are not
  modelled. What a caught panic leaves of an `Evolution` value is (`Unwind.lean`, C125); elsewhere nothing outlives a panic.

## Where the code disagrees with its documentation

Each of these is proved, with a concrete witness where it is an existence claim.

* `generate_new_population` drops the individual it breeds when exactly one is missing (`algorithms.rs:220-224`). So a
  generation can be one short (`C52_size_counterexample`), and `population_size = 1` panics in the first generation
  (`C52_run_one`).
* "The individual with the best fitness found during the execution" is false without elites
  (`C54_counterexample`), and 1% elitism of fewer than 100 individuals is no elite.
* Duplicates are removed only when adjacent in the sorted order, so equal individuals can stay
  (`C09_duplicates_counterexample`).
* `configure` is not all or nothing: `validate` does not look at the selection strategy, so a strategy outside its domain makes
  `configure` panic after it has assigned the sizes and rates (`C125_halfway`).
* A user equality that ignores fitness breaks elitism: the fitter twin can be the one removed
  (`C53_equality_counterexample`).
* The adaptive algorithm divides by the spread of the first generation. If that is zero, and so is the spread at an
  adjustment generation, both rates become NaN and breeding neither crosses nor mutates (`C58_nan`, `C58_no_operators`).
  A run can so get stuck for ever with positive probability (`C68_probability`, `C68_contrast`; for OneMax
  `C80_aga_stuck`, `C80_contrast`; in `evolve_individual`, whose mutants may all equal the individual, `C114_aga_stuck`). Rounding can make the spread zero although the fitness values differ
  (`C78_counterexample`).
* `ElitistSelection`: the ratio is the share left out, not the share selected (`C41_documentation_counterexample`).
* `RouletteWheelSelection`, the default, does not follow fitness when no fitness is positive: it selects only the least fit
  and the fittest individual, the least fit mostly (`C83_ends`, `C83_probability`, `C83_not_favoured`).
* `LinearSelection` panics for some draws in `f64` (`C44_f64_counterexample`) and always picks the fittest for bias 1
  (`C44_bias_one`). The panics are rare (`C84_rarely_panics`).
* Equal selection strategies can do the opposite: `Boltzmann(0.0, c) == Boltzmann(-0.0, c)`, but the second prefers the least
  fit (`C137_opposite`). All other equal strategies do the same (`C137_behave`, `C137_run`).
* `BoltzmannSelection` accepts a negative cooling rate, which reverses its preference in every other generation
  (`C138_preference`), and NaN, with which it always selects the last individual (`C138_nan`).
* `LinearSelection::new` accepts every bias. In exact arithmetic a bias above 2 makes all but the fittest share 1/(b-1) impossible to select,
  and a negative one the fittest share b/(b-1) (`C139_range`). In `f64`, every selection panics
  with a bias between -2^1020 and -2^512 (`C139_select_panics`), while minus infinity always selects the fittest (`C139_infinite`).
* A selector that can only give one individual switches crossover off, since `select_distinct` gives up (`C140_breed`). So does `Elitist(0.9)` in a
  population of ten, and `Linear(1.0)` (`C140_only_fittest`, `C140_ga`).
* The default roulette wheel selects only the first individual while all have the fitness zero, so on such a plateau there is no crossover either
  (`C141_flat`, `C141_ga`). After cooling down, the crossover method matters at most `2^-51` for Boltzmann selection (`C141_cold`).
* Since `select_distinct` gives up after three tries, a crossover rate of one does not mean that every offspring has two parents: the share without is the
  sum of the fourth powers of the selection probabilities (`C142_unequal`), for elitist selection among the top two an eighth (`C142_elitist`).
* The two parents are not in random order: the one selected more often is the first at least as often as the second
  (`C143_pair`, `C143_order`).
* The benchmark of `Duplicate` mutates the same genome again and again, so that before long it measures copying a gene onto
  an equal one (`C98_benchmark`). An odd number of swap mutations never gives back the genome (`C99_swap_never_back`).
* The programs in the documentation stop at fitness 0.999999; from a million bits on that is before the problem is solved, and
  their assertion can fail, though hardly ever does (C95).
* A run started inside the closure of another run of the same `Evolution` value replaces the parameters of the outer run
  (`C100_counterexample`).
* `random_range` is not uniform over ranges (`C17_not_uniform_counterexample`).
* PMX and OX can run forever on parents with repeated genes (`C31_pmx_infinite`, `C31_ox_infinite`,
  `C31_ox_infinite_iff`). OX with an empty range returns a constant genome (`C26_empty_range_counterexample`), or runs
  forever if the range is at the end of the genome (`C26_end_range_counterexample`).
* `common_neighbors` treats its two arguments differently (`C20_asymmetric_counterexample`), and a sequence common to
  both genomes can be split by `common_partitions` (`C21_not_maximal_counterexample`).
* `interpolate_f64` can exceed its upper bound by rounding (`C18_f64_exceeds_counterexample`); the `f64` average can
  overflow (`C06_overflow_counterexample`).

## Testing the theorems against wrong programs

`seeded/LOG.jsonl` has one line per attempt: a realistic bug put into one definition of the model, in a scratch copy, and
what happened. An earlier version of the log attached results of the first batch to later mutants with the same `id`;
the later ones now have doubled letters (`NN`, `RR`, `SS`, `TT`) and the wrong entries are gone. There are two steps:

1. For every mutant the project is rebuilt. `theorems_failed` are the theorems whose proofs no longer check;
   `property_theorems_not_reached` are property theorems that use one of them; `property_theorems_still_proved` are the
   property theorems, among those of the properties named in the line, that still check.
2. A failing proof may only be a rigid proof of a statement that is still true. So, for the lines that have the field
   `statements_refuted_in_mutant` (about a quarter of the lines), in a second scratch copy, all proofs are dropped and the *negation* of a property theorem is proved about the mutated model, from the definitions
   alone (checked with `#print axioms`). The field lists the theorems refuted this way. For the other lines only the
   failing proofs are recorded, and whether a failing statement is false of the mutant was not checked by machine.

Where step 2 could not be done because the statement was still true, a theorem was added or strengthened
(`theorems_tightened`), and the mutant tried again (`id` with `#2`). Lines with a `note` saying so are equivalent edits.
