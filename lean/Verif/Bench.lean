import Verif.Crossover
import Verif.Mutation
import Verif.Stats

/-!
# The benchmarks (`/repo/benches/benchmarks.rs`)

Criterion decides how often the measured closures are called; the number of calls is a parameter. `genome_length` is a parameter
as in the code (`benchmark` passes 1000). The generator is seeded, but the statements are about every sequence of draws; `SmallRng`
is in `Rand.lean`. What criterion does with the times it measures is not modelled.
-/

namespace RG
variable {G : Type}

/-- The parents of the crossover benchmarks — `benchmarks.rs:9-15`. -/
def benchParents (genomeLength : Nat) : Prog (List Nat × List Nat) := do
  let genome1 ← shuffle (List.range genomeLength)
  let genome2 ← shuffle (List.range genomeLength)
  pure (genome1, genome2)

/-- One of the crossover benchmarks — `benchmarks.rs:19-80`: `times` crossovers of the same parents with one generator. The
offspring are the results (criterion drops them). The hash order, which ERX depends on, is another one in every call. -/
def benchCrossover [DecidableEq G] (lt : G → G → Bool) (ords : Nat → Nat → List G → List G) (fuel : Nat) (s : CrossoverStrategy)
    (genome1 genome2 : List G) : (times : Nat) → Prog (List (List G))
  | 0 => pure []
  | times + 1 => do
    let offspring ← s.crossover lt (ords times) fuel genome1 genome2
    let rest ← benchCrossover lt ords fuel s genome1 genome2 times
    pure (offspring :: rest)

/-- One of the mutation benchmarks — `benchmarks.rs:89-122`: `times` mutations of the same genome. -/
def benchMutation (s : MutationStrategy) : (times : Nat) → (genome : List G) → Prog (List G)
  | 0, genome => pure genome
  | times + 1, genome => do
    let genome ← s.mutate genome
    benchMutation s times genome

/-- The benchmark of `Stats` — `benchmarks.rs:126-128`: `Stats::from_iter((0..samples).map(|i| i as f64))`. -/
def benchStats (samples : Nat) : Stats F64 := Stats.collect ((List.range samples).map F64.ofNat)

end RG
