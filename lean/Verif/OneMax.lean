import Verif.Evolution
import Verif.Crossover
import Verif.Mutation

/-!
# The OneMax problem (`/repo/src/lib.rs:71-168`)

The draws are those of `Prog` (`SmallRng` is in `Rand.lean`); a `bool` of the `Standard` distribution is one fair bit.
-/

namespace RG

/-- `struct OneMax` — `lib.rs:81-84`. -/
structure OneMax where
  genome : List Bool
  fit : F64
deriving DecidableEq

namespace OneMax

/-- `From<Vec<bool>>` — `lib.rs:96-103`. -/
def ofGenome (genome : List Bool) : OneMax := ⟨genome, F64.zero⟩

/-- `impl Individual` — `lib.rs:106-111`, with the default `is_valid`; the equality is the derived one (`lib.rs:80`). -/
instance : Individual OneMax where
  fitness x := x.fit
  eq a b := a.genome == b.genome && a.fit.feq b.fit

instance : DefaultValid OneMax := ⟨fun _ => rfl⟩

/-- One bit of the `Standard` distribution. -/
def randomBit : Prog Bool := do
  let k ← Prog.uniform 2
  pure (k == 1)

/-- `new_random` — `lib.rs:119-123`. -/
def newRandom (length : Nat) : Prog OneMax := do
  let genome ← Prog.replicate length randomBit
  pure (ofGenome genome)

/-- `crossover` — `lib.rs:144-153`. `SinglePoint` uses neither the order of genes, nor that of a hash set, nor a loop bound. -/
def crossover (parent1 parent2 : OneMax) : Prog OneMax := do
  let genome ← CrossoverStrategy.singlePoint.crossover (fun _ _ => false) (fun _ l => l) 0 parent1.genome parent2.genome
  pure (ofGenome genome)

/-- `mutate` — `lib.rs:156-158`; the fitness keeps its old value. -/
def mutate (individual : OneMax) : Prog OneMax := do
  let genome ← MutationStrategy.duplicate.mutate individual.genome
  pure { individual with genome }

/-- `evaluate` — `lib.rs:162-166`. -/
def evaluate (individual : OneMax) : OneMax :=
  let oneBits := (individual.genome.filter fun one => one).length
  let totalBits := individual.genome.length
  { individual with fit := (F64.ofNat oneBits).div (F64.ofNat totalBits) }

/-- `impl EvolutionModel for OneMaxEvolutionModel`: the operators — `lib.rs:134-167`. -/
def ops : EvoOps OneMax Unit Empty where
  crossover _ := crossover
  mutate _ := mutate
  evaluate _ i := pure (evaluate i)
  selectors := ⟨fun u => u.elim, fun u => u.elim, fun u => u.elim⟩

/-- `struct OneMaxEvolutionModel` — `lib.rs:131`, everything else being the defaults. -/
def model : EvoModel OneMax Unit Empty := { ops with }

end OneMax
end RG
