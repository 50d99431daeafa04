import Verif.Calls
import Verif.Crossover
import Verif.Mutation

/-!
# Specification: how many random numbers are drawn

A random number is what one call of a method of the generator's user interface returns: `gen_range`, `gen::<f64>`, `gen::<bool>`, `sample`,
`choose`, or one step of `shuffle`. In the model each is one `pick`.
-/

namespace RG

/-- `p.draws r c`: some sequence of `c` random numbers makes the program end with outcome `r`. -/
def Prog.draws {α : Type} : Prog α → Res α → Nat → Prop
  | done r', r, c => r = r' ∧ c = 0
  | pick n k, r, c => ∃ i, i ≤ n ∧ ∃ c', (k i).draws r c' ∧ c = 1 + c'

/-- Every normal end of `p` takes at least `lo` and at most `hi` random numbers. -/
def Prog.DrawsBetween {α : Type} (lo hi : Nat) (p : Prog α) : Prop := ∀ a c, p.draws (.ok a) c → lo ≤ c ∧ c ≤ hi

/-- Every normal end of `p` takes exactly `n` random numbers. -/
def Prog.DrawsExactly {α : Type} (n : Nat) (p : Prog α) : Prop := ∀ a c, p.draws (.ok a) c → c = n

/-- The numbers that a selector draws for one selection. -/
def Selector.draws : Selector → Nat
  | .tournament s => s.size
  | _ => 1

/-- The same for the selector that a strategy makes. -/
def SelectionStrategy.draws : SelectionStrategy → Nat
  | .tournament size => size
  | _ => 1

/-- The least number of draws of a mutation of a genome of at least two genes. -/
def MutationStrategy.leastDraws : MutationStrategy → Nat
  | .scramble => 3
  | _ => 2

/-- The greatest number of draws of a mutation of a genome of `n` genes, at least two. -/
def MutationStrategy.mostDraws (n : Nat) : MutationStrategy → Nat
  | .scramble => n + 1
  | _ => 2

/-- The number of draws of a crossover; `parts` is the number of common partitions of the parents. -/
def CrossoverStrategy.draws (parts : Nat) : CrossoverStrategy → Nat
  | .generalizedPartition2 => parts
  | .cycle => 0
  | .partiallyMapped | .order => 2
  | .sequentialConstructive | .edgeRecombination | .singlePoint => 1

variable {I : Type} [Individual I] {Mo U : Type}

/-- How many numbers the user's methods draw: at most so many for `crossover`, `mutate` and `can_survive`, none for the others, which get no
generator; and `pre_generation` leaves the selector alone. -/
structure EvoOps.DrawsAtMost (M : EvoOps I Mo U) (crossover mutate canSurvive : Nat) : Prop where
  crossover : ∀ m a b, (M.crossover m a b).DrawsBetween 0 crossover
  mutate : ∀ m a, (M.mutate m a).DrawsBetween 0 mutate
  improve : ∀ m a, (M.improve m a).DrawsExactly 0
  evaluate : ∀ m a, (M.evaluate m a).DrawsExactly 0
  canSurvive : ∀ m a b p, (M.canSurvive m a b p).DrawsBetween 0 canSurvive
  preGeneration : ∀ m p r, (M.preGeneration m p r).DrawsExactly 0
  selector : ∀ m p r m' r', (M.preGeneration m p r).yields (.ok (m', r')) → r'.parentSelector = r.parentSelector

/-- The least number of draws for breeding one individual from a population of `len`, when a selection takes `d`: the first parent, the
decision about the crossover (if there are two individuals), and the decision about the mutation. -/
def breedLeast (d len : Nat) : Nat := d + (if 1 < len then 1 else 0) + 1

/-- The greatest number: in addition three tries for the second parent, `x` draws for the crossover, `m` for the mutation and `s` in
`can_survive`. -/
def breedMost (d len x m s : Nat) : Nat := d + (if 1 < len then 1 + 3 * d + x else 0) + 1 + m + s

end RG
