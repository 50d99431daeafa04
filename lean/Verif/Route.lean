import Verif.Evolution
import Verif.Crossover
import Verif.Mutation

/-!
# A client of the library: problems over arrangements of genes

Not in `/repo`: what a user of the library writes for a problem such as the travelling salesman's, the way `OneMax` is written in
`/repo/src/lib.rs:71-168`. The genome is a vector of genes; crossover and mutation are one of the strategies of the library each
(`crossover.rs:68-102`, `mutation.rs:54-62`), the fitness is any function of the genome, everything else are the defaults of the traits.
-/

namespace RG

/-- An individual: its genes in some order, and its fitness. -/
structure Route (G : Type) where
  genome : List G
  fit : F64

namespace Route
variable {G : Type} [DecidableEq G]

/-- The derived equality, and the default `is_valid`. -/
instance : Individual (Route G) where
  fitness x := x.fit
  eq a b := a.genome == b.genome && a.fit.feq b.fit

instance : DefaultValid (Route G) := ⟨fun _ => rfl⟩

/-- The strategies and the objective of the problem. `lt`, `ord` and `fuel` are those of `CrossoverStrategy.crossover`. -/
structure Problem (G : Type) where
  lt : G → G → Bool
  ord : Nat → List G → List G
  fuel : Nat
  crossover : CrossoverStrategy
  mutation : MutationStrategy
  objective : List G → F64

/-- The operators. The fitness of a new individual is 0 until it is evaluated. -/
def ops (P : Problem G) : EvoOps (Route G) Unit Empty where
  crossover _ a b := do
    let genome ← P.crossover.crossover P.lt P.ord P.fuel a.genome b.genome
    pure ⟨genome, F64.zero⟩
  mutate _ a := do
    let genome ← P.mutation.mutate a.genome
    pure { a with genome }
  evaluate _ a := pure { a with fit := P.objective a.genome }
  selectors := ⟨fun u => u.elim, fun u => u.elim, fun u => u.elim⟩

/-- The model; the rest are the defaults. -/
def model (P : Problem G) : EvoModel (Route G) Unit Empty := { ops P with }

end Route
end RG
