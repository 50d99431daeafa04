import Verif.Slice
import Verif.Individual
import Verif.Stats

/-!
# Populations (`/repo/src/population.rs`)

`par_sort_unstable_by(compare_fitness)` is any function satisfying `LawfulSort`: rayon's unstable sort always leaves a
permutation of its input, and an ascending one if `compare_fitness` is a total preorder on the elements, which is
the case when no fitness is NaN. Nothing else (stability, determinism across calls) is assumed.
Counters are natural numbers (`ReleaseRun.lean` bounds them; C113).
-/

namespace RG
variable {I : Type} [Individual I]

/-- Contract of `[T]::par_sort_unstable_by(compare_fitness)`. -/
structure LawfulSort (sort : List I → List I) : Prop where
  perm : ∀ l, (sort l).Perm l
  sorted : ∀ l, (∀ i ∈ l, (fitness i).isNaN = false) → (sort l).Pairwise fun a b => compareFitness a b ≠ .gt

/-- Body of `Vec::dedup` after the first element: an element is dropped if it equals (`current == previous retained`)
the last retained one. -/
def dedupFrom (prev : I) : List I → List I
  | [] => []
  | c :: rest => if Individual.eq c prev then dedupFrom prev rest else c :: dedupFrom c rest

/-- `Vec::dedup` (called in `population.rs:132`). -/
def dedup : List I → List I
  | [] => []
  | x :: xs => x :: dedupFrom x xs

/-- `sort_dedup_and_collect_stats` — `population.rs:130-139`: the vector it leaves behind and the statistics. -/
def sortDedupCollect (sort : List I → List I) (individuals : List I) : Res (List I × PopulatedStats F64) := do
  let individuals := dedup (sort individuals)
  let stats ← Res.ofOption (PopulatedStats.tryFrom (Stats.collect (individuals.map fitness)))
  pure (individuals, stats)

/-- `struct Population` — `population.rs:10-15`. -/
structure Population (I : Type) where
  individuals : List I
  generation : Nat
  stagnation : Nat
  stats : PopulatedStats F64
deriving DecidableEq

namespace Population

/-- `Population::new` — `population.rs:30-38`. -/
def new (sort : List I → List I) (initialPopulation : List I) : Res (Population I) := do
  let (individuals, stats) ← sortDedupCollect sort initialPopulation
  pure { individuals, generation := 0, stagnation := 0, stats }

/-- `Population::replace` — `population.rs:58-68`: the new population and the final content of the `new_population`
argument. -/
def replace (sort : List I → List I) (p : Population I) (newPopulation : List I) : Res (Population I × List I) := do
  let old := p.individuals
  let previousBest := p.stats.max
  let (individuals, stats) ← sortDedupCollect sort newPopulation
  let generation := p.generation + 1
  let stagnation := if previousBest.lt stats.max then 0 else p.stagnation + 1
  pure ({ individuals, generation, stagnation, stats }, old)

/-- `Population::fittest` — `population.rs:91-93`; indexing panics when out of bounds. -/
def fittest (p : Population I) : Res I := Res.ofOption p.individuals[p.stats.argMax]?

/-- `Population::take_fittest` — `population.rs:97-99`. -/
def takeFittest (p : Population I) : Res I := do
  let (x, _) ← swapRemove p.individuals p.stats.argMax
  pure x

/-- `TryFrom<Vec<I>>` — `population.rs:111-121` (`Err(v)` is `Sum.inr v`). -/
def tryFrom (sort : List I → List I) (individuals : List I) : Res (Population I ⊕ List I) := do
  if individuals ≠ [] then
    let p ← new sort individuals
    pure (.inl p)
  else pure (.inr individuals)

/-- `From<Population<I>> for Vec<I>` — `population.rs:123-127`. -/
def toVec (p : Population I) : List I := p.individuals

/-- `population.len()` through `Deref` — `population.rs:102-109`. -/
def len (p : Population I) : Nat := p.individuals.length

end Population

/-- The list of populations obtained by `new` and then any sequence of `replace` calls, newest first; each call may
use a different (lawful) sort result. -/
inductive History : List (Population I) → Prop
  | new {sort : List I → List I} {v : List I} {p : Population I} :
      LawfulSort sort → Population.new sort v = .ok p → History [p]
  | replace {sort : List I → List I} {v old : List I} {p p' : Population I} {ps : List (Population I)} :
      LawfulSort sort → History (p :: ps) → p.replace sort v = .ok (p', old) → History (p' :: p :: ps)

end RG
