import Verif.Model
import Verif.Interpolate

/-!
# Evolution algorithms (`/repo/src/algorithms.rs`, `/repo/src/algorithms/ga.rs`, `/repo/src/algorithms/aga.rs`)

* `EvoAlgo` is `trait EvolutionAlgorithm` together with `trait EvolutionParameters`; `A` is the type of the algorithm value
  (`Self`), `P` the type of its parameters.
* `Env` is what may differ from one generation to the next independently of the program: how the unstable parallel sort
  orders equal elements, how a parallel sum is bracketed, and `f64::exp`.
* The pool of random number generators (`rng_pool`) does not occur here: the draws are those of `Prog`. See `Parallel.lean`.
* `Vec` capacities (`max_population_size`) do not occur here. See `Memory.lean`.
-/

namespace RG
open Arith
variable {I : Type} [Individual I] {Mo U : Type}

/-- Results that the code leaves to the platform or the scheduler. -/
structure Env (I : Type) where
  sort : List I → List I
  num : NumEnv

/-- The contract of the environment. -/
structure Env.Lawful (env : Env I) : Prop where
  sort : LawfulSort env.sort
  sum : env.num.LawfulSum

/-- `trait EvolutionAlgorithm` and `trait EvolutionParameters` — `algorithms.rs:18-37, 45-254`. -/
structure EvoAlgo (I Mo U A P : Type) [Individual I] where
  /-- `EvolutionParameters::initial_population_size` -/
  initialSize : P → Nat
  /-- `EvolutionParameters::max_population_size` -/
  maxSize : P → Nat
  /-- `EvolutionParameters::validate` -/
  validate : P → Res Unit
  /-- `model` -/
  model : A → Mo
  /-- `reproduction_parameters` -/
  repro : A → ReproParams U × Nat
  /-- `configure` -/
  configure : A → P → Res A
  /-- `select_elites`: the new content of `elites` -/
  selectElites : A → Population I → List I → Res (List I)
  /-- `initialize_population` -/
  initPopulation : Env I → A → List I → Prog (Population I)
  /-- `prepare_for_next_population` -/
  prepare : NumEnv → A → Population I → Prog A
  /-- `generate_new_population`: the new content of `offspring` -/
  generate : NumEnv → A → Population I → List I → Prog (List I)
  /-- `replace_population`: the new population and the new content of `offspring` -/
  replace : Env I → A → Population I → List I → Res (Population I × List I)

/-! ### Default methods -/

/-- `select_elites` (default) — `algorithms.rs:134-140`. Neither built-in algorithm uses it. -/
def defaultSelectElites (population : Population I) (elites : List I) : Res (List I) := do
  let x ← population.fittest
  pure (elites ++ [x])

/-- `initialize_population` (default) — `algorithms.rs:165-175`. -/
def defaultInitialize (M : EvoModel I Mo U) (env : Env I) (model : Mo) (individuals : List I) : Prog (Population I) := do
  let evaluated ← Prog.mapList (M.evaluate model) individuals
  let retained := evaluated.filter isValid
  Prog.lift (Population.new env.sort retained)

/-- `generate_new_population` (default) — `algorithms.rs:211-232`. When exactly one individual is missing, `breed` is
called and its result dropped (`algorithms.rs:220-224`). -/
def defaultGenerate (M : EvoModel I Mo U) (env : NumEnv) (model : Mo) (repro : ReproParams U × Nat)
    (population : Population I) (offspring : List I) : Prog (List I) := do
  let (breedingParameters, offspringSize) := repro
  match offspringSize - offspring.length with
  | 0 => pure offspring
  | 1 => do
    let _ ← M.breed env model population breedingParameters
    pure offspring
  | size => do
    let new ← Prog.replicate size (M.breed env model population breedingParameters)
    pure (offspring ++ new)

/-- `replace_population` (default) — `algorithms.rs:247-253`. -/
def defaultReplace (env : Env I) (population : Population I) (offspring : List I) : Res (Population I × List I) :=
  population.replace env.sort offspring

/-- `select_elites` of both built-in algorithms — `ga.rs:166-175`, `aga.rs:186-195`. -/
def takeElites (eliteSize : Nat) (population : Population I) (elites : List I) : List I :=
  if eliteSize ≠ 0 then
    let rangeStart := population.len - eliteSize
    elites ++ population.individuals.drop rangeStart
  else elites

/-! ### The genetic algorithm -/

/-- `struct GeneticAlgorithmParameters` — `ga.rs:10-56`. -/
structure GaParams where
  populationSize : Nat
  elitismRate : F64
  crossoverRate : F64
  mutationRate : F64
  selectionStrategy : SelectionStrategy

namespace GaParams
/-- `Default` — `ga.rs:67-75`. -/
def default : GaParams where
  populationSize := 100
  elitismRate := F64.lit (1 / 100)
  crossoverRate := F64.lit (8 / 10)
  mutationRate := F64.lit (1 / 10)
  selectionStrategy := .rouletteWheel

/-- `validate` — `ga.rs:87-92`. -/
def validate (p : GaParams) : Res Unit := do
  Res.assert (decide (p.populationSize ≠ 0))
  Res.assert (inHalfOpenUnit p.elitismRate)
  Res.assert (inClosedUnit p.crossoverRate)
  Res.assert (inClosedUnit p.mutationRate)
end GaParams

/-- `struct GeneticAlgorithm` — `ga.rs:134-139`. -/
structure Ga (Mo U : Type) where
  model : Mo
  populationSize : Nat
  eliteSize : Nat
  breeding : ReproParams U

namespace Ga
/-- `From<M>` — `ga.rs:184-193`. -/
def ofModel (model : Mo) : Ga Mo U where
  model := model
  populationSize := 0
  eliteSize := 0
  breeding := ReproParams.default

/-- `configure` — `ga.rs:155-163`. -/
def configure (a : Ga Mo U) (p : GaParams) : Res (Ga Mo U) := do
  p.validate
  let eliteSize ← interpolateUsize 0 p.populationSize p.elitismRate
  let selector ← p.selectionStrategy.createSelector
  pure { model := a.model
         populationSize := p.populationSize
         eliteSize := eliteSize
         breeding := { crossoverRate := p.crossoverRate
                       mutationRate := p.mutationRate
                       parentSelector := .builtin selector } }

/-- `prepare_for_next_population` — `ga.rs:178-181`. -/
def prepare (M : EvoModel I Mo U) (env : NumEnv) (a : Ga Mo U) (population : Population I) : Prog (Ga Mo U) := do
  let (model, breeding) ← M.preGeneration a.model population a.breeding
  pure { a with
    model := model
    breeding := { breeding with parentSelector := breeding.parentSelector.prepare env M.selectors population } }
end Ga

/-- `impl EvolutionAlgorithm for GeneticAlgorithm` — `ga.rs:141-182`; the sizes are those of `ga.rs:79-85`. -/
def ga (M : EvoModel I Mo U) : EvoAlgo I Mo U (Ga Mo U) GaParams where
  initialSize p := p.populationSize
  maxSize p := p.populationSize
  validate p := p.validate
  model a := a.model
  repro a := (a.breeding, a.populationSize)
  configure := Ga.configure
  selectElites a population elites := .ok (takeElites a.eliteSize population elites)
  initPopulation env a := defaultInitialize M env a.model
  prepare := Ga.prepare M
  generate env a := defaultGenerate M env a.model (a.breeding, a.populationSize)
  replace env _ := defaultReplace env

/-! ### The adaptive genetic algorithm -/

/-- `std::ops::Range<f64>`. -/
structure FRange (α : Type) where
  start : α
  stop : α

/-- `struct AdaptiveGeneticAlgorithmParameters` — `aga.rs:12-63`. -/
structure AgaParams where
  populationSize : Nat
  elitismRate : F64
  crossoverRateRange : FRange F64
  mutationRateRange : FRange F64
  selectionStrategy : SelectionStrategy
  adjustmentInterval : Nat

namespace AgaParams
/-- `Default` — `aga.rs:75-84`. -/
def default : AgaParams where
  populationSize := 100
  elitismRate := F64.lit (1 / 100)
  crossoverRateRange := ⟨F64.lit (3 / 10), F64.one⟩
  mutationRateRange := ⟨F64.lit (1 / 10), F64.one⟩
  selectionStrategy := .rouletteWheel
  adjustmentInterval := 1

/-- `validate` — `aga.rs:96-103`. -/
def validate (p : AgaParams) : Res Unit := do
  Res.assert (decide (p.populationSize ≠ 0))
  Res.assert (inHalfOpenUnit p.elitismRate)
  Res.assert (inClosedUnit p.crossoverRateRange.start)
  Res.assert (inClosedUnit p.crossoverRateRange.stop)
  Res.assert (inClosedUnit p.mutationRateRange.start)
  Res.assert (inClosedUnit p.mutationRateRange.stop)
end AgaParams

/-- `struct AdaptiveGeneticAlgorithm` — `aga.rs:149-158`. -/
structure Aga (Mo U : Type) where
  model : Mo
  populationSize : Nat
  eliteSize : Nat
  adjustmentInterval : Nat
  crossoverRateRange : FRange F64
  mutationRateRange : FRange F64
  breeding : ReproParams U
  referenceStd : F64

/-- `f64::clamp(lo, hi)`, generic in the arithmetic: `if x < lo {lo}; if x > hi {hi}` (NaN stays NaN; the assertion `lo <= hi` is
not modelled: it is only used with `0.0, 1.0`). -/
def clampA {α : Type} [Arith α] (x lo hi : α) : α :=
  let x := if x <ₐ lo then lo else x
  if hi <ₐ x then hi else x

/-- `diversity` — `aga.rs:206`, generic in the arithmetic. -/
def diversity {α : Type} [Arith α] (std reference : α) : α := clampA (std /ₐ reference) (lit 0) (lit 1)

/-- The rates (crossover, mutation) at an adjustment generation — `aga.rs:206-217`, generic in the arithmetic. -/
def adjustedRates {α : Type} [Arith α] (cr mr : FRange α) (std reference : α) : α × α :=
  let d := diversity std reference
  (interpolateF64 cr.start cr.stop d, interpolateF64 mr.start mr.stop (lit 1 -ₐ d))

namespace Aga
/-- `From<M>` — `aga.rs:227-240`. -/
def ofModel (model : Mo) : Aga Mo U where
  model := model
  populationSize := 0
  eliteSize := 0
  adjustmentInterval := 0
  crossoverRateRange := ⟨F64.zero, F64.zero⟩
  mutationRateRange := ⟨F64.zero, F64.zero⟩
  breeding := ReproParams.default
  referenceStd := F64.zero

/-- `configure` — `aga.rs:174-183`. The rates and `reference_std` keep their values. -/
def configure (a : Aga Mo U) (p : AgaParams) : Res (Aga Mo U) := do
  p.validate
  let eliteSize ← interpolateUsize 0 p.populationSize p.elitismRate
  let selector ← p.selectionStrategy.createSelector
  pure { a with
    populationSize := p.populationSize
    eliteSize := eliteSize
    adjustmentInterval := p.adjustmentInterval
    crossoverRateRange := p.crossoverRateRange
    mutationRateRange := p.mutationRateRange
    breeding := { a.breeding with parentSelector := .builtin selector } }

/-- The `match` of `prepare_for_next_population` — `aga.rs:199-220`. -/
def adjust (a : Aga Mo U) (generation : Nat) (std : F64) : Aga Mo U :=
  if generation = 0 then
    { a with
      referenceStd := std
      breeding := { a.breeding with
        crossoverRate := a.crossoverRateRange.stop
        mutationRate := a.mutationRateRange.start } }
  else if a.adjustmentInterval ≠ 0 ∧ generation % a.adjustmentInterval = 0 then
    let rates := adjustedRates a.crossoverRateRange a.mutationRateRange std a.referenceStd
    { a with breeding := { a.breeding with crossoverRate := rates.1, mutationRate := rates.2 } }
  else a

/-- `prepare_for_next_population` — `aga.rs:198-224`. -/
def prepare (M : EvoModel I Mo U) (env : NumEnv) (a : Aga Mo U) (population : Population I) : Prog (Aga Mo U) := do
  let a := a.adjust population.generation population.stats.std
  let (model, breeding) ← M.preGeneration a.model population a.breeding
  pure { a with
    model := model
    breeding := { breeding with parentSelector := breeding.parentSelector.prepare env M.selectors population } }
end Aga

/-- `impl EvolutionAlgorithm for AdaptiveGeneticAlgorithm` — `aga.rs:160-225`; the sizes are those of `aga.rs:88-94`. -/
def aga (M : EvoModel I Mo U) : EvoAlgo I Mo U (Aga Mo U) AgaParams where
  initialSize p := p.populationSize
  maxSize p := p.populationSize
  validate p := p.validate
  model a := a.model
  repro a := (a.breeding, a.populationSize)
  configure := Aga.configure
  selectElites a population elites := .ok (takeElites a.eliteSize population elites)
  initPopulation env a := defaultInitialize M env a.model
  prepare := Aga.prepare M
  generate env a := defaultGenerate M env a.model (a.breeding, a.populationSize)
  replace env _ := defaultReplace env

end RG
