import Verif.Release
import Verif.Evolution

/-!
# Runs in both kinds of build

The model of runs elsewhere counts generations without bound and uses checked `usize` arithmetic in the selectors. Here are the
functions of a run as they behave in a build with overflow checks (dev, test), in which also the counters of a population are
checked, and in a release build, in which everything wraps around modulo `2^64`.
The counter of samples in `stats.rs` is not treated: it is at most the number of individuals.
-/

namespace RG
variable {I : Type} [Individual I] {Mo U : Type}

/-- With overflow checks (dev and test profiles) or without (release profile). -/
inductive Build where
  | checked
  | release

/-- `n += 1` on `usize`. -/
def Build.succ : Build → Nat → Res Nat
  | checked, n => usizeAdd n 1
  | release, n => .ok (wrapAdd n 1)

/-- `interpolate_usize` — `lib.rs:63-65`. -/
def Build.interpolate : Build → Nat → Nat → F64 → Res Nat
  | checked, min, max, ratio => interpolateUsize min max ratio
  | release, min, max, ratio => .ok (interpolateUsizeW min max ratio)

/-- `SelectionMechanism::select` of the built-in selectors — `selection.rs`. -/
def Build.selectBuiltin (b : Build) (env : NumEnv) (population : Population I) (s : Selector) : Prog (Nat × I) :=
  match b with
  | checked => s.select env population
  | release => s.selectW env population

/-- Dynamic dispatch of `select`. -/
def Build.select (b : Build) (env : NumEnv) (cs : CustomSelector I U) (population : Population I) : DynSel U → Prog (Nat × I)
  | .builtin s => b.selectBuiltin env population s
  | .custom u => cs.select u population

/-- Dynamic dispatch of `select_distinct`. -/
def Build.selectDistinct (b : Build) (env : NumEnv) (cs : CustomSelector I U) (population : Population I) (maxTries : Nat)
    (excluded : I) : DynSel U → Prog (Option (Nat × I))
  | .builtin s => RG.selectDistinct (b.selectBuiltin env population s) excluded maxTries
  | .custom u => cs.selectDistinct u population maxTries excluded

/-- `breed` (default) — `model.rs:144-185`. -/
def Build.breed (b : Build) (M : EvoOps I Mo U) (env : NumEnv) (model : Mo) (population : Population I)
    (parameters : ReproParams U) : Prog I := do
  let (_, parent1) ← b.select env M.selectors population parameters.parentSelector
  let cross ← if population.len > 1 then do
      let u ← genF64
      pure (u.lt parameters.crossoverRate)
    else pure false
  let parent2 ← if cross then do
      let r ← b.selectDistinct env M.selectors population 3 parent1 parameters.parentSelector
      pure (r.map Prod.snd)
    else pure none
  let (fittestParent, offspring) ← match parent2 with
    | some parent2 => do
      let fittestParent := if (fitness parent1).lt (fitness parent2) then parent2 else parent1
      let offspring ← M.crossover model parent1 parent2
      pure (fittestParent, offspring)
    | none => pure (parent1, parent1)
  let u ← genF64
  let offspring ← if u.lt parameters.mutationRate then M.mutate model offspring else pure offspring
  let offspring ← M.improve model offspring
  let offspring ← M.evaluate model offspring
  let survives ← if isValid offspring then M.canSurvive model offspring fittestParent population else pure false
  pure (if survives then offspring else fittestParent)

/-- `Population::replace` — `population.rs:58-68`. -/
def Build.replace (b : Build) (sort : List I → List I) (p : Population I) (newPopulation : List I) :
    Res (Population I × List I) := do
  let old := p.individuals
  let previousBest := p.stats.max
  let (individuals, stats) ← sortDedupCollect sort newPopulation
  let generation ← b.succ p.generation
  let stagnation ← if previousBest.lt stats.max then pure 0 else b.succ p.stagnation
  pure ({ individuals, generation, stagnation, stats }, old)

/-- A model with the default `breed`, in this build. -/
def Build.model (b : Build) (M : EvoModel I Mo U) : EvoModel I Mo U := { M with breed := b.breed M.toEvoOps }

/-- `configure` — `ga.rs:155-163`. -/
def Build.configureGa (b : Build) (a : Ga Mo U) (p : GaParams) : Res (Ga Mo U) := do
  p.validate
  let eliteSize ← b.interpolate 0 p.populationSize p.elitismRate
  let selector ← p.selectionStrategy.createSelector
  pure { model := a.model
         populationSize := p.populationSize
         eliteSize := eliteSize
         breeding := { crossoverRate := p.crossoverRate
                       mutationRate := p.mutationRate
                       parentSelector := .builtin selector } }

/-- `configure` — `aga.rs:174-183`. -/
def Build.configureAga (b : Build) (a : Aga Mo U) (p : AgaParams) : Res (Aga Mo U) := do
  p.validate
  let eliteSize ← b.interpolate 0 p.populationSize p.elitismRate
  let selector ← p.selectionStrategy.createSelector
  pure { a with
    populationSize := p.populationSize
    eliteSize := eliteSize
    adjustmentInterval := p.adjustmentInterval
    crossoverRateRange := p.crossoverRateRange
    mutationRateRange := p.mutationRateRange
    breeding := { a.breeding with parentSelector := .builtin selector } }

/-- The genetic algorithm — `ga.rs:141-182`. -/
def Build.ga (b : Build) (M : EvoModel I Mo U) : EvoAlgo I Mo U (Ga Mo U) GaParams :=
  { RG.ga (b.model M) with
    configure := b.configureGa
    replace := fun env _ population offspring => b.replace env.sort population offspring }

/-- The adaptive genetic algorithm — `aga.rs:160-225`. -/
def Build.aga (b : Build) (M : EvoModel I Mo U) : EvoAlgo I Mo U (Aga Mo U) AgaParams :=
  { RG.aga (b.model M) with
    configure := b.configureAga
    replace := fun env _ population offspring => b.replace env.sort population offspring }

end RG
