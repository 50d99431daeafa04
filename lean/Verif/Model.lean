import Verif.Selection

/-!
# Evolution models (`/repo/src/model.rs`)

* `EvoOps I Mo U` are the methods a user writes for `trait EvolutionModel`; `Mo` is the type of the model value itself
  (`Self`), which only `pre_generation` can change, and `U` the state of the user's own selectors. All of them are
  arbitrary programs: they may draw random numbers, panic or not terminate. Methods that edit an individual in place
  (`mutate`, `improve`, `evaluate`) return the new value.
* A method taking `&self` does not change `Mo` here. Models with interior mutability (a `Mutex` or an atomic inside `Self`) are in
  `Shared.lean`.
* The random number generators of the pool are independent sources, so a parallel map of a random function is
  `Prog.replicate` (or `Prog.mapList`).
-/

namespace RG
variable {I : Type} [Individual I] {Mo U : Type}

namespace Prog
/-- A parallel (order preserving) map of a random function. -/
def mapList {α β : Type} (f : α → Prog β) : List α → Prog (List β)
  | [] => pure []
  | a :: as => do
    let b ← f a
    let bs ← mapList f as
    pure (b :: bs)
end Prog

/-- `struct ReproductionParameters` — `model.rs:291-306`. -/
structure ReproParams (U : Type) where
  crossoverRate : F64
  mutationRate : F64
  parentSelector : DynSel U

/-- `ReproductionParameters::default` — `model.rs:308-316`. -/
def ReproParams.default : ReproParams U where
  crossoverRate := F64.lit (8 / 10)
  mutationRate := F64.lit (1 / 10)
  parentSelector := .builtin (.rouletteWheel RouletteWheelSelection.new)

/-- `can_survive` (default) — `model.rs:206-214`. -/
def defaultCanSurvive (offspring fittestParent : I) : Bool := (fitness fittestParent).le (fitness offspring)

/-- The methods of `trait EvolutionModel` (`model.rs:23-288`) other than `breed` and the two that build initial populations.
`selectors` collects the user's own implementations of `SelectionMechanism`, which `pre_generation` may install. -/
structure EvoOps (I Mo U : Type) [Individual I] where
  /-- `crossover` — `model.rs:53-58` -/
  crossover : Mo → I → I → Prog I
  /-- `mutate` — `model.rs:72` -/
  mutate : Mo → I → Prog I
  /-- `improve` — `model.rs:86`; does nothing by default -/
  improve : Mo → I → Prog I := fun _ i => pure i
  /-- `evaluate` — `model.rs:103` -/
  evaluate : Mo → I → Prog I
  /-- `pre_generation` — `model.rs:117-124`; does nothing by default -/
  preGeneration : Mo → Population I → ReproParams U → Prog (Mo × ReproParams U) := fun m _ r => pure (m, r)
  /-- `can_survive` — `model.rs:206-214` -/
  canSurvive : Mo → I → I → Population I → Prog Bool := fun _ offspring parent _ => pure (defaultCanSurvive offspring parent)
  selectors : CustomSelector I U

/-- `breed` (default) — `model.rs:144-185`. -/
def defaultBreed (M : EvoOps I Mo U) (env : NumEnv) (model : Mo) (population : Population I) (parameters : ReproParams U) :
    Prog I := do
  -- model.rs:153
  let (_, parent1) ← parameters.parentSelector.select env M.selectors population
  -- model.rs:154-161; `&&` does not draw if the population has one individual
  let cross ← if population.len > 1 then do
      let u ← genF64
      pure (u.lt parameters.crossoverRate)
    else pure false
  let parent2 ← if cross then do
      let r ← parameters.parentSelector.selectDistinct env M.selectors population 3 parent1
      pure (r.map Prod.snd)
    else pure none
  -- model.rs:163-171
  let (fittestParent, offspring) ← match parent2 with
    | some parent2 => do
      let fittestParent := if (fitness parent1).lt (fitness parent2) then parent2 else parent1
      let offspring ← M.crossover model parent1 parent2
      pure (fittestParent, offspring)
    | none => pure (parent1, parent1)
  -- model.rs:173-175
  let u ← genF64
  let offspring ← if u.lt parameters.mutationRate then M.mutate model offspring else pure offspring
  -- model.rs:177-178
  let offspring ← M.improve model offspring
  let offspring ← M.evaluate model offspring
  -- model.rs:180-184
  let survives ← if isValid offspring then M.canSurvive model offspring fittestParent population else pure false
  pure (if survives then offspring else fittestParent)

/-- `extend_population` (default) — `model.rs:233-248`; `newRandom` is `Individual::new_random(args, _)`. -/
def defaultExtend (newRandom : Prog I) (individuals : List I) (size : Nat) : Prog (List I) := do
  if size = 0 then pure individuals
  else
    let new ← Prog.replicate size newRandom
    pure (individuals ++ new)

/-- `extend_population_with` (default) — `model.rs:264-287`. -/
def defaultExtendWith (M : EvoOps I Mo U) (model : Mo) (individuals : List I) (size : Nat) (individual : I) :
    Prog (List I) := do
  if size = 0 then pure individuals
  else
    let individuals := individuals ++ [individual]
    if size = 1 then pure individuals
    else
      let n ← Prog.lift (usizeSub size 1)
      let new ← Prog.replicate n (M.mutate model individual)
      pure (individuals ++ new)

/-- `trait EvolutionModel` — `model.rs:23-288`, with the three methods that have elaborate defaults. `breed` gets the
numerical environment because it calls selectors that use `exp`. `extend` gets `new_random(args, _)` instead of `args`. -/
structure EvoModel (I Mo U : Type) [Individual I] extends EvoOps I Mo U where
  breed : NumEnv → Mo → Population I → ReproParams U → Prog I := defaultBreed toEvoOps
  extend : Mo → Prog I → List I → Nat → Prog (List I) := fun _ => defaultExtend
  extendWith : Mo → List I → Nat → I → Prog (List I) := defaultExtendWith toEvoOps

end RG
