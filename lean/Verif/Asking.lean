import Verif.Algorithm

/-!
# How often the library asks for the fitness

The same functions as in `Verif/Selection.lean`, `Verif/Model.lean` and `Verif/Algorithm.lean`, with a counter of the calls of
`Individual::fitness` made by the library itself, its default `is_valid` (`individual.rs`) and its default `can_survive` included. The calls
which the user's methods make, and those of the sort (`population.rs:131`), are not counted: the latter depend on rayon's algorithm.
`C129_same` shows that the counter changes nothing else.
-/

namespace RG

/-- A program with the number of calls of `fitness` it makes when it ends normally. -/
structure Asking (α : Type) where
  prog : Prog (α × Nat)

namespace Asking
variable {α β : Type}

/-- Sequencing: the counters add up. -/
def bind (x : Asking α) (f : α → Asking β) : Asking β :=
  ⟨x.prog >>= fun a => (f a.1).prog >>= fun b => pure (b.1, a.2 + b.2)⟩

instance : Monad Asking where
  pure a := ⟨pure (a, 0)⟩
  bind := bind

/-- A program that makes no call of `fitness`. -/
def free (p : Prog α) : Asking α := ⟨p >>= fun a => pure (a, 0)⟩

/-- The program without the counter. -/
def forget (x : Asking α) : Prog α := x.prog >>= fun a => pure a.1

/-- The expected number of calls. -/
def mean (x : Asking α) : ℚ := x.prog.expect fun r => match r with
  | .ok a => a.2
  | _ => 0

/-- `n` times the same, one after the other. -/
def replicate (x : Asking α) : Nat → Asking (List α)
  | 0 => pure []
  | n + 1 => do
    let a ← x
    let as ← replicate x n
    pure (a :: as)

end Asking

variable {I : Type} [Individual I] {Mo U : Type}

/-- One call of `fitness`. -/
def ask (x : I) : Asking F64 := ⟨pure (fitness x, 1)⟩

/-- The fitness of every individual. -/
def askAll : List I → Asking (List F64)
  | [] => pure []
  | x :: xs => do
    let f ← ask x
    let fs ← askAll xs
    pure (f :: fs)

/-- The loops of `RouletteWheelSelection::select` and `BoltzmannSelection::select` — `selection.rs:220-225, 310-315`; `weight` is what is
added for a fitness. -/
def askWheel (weight : F64 → F64) (target : F64) : F64 → Nat → List I → Asking (Option Nat)
  | _, _, [] => pure none
  | cumulative, index, x :: xs => do
    let f ← ask x
    let cumulative := cumulative.add (weight f)
    if target.le cumulative then pure (some index) else askWheel weight target cumulative (index + 1) xs

/-- `select` of the two wheels — `selection.rs:217-227, 307-317`. -/
def askWheelSelect (weight : F64 → F64) (total : F64) (population : Population I) : Asking (Nat × I) := do
  let u ← Asking.free genF64
  let r ← askWheel weight (u.mul total) F64.zero 0 population.individuals
  match r with
  | some i => Asking.free (Prog.lift (memberAt population i))
  | none => Asking.free (Prog.lift (do memberAt population (← usizeSub population.len 1)))

/-- `select` of the built-in selectors: tournament, rank, linear and elitist selection look at the positions only —
`selection.rs:178-184, 348-361, 419-423, 466-476`. -/
def Selector.askSelect (env : NumEnv) (population : Population I) : Selector → Asking (Nat × I)
  | .rouletteWheel s => askWheelSelect (fun f => f) s.totalFitness population
  | .boltzmann s => askWheelSelect (fun f => env.exp (f.div s.temperature)) s.totalScaledFitness population
  | s => .free (s.select env population)

/-- `prepare` of the built-in selectors — `selection.rs:212-214, 298-304`; the others do nothing. -/
def Selector.askPrepare (env : NumEnv) (population : Population I) : Selector → Asking Selector
  | .rouletteWheel _ => do
    let fs ← askAll population.individuals
    pure (.rouletteWheel ⟨env.parSum fs⟩)
  | .boltzmann s => do
    let temperature := s.temperature.mul s.coolingRate
    let fs ← askAll population.individuals
    pure (.boltzmann ⟨temperature, s.coolingRate, env.parSum (fs.map fun f => env.exp (f.div temperature))⟩)
  | s => pure s

/-- `select_distinct` — `selection.rs:112-130`. -/
def askDistinct (select : Asking (Nat × I)) (excluded : I) : Nat → Asking (Option (Nat × I))
  | 0 => pure none
  | tries + 1 => do
    let (index, candidate) ← select
    if Individual.eq candidate excluded = false then pure (some (index, candidate))
    else askDistinct select excluded tries

/-- The parents of `breed` — `model.rs:153-161`. -/
def askParents (env : NumEnv) (population : Population I) (selector : Selector) (crossoverRate : F64) : Asking (I × Option I) := do
  let (_, parent1) ← selector.askSelect env population
  let cross ← Asking.free (if population.len > 1 then do
      let u ← genF64
      pure (u.lt crossoverRate)
    else pure false)
  let parent2 ← if cross then do
      let r ← askDistinct (selector.askSelect env population) parent1 3
      pure (r.map Prod.snd)
    else pure none
  pure (parent1, parent2)

/-- The start of the offspring — `model.rs:163-171`: with two parents `parent2.fitness() > parent1.fitness()` is evaluated. -/
def askStart (M : EvoOps I Mo U) (model : Mo) : I × Option I → Asking (I × I)
  | (parent1, some parent2) => do
    let f2 ← ask parent2
    let f1 ← ask parent1
    let offspring ← Asking.free (M.crossover model parent1 parent2)
    pure (if f1.lt f2 then parent2 else parent1, offspring)
  | (parent1, none) => pure (parent1, parent1)

/-- `is_valid` and `can_survive` (defaults) — `model.rs:180-184, 206-214`, `individual.rs:30-32`. -/
def askSurvive (offspring fittestParent : I) : Asking I := do
  let f ← ask offspring
  let survives ← if f.isFinite then do
      let f ← ask offspring
      let g ← ask fittestParent
      pure (g.le f)
    else pure false
  pure (if survives then offspring else fittestParent)

/-- `breed` (default) — `model.rs:144-185`. -/
def askBreed (M : EvoOps I Mo U) (env : NumEnv) (model : Mo) (population : Population I) (selector : Selector)
    (crossoverRate mutationRate : F64) : Asking I := do
  let parents ← askParents env population selector crossoverRate
  let (fittestParent, offspring) ← askStart M model parents
  let offspring ← Asking.free (do
    let u ← genF64
    let offspring ← if u.lt mutationRate then M.mutate model offspring else pure offspring
    let offspring ← M.improve model offspring
    M.evaluate model offspring)
  askSurvive offspring fittestParent

/-- `generate_new_population` (default) — `algorithms.rs:211-232`. -/
def askGenerate (M : EvoOps I Mo U) (env : NumEnv) (model : Mo) (selector : Selector) (crossoverRate mutationRate : F64) (size : Nat)
    (population : Population I) (offspring : List I) : Asking (List I) :=
  match size - offspring.length with
  | 0 => pure offspring
  | 1 => do
    let _ ← askBreed M env model population selector crossoverRate mutationRate
    pure offspring
  | size => do
    let new ← (askBreed M env model population selector crossoverRate mutationRate).replicate size
    pure (offspring ++ new)

/-- `sort_dedup_and_collect_stats` — `population.rs:130-139`, after the sort. -/
def askCollect (sort : List I → List I) (individuals : List I) : Asking (List I × PopulatedStats F64) := do
  let individuals := dedup (sort individuals)
  let fs ← askAll individuals
  let stats ← Asking.free (Prog.lift (Res.ofOption (PopulatedStats.tryFrom (Stats.collect fs))))
  pure (individuals, stats)

end RG
