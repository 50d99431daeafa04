import Verif.Population
import Verif.Random

/-!
# Parent selection (`/repo/src/operators/selection.rs`)

* `f64::exp` and the order in which rayon adds up a parallel `sum()` are parameters (`NumEnv`). Nothing is assumed about
  `exp`; a parallel sum is the result of *some* bracketing of the sequential order (`TreeSum`).
* `Box<dyn SelectionMechanism>` is `DynSel U`: one of the six built-in selectors, or a selector of the user's with state
  type `U`, whose methods are arbitrary (`CustomSelector`).
* `&'a I` results are the individuals themselves.
* The getters (`selection.rs:155, 262, 272, 393, 445`) return the field; `BoltzmannSelection::set_temperature`
  (267-269) and `LinearSelection::set_bias` (450-452) assign the field without a check.
-/

namespace RG
open Arith

/-- Numerical environment: `f64::exp` and `ParallelIterator::sum` on `f64`. -/
structure NumEnv where
  exp : F64 → F64
  parSum : List F64 → F64

/-- `TreeSum l s`: the parallel sum of `l` may be `s`. Rayon splits the sequence into consecutive pieces, adds up each
piece sequentially from a zero (`0.0` or `-0.0`, depending on the Rust version) and adds the results pairwise. -/
inductive TreeSum : List F64 → F64 → Prop
  | leaf (z : F64) (hz : z = F64.zero ∨ z = F64.nzero) (l : List F64) : TreeSum l (l.foldl F64.add z)
  | node (z : F64) (hz : z = F64.zero ∨ z = F64.nzero) {l1 l2 : List F64} {s1 s2 : F64} :
      TreeSum l1 s1 → TreeSum l2 s2 → TreeSum (l1 ++ l2) ((z.add s1).add s2)

/-- The contract of the parallel sum. -/
def NumEnv.LawfulSum (env : NumEnv) : Prop := ∀ l, TreeSum l (env.parSum l)

/-- `rng.gen::<f64>()`: uniform over the multiples of `2^-53` in `[0,1)`. -/
def genF64 : Prog F64 := do
  let k ← Prog.uniform (2 ^ 53)
  pure (F64.unit k)

/-- `a + b` on `usize` with overflow check. -/
def usizeAdd (a b : Nat) : Res Nat := if a + b < 2 ^ 64 then .ok (a + b) else .panic

/-- `a * b` on `usize` with overflow check. -/
def usizeMul (a b : Nat) : Res Nat := if a * b < 2 ^ 64 then .ok (a * b) else .panic

variable {I : Type} [Individual I]

/-- `(i, &population[i])`; panics when out of bounds. -/
def memberAt (population : Population I) (i : Nat) : Res (Nat × I) := do
  let x ← index population.individuals i
  pure (i, x)

/-! ### Tournament -/

/-- `struct TournamentSelection` — `selection.rs:140-142`. -/
structure TournamentSelection where
  size : Nat
deriving DecidableEq

namespace TournamentSelection
/-- `new` — `selection.rs:149-152`. -/
def new (size : Nat) : Res TournamentSelection := do
  Res.assert (decide (size ≠ 0))
  pure ⟨size⟩
/-- `set_size` — `selection.rs:163-166`. -/
def setSize (_s : TournamentSelection) (size : Nat) : Res TournamentSelection := do
  Res.assert (decide (size ≠ 0))
  pure ⟨size⟩
/-- `select` — `selection.rs:178-184`. `Uniform::new(0, 0)` panics; `max` of no draws is `None`. -/
def select (s : TournamentSelection) (population : Population I) : Prog (Nat × I) := do
  Prog.lift (Res.assert (decide (0 < population.len)))
  let draws ← Prog.replicate s.size (Prog.uniform population.len)
  let i ← Prog.lift (Res.ofOption draws.max?)
  Prog.lift (memberAt population i)
end TournamentSelection

/-! ### Wheels -/

/-- The scan loop shared (as repeated code) by `RouletteWheelSelection::select` and `BoltzmannSelection::select`
— `selection.rs:219-225, 309-315`: the index of the first weight at which the running sum, started at `cumulative`, reaches
`target`. -/
def wheelScan {α : Type} [Arith α] (target : α) : α → Nat → List α → Option Nat
  | _, _, [] => none
  | cumulative, index, w :: ws =>
    let cumulative := cumulative +ₐ w
    if target ≤ₐ cumulative then some index else wheelScan target cumulative (index + 1) ws

/-- The index chosen by a wheel with the given weights and prepared total for the draw `u` — `selection.rs:217-227` and
`307-317`: the loop, then the fallback to the last index. -/
def wheelIndex {α : Type} [Arith α] (weights : List α) (total u : α) : Res Nat :=
  let target := u *ₐ total
  match wheelScan target (lit 0) 0 weights with
  | some i => .ok i
  | none => usizeSub weights.length 1

/-- `struct RouletteWheelSelection` — `selection.rs:195-197`. -/
structure RouletteWheelSelection where
  totalFitness : F64
deriving DecidableEq

namespace RouletteWheelSelection
/-- `new` — `selection.rs:201-203`; also `Default` (`selection.rs:194`). -/
def new : RouletteWheelSelection := ⟨F64.zero⟩
/-- `prepare` — `selection.rs:212-214`. -/
def prepare (env : NumEnv) (_s : RouletteWheelSelection) (population : Population I) : RouletteWheelSelection :=
  ⟨env.parSum (population.individuals.map fitness)⟩
/-- `select` — `selection.rs:217-227`. -/
def select (s : RouletteWheelSelection) (population : Population I) : Prog (Nat × I) := do
  let u ← genF64
  let i ← Prog.lift (wheelIndex (population.individuals.map fitness) s.totalFitness u)
  Prog.lift (memberAt population i)
end RouletteWheelSelection

/-- `struct BoltzmannSelection` — `selection.rs:241-245`. -/
structure BoltzmannSelection (α : Type) where
  temperature : α
  coolingRate : α
  totalScaledFitness : α
deriving DecidableEq

namespace BoltzmannSelection
/-- `new` — `selection.rs:252-259`. -/
def new (temperature coolingRate : F64) : Res (BoltzmannSelection F64) := do
  Res.assert (!coolingRate.feq F64.zero)
  pure ⟨temperature, coolingRate, F64.zero⟩
/-- `set_temperature` — `selection.rs:267-269`. -/
def setTemperature (s : BoltzmannSelection F64) (temperature : F64) : BoltzmannSelection F64 := { s with temperature }
/-- `set_cooling_rate` — `selection.rs:280-283`. -/
def setCoolingRate (s : BoltzmannSelection F64) (coolingRate : F64) : Res (BoltzmannSelection F64) := do
  Res.assert (!coolingRate.feq F64.zero)
  pure { s with coolingRate }
/-- `scaled_fitness` — `selection.rs:287-289`, generic in the arithmetic. -/
def scaledFitness {α : Type} [Arith α] (exp : α → α) (temperature fitness : α) : α := exp (fitness /ₐ temperature)
/-- `prepare` — `selection.rs:298-304`, generic in the arithmetic; `fs` are the fitness values of the population. -/
def prepareWith {α : Type} [Arith α] (exp : α → α) (sum : List α → α) (s : BoltzmannSelection α) (fs : List α) :
    BoltzmannSelection α :=
  let temperature := s.temperature *ₐ s.coolingRate
  { temperature, coolingRate := s.coolingRate, totalScaledFitness := sum (fs.map (scaledFitness exp temperature)) }
/-- The index chosen by `select` for the draw `u` — `selection.rs:307-317`, generic in the arithmetic. -/
def selectIndex {α : Type} [Arith α] (exp : α → α) (s : BoltzmannSelection α) (fs : List α) (u : α) : Res Nat :=
  wheelIndex (fs.map (scaledFitness exp s.temperature)) s.totalScaledFitness u
/-- `prepare` — `selection.rs:298-304`. -/
def prepare (env : NumEnv) (s : BoltzmannSelection F64) (population : Population I) : BoltzmannSelection F64 :=
  prepareWith env.exp env.parSum s (population.individuals.map fitness)
/-- `select` — `selection.rs:307-317`. -/
def select (env : NumEnv) (s : BoltzmannSelection F64) (population : Population I) : Prog (Nat × I) := do
  let u ← genF64
  let i ← Prog.lift (selectIndex env.exp s (population.individuals.map fitness) u)
  Prog.lift (memberAt population i)
end BoltzmannSelection

/-! ### Rank -/

/-- The scan loop of `RankSelection::select` — `selection.rs:353-359`; `fuel` individuals remain from `index` on. -/
def rankScan (target : Nat) : (fuel cumulative index : Nat) → Res (Option Nat)
  | 0, _, _ => .ok none
  | fuel + 1, cumulative, index => do
    let rank ← usizeAdd index 1
    let cumulative ← usizeAdd cumulative rank
    if cumulative ≥ target then pure (some index) else rankScan target fuel cumulative (index + 1)

/-- `total_ranks` — `selection.rs:350`. -/
def totalRanks (n : Nat) : Res Nat := do
  let n1 ← usizeAdd n 1
  let p ← usizeMul n n1
  pure (p / 2)

/-- `RankSelection::select` — `selection.rs:348-361`; `prepare` (343-345) does nothing. -/
def rankSelect (population : Population I) : Prog (Nat × I) := do
  let n := population.len
  let total ← Prog.lift (totalRanks n)
  let target ← Prog.rangeIncl 1 total
  let r ← Prog.lift (rankScan target n 0 0)
  match r with
  | some i => Prog.lift (memberAt population i)
  | none => Prog.lift (memberAt population 0)

/-! ### Elitist -/

/-- `(0.0..1.0).contains(&x)`. -/
def inHalfOpenUnit (x : F64) : Bool := F64.zero.le x && x.lt F64.one

/-- `(0.0..=1.0).contains(&x)`. -/
def inClosedUnit (x : F64) : Bool := F64.zero.le x && x.le F64.one

/-- `struct ElitistSelection` — `selection.rs:377-379`. -/
structure ElitistSelection where
  ratio : F64
deriving DecidableEq

namespace ElitistSelection
/-- `new` — `selection.rs:387-390`. -/
def new (ratio : F64) : Res ElitistSelection := do
  Res.assert (inHalfOpenUnit ratio)
  pure ⟨ratio⟩
/-- `set_ratio` — `selection.rs:402-405`. -/
def setRatio (_s : ElitistSelection) (ratio : F64) : Res ElitistSelection := do
  Res.assert (inHalfOpenUnit ratio)
  pure ⟨ratio⟩
/-- `selection_bound` — `selection.rs:420`. -/
def bound (s : ElitistSelection) (n : Nat) : Nat := ((F64.ofNat n).mul s.ratio).floor.toUsize
/-- `select` — `selection.rs:419-423`. -/
def select (s : ElitistSelection) (population : Population I) : Prog (Nat × I) := do
  let i ← Prog.rangeExcl (s.bound population.len) population.len
  Prog.lift (memberAt population i)
end ElitistSelection

/-! ### Linear -/

/-- `struct LinearSelection` — `selection.rs:434-436`. -/
structure LinearSelection (α : Type) where
  bias : α
deriving DecidableEq

namespace LinearSelection
/-- `new` — `selection.rs:440-442`. -/
def new (bias : F64) : LinearSelection F64 := ⟨bias⟩
/-- The real-valued part of the index formula — `selection.rs:468-472`, generic in the arithmetic:
`n * (bias - √(bias² - 4(bias-1)u)) / 2 / (bias-1)`. -/
def offset {α : Type} [Arith α] [ArithSqrt α] (s : LinearSelection α) (n : Nat) (u : α) : α :=
  (ofNat n : α) *ₐ (s.bias -ₐ ArithSqrt.sqrt (s.bias *ₐ s.bias -ₐ (lit 4 : α) *ₐ (s.bias -ₐ lit 1) *ₐ u)) /ₐ (lit 2 : α)
    /ₐ (s.bias -ₐ lit 1)
/-- The index — `selection.rs:467-473`; `cast` is `as usize`. Both subtractions are overflow-checked. (In a release
build they wrap, and the indexing that follows panics instead.) -/
def selectIndex {α : Type} [Arith α] [ArithSqrt α] (cast : α → Nat) (s : LinearSelection α) (n : Nat) (u : α) :
    Res Nat := do
  let a ← usizeSub n (cast (s.offset n u))
  usizeSub a 1
/-- `select` — `selection.rs:466-476`. -/
def select (s : LinearSelection F64) (population : Population I) : Prog (Nat × I) := do
  let u ← genF64
  let i ← Prog.lift (s.selectIndex F64.toUsize population.len u)
  Prog.lift (memberAt population i)
end LinearSelection

/-! ### Strategies and dynamic selectors -/

/-- `enum SelectionStrategy` — `selection.rs:16-42`. -/
inductive SelectionStrategy where
  | tournament (size : Nat)
  | rouletteWheel
  | boltzmann (temperature coolingRate : F64)
  | rank
  | linear (bias : F64)
  | elitist (ratio : F64)
deriving DecidableEq

/-- The built-in implementors of `SelectionMechanism`. -/
inductive Selector where
  | tournament (s : TournamentSelection)
  | rouletteWheel (s : RouletteWheelSelection)
  | boltzmann (s : BoltzmannSelection F64)
  | rank
  | linear (s : LinearSelection F64)
  | elitist (s : ElitistSelection)
deriving DecidableEq

/-- `SelectionStrategy::create_selector` — `selection.rs:46-57`. -/
def SelectionStrategy.createSelector : SelectionStrategy → Res Selector
  | tournament size => do pure (.tournament (← TournamentSelection.new size))
  | rouletteWheel => pure (.rouletteWheel RouletteWheelSelection.new)
  | rank => pure .rank
  | linear bias => pure (.linear (LinearSelection.new bias))
  | elitist ratio => do pure (.elitist (← ElitistSelection.new ratio))
  | boltzmann temperature coolingRate => do pure (.boltzmann (← BoltzmannSelection.new temperature coolingRate))

/-- `SelectionMechanism::prepare` of the built-in selectors. -/
def Selector.prepare (env : NumEnv) (population : Population I) : Selector → Selector
  | .rouletteWheel s => .rouletteWheel (s.prepare env population)
  | .boltzmann s => .boltzmann (s.prepare env population)
  | s => s

/-- `SelectionMechanism::select` of the built-in selectors. -/
def Selector.select (env : NumEnv) (population : Population I) : Selector → Prog (Nat × I)
  | .tournament s => s.select population
  | .rouletteWheel s => s.select population
  | .boltzmann s => s.select env population
  | .rank => rankSelect population
  | .linear s => s.select population
  | .elitist s => s.select population

/-- A `select_distinct` loop — `selection.rs:112-130`, the default method, for any `select`. -/
def selectDistinct (select : Prog (Nat × I)) (excluded : I) : Nat → Prog (Option (Nat × I))
  | 0 => pure none
  | tries + 1 => do
    let (index, candidate) ← select
    if Individual.eq candidate excluded = false then pure (some (index, candidate))
    else selectDistinct select excluded tries

/-- A user's implementation of `SelectionMechanism` with state `U`; `select_distinct` may be overridden
(`selection.rs:61-131`). -/
structure CustomSelector (I U : Type) where
  prepare : U → Population I → U
  select : U → Population I → Prog (Nat × I)
  selectDistinct : U → Population I → Nat → I → Prog (Option (Nat × I))

/-- `Box<dyn SelectionMechanism<I, R>>`. -/
inductive DynSel (U : Type) where
  | builtin (s : Selector)
  | custom (u : U)

namespace DynSel
variable {U : Type} (env : NumEnv) (cs : CustomSelector I U)

/-- Dynamic dispatch of `prepare`. -/
def prepare (population : Population I) : DynSel U → DynSel U
  | builtin s => builtin (s.prepare env population)
  | custom u => custom (cs.prepare u population)
/-- Dynamic dispatch of `select`. -/
def select (population : Population I) : DynSel U → Prog (Nat × I)
  | builtin s => s.select env population
  | custom u => cs.select u population
/-- Dynamic dispatch of `select_distinct`. -/
def selectDistinct (population : Population I) (maxTries : Nat) (excluded : I) : DynSel U → Prog (Option (Nat × I))
  | builtin s => RG.selectDistinct (s.select env population) excluded maxTries
  | custom u => cs.selectDistinct u population maxTries excluded

end DynSel
end RG
