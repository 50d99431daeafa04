import Verif.Evolution

/-!
# Specification vocabulary for the algorithms and runs
-/

namespace RG
variable {I : Type} [Individual I] {Mo U A P Q : Type}

/-- A number in `[0, 1]`. -/
def F64.InClosedUnit (x : F64) : Prop := x.isFinite = true ∧ 0 ≤ x.val ∧ x.val ≤ 1
/-- A number in `[0, 1)`. -/
def F64.InHalfOpenUnit (x : F64) : Prop := x.isFinite = true ∧ 0 ≤ x.val ∧ x.val < 1

/-- The documented ranges of the parameters. -/
def GaParams.Valid (p : GaParams) : Prop :=
  p.populationSize ≠ 0 ∧ p.elitismRate.InHalfOpenUnit ∧ p.crossoverRate.InClosedUnit ∧ p.mutationRate.InClosedUnit

/-- The documented ranges of the parameters. -/
def AgaParams.Valid (p : AgaParams) : Prop :=
  p.populationSize ≠ 0 ∧ p.elitismRate.InHalfOpenUnit ∧
    p.crossoverRateRange.start.InClosedUnit ∧ p.crossoverRateRange.stop.InClosedUnit ∧
    p.mutationRateRange.start.InClosedUnit ∧ p.mutationRateRange.stop.InClosedUnit

/-- A strategy whose constructor accepts its parameter. -/
def SelectionStrategy.Valid : SelectionStrategy → Prop
  | .tournament size => size ≠ 0
  | .boltzmann _ c => c ≠ F64.zero ∧ c ≠ F64.nzero
  | .elitist ratio => ratio.InHalfOpenUnit
  | _ => True

/-! ### Runs -/

/-- What the two built-in algorithms have in common: `select_elites` takes the last `elite` individuals, the other methods
are the defaults, and `prepare_for_next_population` keeps the sizes. `eliteOf` is the elite count that given parameters
lead to. -/
structure Standard (M : EvoModel I Mo U) (alg : EvoAlgo I Mo U A P) (elite size : A → Nat) (eliteOf : P → Nat) : Prop where
  init : ∀ env a l, alg.initPopulation env a l = defaultInitialize M env (alg.model a) l
  elites : ∀ a p l, alg.selectElites a p l = .ok (takeElites (elite a) p l)
  generate : ∀ env a p l, alg.generate env a p l = defaultGenerate M env (alg.model a) (alg.repro a) p l
  replace : ∀ env a p l, alg.replace env a p l = defaultReplace env p l
  bred : ∀ a, (alg.repro a).2 = size a
  prepare : ∀ env a p a', (alg.prepare env a p).yields (.ok a') → elite a' = elite a ∧ size a' = size a
  configure : ∀ a p a', alg.configure a p = .ok a' → alg.initialSize p ≤ 2 ^ 53 → alg.model a' = alg.model a ∧
    size a' = alg.initialSize p ∧ elite a' = eliteOf p ∧ eliteOf p < alg.initialSize p

/-- The number of elites for given parameters: the integer part of the `f64` product of the two arguments. -/
def eliteCount (populationSize : Nat) (elitismRate : F64) : Nat := ⌊rndQ (populationSize * elitismRate.val)⌋.toNat

/-- Breeding from a population of valid individuals gives valid individuals. -/
def EvoModel.BreedsValid (M : EvoModel I Mo U) : Prop :=
  ∀ env model p r c, (∀ x ∈ p.individuals, isValid x = true) → (M.breed env model p r).yields (.ok c) → isValid c = true

/-- A valid individual has a fitness that is not NaN. -/
def ValidNotNaN (I : Type) [Individual I] : Prop := ∀ x : I, isValid x = true → (fitness x).isNaN = false

/-- Individuals that compare equal have the same fitness. -/
def EqFitness (I : Type) [Individual I] : Prop := ∀ x y : I, Individual.eq x y = true → (fitness x).feq (fitness y) = true

end RG
