import Verif.Coupling
import Verif.Evolution
import Verif.SpecAlgorithm
import Verif.Proofs.Population

/-!
# Models that correspond to each other (specification of C103)

`h : I → J` maps the individuals of a model to those of another one. Individuals that occur in a run (`Ok`) have to be ordered the same way by
their fitness, and to be valid and equal alike. The operators have to correspond. Nothing else about the fitness has to agree.
-/

namespace RG
open Prog
variable {I J : Type} [Individual I] [Individual J] {Mo U A A' P Q : Type}

/-- Corresponding populations: the same generation and stagnation, corresponding individuals. The statistics may differ. -/
structure Population.Like (h : I → J) (Ok : I → Prop) (p : Population I) (p' : Population J) : Prop where
  wf : p.WF
  wf' : p'.WF
  individuals : p'.individuals = p.individuals.map h
  generation : p'.generation = p.generation
  stagnation : p'.stagnation = p.stagnation
  ok : ∀ x ∈ p.individuals, Ok x

/-- The selectors that do not look at the fitness. -/
def DynSel.Ordinal : DynSel U → Prop
  | .builtin (.tournament _) => True
  | .builtin .rank => True
  | .builtin (.linear _) => True
  | .builtin (.elitist _) => True
  | _ => False

/-- The strategies for them. -/
def SelectionStrategy.Ordinal : SelectionStrategy → Prop
  | .tournament _ => True
  | .rank => True
  | .linear _ => True
  | .elitist _ => True
  | _ => False

/-- The models correspond. `E` relates what the operators produce, `Ok` holds of what `evaluate` makes of it in the first model, and `h`
gives what `evaluate` makes of it in the second one. -/
structure Homomorphism (M : EvoModel I Mo U) (M' : EvoModel J Mo U) (h : I → J) (E : I → J → Prop) (Ok : I → Prop) : Prop where
  embed : ∀ x, Ok x → E x (h x)
  cmp : ∀ x y, Ok x → Ok y → (fitness (h x)).partialCmp (fitness (h y)) = (fitness x).partialCmp (fitness y)
  valid : ∀ x, Ok x → isValid (h x) = isValid x
  eq : ∀ x y, Ok x → Ok y → Individual.eq (h x) (h y) = Individual.eq x y
  crossover : ∀ m x y, Ok x → Ok y → Coupled E (M.crossover m x y) (M'.crossover m (h x) (h y))
  mutate : ∀ m x x', E x x' → Coupled E (M.mutate m x) (M'.mutate m x')
  improve : ∀ m x x', E x x' → Coupled E (M.improve m x) (M'.improve m x')
  evaluate : ∀ m x x', E x x' → Coupled (fun o o' => Ok o ∧ o' = h o) (M.evaluate m x) (M'.evaluate m x')
  canSurvive : ∀ m o f p p', Ok o → Ok f → Population.Like h Ok p p' →
    Coupled Eq (M.canSurvive m o f p) (M'.canSurvive m (h o) (h f) p')
  preGeneration : ∀ m p p' r, Population.Like h Ok p p' → r.parentSelector.Ordinal →
    Coupled (fun s s' => s' = s ∧ s.2.parentSelector.Ordinal) (M.preGeneration m p r) (M'.preGeneration m p' r)
  breed : M.breed = defaultBreed M.toEvoOps
  breed' : M'.breed = defaultBreed M'.toEvoOps
  extend : M.extend = fun _ => defaultExtend
  extend' : M'.extend = fun _ => defaultExtend
  extendWith : M.extendWith = defaultExtendWith M.toEvoOps
  extendWith' : M'.extendWith = defaultExtendWith M'.toEvoOps

/-- The sorts do the same: they see only the results of comparisons, which agree. -/
def SortsAlike (h : I → J) (Ok : I → Prop) (env : Env I) (env' : Env J) : Prop :=
  ∀ l, (∀ x ∈ l, Ok x) → env'.sort (l.map h) = (env.sort l).map h

/-- States of runs that correspond. -/
structure RunState.Like (h : I → J) (Ok : I → Prop) (RA : A → A' → Prop) (st : RunState I A Q) (st' : RunState J A' Q) : Prop where
  algo : RA st.algo st'.algo
  population : Population.Like h Ok st.population st'.population
  buffer : st'.buffer = st.buffer.map h
  q : st'.q = st.q
  shown : List.Forall₂ (Population.Like h Ok) st.shown st'.shown

/-- The algorithms handle corresponding states alike, for parameters with `PP`: states with `R0` before a run, with `RA` during it. -/
structure AlgoLike (h : I → J) (Ok : I → Prop) (alg : EvoAlgo I Mo U A P) (alg' : EvoAlgo J Mo U A' P) (R0 RA : A → A' → Prop)
    (PP : P → Prop) (elite : A → Nat) (elite' : A' → Nat) : Prop where
  size : ∀ p, alg'.initialSize p = alg.initialSize p
  modelBefore : ∀ a a', R0 a a' → alg'.model a' = alg.model a
  configure : ∀ a a' p, R0 a a' → PP p → Res.Alike RA (alg.configure a p) (alg'.configure a' p)
  prepare : ∀ env env' a a' p p', RA a a' → Population.Like h Ok p p' → Coupled RA (alg.prepare env a p) (alg'.prepare env' a' p')
  model : ∀ a a', RA a a' → alg'.model a' = alg.model a
  repro : ∀ a a', RA a a' → alg'.repro a' = alg.repro a ∧ (alg.repro a).1.parentSelector.Ordinal
  elite : ∀ a a', RA a a' → elite' a' = elite a

/-- States of the genetic algorithm during corresponding runs. -/
def Ga.Same (a a' : Ga Mo U) : Prop := a' = a ∧ a.breeding.parentSelector.Ordinal

/-- States of the adaptive genetic algorithm that differ at most in the recorded standard deviation. -/
def Aga.Like (a a' : Aga Mo U) : Prop := ∃ s, a' = { a with referenceStd := s }

/-- States of the adaptive genetic algorithm during corresponding runs, which adjust no rates. -/
def Aga.Same (a a' : Aga Mo U) : Prop := a.Like a' ∧ a.breeding.parentSelector.Ordinal ∧ a.adjustmentInterval = 0

/-! ### The same individuals with another fitness -/

/-- An individual of which the fitness is read through `φ`. -/
structure Refit (φ : F64 → F64) (I : Type) where
  of : I

instance (φ : F64 → F64) : Individual (Refit φ I) where
  fitness x := φ (fitness x.of)
  isValid x := isValid x.of
  eq x y := Individual.eq x.of y.of

/-- The population without `φ`. -/
def Population.unfit {φ : F64 → F64} (p : Population (Refit φ I)) : Population I where
  individuals := p.individuals.map Refit.of
  generation := p.generation
  stagnation := p.stagnation
  stats := ⟨Stats.collect ((p.individuals.map Refit.of).map fitness)⟩

/-- The model for such individuals: every method does what it did. -/
def EvoModel.refit (M : EvoModel I Mo U) (φ : F64 → F64) : EvoModel (Refit φ I) Mo U where
  crossover m x y := Refit.mk <$> M.crossover m x.of y.of
  mutate m x := Refit.mk <$> M.mutate m x.of
  improve m x := Refit.mk <$> M.improve m x.of
  evaluate m x := Refit.mk <$> M.evaluate m x.of
  preGeneration m p r := M.preGeneration m p.unfit r
  canSurvive m x y p := M.canSurvive m x.of y.of p.unfit
  selectors :=
    { prepare := fun u p => M.selectors.prepare u p.unfit
      select := fun u p => (fun r => (r.1, Refit.mk r.2)) <$> M.selectors.select u p.unfit
      selectDistinct := fun u p n x => (Option.map fun r => (r.1, Refit.mk r.2)) <$> M.selectors.selectDistinct u p.unfit n x.of }

/-- The model has the provided methods of the trait, makes only individuals with `Ok`, and installs only selectors that do not look at the
fitness. -/
structure EvoModel.Keeps (M : EvoModel I Mo U) (Pr Ok : I → Prop) : Prop where
  pr : ∀ x, Ok x → Pr x
  crossover : ∀ m x y, Ok x → Ok y → Partially Pr (M.crossover m x y)
  mutate : ∀ m x, Pr x → Partially Pr (M.mutate m x)
  improve : ∀ m x, Pr x → Partially Pr (M.improve m x)
  evaluate : ∀ m x, Pr x → Partially Ok (M.evaluate m x)
  preGeneration : ∀ m p r, r.parentSelector.Ordinal → Partially (fun s => s.2.parentSelector.Ordinal) (M.preGeneration m p r)
  breed : M.breed = defaultBreed M.toEvoOps
  extend : M.extend = fun _ => defaultExtend
  extendWith : M.extendWith = defaultExtendWith M.toEvoOps

end RG
