import Verif.Evolution
import Mathlib.Data.List.Defs

/-!
# Specification vocabulary for whole runs

A run as a path: the relation between the population of one generation and that of the next, and the chain of these from the
first call of `progress` to the last.
-/

namespace RG
variable {I : Type} [Individual I] {Mo U A Q : Type}

/-- `pop` consists of the given members: sorted, without neighbours that compare equal, and not empty. -/
structure MadeOf (sort : List I → List I) (members : List I) (pop : Population I) : Prop where
  ne : members ≠ []
  individuals : pop.individuals = (sort members).destutter fun a b => Individual.eq b a = false
  stats : pop.stats = ⟨Stats.collect (pop.individuals.map fitness)⟩

/-- `pop` is a first population made of these members. -/
structure Starts (sort : List I → List I) (members : List I) (pop : Population I) : Prop extends MadeOf sort members pop where
  generation : pop.generation = 0
  stagnation : pop.stagnation = 0

/-- `pop'` takes the place of `pop` and is made of these members. -/
structure Replaces (sort : List I → List I) (pop : Population I) (members : List I) (pop' : Population I) : Prop extends
    MadeOf sort members pop' where
  generation : pop'.generation = pop.generation + 1
  better : pop.stats.max.lt pop'.stats.max = true → pop'.stagnation = 0
  notBetter : pop.stats.max.lt pop'.stats.max = false → pop'.stagnation = pop.stagnation + 1

/-- The members of the next generation before sorting: the last individuals of `pop`, as many as there are elites, and bred
ones up to the size. If one only is missing, it is bred but not a member. -/
def NextMembers (M : EvoModel I Mo U) (env : NumEnv) (model : Mo) (r : ReproParams U) (eliteSize size : Nat)
    (pop : Population I) (members : List I) : Prop :=
  ∃ elites new bred, elites <:+ pop.individuals ∧ elites.length = min eliteSize pop.individuals.length ∧
    members = elites ++ new ∧ bred.length = size - elites.length ∧
    (∀ c ∈ bred, (M.breed env model pop r).yields (.ok c)) ∧ new = if bred.length = 1 then [] else bred

/-- One generation of the genetic algorithm: `pre_generation` gets the model and the settings of the generation before, the
selector that it leaves is prepared for `pop`, and with these settings the next generation is bred from `pop`. -/
def GaNext (M : EvoModel I Mo U) (env : Env I) (a : Ga Mo U) (pop : Population I) (a' : Ga Mo U) (pop' : Population I) :
    Prop :=
  ∃ r, (M.preGeneration a.model pop a.breeding).yields (.ok (a'.model, r)) ∧
    a'.breeding = ⟨r.crossoverRate, r.mutationRate, r.parentSelector.prepare env.num M.selectors pop⟩ ∧
    a'.populationSize = a.populationSize ∧ a'.eliteSize = a.eliteSize ∧
    ∃ members, NextMembers M env.num a'.model a'.breeding a.eliteSize a.populationSize pop members ∧
      Replaces env.sort pop members pop'

/-- One generation of the adaptive genetic algorithm: the same after the adjustment of the rates (C57). -/
def AgaNext (M : EvoModel I Mo U) (env : Env I) (a : Aga Mo U) (pop : Population I) (a' : Aga Mo U) (pop' : Population I) :
    Prop :=
  ∃ b, b = a.adjust pop.generation pop.stats.std ∧
  ∃ r, (M.preGeneration a.model pop b.breeding).yields (.ok (a'.model, r)) ∧
    a' = { b with
      model := a'.model
      breeding := ⟨r.crossoverRate, r.mutationRate, r.parentSelector.prepare env.num M.selectors pop⟩ } ∧
    ∃ members, NextMembers M env.num a'.model a'.breeding a.eliteSize a.populationSize pop members ∧
      Replaces env.sort pop members pop'

/-- A run from the `t`-th generation on: the populations shown to `progress`, whether the loop has ended, and the values at
the end. `next t` relates a generation to the next one. -/
inductive RunPath (next : Nat → A → Population I → A → Population I → Prop) (progress : Q → Population I → Prog (Bool × Q)) :
    Nat → A → Population I → Q → List (Population I) → Bool → A → Population I → Q → Prop
  /-- the calls looked at are used up -/
  | cut (t : Nat) (a : A) (pop : Population I) (q : Q) : RunPath next progress t a pop q [] false a pop q
  /-- `progress` returned `false` -/
  | stop (t : Nat) (a : A) (pop : Population I) (q q' : Q) : (progress q pop).yields (.ok (false, q')) →
      RunPath next progress t a pop q [pop] true a pop q'
  /-- `progress` returned `true` -/
  | step (t : Nat) (a a' a'' : A) (pop pop' pop'' : Population I) (q q' q'' : Q) (shown : List (Population I)) (fin : Bool) :
      (progress q pop).yields (.ok (true, q')) → next t a pop a' pop' →
      RunPath next progress (t + 1) a' pop' q' shown fin a'' pop'' q'' →
      RunPath next progress t a pop q (pop :: shown) fin a'' pop'' q''

end RG
