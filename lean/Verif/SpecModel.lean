import Verif.Model

/-!
# Specification vocabulary for breeding
-/

namespace RG
variable {I : Type} [Individual I] {Mo U : Type}

/-- Some draw of `gen::<f64>()` is below `rate`. -/
def CanFire (rate : F64) : Prop := ∃ k, k < 2 ^ 53 ∧ (F64.unit k).lt rate = true

/-- Some draw of `gen::<f64>()` is not below `rate`. -/
def CanSkip (rate : F64) : Prop := ∃ k, k < 2 ^ 53 ∧ (F64.unit k).lt rate = false

/-- The parents that breeding may use: the first one, and possibly a second one that compares different from it (found by
at most three attempts). -/
inductive Mating (M : EvoOps I Mo U) (env : NumEnv) (p : Population I) (r : ReproParams U) : I → Option I → Prop
  | alone {i : Nat} {p1 : I} : (r.parentSelector.select env M.selectors p).yields (.ok (i, p1)) →
      (p.individuals.length ≤ 1 ∨ CanSkip r.crossoverRate) → Mating M env p r p1 none
  | gaveUp {i : Nat} {p1 : I} : (r.parentSelector.select env M.selectors p).yields (.ok (i, p1)) →
      1 < p.individuals.length → CanFire r.crossoverRate →
      (r.parentSelector.selectDistinct env M.selectors p 3 p1).yields (.ok none) → Mating M env p r p1 none
  | pair {i j : Nat} {p1 p2 : I} : (r.parentSelector.select env M.selectors p).yields (.ok (i, p1)) →
      1 < p.individuals.length → CanFire r.crossoverRate →
      (r.parentSelector.selectDistinct env M.selectors p 3 p1).yields (.ok (some (j, p2))) → Mating M env p r p1 (some p2)

/-- `o` is an evaluated child of the given parents: a crossover of both or a copy of the only one, perhaps mutated,
then improved, then evaluated. -/
def IsChild (M : EvoOps I Mo U) (model : Mo) (mutationRate : F64) (p1 : I) (p2 : Option I) (o : I) : Prop :=
  ∃ o0 o1 o2, (p2 = none ∧ o0 = p1 ∨ ∃ b, p2 = some b ∧ (M.crossover model p1 b).yields (.ok o0)) ∧
    (CanSkip mutationRate ∧ o1 = o0 ∨ CanFire mutationRate ∧ (M.mutate model o0).yields (.ok o1)) ∧
    (M.improve model o1).yields (.ok o2) ∧ (M.evaluate model o2).yields (.ok o)

/-- `f` is the fittest of the parents (the first on a tie). -/
def IsFittestParent (p1 : I) (p2 : Option I) (f : I) : Prop :=
  match p2 with
  | none => f = p1
  | some b => (f = b ∧ (fitness p1).lt (fitness b) = true) ∨ (f = p1 ∧ (fitness p1).lt (fitness b) = false)

/-- The operators of `M` with another `crossover`. -/
def EvoOps.withCrossover (M : EvoOps I Mo U) (c : Mo → I → I → Prog I) : EvoOps I Mo U := { M with crossover := c }

/-- The operators of `M` with another `mutate`. -/
def EvoOps.withMutate (M : EvoOps I Mo U) (c : Mo → I → Prog I) : EvoOps I Mo U := { M with mutate := c }

/-- The user's selectors return members of the population (the built-in ones do so anyway). -/
def CustomSelector.ReturnsMembers (cs : CustomSelector I U) : Prop :=
  ∀ u p r, (cs.select u p).yields (.ok r) → r.2 ∈ p.individuals

/-- The user's `select_distinct` returns members of the population. -/
def CustomSelector.DistinctMembers (cs : CustomSelector I U) : Prop :=
  ∀ u p n ex r, (cs.selectDistinct u p n ex).yields (.ok (some r)) → r.2 ∈ p.individuals ∧ Individual.eq r.2 ex = false

end RG
