import Verif.SpecModel
import Verif.Crossover
import Verif.Mutation
import Mathlib.Data.List.Basic
import Mathlib.Data.Finset.Card
import Mathlib.Data.Finset.Dedup

/-!
# Specification: schemata
-/

namespace RG
variable {G : Type}

/-- A schema prescribes genes at some positions. -/
abbrev Schema (G : Type) := List (Nat × G)

namespace Schema

/-- The genome has the prescribed genes at the prescribed positions. -/
def Matches (H : Schema G) (g : List G) : Prop := ∀ x ∈ H, g[x.1]? = some x.2

instance [DecidableEq G] (H : Schema G) : DecidablePred H.Matches := fun g =>
  inferInstanceAs (Decidable (∀ x ∈ H, g[x.1]? = some x.2))

/-- The number of prescribed positions. -/
def order (H : Schema G) : Nat := (H.map Prod.fst).toFinset.card

/-- All prescribed positions are between `first` and `last`. -/
def Within (H : Schema G) (first last : Nat) : Prop := ∀ x ∈ H, first ≤ x.1 ∧ x.1 ≤ last

end Schema

variable {I : Type} [Individual I] {Mo U : Type}

/-- The mean of a quantity over the results of a program. -/
def Prog.average {α : Type} (p : Prog α) (f : α → ℚ) : ℚ := p.expect fun r => match r with
  | .ok a => f a
  | _ => 0

/-- A model whose individuals have genomes of `n` genes, with the operators `SinglePoint` and `Duplicate`; `improve` and `evaluate` leave
the genome alone, and every evaluated individual is valid. -/
structure SchemaModel [DecidableEq G] (M : EvoOps I Mo U) (genome : I → List G) (model : Mo) (n : Nat) (lt : G → G → Bool)
    (ord : Nat → List G → List G) (fuel : Nat) : Prop where
  crossover : ∀ a b, (genome a).length = n → (genome b).length = n → (M.crossover model a b >>= fun c => pure (genome c)) =
    CrossoverStrategy.singlePoint.crossover lt ord fuel (genome a) (genome b)
  mutate : ∀ a, (genome a).length = n → (M.mutate model a >>= fun c => pure (genome c)) = MutationStrategy.duplicate.mutate (genome a)
  improve : ∀ a, (genome a).length = n → Prog.Always (fun c => genome c = genome a) (M.improve model a)
  evaluate : ∀ a, (genome a).length = n → Prog.Always (fun c => genome c = genome a ∧ isValid c = true) (M.evaluate model a)

/-- The two parents `breed` chooses if it wants a crossover; the second one can be missing. -/
def twoParents (M : EvoOps I Mo U) (env : NumEnv) (p : Population I) (r : ReproParams U) : Prog (I × Option I) := do
  let x ← r.parentSelector.select env M.selectors p
  let y ← r.parentSelector.selectDistinct env M.selectors p 3 x.2
  pure (x.2, y.map Prod.snd)

/-- The weight of the parents that are good: a parent alone has the weight 1, of two the first has the weight `α`, the second `β`. -/
def share (good : I → Prop) [DecidablePred good] (α β : ℚ) : I × Option I → ℚ
  | (x, none) => if good x then 1 else 0
  | (x, some y) => (if good x then α else 0) + (if good y then β else 0)

/-- All the parents are good. -/
def AllGood (good : I → Prop) (ps : I × Option I) : Prop := good ps.1 ∧ ∀ y ∈ ps.2, good y

instance (good : I → Prop) [DecidablePred good] : DecidablePred (AllGood good) := fun ps =>
  inferInstanceAs (Decidable (good ps.1 ∧ ∀ y ∈ ps.2, good y))

/-- The probability that `breed` makes a crossover, and that it mutates: a random number is below the rate. -/
def chance (rate : F64) : ℚ := genF64.prob fun u => u.lt rate = true

end RG
