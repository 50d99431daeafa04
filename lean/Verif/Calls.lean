import Verif.Evolution

/-!
# Counting the calls of the user's methods

A method that is to be counted is preceded by a *mark*: a draw from `2^64 + 1` values whose result is ignored. No other draw of
the library has that many values (`usize` has `2^64`), so the number of marks along a path of a program is the number of calls of
the method on that path. `EvoModel.counting` inserts the marks into one method; nothing else changes (`C115_same_ga`,
`C115_same_aga`).
-/

namespace RG

/-- The size of a draw that serves as a mark. -/
def markSize : Nat := 2 ^ 64

namespace Prog
variable {α : Type}

/-- `p.spends r c`: some sequence of draws makes the program end with outcome `r`, and meets `c` marks. -/
def spends : Prog α → Res α → Nat → Prop
  | done r', r, c => r = r' ∧ c = 0
  | pick n k, r, c => ∃ i, i ≤ n ∧ ∃ c', (k i).spends r c' ∧ c = (if n = markSize then 1 else 0) + c'

/-- The program contains no mark. -/
def Unmarked : Prog α → Prop
  | done _ => True
  | pick n k => n ≠ markSize ∧ ∀ i, i ≤ n → (k i).Unmarked

/-- The program, preceded by a mark if `b`. -/
def marked (b : Bool) (p : Prog α) : Prog α := if b then pick markSize (fun _ => p) else p

end Prog

/-- The methods of `trait EvolutionModel` (`model.rs:23-288`) whose calls are counted. -/
inductive Method where
  | crossover | mutate | improve | evaluate | canSurvive | preGeneration
deriving DecidableEq

variable {I : Type} [Individual I] {Mo U : Type}

/-- The methods, with a mark at the beginning of `op`. -/
def EvoOps.counting (op : Method) (M : EvoOps I Mo U) : EvoOps I Mo U where
  crossover m a b := (M.crossover m a b).marked (op = .crossover)
  mutate m a := (M.mutate m a).marked (op = .mutate)
  improve m a := (M.improve m a).marked (op = .improve)
  evaluate m a := (M.evaluate m a).marked (op = .evaluate)
  preGeneration m p r := (M.preGeneration m p r).marked (op = .preGeneration)
  canSurvive m a b p := (M.canSurvive m a b p).marked (op = .canSurvive)
  selectors := M.selectors

/-- A model with the default `breed` and `extend_population_with`, with a mark at the beginning of `op`. -/
def EvoModel.counting (op : Method) (M : EvoModel I Mo U) : EvoModel I Mo U where
  toEvoOps := M.toEvoOps.counting op
  breed := defaultBreed (M.toEvoOps.counting op)
  extend := M.extend
  extendWith := defaultExtendWith (M.toEvoOps.counting op)

/-- The user's methods and selectors draw no number from exactly `2^64 + 1` values. -/
structure EvoOps.Unmarked (M : EvoOps I Mo U) : Prop where
  crossover : ∀ m a b, (M.crossover m a b).Unmarked
  mutate : ∀ m a, (M.mutate m a).Unmarked
  improve : ∀ m a, (M.improve m a).Unmarked
  evaluate : ∀ m a, (M.evaluate m a).Unmarked
  preGeneration : ∀ m p r, (M.preGeneration m p r).Unmarked
  canSurvive : ∀ m a b p, (M.canSurvive m a b p).Unmarked
  select : ∀ u p, (M.selectors.select u p).Unmarked
  selectDistinct : ∀ u p n x, (M.selectors.selectDistinct u p n x).Unmarked

/-- How often `breed` calls the method at least. -/
def Method.least : Method → Nat
  | improve | evaluate => 1
  | _ => 0

/-- How often `breed` calls the method at most. -/
def Method.most : Method → Nat
  | preGeneration => 0
  | _ => 1

/-- The populations the loop has bred from: all those shown to `progress`, except the last if `progress` has ended the loop. -/
def bredFrom (fin : Bool) (shown : List (Population I)) : List (Population I) := if fin then shown.dropLast else shown

/-- The number of individuals to be bred for the next population: those missing after the elites. -/
def missing (size elites : Nat) (pop : Population I) : Nat := size - min elites pop.len

/-- The number of individuals bred in a run. -/
def bredInRun (size elites : Nat) (fin : Bool) (shown : List (Population I)) : Nat :=
  ((bredFrom fin shown).map (missing size elites)).sum

end RG
