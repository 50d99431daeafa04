import Verif.Selection

/-!
# Comparing selection strategies (`/repo/src/operators/selection.rs:15`)

`SelectionStrategy` derives `PartialEq`: two values are equal if they are the same variant and their fields are equal by the `==` of
`usize` and `f64`. The same goes for the selectors that derive it; `ElitistSelection` does not.
-/

namespace RG

/-- The derived `==` of `SelectionStrategy` — `selection.rs:15-42`. -/
def SelectionStrategy.equals : SelectionStrategy → SelectionStrategy → Bool
  | .tournament size, .tournament size' => size == size'
  | .rouletteWheel, .rouletteWheel => true
  | .boltzmann temperature coolingRate, .boltzmann temperature' coolingRate' =>
    temperature.feq temperature' && coolingRate.feq coolingRate'
  | .rank, .rank => true
  | .linear bias, .linear bias' => bias.feq bias'
  | .elitist ratio, .elitist ratio' => ratio.feq ratio'
  | _, _ => false

/-- The derived `==` of `TournamentSelection` — `selection.rs:139-142`. -/
def TournamentSelection.equals (s t : TournamentSelection) : Bool := s.size == t.size

/-- The derived `==` of `RouletteWheelSelection` — `selection.rs:194-197`. -/
def RouletteWheelSelection.equals (s t : RouletteWheelSelection) : Bool := s.totalFitness.feq t.totalFitness

/-- The derived `==` of `BoltzmannSelection` — `selection.rs:240-245`. -/
def BoltzmannSelection.equals (s t : BoltzmannSelection F64) : Bool :=
  s.temperature.feq t.temperature && s.coolingRate.feq t.coolingRate && s.totalScaledFitness.feq t.totalScaledFitness

/-- The derived `==` of `LinearSelection` — `selection.rs:433-436`. -/
def LinearSelection.equals (s t : LinearSelection F64) : Bool := s.bias.feq t.bias

end RG
