import Verif.Prog
import Mathlib.Data.Finset.Prod
import Mathlib.Data.Finset.Range

/-!
# Specification vocabulary for repeated operations
-/

namespace RG
variable {α G : Type}

/-- The expected value of `F` at the result of `p`, where outcomes that are not results (a panic, an endless loop) count 0. -/
def average (p : Prog α) (F : α → ℚ) : ℚ := p.expect fun
  | .ok a => F a
  | _ => 0

/-- The number of ordered pairs of positions that hold different genes. -/
def differing [DecidableEq G] (g : List G) : Nat :=
  ((Finset.range g.length ×ˢ Finset.range g.length).filter fun p => g[p.1]? ≠ g[p.2]?).card

/-- All genes are equal. -/
def AllEqual (g : List G) : Prop := ∀ x ∈ g, ∀ y ∈ g, x = y

instance [DecidableEq G] (g : List G) : Decidable (AllEqual g) := inferInstanceAs (Decidable (∀ x ∈ g, ∀ y ∈ g, x = y))

end RG
