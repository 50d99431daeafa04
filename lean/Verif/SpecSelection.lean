import Verif.Selection

/-!
# Specification vocabulary for selection
-/

namespace RG
open Arith
variable {I : Type} [Individual I]

/-- `r` is an index of the population with the individual there. -/
def IsMember (p : Population I) (r : Nat × I) : Prop := r.1 < p.individuals.length ∧ p.individuals[r.1]? = some r.2

/-- The parameter ranges that the constructors of the selectors promise. -/
def Selector.InRange : Selector → Prop
  | .tournament s => s.size ≠ 0
  | .boltzmann s => s.coolingRate.feq F64.zero = false
  | .elitist s => s.ratio.isFinite = true ∧ 0 ≤ s.ratio.val ∧ s.ratio.val < 1
  | _ => True

/-- Linear selection with the bias `b` selects an individual for every draw, from any number of individuals up to `2^53`. -/
def SafeBias (b : F64) : Prop :=
  ∀ n, 0 < n → n ≤ 2 ^ 53 → ∀ k, k < 2 ^ 53 →
    ∃ i, i < n ∧ (⟨b⟩ : LinearSelection F64).selectIndex F64.toUsize n (F64.unit k) = .ok i

/-- The running sum of the first `m + 1` weights. -/
def runningSum {α : Type} [Arith α] (c : α) (ws : List α) (m : Nat) : α := (ws.take (m + 1)).foldl (· +ₐ ·) c

/-- A wheel's choice: the first position whose running sum reaches the target, the last position if none does. -/
def WheelPick {α : Type} [Arith α] (ws : List α) (target : α) (j : Nat) : Prop :=
  j < ws.length ∧ (∀ m, m < j → (target ≤ₐ runningSum (lit 0) ws m) = false) ∧
    ((target ≤ₐ runningSum (lit 0) ws j) = true ∨ j + 1 = ws.length)

/-- The roulette wheel in exact arithmetic, with the draws of the code: `u = k / 2^53`, `k` uniform. -/
noncomputable def exactWheel (ws : List ℚ) : Prog Nat := do
  let k ← Prog.uniform (2 ^ 53)
  Prog.lift (wheelIndex ws ws.sum ((k : ℚ) / 2 ^ 53))

end RG
