import Verif.Float.F64
import Mathlib.Data.EReal.Basic

/-!
# IEEE 754 binary64, stated without the model of the operations

`Grid` are the values of binary64 with unbounded exponents upwards, `Nearest` is "round to nearest, ties to even", `Rounds` the
result of an operation with exact value `x`, `ext` the place of a number on the extended real line.
-/

namespace RG

/-- `m * 2^e` with a significand of at most 53 bits and an exponent of at least -1074. -/
def Grid (y : ℚ) : Prop := ∃ m e : ℤ, |m| < 2 ^ 53 ∧ -1074 ≤ e ∧ y = m * (2 : ℚ) ^ e

/-- `y` is the number of the grid nearest to `x`. If another one is as near, `y` is the one with the even significand, both written
with the same exponent. -/
structure Nearest (x : ℝ) (y : ℚ) : Prop where
  grid : Grid y
  near : ∀ f : ℚ, Grid f → |(y : ℝ) - x| ≤ |(f : ℝ) - x|
  even : ∀ f : ℚ, Grid f → f ≠ y → |(f : ℝ) - x| = |(y : ℝ) - x| →
    ∃ k d e : ℤ, |d| = 1 ∧ |2 * k| ≤ 2 ^ 53 ∧ |2 * k + d| ≤ 2 ^ 53 ∧ -1074 ≤ e ∧
      y = ((2 * k : ℤ) : ℚ) * (2 : ℚ) ^ e ∧ f = ((2 * k + d : ℤ) : ℚ) * (2 : ℚ) ^ e

/-- The result of an operation whose exact value is `x`: the nearest number, an infinity if that is `2^1024` or more in magnitude;
`s` is the sign of a zero. -/
def Rounds (x : ℚ) (s : Bool) (r : F64) : Prop :=
  ∃ y, Nearest x y ∧ ((2 : ℚ) ^ 1024 ≤ |y| → r = .inf (x < 0)) ∧
    (|y| < (2 : ℚ) ^ 1024 → r.isFinite = true ∧ r.val = y ∧ (y = 0 → r = if s then .nzero else .zero))

/-- The place of a number on the extended real line (NaN: anywhere). -/
noncomputable def ext : F64 → EReal
  | .inf true => ⊥
  | .inf false => ⊤
  | .nzero => 0
  | .fin q _ => ((q : ℝ) : EReal)
  | .nan => 0

end RG
