import Verif.Stats
import Mathlib.Analysis.Real.Sqrt

/-! The square root of exact real arithmetic. -/

namespace RG

noncomputable instance : ArithSqrt ℝ := ⟨Real.sqrt⟩

end RG
