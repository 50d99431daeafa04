import Verif.Float.F64
import Verif.Random

/-! # Interpolation (`/repo/src/lib.rs:39-65`) -/

namespace RG
open Arith

/-- `interpolate_f64` — `lib.rs:39-41`. -/
def interpolateF64 {α : Type} [Arith α] (min max ratio : α) : α := min +ₐ (max -ₐ min) *ₐ ratio

/-- `interpolate_usize` — `lib.rs:63-65`; `max - min` panics on underflow (overflow check). -/
def interpolateUsize (min max : Nat) (ratio : F64) : Res Nat := do
  let d ← usizeSub max min
  pure ((F64.ofNat min).add ((F64.ofNat d).mul ratio)).toUsize

end RG
