import Verif.Stats

/-!
# `Display` for `Stats` and `PopulatedStats` (`/repo/src/stats.rs:250-254, 392-416`)

Numbers are written by the standard library, which is not part of this repository: the texts of floating-point numbers
are a parameter (`FloatFormat`; `FloatText` is what the standard library does). Integers are written in decimal. Simplification: the `Formatter` is represented by its
precision, the only option the code looks at, and by the text it receives; writing it never fails (as for a `String`). `Writing.lean` drops this simplification.
-/

namespace RG

/-- How the standard library writes a number: with `{}` and with `{:.p$}`. -/
@[ext] structure FloatFormat (α : Type) where
  plain : α → String
  digits : Nat → α → String

/-- What `Formatter::precision` answers selects the format of the numbers. -/
def FloatFormat.at {α : Type} (F : FloatFormat α) : Option Nat → α → String
  | none => F.plain
  | some p => F.digits p

namespace PopulatedStats
variable {α : Type} [Arith α] [ArithSqrt α]

/-- `Display for PopulatedStats` — `stats.rs:392-416`. -/
def fmt (F : FloatFormat α) (precision : Option Nat) (s : PopulatedStats α) : String :=
  match precision with
  | some p =>
    "Samples: " ++ Nat.repr s.count ++ "; Min: " ++ F.digits p s.min ++ "; Max: " ++ F.digits p s.max ++
      "; Average: " ++ F.digits p s.avg ++ "; Variance: " ++ F.digits p s.var ++ "; STD: " ++ F.digits p s.std
  | none =>
    "Samples: " ++ Nat.repr s.count ++ "; Min: " ++ F.plain s.min ++ "; Max: " ++ F.plain s.max ++
      "; Average: " ++ F.plain s.avg ++ "; Variance: " ++ F.plain s.var ++ "; STD: " ++ F.plain s.std

end PopulatedStats

namespace Stats
variable {α : Type} [Arith α] [ArithSqrt α]

/-- `Display for Stats` — `stats.rs:250-254`. -/
def fmt (F : FloatFormat α) (precision : Option Nat) (s : Stats α) : String :=
  (s.snapshot.map fun p => p.fmt F precision).getD ""

end Stats
end RG
