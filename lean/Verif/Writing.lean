import Verif.Display

/-!
# `Display` for `Stats` and `PopulatedStats` with any writer and any options (`/repo/src/stats.rs:250-254, 392-416`)

`Display.lean` represents a `Formatter` by its precision and returns the text. Here it has all its options, and a writer that may
refuse what it is given. What the standard library does is stated from memory: `write!` hands over the literal pieces and the
arguments in order and returns at the first error; an argument is written with the options of its own placeholder, not with those of
the formatter that `write!` writes to; a number may be handed over in several pieces. In which pieces is a parameter.
-/

namespace RG

/-- `fmt::Alignment`. -/
inductive Alignment where
  | left | right | center
deriving DecidableEq

/-- The options of a `Formatter`. -/
structure FormatOptions where
  fill : Char := ' '
  align : Option Alignment := none
  signPlus : Bool := false
  alternate : Bool := false
  zeroPad : Bool := false
  width : Option Nat := none
  precision : Option Nat := none
deriving DecidableEq

/-- `fmt::Write::write_str` of a writer whose state is `S`: the new state, and whether the result is `Ok`. -/
abbrev Writer (S : Type) := String → S → S × Bool

/-- Hands over pieces until one is refused. -/
def Writer.all {S : Type} (w : Writer S) : List String → S → S × Bool
  | [], s => (s, true)
  | p :: ps, s =>
    match w p s with
    | (s, true) => Writer.all w ps s
    | (s, false) => (s, false)

/-- The pieces in which the standard library writes a number with given options. -/
structure NumberPieces (α : Type) where
  count : FormatOptions → Nat → List String
  float : FormatOptions → α → List String

/-- The texts that the pieces amount to, as `Display.lean` has them. -/
def NumberPieces.format {α : Type} (N : NumberPieces α) : FloatFormat α where
  plain x := String.join (N.float {} x)
  digits p x := String.join (N.float { precision := some p } x)

/-- Without options, an integer is written in decimal. -/
def NumberPieces.Decimal {α : Type} (N : NumberPieces α) : Prop := ∀ n, String.join (N.count {} n) = Nat.repr n

namespace PopulatedStats
variable {α : Type} [Arith α] [ArithSqrt α] {S : Type}

/-- The two `write!`s of `stats.rs:392-416`: their literal pieces and arguments. -/
def pieces (N : NumberPieces α) (f : FormatOptions) (s : PopulatedStats α) : List String :=
  match f.precision with
  | some p =>
    ["Samples: "] ++ N.count {} s.count ++ ["; Min: "] ++ N.float { precision := some p } s.min ++
      ["; Max: "] ++ N.float { precision := some p } s.max ++ ["; Average: "] ++ N.float { precision := some p } s.avg ++
      ["; Variance: "] ++ N.float { precision := some p } s.var ++ ["; STD: "] ++ N.float { precision := some p } s.std
  | none =>
    ["Samples: "] ++ N.count {} s.count ++ ["; Min: "] ++ N.float {} s.min ++ ["; Max: "] ++ N.float {} s.max ++
      ["; Average: "] ++ N.float {} s.avg ++ ["; Variance: "] ++ N.float {} s.var ++ ["; STD: "] ++ N.float {} s.std

/-- `Display for PopulatedStats` — `stats.rs:392-416`. -/
def write (N : NumberPieces α) (w : Writer S) (f : FormatOptions) (s : PopulatedStats α) (st : S) : S × Bool :=
  w.all (s.pieces N f) st

end PopulatedStats

namespace Stats
variable {α : Type} [Arith α] [ArithSqrt α] {S : Type}

/-- `Display for Stats` — `stats.rs:250-254`: `snapshot().map(|s| s.fmt(f)).unwrap_or_else(|| Ok(()))`. -/
def write (N : NumberPieces α) (w : Writer S) (f : FormatOptions) (s : Stats α) (st : S) : S × Bool :=
  (s.snapshot.map fun p => p.write N w f st).getD (st, true)

end Stats
end RG
