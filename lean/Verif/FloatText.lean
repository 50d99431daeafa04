import Verif.Display

/-!
# The text of an `f64`

`stats.rs:396-413` writes numbers with `{}` and `{:.p$}`. The standard library is not part of `/repo`; the definitions state what it
does (from memory; `core::fmt::float`, `core::num::flt2dec`):

* `{:.p$}`: the exact value rounded to `p` decimal places, ties to even (older versions of the library treated some ties otherwise);
  exactly `p` digits after the point, and no point if `p` is 0.
* `{}`: the fewest digits from which the number can be read back, and of these the nearest to the number; never in exponential notation;
  no point if it is an integer. If two are equally near, which happens (see `FloatText`), either may be chosen.
* A minus sign for a negative sign bit, also of zero; `NaN`, `inf`.
-/

namespace RG
namespace FloatText

/-- Powers of ten. -/
def pow10 : Int → ℚ
  | .ofNat n => ((10 ^ n : Nat) : ℚ)
  | .negSucc n => 1 / ((10 ^ (n + 1) : Nat) : ℚ)

/-- The digits of `n`, filled with zeros on the left to `width` characters. -/
def padded (width n : Nat) : List Char :=
  List.replicate (width - (Nat.toDigits 10 n).length) '0' ++ Nat.toDigits 10 n

/-- The text of `n / 10^p`, with `p` digits after the point. -/
def decimal (n p : Nat) : List Char :=
  Nat.toDigits 10 (n / 10 ^ p) ++ if p = 0 then [] else '.' :: padded p (n % 10 ^ p)

/-- The sign of a number. -/
def sign (neg : Bool) : List Char := if neg then ['-'] else []

/-- The text of a number, given that of a positive value. -/
def signed (positive : ℚ → List Char) : F64 → List Char
  | .nan => ['N', 'a', 'N']
  | .inf s => sign s ++ ['i', 'n', 'f']
  | .nzero => sign true ++ positive 0
  | .fin q _ => sign (q < 0) ++ positive |q|

/-- `{:.p$}` of a value that is not negative. -/
def fixed (p : Nat) (q : ℚ) : List Char := decimal (rne (q * ((10 ^ p : Nat) : ℚ))).toNat p

/-- The decimal `n * 10^e` from which the positive number `q` can be read back, with `e` as large as possible. `up`: which of two equally
near ones is chosen. -/
def shortest (up : Bool) (q : ℚ) : (fuel : Nat) → (e : Int) → Nat × Int
  | 0, e => ((q / pow10 e).floor.toNat, e)
  | fuel + 1, e =>
    let n := (q / pow10 e).floor.toNat
    let below := q - n * pow10 e
    let above := (n + 1 : Nat) * pow10 e - q
    if rndQ (n * pow10 e) = q then
      if rndQ ((n + 1 : Nat) * pow10 e) = q ∧ (above < below ∨ (above = below ∧ up = true)) then (n + 1, e) else (n, e)
    else if rndQ ((n + 1 : Nat) * pow10 e) = q then (n + 1, e)
    else shortest up q fuel (e - 1)

/-- `{}` of a value that is not negative. The largest number is below `2 * 10^308`; every number is a multiple of `10^-1074`. -/
def plain (up : Bool) (q : ℚ) : List Char :=
  if q = 0 then ['0']
  else match shortest up q 1382 308 with
    | (n, .ofNat e) => decimal (n * 10 ^ e) 0
    | (n, .negSucc e) => decimal n (e + 1)

end FloatText

/-- How the standard library writes an `f64`. -/
def FloatText (up : Bool) : FloatFormat F64 where
  plain x := String.ofList (FloatText.signed (FloatText.plain up) x)
  digits p x := String.ofList (FloatText.signed (FloatText.fixed p) x)

end RG
