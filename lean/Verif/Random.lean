import Verif.Prog

/-!
# Random helpers of `/repo/src/operators.rs`

`usize` subtraction that would be negative is a panic (overflow checks of the dev/test profile). In a release build the
subtraction wraps around instead; this only concerns inputs for which the panic case is reported.
-/

namespace RG

/-- `a - b` on `usize` with overflow check. -/
def usizeSub (a b : Nat) : Res Nat := if b ≤ a then .ok (a - b) else .panic

/-- `std::ops::Range<usize>`. -/
structure URange where
  start : Nat
  stop : Nat
deriving DecidableEq, Repr

namespace URange
/-- `Range::len` -/
def len (r : URange) : Nat := r.stop - r.start
/-- `Range::contains` -/
def contains (r : URange) (i : Nat) : Bool := decide (r.start ≤ i ∧ i < r.stop)
end URange

/-- `random_pair` — `operators.rs:41-50`. -/
def randomPair (n : Nat) : Prog (Nat × Nat) := do
  Prog.lift (Res.assert (decide (2 ≤ n)))
  let p1 ← Prog.rangeExcl 0 n
  let p2 ← Prog.rangeExcl 0 (n - 1)
  let p2 := if p2 ≥ p1 then p2 + 1 else p2
  pure (p1, p2)

/-- `bounded_random_range` — `operators.rs:102-112`. -/
def boundedRandomRange (n minLen maxLen : Nat) : Prog URange := do
  let length ← Prog.rangeIncl minLen maxLen
  let last ← Prog.lift (usizeSub n length)
  let start ← Prog.rangeIncl 0 last
  let stop := start + length
  pure ⟨start, stop⟩

/-- `random_range` — `operators.rs:72-75`. -/
def randomRange (n : Nat) : Prog URange := do
  Prog.lift (Res.assert (decide (n ≠ 0)))
  boundedRandomRange n 1 n

end RG
