import Verif.Selection
import Verif.Interpolate

/-!
# The same code without overflow checks

`/repo/Cargo.toml` sets no profile, so `usize` arithmetic is checked in dev and test builds (the model elsewhere) and wraps
around modulo `2^64` in release builds. Here are the functions containing `usize` arithmetic that is not guarded by a
preceding test, as they behave in a release build.
-/

namespace RG
open Arith

/-- `a - b` on `usize` without overflow check (`a`, `b` below `2^64`). -/
def wrapSub (a b : Nat) : Nat := (a + 2 ^ 64 - b) % 2 ^ 64
/-- `a + b` on `usize` without overflow check. -/
def wrapAdd (a b : Nat) : Nat := (a + b) % 2 ^ 64
/-- `a * b` on `usize` without overflow check. -/
def wrapMul (a b : Nat) : Nat := (a * b) % 2 ^ 64

/-- `interpolate_usize` — `lib.rs:63-65`, release build. -/
def interpolateUsizeW (min max : Nat) (ratio : F64) : Nat :=
  ((F64.ofNat min).add ((F64.ofNat (wrapSub max min)).mul ratio)).toUsize

/-- `bounded_random_range` — `operators.rs:102-112`, release build. -/
def boundedRandomRangeW (n minLen maxLen : Nat) : Prog URange := do
  let length ← Prog.rangeIncl minLen maxLen
  let start ← Prog.rangeIncl 0 (wrapSub n length)
  pure ⟨start, wrapAdd start length⟩

variable {I : Type} [Individual I]

/-- The wheels — `selection.rs:217-227` and `307-317`, release build: the index, and the individual at it or (fallback)
`population.last().unwrap()`. -/
def wheelMemberW (population : Population I) (weights : List F64) (total u : F64) : Res (Nat × I) :=
  match wheelScan (u *ₐ total) (lit 0) 0 weights with
  | some i => memberAt population i
  | none => do
    let last ← Res.ofOption population.individuals.getLast?
    pure (wrapSub population.len 1, last)

/-- The scan loop of `RankSelection::select` — `selection.rs:353-359`, release build. -/
def rankScanW (target : Nat) : (fuel cumulative index : Nat) → Option Nat
  | 0, _, _ => none
  | fuel + 1, cumulative, index =>
    let cumulative := wrapAdd cumulative (wrapAdd index 1)
    if cumulative ≥ target then some index else rankScanW target fuel cumulative (index + 1)

/-- `RankSelection::select` — `selection.rs:348-361`, release build. -/
def rankSelectW (population : Population I) : Prog (Nat × I) := do
  let n := population.len
  let target ← Prog.rangeIncl 1 (wrapMul n (wrapAdd n 1) / 2)
  match rankScanW target n 0 0 with
  | some i => Prog.lift (memberAt population i)
  | none => Prog.lift (memberAt population 0)

/-- `LinearSelection::select` — `selection.rs:466-476`, release build. -/
def linearSelectW (s : LinearSelection F64) (population : Population I) : Prog (Nat × I) := do
  let u ← genF64
  Prog.lift (memberAt population (wrapSub (wrapSub population.len (s.offset population.len u).toUsize) 1))

/-- `SelectionMechanism::select` of the built-in selectors, release build. -/
def Selector.selectW (env : NumEnv) (population : Population I) : Selector → Prog (Nat × I)
  | .tournament s => s.select population
  | .rouletteWheel s => do
    let u ← genF64
    Prog.lift (wheelMemberW population (population.individuals.map Individual.fitness) s.totalFitness u)
  | .boltzmann s => do
    let u ← genF64
    Prog.lift (wheelMemberW population
      (population.individuals.map fun x => BoltzmannSelection.scaledFitness env.exp s.temperature (Individual.fitness x))
      s.totalScaledFitness u)
  | .rank => rankSelectW population
  | .linear s => linearSelectW s population
  | .elitist s => s.select population

end RG
