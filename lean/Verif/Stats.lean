import Verif.Prog
import Verif.Float.F64

/-!
# `Stats` and `PopulatedStats` (`/repo/src/stats.rs`)

Generic in the arithmetic: at `F64` this is the code, at an exact field the idealised algorithm.
Simplification: `count: usize` is a natural number (no sequence of 2^64 samples is considered).
`Display` is in `Verif.Display`.
-/

namespace RG
open Arith

/-- Arithmetic with `f64::sqrt`. -/
class ArithSqrt (α : Type) where
  sqrt : α → α

instance : ArithSqrt F64 where
  sqrt := F64.sqrt

/-- `struct Stats` — `stats.rs:32-41`. -/
structure Stats (α : Type) where
  count : Nat
  min : α
  argMin : Nat
  max : α
  argMax : Nat
  avg : α
  sumSquared : α
deriving DecidableEq

/-- `struct PopulatedStats` — `stats.rs:280-283`. -/
structure PopulatedStats (α : Type) where
  stats : Stats α
deriving DecidableEq

namespace Stats
variable {α : Type} [Arith α]

/-- `#[derive(Default)]` — `stats.rs:32`: all fields zero. -/
def default : Stats α := ⟨0, lit 0, 0, lit 0, 0, lit 0, lit 0⟩

/-- `Stats::count` — `stats.rs:46-48`; the field itself, renamed accessor. -/
def getCount (s : Stats α) : Nat := s.count

/-- `Stats::min` — `stats.rs:52-57`. -/
def getMin (s : Stats α) : Option α :=
  match s.count with
  | 0 => none
  | _ => some s.min

/-- `Stats::arg_min` — `stats.rs:61-66`. -/
def getArgMin (s : Stats α) : Option Nat :=
  match s.count with
  | 0 => none
  | _ => some s.argMin

/-- `Stats::max` — `stats.rs:70-75`. -/
def getMax (s : Stats α) : Option α :=
  match s.count with
  | 0 => none
  | _ => some s.max

/-- `Stats::arg_max` — `stats.rs:79-84`. -/
def getArgMax (s : Stats α) : Option Nat :=
  match s.count with
  | 0 => none
  | _ => some s.argMax

/-- `Stats::avg` — `stats.rs:88-93`. -/
def getAvg (s : Stats α) : Option α :=
  match s.count with
  | 0 => none
  | _ => some s.avg

/-- `Stats::var` — `stats.rs:97-103`. -/
def getVar (s : Stats α) : Option α :=
  match s.count with
  | 0 => none
  | 1 => some (lit 0)
  | _ => some (s.sumSquared /ₐ Arith.ofNat (s.count - 1))

/-- `Stats::std` — `stats.rs:107-109`. -/
def getStd [ArithSqrt α] (s : Stats α) : Option α := s.getVar.map ArithSqrt.sqrt

/-- `Stats::record` — `stats.rs:134-159`. -/
def record (s : Stats α) (sample : α) : Stats α :=
  if s.count ≠ 0 then
    let (min, argMin) := if sample <ₐ s.min then (sample, s.count) else (s.min, s.argMin)
    let (max, argMax) := if s.max <ₐ sample then (sample, s.count) else (s.max, s.argMax)
    let count := s.count + 1
    let delta := sample -ₐ s.avg
    let avg := s.avg +ₐ delta /ₐ Arith.ofNat count
    let sumSquared := s.sumSquared +ₐ delta *ₐ (sample -ₐ avg)
    ⟨count, min, argMin, max, argMax, avg, sumSquared⟩
  else
    ⟨1, sample, 0, sample, 0, sample, lit 0⟩

/-- The `for sample in samples` loop of `from_iter` — `stats.rs:222-236`; the arguments are its local variables. -/
def collectLoop : (samples : List α) → (count : Nat) → (min : α) → (argMin : Nat) → (max : α) → (argMax : Nat) →
    (avg : α) → (sumSquared : α) → Stats α
  | [], count, min, argMin, max, argMax, avg, sumSquared => ⟨count, min, argMin, max, argMax, avg, sumSquared⟩
  | sample :: samples, count, min, argMin, max, argMax, avg, sumSquared =>
    let (min, argMin) := if sample <ₐ min then (sample, count) else (min, argMin)
    let (max, argMax) := if max <ₐ sample then (sample, count) else (max, argMax)
    let count := count + 1
    let delta := sample -ₐ avg
    let avg := avg +ₐ delta /ₐ Arith.ofNat count
    let sumSquared := sumSquared +ₐ delta *ₐ (sample -ₐ avg)
    collectLoop samples count min argMin max argMax avg sumSquared

/-- `FromIterator<f64> for Stats` — `stats.rs:207-248` (`iter.collect::<Stats>()`). -/
def collect (samples : List α) : Stats α :=
  match samples with
  | [] => default
  | first :: rest => collectLoop rest 1 first 0 first 0 first (lit 0)

/-- `Stats::snapshot` — `stats.rs:198-204`. -/
def snapshot (s : Stats α) : Option (PopulatedStats α) :=
  if s.count ≠ 0 then some ⟨s⟩ else none

end Stats

namespace PopulatedStats
variable {α : Type} [Arith α]

/-- `TryFrom<Stats> for PopulatedStats` — `stats.rs:379-390` (`Err(())` is `none`). -/
def tryFrom (s : Stats α) : Option (PopulatedStats α) :=
  if s.count ≠ 0 then some ⟨s⟩ else none

/-- `PopulatedStats::count` — `stats.rs:288-290`. -/
def count (p : PopulatedStats α) : Nat := p.stats.count
/-- `PopulatedStats::min` — `stats.rs:294-296`. -/
def min (p : PopulatedStats α) : α := p.stats.min
/-- `PopulatedStats::arg_min` — `stats.rs:300-302`. -/
def argMin (p : PopulatedStats α) : Nat := p.stats.argMin
/-- `PopulatedStats::max` — `stats.rs:306-308`. -/
def max (p : PopulatedStats α) : α := p.stats.max
/-- `PopulatedStats::arg_max` — `stats.rs:312-314`. -/
def argMax (p : PopulatedStats α) : Nat := p.stats.argMax
/-- `PopulatedStats::avg` — `stats.rs:318-320`. -/
def avg (p : PopulatedStats α) : α := p.stats.avg
/-- `PopulatedStats::var` — `stats.rs:324-330`. -/
def var (p : PopulatedStats α) : α :=
  if p.stats.count > 1 then p.stats.sumSquared /ₐ Arith.ofNat (p.stats.count - 1) else lit 0
/-- `PopulatedStats::std` — `stats.rs:334-336`. -/
def std [ArithSqrt α] (p : PopulatedStats α) : α := ArithSqrt.sqrt p.var

/-- `PopulatedStats::set_arg_min` — `stats.rs:352-355`. -/
def setArgMin (p : PopulatedStats α) (i : Nat) : Res (PopulatedStats α) :=
  if i < p.count then .ok { p with stats := { p.stats with argMin := i } } else .panic
/-- `PopulatedStats::set_arg_max` — `stats.rs:373-376`. -/
def setArgMax (p : PopulatedStats α) (i : Nat) : Res (PopulatedStats α) :=
  if i < p.count then .ok { p with stats := { p.stats with argMax := i } } else .panic

end PopulatedStats
end RG
