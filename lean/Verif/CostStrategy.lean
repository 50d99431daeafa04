import Verif.CostGpx2

/-!
# What `CrossoverStrategy::crossover` spends

The functions of `Verif/Cost.lean` and `Verif/CostGpx2.lean` with the random choices of the strategies. The random draws and
what `SinglePoint` copies are not counted.
-/

namespace RG
variable {G : Type} [DecidableEq G]

/-- `CrossoverStrategy::crossover` — `crossover.rs:68-102`: the result with the counters. -/
def CrossoverStrategy.counted (lt : G → G → Bool) (ord : Nat → List G → List G) (fuel : Nat) (s : CrossoverStrategy)
    (parent1 parent2 : List G) : Prog (Counted (List G)) :=
  match s with
  | .generalizedPartition2 => do
    let r ← countedGpx2 lt parent1 parent2 (fun _ _ partitions => do
      let i ← Prog.rangeExcl 0 partitions.length
      pure (i, ())) ()
    pure ⟨(countedPartitions lt parent1 parent2).eqs, r.2, .ok r.1⟩
  | .sequentialConstructive => do
    let pivot ← choose parent1
    let pivot ← Prog.lift (Res.ofOption pivot)
    pure (countedScx parent1 parent2 pivot)
  | .edgeRecombination => do
    let pivot ← choose parent1
    let pivot ← Prog.lift (Res.ofOption pivot)
    pure (countedErx ord parent1 parent2 pivot)
  | .partiallyMapped => do
    let range ← randomRange parent1.length
    pure (countedPmx fuel parent1 parent2 range)
  | .order => do
    let range ← randomRange parent1.length
    pure (countedOx fuel parent1 parent2 range)
  | .cycle => pure (countedCx parent1 parent2)
  | .singlePoint => do
    let point ← Prog.rangeExcl 0 parent1.length
    pure (Counted.free (spx parent1 parent2 point))

/-- The mean of a number that a program computes; a panic counts as zero. -/
def Prog.mean {α : Type} (p : Prog α) (f : α → Nat) : ℚ := p.expect fun r => match r with
  | .ok a => (f a : ℚ)
  | _ => 0

end RG
