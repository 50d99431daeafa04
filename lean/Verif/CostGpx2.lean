import Verif.Cost

/-!
# What GPX2 spends

`Verif/Neighbors.lean` and the GPX2 part of `Verif/Crossover.lean` with the counters of `Verif/Cost.lean`. Here the
comparisons are those with `==` and those with `<`. `HashSet::extend` inserts one item after the other; `clear` is not
counted. What the selector does is not counted.
-/

namespace RG
variable {G : Type} [DecidableEq G]

/-- One comparison of two genes with `<`. -/
def Counted.less (lt : G → G → Bool) (a b : G) : Counted Bool := ⟨1, 0, .ok (lt a b)⟩

/-- closure `neighbor` — `operators.rs:153`. -/
def countedNeighbor (lt : G → G → Bool) (a b : G) : Counted (G × G) := do
  if ← Counted.less lt a b then pure (a, b) else pure (b, a)

/-- `.map(|w| neighbor(&w[0], &w[1]))` — `operators.rs:158` and `167`. -/
def countedNeighborPairs (lt : G → G → Bool) : List (G × G) → Counted (List (G × G))
  | [] => pure []
  | w :: ws => do
    let p ← countedNeighbor lt w.1 w.2
    let ps ← countedNeighborPairs lt ws
    pure (p :: ps)

/-- The chained iterator of neighbours of one genome — `operators.rs:155-163` and `164-172`; the pair that closes the
round trip is made before the others. -/
def countedNeighborList (lt : G → G → Bool) (genome : List G) : Counted (List (G × G)) := do
  let last ← Counted.free (Res.ofOption genome.getLast?)
  let first ← Counted.free (Res.ofOption genome.head?)
  let closing ← countedNeighbor lt last first
  let pairs ← countedNeighborPairs lt (windows2 genome)
  pure (pairs ++ [closing])

/-- `common_neighbors` — `operators.rs:136-176`: the neighbours of one genome are put in a set, those of the other looked up. -/
def countedCommonNeighbors (lt : G → G → Bool) (genome1 genome2 : List G) : Counted (List (G × G)) :=
  if genome1.length < 2 ∨ genome2.length ≤ 2 then pure []
  else do
    let (genome1, genome2) := if genome1.length ≤ genome2.length then (genome1, genome2) else (genome2, genome1)
    let neighbors1 ← countedNeighborList lt genome1
    let neighbors2 ← countedNeighborList lt genome2
    Counted.hash neighbors2.length
    Counted.hash neighbors1.length
    pure (neighbors1.filter fun n => decide (n ∈ neighbors2))

/-- The `find_map` of the inner loop — `operators.rs:221-229`: `visited` is asked only after a hit. -/
def countedNext (visited : List G) (last : G) : (common : List (G × G)) → Counted (Option G)
  | [] => pure none
  | (a, b) :: rest => do
    let isA ← Counted.compare a last
    Counted.hash (if isA then 1 else 0)
    if isA && decide (b ∉ visited) then pure (some b)
    else do
      let isB ← Counted.compare b last
      Counted.hash (if isB then 1 else 0)
      if isB && decide (a ∉ visited) then pure (some a)
      else countedNext visited last rest

/-- The `while let` loop — `operators.rs:220-233`. -/
def countedGrow (common : List (G × G)) : (fuel : Nat) → (partition visited : List G) → Counted (List G × List G)
  | 0, _, _ => Counted.free .diverge
  | fuel + 1, partition, visited => do
    let next ← match partition.getLast? with
      | none => pure none
      | some last => countedNext visited last common
    match next with
    | none => pure (partition, visited)
    | some next => do
      Counted.hash 1
      countedGrow common fuel (partition ++ [next]) (next :: visited)

/-- The `for &node in genome1` loop — `operators.rs:211-236`. -/
def countedPartitionsLoop (common : List (G × G)) : (nodes visited : List G) → (partitions : List (List G)) →
    Counted (List (List G))
  | [], _, partitions => pure partitions
  | node :: nodes, visited, partitions => do
    Counted.hash 1
    if node ∈ visited then countedPartitionsLoop common nodes visited partitions
    else do
      Counted.hash 1
      let (partition, visited) ← countedGrow common (2 * common.length + 1) [node] (node :: visited)
      countedPartitionsLoop common nodes visited (partitions ++ [partition])

/-- `common_partitions` — `operators.rs:203-239`. -/
def countedPartitions (lt : G → G → Bool) (genome1 genome2 : List G) : Counted (List (List G)) := do
  let common ← countedCommonNeighbors lt genome1 genome2
  countedPartitionsLoop common genome1 [] []

/-- The `while !partitions.is_empty()` loop — `crossover.rs:165-184`: the genes of the selected partition are put in a set,
and every gene of the other partitions is looked up. `spent` is the number of hash operations so far. -/
def countedGpx2Loop {S : Type} (selector : S → Option G → List (List G) → Prog (Nat × S)) :
    (fuel : Nat) → S → (spent : Nat) → (offspring : List G) → (partitions : List (List G)) → Prog (List G × Nat)
  | _, _, spent, offspring, [] => pure (offspring, spent)
  | 0, _, _, _, _ :: _ => Prog.done .diverge
  | fuel + 1, s, spent, offspring, p :: ps => do
    let (i, s) ← selector s offspring.getLast? (p :: ps)
    let (partition, partitions) ← Prog.lift (swapRemove (p :: ps) i)
    let spent := spent + partition.length
    let offspring := offspring ++ partition
    let spent := spent + (partitions.map List.length).sum
    let partitions := partitions.map fun other => other.filter fun g => decide (g ∉ partition)
    let partitions := partitions.filter fun p => !p.isEmpty
    countedGpx2Loop selector fuel s spent offspring partitions

/-- `generalized_partition_2_crossover` — `crossover.rs:152-186`: the offspring and the number of hash operations. The
comparisons are those of `common_partitions`. -/
def countedGpx2 {S : Type} (lt : G → G → Bool) (parent1 parent2 : List G)
    (selector : S → Option G → List (List G) → Prog (Nat × S)) (s : S) : Prog (List G × Nat) := do
  let partitions ← Prog.lift (countedPartitions lt parent1 parent2).result
  countedGpx2Loop selector partitions.length s (countedPartitions lt parent1 parent2).hashes [] partitions

end RG
