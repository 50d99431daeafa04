import Verif.Prog

/-!
# Common neighbours and partitions (`/repo/src/operators.rs:136-239`)

Genes: `G: Copy + PartialOrd + Eq + Hash`. `Eq` is decidable equality (and `Hash` is consistent with it, so a `HashSet`
is modelled by membership); `PartialOrd::lt` is an arbitrary Boolean function `lt`.
-/

namespace RG
variable {G : Type} [DecidableEq G]

/-- closure `neighbor` — `operators.rs:153`. -/
def neighbor (lt : G → G → Bool) (a b : G) : G × G := if lt a b then (a, b) else (b, a)

/-- `slice.windows(2)` as pairs. -/
def windows2 : List G → List (G × G)
  | a :: b :: rest => (a, b) :: windows2 (b :: rest)
  | _ => []

/-- The chained iterator of neighbours of one genome — `operators.rs:156-162` and `165-171`; `last`/`first` are
unwrapped. -/
def neighborList (lt : G → G → Bool) (genome : List G) : Res (List (G × G)) := do
  let last ← Res.ofOption genome.getLast?
  let first ← Res.ofOption genome.head?
  pure ((windows2 genome).map (fun w => neighbor lt w.1 w.2) ++ [neighbor lt last first])

/-- `common_neighbors` — `operators.rs:136-176`. -/
def commonNeighbors (lt : G → G → Bool) (genome1 genome2 : List G) : Res (List (G × G)) :=
  if genome1.length < 2 ∨ genome2.length ≤ 2 then .ok []
  else do
    let (genome1, genome2) := if genome1.length ≤ genome2.length then (genome1, genome2) else (genome2, genome1)
    let neighbors1 ← neighborList lt genome1
    let neighbors2 ← neighborList lt genome2
    pure (neighbors1.filter fun n => decide (n ∈ neighbors2))

/-- The `find_map` of the inner loop — `operators.rs:221-229`. -/
def nextNode (common : List (G × G)) (visited : List G) (last : G) : Option G :=
  common.findSome? fun (a, b) =>
    if a = last ∧ b ∉ visited then some b
    else if b = last ∧ a ∉ visited then some a
    else none

/-- The `while let` loop — `operators.rs:220-233`: final `partition` and `visited`. -/
def growPartition (common : List (G × G)) : (fuel : Nat) → (partition visited : List G) → Res (List G × List G)
  | 0, _, _ => .diverge
  | fuel + 1, partition, visited =>
    match partition.getLast?.bind (nextNode common visited) with
    | none => .ok (partition, visited)
    | some next => growPartition common fuel (partition ++ [next]) (next :: visited)

/-- The `for &node in genome1` loop — `operators.rs:211-236`. The fuel of the inner loop is `2 |common| + 1`;
`C21_partitions` shows it is never exhausted. -/
def partitionsLoop (common : List (G × G)) : (nodes visited : List G) → (partitions : List (List G)) →
    Res (List (List G))
  | [], _, partitions => .ok partitions
  | node :: nodes, visited, partitions =>
    if node ∈ visited then partitionsLoop common nodes visited partitions
    else do
      let (partition, visited) ← growPartition common (2 * common.length + 1) [node] (node :: visited)
      partitionsLoop common nodes visited (partitions ++ [partition])

/-- `common_partitions` — `operators.rs:203-239`. -/
def commonPartitions (lt : G → G → Bool) (genome1 genome2 : List G) : Res (List (List G)) := do
  let common ← commonNeighbors lt genome1 genome2
  partitionsLoop common genome1 [] []

end RG
