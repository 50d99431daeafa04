import Verif.Crossover

/-!
# What the crossovers spend

The same functions as in `Verif/Crossover.lean`, with two counters: the comparisons of genes with `==`, and the operations
on hash sets and hash maps (`insert`, `contains`, `remove`, `entry`, indexing). Nothing else is counted: copies, moves of
an index, reads and writes of vectors. `slice.iter().position(..)` and `slice.contains(..)` compare one gene after the
other and stop at the first hit (std, from memory; for some primitive gene types std replaces `contains` by a vectorised
search, which is not what is counted here). `C122_same` shows that the counters change nothing else.
-/

namespace RG

/-- A computation with the number of gene comparisons and of hash operations it makes, also when it panics. -/
structure Counted (α : Type) where
  eqs : Nat
  hashes : Nat
  result : Res α

namespace Counted
variable {α β : Type}

/-- Sequencing: the counters add up; nothing is counted after a panic. -/
def bind (x : Counted α) (f : α → Counted β) : Counted β :=
  match x.result with
  | .ok a => ⟨x.eqs + (f a).eqs, x.hashes + (f a).hashes, (f a).result⟩
  | .panic => ⟨x.eqs, x.hashes, .panic⟩
  | .diverge => ⟨x.eqs, x.hashes, .diverge⟩

instance : Monad Counted where
  pure a := ⟨0, 0, .ok a⟩
  bind := bind

/-- A computation that counts nothing. -/
def free (r : Res α) : Counted α := ⟨0, 0, r⟩

/-- One comparison of two genes. -/
def compare {G : Type} [DecidableEq G] (a b : G) : Counted Bool := ⟨1, 0, .ok (decide (a = b))⟩

/-- `k` operations on hash sets or hash maps. -/
def hash (k : Nat) : Counted Unit := ⟨0, k, .ok ()⟩

end Counted

variable {G : Type} [DecidableEq G]

/-- `find_position` — `crossover.rs:645-648`. -/
def countedPosition (target : G) : (genome : List G) → Counted (Option Nat)
  | [] => pure none
  | gene :: rest => do
    if ← Counted.compare gene target then pure (some 0)
    else do
      let pos ← countedPosition target rest
      pure (pos.map (· + 1))

/-- `slice.contains(gene)`, in `crossover.rs:504`. -/
def countedContains (target : G) : List G → Counted Bool
  | [] => pure false
  | gene :: rest => do
    if ← Counted.compare gene target then pure true else countedContains target rest

/-- `parent1.iter().find(|gene| !visited.contains(gene)).copied()` — `crossover.rs:257-261` and `crossover.rs:377-381`. -/
def countedFind (visited : List G) : List G → Counted (Option G)
  | [] => pure none
  | gene :: rest => do
    Counted.hash 1
    if gene ∉ visited then pure (some gene) else countedFind visited rest

/-! ### SCX -/

/-- Body of the loop of SCX — `crossover.rs:237-279`, after the insertion in `visited`. -/
def countedScxNext (parent1 parent2 visited : List G) (current : G) : Counted G := do
  let n := parent1.length
  let pos1 ← countedPosition current parent1
  let pos1 ← Counted.free (Res.ofOption pos1)
  let pos2 ← countedPosition current parent2
  let pos2 ← Counted.free (Res.ofOption pos2)
  let next1 ← Counted.free (index parent1 (succIndex n pos1))
  let next2 ← Counted.free (index parent2 (succIndex n pos2))
  Counted.hash 2
  let isNext1Visited := decide (next1 ∈ visited)
  let isNext2Visited := decide (next2 ∈ visited)
  if isNext1Visited && isNext2Visited then do
    let next ← countedFind visited parent1
    Counted.free (Res.ofOption next)
  else if isNext1Visited then pure next2
  else if isNext2Visited then pure next1
  else do
    let next1Pos2 ← countedPosition next1 parent2
    let next1Pos2 ← Counted.free (Res.ofOption next1Pos2)
    let next2Pos1 ← countedPosition next2 parent1
    let next2Pos1 ← Counted.free (Res.ofOption next2Pos1)
    pure (if next1Pos2 < next2Pos1 then next1 else next2)

/-- `k` iterations of the loop of SCX — `crossover.rs:234-283`. -/
def countedScxLoop (parent1 parent2 : List G) : (k : Nat) → (visited : List G) → (current : G) → Counted (List G)
  | 0, _, _ => pure []
  | k + 1, visited, current => do
    Counted.hash 1
    let visited := current :: visited
    let next ← countedScxNext parent1 parent2 visited current
    let rest ← countedScxLoop parent1 parent2 k visited next
    pure (next :: rest)

/-- `sequential_constructive_crossover` — `crossover.rs:219-285`. -/
def countedScx (parent1 parent2 : List G) (pivot : G) : Counted (List G) := do
  Counted.free (Res.assert (decide (parent1.length = parent2.length)))
  let n := parent1.length
  if n < 2 then pure parent1
  else do
    let rest ← countedScxLoop parent1 parent2 (n - 1) [] pivot
    pure (pivot :: rest)

/-! ### ERX -/

/-- `neighbor_lists` — `crossover.rs:337-352`: one `entry` and the insertion of two neighbours per pair. -/
def countedNeighborLists (parent1 parent2 : List G) : Counted (List (G × List G)) := do
  let n := parent1.length
  let l1 ← Counted.free (neighborsOf n parent1 (List.range parent1.length))
  let l2 ← Counted.free (neighborsOf n parent2 (List.range parent2.length))
  let pairs := l1 ++ l2
  Counted.hash (pairs.map fun e => 1 + e.2.length).sum
  pure (pairs.foldl (fun map e => addNeighbors map e.1 e.2) [])

/-- `minByKeyFrom` with a counted key. -/
def countedMinByKeyFrom (key : G → Counted Nat) : (k : Nat) → (x : G) → List G → Counted G
  | _, x, [] => pure x
  | k, x, y :: ys => do
    let k' ← key y
    if k > k' then countedMinByKeyFrom key k' y ys else countedMinByKeyFrom key k x ys

/-- `minByKey` with a counted key. -/
def countedMinByKey (key : G → Counted Nat) : List G → Counted (Option G)
  | [] => pure none
  | x :: xs => do
    let k ← key x
    let m ← countedMinByKeyFrom key k x xs
    pure (some m)

/-- One iteration of the loop of ERX — `crossover.rs:362-381`: the removal of `current` from every set, the sets of the
current gene and of every candidate, one look at `visited` per neighbour. The iterator is lazy, but every neighbour is
looked at and every candidate measured once. -/
def countedErxNext (ord : List G → List G) (parent1 visited : List G) (map : List (G × List G)) (current : G) :
    Counted (List (G × List G) × G) := do
  Counted.hash map.length
  let map := map.map fun e => (e.1, e.2.filter fun g => decide (g ≠ current))
  Counted.hash 1
  let neighbors ← Counted.free (mapGet map current)
  Counted.hash (ord neighbors).length
  let candidates := (ord neighbors).filter fun g => decide (g ∉ visited)
  let best ← countedMinByKey (fun g => do
    Counted.hash 1
    let s ← Counted.free (mapGet map g)
    pure s.length) candidates
  let next ← match best with
    | some g => pure g
    | none => do
      let next ← countedFind visited parent1
      Counted.free (Res.ofOption next)
  pure (map, next)

/-- `k` iterations of the loop of ERX — `crossover.rs:359-384`. -/
def countedErxLoop (ord : Nat → List G → List G) (parent1 : List G) :
    (k : Nat) → (visited : List G) → (map : List (G × List G)) → (current : G) → Counted (List G)
  | 0, _, _, _ => pure []
  | k + 1, visited, map, current => do
    Counted.hash 1
    let visited := current :: visited
    let (map, next) ← countedErxNext (ord k) parent1 visited map current
    let rest ← countedErxLoop ord parent1 k visited map next
    pure (next :: rest)

/-- `edge_recombination_crossover` — `crossover.rs:326-386`. -/
def countedErx (ord : Nat → List G → List G) (parent1 parent2 : List G) (pivot : G) : Counted (List G) := do
  Counted.free (Res.assert (decide (parent1.length = parent2.length)))
  let n := parent1.length
  if n < 2 then pure parent1
  else do
    let map ← countedNeighborLists parent1 parent2
    let rest ← countedErxLoop ord parent1 (n - 1) [] map pivot
    pure (pivot :: rest)

/-! ### PMX -/

/-- The `while let` loop of PMX — `crossover.rs:441-444`. -/
def countedPmxMap (start stop : List G) : (fuel : Nat) → (mapped : G) → Counted G
  | 0, _ => Counted.free .diverge
  | fuel + 1, mapped => do
    match ← countedPosition mapped start with
    | none => pure mapped
    | some pos => do
      let mapped ← Counted.free (index stop pos)
      countedPmxMap start stop fuel mapped

/-- The `for (i, gene) in offspring.iter_mut().enumerate()` loop of PMX — `crossover.rs:438-447`, from position `i` on. -/
def countedPmxFill (fuel : Nat) (range : URange) (parent2 start stop : List G) : (i : Nat) → (offspring : List G) →
    Counted (List G)
  | _, [] => pure []
  | i, gene :: rest => do
    let gene ← if !range.contains i then do
        let mapped ← Counted.free (index parent2 i)
        countedPmxMap start stop fuel mapped
      else pure gene
    let rest ← countedPmxFill fuel range parent2 start stop (i + 1) rest
    pure (gene :: rest)

/-- `partially_mapped_crossover` — `crossover.rs:418-450`. -/
def countedPmx (fuel : Nat) (parent1 parent2 : List G) (range : URange) : Counted (List G) := do
  Counted.free (Res.assert (decide (parent1.length = parent2.length)))
  let n := parent1.length
  if n < 2 then pure parent1
  else do
    let p1 := range.start
    let p2 := range.stop
    let first ← Counted.free (index parent1 0)
    let offspring := List.replicate n first
    let seg ← Counted.free (slice parent1 p1 p2)
    let offspring ← Counted.free (copyInto offspring p1 p2 seg)
    let start ← Counted.free (slice parent1 p1 p2)
    let stop ← Counted.free (slice parent2 p1 p2)
    countedPmxFill fuel range parent2 start stop 0 offspring

/-! ### OX -/

/-- The `while index1 != p1` loop of OX — `crossover.rs:503-516`. -/
def countedOxLoop (n p1 p2 : Nat) (parent2 : List G) : (fuel : Nat) → (genome : List G) → (index1 index2 : Nat) →
    Counted (List G)
  | 0, _, _, _ => Counted.free .diverge
  | fuel + 1, genome, index1, index2 =>
    if index1 ≠ p1 then do
      let seg ← Counted.free (slice genome p1 p2)
      let gene ← Counted.free (index parent2 index2)
      let found ← countedContains gene seg
      let (genome, index1) ← if !found then do
          let genome ← Counted.free (setAt genome index1 gene)
          let index1 := index1 + 1
          pure (genome, if index1 = n then 0 else index1)
        else pure (genome, index1)
      let index2 := index2 + 1
      let index2 := if index2 = n then 0 else index2
      countedOxLoop n p1 p2 parent2 fuel genome index1 index2
    else pure genome

/-- `order_crossover` — `crossover.rs:482-519`. -/
def countedOx (fuel : Nat) (parent1 parent2 : List G) (range : URange) : Counted (List G) := do
  Counted.free (Res.assert (decide (parent1.length = parent2.length)))
  let n := parent1.length
  if n < 2 then pure parent1
  else do
    let p1 := range.start
    let p2 := range.stop
    let first ← Counted.free (index parent1 0)
    let genome := List.replicate n first
    let seg ← Counted.free (slice parent1 p1 p2)
    let genome ← Counted.free (copyInto genome p1 p2 seg)
    let index1 := if p2 ≠ n then p2 else 0
    let index2 := index1
    countedOxLoop n p1 p2 parent2 fuel genome index1 index2

/-! ### CX -/

/-- The `while !visited[index]` loop of CX — `crossover.rs:570-585`. -/
def countedCxCycle (parent1 parent2 : List G) (firstParent : Bool) : (fuel : Nat) → (offspring : List G) →
    (visited : List Bool) → (index : Nat) → Counted (List G × List Bool)
  | 0, _, _, _ => Counted.free .diverge
  | fuel + 1, offspring, visited, i => do
    let v ← Counted.free (index visited i)
    if !v then do
      let visited ← Counted.free (setAt visited i true)
      let gene ← Counted.free (if firstParent then index parent1 i else index parent2 i)
      let offspring ← Counted.free (setAt offspring i gene)
      let i ← if firstParent then do
          let g ← Counted.free (index parent1 i)
          let pos ← countedPosition g parent2
          Counted.free (Res.ofOption pos)
        else do
          let g ← Counted.free (index parent2 i)
          let pos ← countedPosition g parent1
          Counted.free (Res.ofOption pos)
      countedCxCycle parent1 parent2 firstParent fuel offspring visited i
    else pure (offspring, visited)

/-- The outer loop of CX — `crossover.rs:566-597`. The search for an unvisited position looks at flags, not at genes. -/
def countedCxLoop (parent1 parent2 : List G) (n : Nat) : (fuel : Nat) → (offspring : List G) → (visited : List Bool) →
    (cycleStart : Nat) → (firstParent : Bool) → Counted (List G)
  | 0, _, _, _, _ => Counted.free .diverge
  | fuel + 1, offspring, visited, cycleStart, firstParent =>
    if cycleStart < n then do
      let (offspring, visited) ← countedCxCycle parent1 parent2 firstParent (n + 1) offspring visited cycleStart
      match visited.findIdx? (fun x => !x) with
      | some nextStart => countedCxLoop parent1 parent2 n fuel offspring visited nextStart (!firstParent)
      | none => pure offspring
    else pure offspring

/-- `cycle_crossover` — `crossover.rs:550-600`. -/
def countedCx (parent1 parent2 : List G) : Counted (List G) := do
  Counted.free (Res.assert (decide (parent1.length = parent2.length)))
  let n := parent1.length
  if n < 2 then pure parent1
  else do
    let first ← Counted.free (index parent1 0)
    countedCxLoop parent1 parent2 n (n + 1) (List.replicate n first) (List.replicate n false) 0 true

end RG
