import Verif.Slice
import Verif.Random
import Verif.Neighbors

/-!
# Crossover operators (`/repo/src/operators/crossover.rs`)

Genes have decidable equality (`Eq`, and `Hash` consistent with it); `lt` is `PartialOrd::lt`. A `HashSet` is a list
without duplicates (only membership is used, except for the iteration in ERX), a `HashMap` an association list.
Loops that need not terminate take a `fuel` argument.
-/

namespace RG
variable {G : Type} [DecidableEq G]

/-- `find_position` — `crossover.rs:645-648`. -/
def findPosition (target : G) (genome : List G) : Option Nat := genome.findIdx? (fun g => decide (g = target))

/-! ### GPX2 -/

/-- The `while !partitions.is_empty()` loop — `crossover.rs:165-184`. The selector is a stateful closure, possibly
random. -/
def gpx2Loop {S : Type} (selector : S → Option G → List (List G) → Prog (Nat × S)) :
    (fuel : Nat) → S → (offspring : List G) → (partitions : List (List G)) → Prog (List G)
  | _, _, offspring, [] => pure offspring
  | 0, _, _, _ :: _ => Prog.done .diverge
  | fuel + 1, s, offspring, p :: ps => do
    let (i, s) ← selector s offspring.getLast? (p :: ps)
    let (partition, partitions) ← Prog.lift (swapRemove (p :: ps) i)
    let offspring := offspring ++ partition
    let partitions := partitions.map fun other => other.filter fun g => decide (g ∉ partition)
    let partitions := partitions.filter fun p => !p.isEmpty
    gpx2Loop selector fuel s offspring partitions

/-- `generalized_partition_2_crossover` — `crossover.rs:152-186`. Every iteration removes a partition, so the number of
partitions is enough fuel (`C22_gpx2` shows it is never exhausted). -/
def gpx2 {S : Type} (lt : G → G → Bool) (parent1 parent2 : List G)
    (selector : S → Option G → List (List G) → Prog (Nat × S)) (s : S) : Prog (List G) := do
  let partitions ← Prog.lift (commonPartitions lt parent1 parent2)
  gpx2Loop selector partitions.length s [] partitions

/-! ### SCX -/

/-- The successor index computed in `crossover.rs:241-250`. -/
def succIndex (n pos : Nat) : Nat := if pos + 1 ≠ n then pos + 1 else 0

/-- Body of the loop of SCX — `crossover.rs:234-279`: the next gene, given the current one and the visited set (which
already contains it). -/
def scxNext (parent1 parent2 visited : List G) (current : G) : Res G := do
  let n := parent1.length
  let pos1 ← Res.ofOption (findPosition current parent1)
  let pos2 ← Res.ofOption (findPosition current parent2)
  let next1 ← index parent1 (succIndex n pos1)
  let next2 ← index parent2 (succIndex n pos2)
  let isNext1Visited := decide (next1 ∈ visited)
  let isNext2Visited := decide (next2 ∈ visited)
  if isNext1Visited && isNext2Visited then
    Res.ofOption (parent1.find? fun g => decide (g ∉ visited))
  else if isNext1Visited then pure next2
  else if isNext2Visited then pure next1
  else
    let next1Pos2 ← Res.ofOption (findPosition next1 parent2)
    let next2Pos1 ← Res.ofOption (findPosition next2 parent1)
    pure (if next1Pos2 < next2Pos1 then next1 else next2)

/-- `k` iterations of the loop of SCX — `crossover.rs:234-283`. The code writes the genes into the positions `1..n` of a
vector filled with the pivot; here they are collected in a list. -/
def scxLoop (parent1 parent2 : List G) : (k : Nat) → (visited : List G) → (current : G) → Res (List G)
  | 0, _, _ => .ok []
  | k + 1, visited, current => do
    let visited := current :: visited
    let next ← scxNext parent1 parent2 visited current
    let rest ← scxLoop parent1 parent2 k visited next
    pure (next :: rest)

/-- `sequential_constructive_crossover` — `crossover.rs:219-285`. -/
def scx (parent1 parent2 : List G) (pivot : G) : Res (List G) := do
  Res.assert (decide (parent1.length = parent2.length))
  let n := parent1.length
  if n < 2 then pure parent1
  else
    let rest ← scxLoop parent1 parent2 (n - 1) [] pivot
    pure (pivot :: rest)

/-! ### ERX -/

/-- `HashSet::extend`. -/
def setExtend (s : List G) (xs : List G) : List G := xs.foldl (fun s x => if x ∈ s then s else s ++ [x]) s

/-- `map.entry(gene).or_insert_with(HashSet::new).extend(neighbors)` — `crossover.rs:347-352`. -/
def addNeighbors (map : List (G × List G)) (gene : G) (neighbors : List G) : List (G × List G) :=
  match map with
  | [] => [(gene, setExtend [] neighbors)]
  | (k, s) :: map => if k = gene then (k, setExtend s neighbors) :: map else (k, s) :: addNeighbors map gene neighbors

/-- `map[&gene]`; panics when the key is missing. -/
def mapGet (map : List (G × List G)) (gene : G) : Res (List G) :=
  Res.ofOption ((map.find? fun e => decide (e.1 = gene)).map (·.2))

/-- The pairs produced for one genome — `crossover.rs:341-345`; `i` runs over the positions. -/
def neighborsOf (n : Nat) (genome : List G) : (positions : List Nat) → Res (List (G × List G))
  | [] => .ok []
  | i :: is => do
    let gene ← index genome i
    let prev ← index genome (if i ≠ 0 then i - 1 else n - 1)
    let next ← index genome (if i + 1 ≠ n then i + 1 else 0)
    let rest ← neighborsOf n genome is
    pure ((gene, [prev, next]) :: rest)

/-- `neighbor_lists` — `crossover.rs:337-352`. -/
def neighborLists (parent1 parent2 : List G) : Res (List (G × List G)) := do
  let n := parent1.length
  let l1 ← neighborsOf n parent1 (List.range parent1.length)
  let l2 ← neighborsOf n parent2 (List.range parent2.length)
  pure ((l1 ++ l2).foldl (fun map e => addNeighbors map e.1 e.2) [])

/-- Continuation of `Iterator::min_by_key`: `x` with key `k` is the first minimum so far. -/
def minByKeyFrom (key : G → Res Nat) : (k : Nat) → (x : G) → List G → Res G
  | _, x, [] => .ok x
  | k, x, y :: ys => do
    let k' ← key y
    if k > k' then minByKeyFrom key k' y ys else minByKeyFrom key k x ys

/-- `Iterator::min_by_key`: the first element with the least key. -/
def minByKey (key : G → Res Nat) : List G → Res (Option G)
  | [] => .ok none
  | x :: xs => do
    let k ← key x
    let m ← minByKeyFrom key k x xs
    pure (some m)

/-- One iteration of the loop of ERX — `crossover.rs:359-383`, after `current` was inserted in `visited`: the new
neighbour lists and the next gene. `ord` is the order in which the hash set is iterated. -/
def erxNext (ord : List G → List G) (parent1 visited : List G) (map : List (G × List G)) (current : G) :
    Res (List (G × List G) × G) := do
  let map := map.map fun e => (e.1, e.2.filter fun g => decide (g ≠ current))
  let neighbors ← mapGet map current
  let candidates := (ord neighbors).filter fun g => decide (g ∉ visited)
  let best ← minByKey (fun g => do let s ← mapGet map g; pure s.length) candidates
  let next ← match best with
    | some g => pure g
    | none => Res.ofOption (parent1.find? fun g => decide (g ∉ visited))
  pure (map, next)

/-- `k` iterations of the loop of ERX — `crossover.rs:359-384` (offspring collected as in `scxLoop`). `ord k` is the hash
set's iteration order in the iteration with `k` remaining. -/
def erxLoop (ord : Nat → List G → List G) (parent1 : List G) :
    (k : Nat) → (visited : List G) → (map : List (G × List G)) → (current : G) → Res (List G)
  | 0, _, _, _ => .ok []
  | k + 1, visited, map, current => do
    let visited := current :: visited
    let (map, next) ← erxNext (ord k) parent1 visited map current
    let rest ← erxLoop ord parent1 k visited map next
    pure (next :: rest)

/-- `edge_recombination_crossover` — `crossover.rs:326-386`. -/
def erx (ord : Nat → List G → List G) (parent1 parent2 : List G) (pivot : G) : Res (List G) := do
  Res.assert (decide (parent1.length = parent2.length))
  let n := parent1.length
  if n < 2 then pure parent1
  else
    let map ← neighborLists parent1 parent2
    let rest ← erxLoop ord parent1 (n - 1) [] map pivot
    pure (pivot :: rest)

/-! ### PMX -/

/-- The `while let` loop of PMX — `crossover.rs:441-444`. -/
def pmxMap (start stop : List G) : (fuel : Nat) → (mapped : G) → Res G
  | 0, _ => .diverge
  | fuel + 1, mapped =>
    match findPosition mapped start with
    | none => .ok mapped
    | some pos => do
      let mapped ← index stop pos
      pmxMap start stop fuel mapped

/-- The `for (i, gene) in offspring.iter_mut().enumerate()` loop of PMX — `crossover.rs:438-447`, from position `i` on. -/
def pmxFill (fuel : Nat) (range : URange) (parent2 start stop : List G) : (i : Nat) → (offspring : List G) →
    Res (List G)
  | _, [] => .ok []
  | i, gene :: rest => do
    let gene ← if !range.contains i then do
        let mapped ← index parent2 i
        pmxMap start stop fuel mapped
      else pure gene
    let rest ← pmxFill fuel range parent2 start stop (i + 1) rest
    pure (gene :: rest)

/-- `partially_mapped_crossover` — `crossover.rs:418-450`. -/
def pmx (fuel : Nat) (parent1 parent2 : List G) (range : URange) : Res (List G) := do
  Res.assert (decide (parent1.length = parent2.length))
  let n := parent1.length
  if n < 2 then pure parent1
  else
    let p1 := range.start
    let p2 := range.stop
    let first ← index parent1 0
    let offspring := List.replicate n first
    let seg ← slice parent1 p1 p2
    let offspring ← copyInto offspring p1 p2 seg
    let start ← slice parent1 p1 p2
    let stop ← slice parent2 p1 p2
    pmxFill fuel range parent2 start stop 0 offspring

/-! ### OX -/

/-- The `while index1 != p1` loop of OX — `crossover.rs:503-516`. -/
def oxLoop (n p1 p2 : Nat) (parent2 : List G) : (fuel : Nat) → (genome : List G) → (index1 index2 : Nat) →
    Res (List G)
  | 0, _, _, _ => .diverge
  | fuel + 1, genome, index1, index2 =>
    if index1 ≠ p1 then do
      let seg ← slice genome p1 p2
      let gene ← index parent2 index2
      let (genome, index1) ← if gene ∉ seg then do
          let genome ← setAt genome index1 gene
          let index1 := index1 + 1
          pure (genome, if index1 = n then 0 else index1)
        else pure (genome, index1)
      let index2 := index2 + 1
      let index2 := if index2 = n then 0 else index2
      oxLoop n p1 p2 parent2 fuel genome index1 index2
    else .ok genome

/-- `order_crossover` — `crossover.rs:482-519`. -/
def ox (fuel : Nat) (parent1 parent2 : List G) (range : URange) : Res (List G) := do
  Res.assert (decide (parent1.length = parent2.length))
  let n := parent1.length
  if n < 2 then pure parent1
  else
    let p1 := range.start
    let p2 := range.stop
    let first ← index parent1 0
    let genome := List.replicate n first
    let seg ← slice parent1 p1 p2
    let genome ← copyInto genome p1 p2 seg
    let index1 := if p2 ≠ n then p2 else 0
    let index2 := index1
    oxLoop n p1 p2 parent2 fuel genome index1 index2

/-! ### CX -/

/-- The `while !visited[index]` loop of CX — `crossover.rs:570-585`. -/
def cxCycle (parent1 parent2 : List G) (firstParent : Bool) : (fuel : Nat) → (offspring : List G) →
    (visited : List Bool) → (index : Nat) → Res (List G × List Bool)
  | 0, _, _, _ => .diverge
  | fuel + 1, offspring, visited, i => do
    let v ← index visited i
    if !v then
      let visited ← setAt visited i true
      let gene ← if firstParent then index parent1 i else index parent2 i
      let offspring ← setAt offspring i gene
      let i ← if firstParent then do
          let g ← index parent1 i
          Res.ofOption (findPosition g parent2)
        else do
          let g ← index parent2 i
          Res.ofOption (findPosition g parent1)
      cxCycle parent1 parent2 firstParent fuel offspring visited i
    else pure (offspring, visited)

/-- The outer loop of CX — `crossover.rs:566-597`. Both loops mark an unvisited position per iteration, so `n + 1` is
enough fuel for each (`C27_no_diverge`). -/
def cxLoop (parent1 parent2 : List G) (n : Nat) : (fuel : Nat) → (offspring : List G) → (visited : List Bool) →
    (cycleStart : Nat) → (firstParent : Bool) → Res (List G)
  | 0, _, _, _, _ => .diverge
  | fuel + 1, offspring, visited, cycleStart, firstParent =>
    if cycleStart < n then do
      let (offspring, visited) ← cxCycle parent1 parent2 firstParent (n + 1) offspring visited cycleStart
      match visited.findIdx? (fun x => !x) with
      | some nextStart => cxLoop parent1 parent2 n fuel offspring visited nextStart (!firstParent)
      | none => pure offspring
    else pure offspring

/-- `cycle_crossover` — `crossover.rs:550-600`. -/
def cx (parent1 parent2 : List G) : Res (List G) := do
  Res.assert (decide (parent1.length = parent2.length))
  let n := parent1.length
  if n < 2 then pure parent1
  else
    let first ← index parent1 0
    cxLoop parent1 parent2 n (n + 1) (List.replicate n first) (List.replicate n false) 0 true

/-! ### SPX -/

/-- `single_point_crossover` — `crossover.rs:632-643`. -/
def spx (parent1 parent2 : List G) (point : Nat) : Res (List G) := do
  Res.assert (decide (parent1.length = parent2.length))
  let offspring := parent1
  if point < parent2.length then
    let src ← slice parent2 point parent2.length
    copyInto offspring point offspring.length src
  else pure offspring

/-! ### Strategies -/

/-- `slice.choose(rng)` of rand 0.8.5. -/
def choose (l : List G) : Prog (Option G) :=
  if l.isEmpty then pure none
  else do
    let i ← Prog.rangeExcl 0 l.length
    pure l[i]?

/-- `enum CrossoverStrategy` — `crossover.rs:13-51`. -/
inductive CrossoverStrategy where
  | generalizedPartition2 | sequentialConstructive | edgeRecombination | partiallyMapped | order | cycle | singlePoint
deriving DecidableEq, Repr

/-- `CrossoverStrategy::crossover` — `crossover.rs:68-102`. -/
def CrossoverStrategy.crossover (lt : G → G → Bool) (ord : Nat → List G → List G) (fuel : Nat) (s : CrossoverStrategy)
    (parent1 parent2 : List G) : Prog (List G) :=
  match s with
  | .generalizedPartition2 =>
    gpx2 lt parent1 parent2 (fun _ _ partitions => do
      let i ← Prog.rangeExcl 0 partitions.length
      pure (i, ())) ()
  | .sequentialConstructive => do
    let pivot ← choose parent1
    let pivot ← Prog.lift (Res.ofOption pivot)
    Prog.lift (scx parent1 parent2 pivot)
  | .edgeRecombination => do
    let pivot ← choose parent1
    let pivot ← Prog.lift (Res.ofOption pivot)
    Prog.lift (erx ord parent1 parent2 pivot)
  | .partiallyMapped => do
    let range ← randomRange parent1.length
    Prog.lift (pmx fuel parent1 parent2 range)
  | .order => do
    let range ← randomRange parent1.length
    Prog.lift (ox fuel parent1 parent2 range)
  | .cycle => Prog.lift (cx parent1 parent2)
  | .singlePoint => do
    let point ← Prog.rangeExcl 0 parent1.length
    Prog.lift (spx parent1 parent2 point)

end RG
