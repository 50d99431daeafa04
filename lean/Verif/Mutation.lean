import Verif.Random

/-!
# Mutation operators (`/repo/src/operators/mutation.rs`)

A mutable slice `&mut [G]` is a list going in and a list coming out.
-/

namespace RG
variable {G : Type}

/-- `slice.swap(i, j)`; panics when out of bounds. -/
def swapAt (l : List G) (i j : Nat) : Res (List G) :=
  match l[i]?, l[j]? with
  | some a, some b => .ok ((l.set i b).set j a)
  | _, _ => .panic

/-- Mutation of the sub-slice `l[start..stop]`; panics when the range is out of bounds. -/
def onSlice (l : List G) (start stop : Nat) (f : List G → Prog (List G)) : Prog (List G) :=
  if start ≤ stop ∧ stop ≤ l.length then do
    let seg ← f ((l.drop start).take (stop - start))
    pure (l.take start ++ seg ++ l.drop stop)
  else Prog.done .panic

/-- `slice.rotate_right(1)`; panics on an empty slice. -/
def rotateRight1 (l : List G) : Res (List G) :=
  match l.getLast? with
  | some x => .ok (x :: l.dropLast)
  | none => .panic

/-- Loop of `SliceRandom::shuffle` of rand 0.8.5 (`for i in (1..len).rev() { self.swap(i, gen_index(rng, i + 1)) }`):
`shuffleLoop i l` performs the iterations `i, i-1, …, 1`. -/
def shuffleLoop : Nat → List G → Prog (List G)
  | 0, l => pure l
  | i + 1, l => do
    let j ← Prog.rangeExcl 0 (i + 2)
    let l ← Prog.lift (swapAt l (i + 1) j)
    shuffleLoop i l

/-- `SliceRandom::shuffle`. -/
def shuffle (l : List G) : Prog (List G) := shuffleLoop (l.length - 1) l

/-- `swap_mutation` — `mutation.rs:91-99`. -/
def swapMutation (genome : List G) : Prog (List G) :=
  let n := genome.length
  if n < 2 then pure genome
  else do
    let (p1, p2) ← randomPair n
    Prog.lift (swapAt genome p1 p2)

/-- `scramble_mutation` — `mutation.rs:127-135`. -/
def scrambleMutation (genome : List G) : Prog (List G) :=
  let n := genome.length
  if n < 2 then pure genome
  else do
    let range ← boundedRandomRange n 2 n
    onSlice genome range.start range.stop shuffle

/-- `inversion_mutation` — `mutation.rs:164-172`. -/
def inversionMutation (genome : List G) : Prog (List G) :=
  let n := genome.length
  if n < 2 then pure genome
  else do
    let range ← boundedRandomRange n 2 n
    onSlice genome range.start range.stop fun l => pure l.reverse

/-- `insertion_mutation` — `mutation.rs:201-212`; `genome[p1..=p2]` is `genome[p1..p2 + 1]`. -/
def insertionMutation (genome : List G) : Prog (List G) :=
  let n := genome.length
  if n < 2 then pure genome
  else do
    let (p1, p2) ← randomPair n
    let (p1, p2) := if p1 > p2 then (p2, p1) else (p1, p2)
    onSlice genome p1 (p2 + 1) fun l => Prog.lift (rotateRight1 l)

/-- `duplicate_mutation` — `mutation.rs:241-249`. -/
def duplicateMutation (genome : List G) : Prog (List G) :=
  let n := genome.length
  if n < 2 then pure genome
  else do
    let (p1, p2) ← randomPair n
    let x ← Prog.lift (Res.ofOption genome[p1]?)
    if p2 < n then pure (genome.set p2 x) else Prog.done .panic

/-- `enum MutationStrategy` — `mutation.rs:14-41`. -/
inductive MutationStrategy where
  | swap | scramble | inversion | insertion | duplicate
deriving DecidableEq, Repr

/-- `MutationStrategy::mutate` — `mutation.rs:54-62`. -/
def MutationStrategy.mutate (s : MutationStrategy) (genome : List G) : Prog (List G) :=
  match s with
  | .swap => swapMutation genome
  | .scramble => scrambleMutation genome
  | .inversion => inversionMutation genome
  | .insertion => insertionMutation genome
  | .duplicate => duplicateMutation genome

end RG
