import Verif.Evolution

/-!
# The vectors of a run and their capacities

`evolution.rs:54, 97, 150` make vectors with room for `max_population_size()` individuals. The rest of the model has lists instead. Here
the capacities of the two vectors of a run are tracked: that of the population and `new_population`, which `Population::replace` swaps.

What `Vec` does (from memory): `with_capacity(n)` has room for at least `n` items, and panics if they would take more than `isize::MAX`
bytes; `clear`, `retain`, `dedup` and sorting keep the capacity; `reserve`, `extend` and `par_extend` (of an iterator that knows its
length) enlarge it, if there is no room for all the new items, to a capacity of the library's choice, and panic if that would take
more than `isize::MAX` bytes. Simplifications: the capacity is adjusted after the items were made instead of before; an allocation
that is not too large succeeds.
-/

namespace RG
variable {I : Type} [Individual I] {Mo U A P Q : Type}

/-- `isize::MAX`. -/
def isizeMax : Nat := 2 ^ 63 - 1

/-- What the library decides: the capacity of a new vector with room for `n` items, and of one with capacity `c` that has to take `n`;
`bytes` is the size of an individual. -/
structure Alloc where
  bytes : Nat
  fresh : Nat → Nat
  grow : Nat → Nat → Nat

/-- There is room for what was asked for. -/
structure Alloc.Lawful (m : Alloc) : Prop where
  fresh : ∀ n, n ≤ m.fresh n
  grow : ∀ c n, n ≤ m.grow c n

/-- `Vec::with_capacity`. -/
def Alloc.withCapacity (m : Alloc) (n : Nat) : Res Nat :=
  if n * m.bytes ≤ isizeMax then .ok (m.fresh n) else .panic

/-- The two vectors: the capacity of the one in the population and of `new_population`, how often one of them was enlarged, and the
largest number of individuals in the two at the same time. -/
structure Vecs where
  current : Nat
  next : Nat
  grown : Nat
  peak : Nat

/-- `new_population` has to take `n` items, while the population has `len`. -/
def Alloc.hold (m : Alloc) (v : Vecs) (len n : Nat) : Res Vecs :=
  let peak := max v.peak (len + n)
  if n ≤ v.next then .ok { v with peak }
  else if m.grow v.next n * m.bytes ≤ isizeMax then
    .ok { v with next := m.grow v.next n, grown := v.grown + 1, peak }
  else .panic

/-- The body of the loop — `evolution.rs:156-180`; `replace` swaps the vectors (`population.rs:59`). -/
def generationStepV (m : Alloc) (alg : EvoAlgo I Mo U A P) (env : Env I) (st : RunState I A Q) (v : Vecs) :
    Prog (RunState I A Q × Vecs) := do
  let buffer := []
  let algo ← alg.prepare env.num st.algo st.population
  let buffer ← Prog.lift (alg.selectElites algo st.population buffer)
  let v ← Prog.lift (m.hold v st.population.len buffer.length)
  let buffer ← alg.generate env.num algo st.population buffer
  let v ← Prog.lift (m.hold v st.population.len buffer.length)
  let (population, buffer) ← Prog.lift (alg.replace env algo st.population buffer)
  pure ({ st with algo, population, buffer }, { v with current := v.next, next := v.current })

/-- `while progress(&population) { .. }` — `evolution.rs:155-180`. -/
def evolveLoopV (m : Alloc) (alg : EvoAlgo I Mo U A P) (envs : Nat → Env I) (progress : Q → Population I → Prog (Bool × Q)) :
    (fuel : Nat) → (t : Nat) → RunState I A Q → Vecs → Prog ((Bool × RunState I A Q) × Vecs)
  | 0, _, st, v => pure ((false, st), v)
  | fuel + 1, t, st, v => do
    let (continues, q) ← progress st.q st.population
    let st := { st with q, shown := st.shown ++ [st.population] }
    if continues then do
      let (st, v) ← generationStepV m alg (envs t) st v
      evolveLoopV m alg envs progress fuel (t + 1) st v
    else pure ((true, st), v)

/-- `evolve_population` — `evolution.rs:132-183`; `capacity` is that of the vector `initial_population`. -/
def evolvePopulationV (m : Alloc) (alg : EvoAlgo I Mo U A P) (envs : Nat → Env I) (progress : Q → Population I → Prog (Bool × Q))
    (fuel : Nat) (a : A) (initialPopulation : List I) (capacity : Nat) (parameters : P) (q : Q) :
    Prog ((Bool × RunState I A Q) × Vecs) := do
  let algo ← Prog.lift (alg.configure a parameters)
  let population ← alg.initPopulation (envs 0) algo initialPopulation
  let next ← Prog.lift (m.withCapacity (alg.maxSize parameters))
  evolveLoopV m alg envs progress fuel 1 { algo, population, buffer := [], q, shown := [] }
    ⟨capacity, next, 0, initialPopulation.length⟩

/-- The vector that `run` and `evolve_individual` fill — `evolution.rs:54-59, 97-102`: its capacity, and how often it was enlarged. -/
def Alloc.filled (m : Alloc) (capacity length : Nat) : Res (Nat × Nat) := do
  let v ← m.hold ⟨0, capacity, 0, 0⟩ 0 length
  pure (v.next, v.grown)

/-- `run` — `evolution.rs:48-62`. -/
def runRandomV (m : Alloc) (M : EvoModel I Mo U) (alg : EvoAlgo I Mo U A P) (envs : Nat → Env I)
    (progress : Q → Population I → Prog (Bool × Q)) (fuel : Nat) (a : A) (newRandom : Prog I) (parameters : P) (q : Q) :
    Prog ((Option I × RunState I A Q) × Vecs) := do
  let capacity ← Prog.lift (m.withCapacity (alg.maxSize parameters))
  let individuals ← M.extend (alg.model a) newRandom [] (alg.initialSize parameters)
  let (capacity, grown) ← Prog.lift (m.filled capacity individuals.length)
  let (r, v) ← evolvePopulationV m alg envs progress fuel a individuals capacity parameters q
  let r ← takeResult r
  pure (r, { v with grown := v.grown + grown })

/-- `evolve_individual` — `evolution.rs:88-105`. -/
def evolveIndividualV (m : Alloc) (M : EvoModel I Mo U) (alg : EvoAlgo I Mo U A P) (envs : Nat → Env I)
    (progress : Q → Population I → Prog (Bool × Q)) (fuel : Nat) (a : A) (individual : I) (parameters : P) (q : Q) :
    Prog ((Option I × RunState I A Q) × Vecs) := do
  let capacity ← Prog.lift (m.withCapacity (alg.maxSize parameters))
  let individuals ← M.extendWith (alg.model a) [] (alg.initialSize parameters) individual
  let (capacity, grown) ← Prog.lift (m.filled capacity individuals.length)
  let (r, v) ← evolvePopulationV m alg envs progress fuel a individuals capacity parameters q
  let r ← takeResult r
  pure (r, { v with grown := v.grown + grown })

end RG
