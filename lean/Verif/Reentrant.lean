import Verif.Evolution

/-!
# Runs started by the progress closure of another run (`/repo/src/evolution.rs`)

`Evolution` keeps the algorithm in a `RefCell` (`evolution.rs:19`), all its methods take `&self`, and no borrow is held while
`progress` is called (`evolution.rs:155`). So the closure may start another run of the *same* value. Here the cell is
explicit: the closure gets it and returns it. In `Evolution.lean` the closure does not touch it.

A `RefCell` panics when it is borrowed mutably while in use, or borrowed at all while mutably in use (standard library, from
memory). The methods of the algorithm cannot reach the cell.
-/

namespace RG
variable {I : Type} [Individual I] {Mo U A P Q : Type} {β : Type}

/-- Whether a `RefCell` is in use. -/
inductive BorrowFlag
  | unused
  | reading
  | writing
deriving DecidableEq

/-- The field `algorithm: RefCell<A>` — `evolution.rs:19`. -/
structure Cell (A : Type) where
  value : A
  flag : BorrowFlag

namespace Cell

/-- `RefCell::new(algorithm)` — `evolution.rs:206`. -/
def new (a : A) : Cell A := ⟨a, .unused⟩

/-- A statement that uses `self.algorithm.borrow()` and no other statement. -/
def read (c : Cell A) (f : A → Prog β) : Prog (β × Cell A) :=
  if c.flag = .writing then Prog.lift .panic
  else do
    let b ← f c.value
    pure (b, c)

/-- A statement that uses `self.algorithm.borrow_mut()` and no other statement. -/
def write (c : Cell A) (f : A → Prog A) : Prog (Cell A) :=
  if c.flag = .unused then do
    let a ← f c.value
    pure { c with value := a }
  else Prog.lift .panic

end Cell

/-- The body of the loop — `evolution.rs:156-180`. -/
def cellStep (alg : EvoAlgo I Mo U A P) (env : Env I) (st : RunState I (Cell A) Q) : Prog (RunState I (Cell A) Q) := do
  let buffer := []
  let cell ← st.algo.write fun a => alg.prepare env.num a st.population
  let (buffer, cell) ← cell.read fun a => Prog.lift (alg.selectElites a st.population buffer)
  let (buffer, cell) ← cell.read fun a => alg.generate env.num a st.population buffer
  let (r, cell) ← cell.read fun a => Prog.lift (alg.replace env a st.population buffer)
  pure { st with algo := cell, population := r.1, buffer := r.2 }

/-- `while progress(&population) { .. }` — `evolution.rs:155-180`. `true` in the result: the loop has ended. -/
def cellLoop (alg : EvoAlgo I Mo U A P) (envs : Nat → Env I)
    (progress : Q → Cell A → Population I → Prog (Bool × Q × Cell A)) :
    (fuel : Nat) → (t : Nat) → RunState I (Cell A) Q → Prog (Bool × RunState I (Cell A) Q)
  | 0, _, st => pure (false, st)
  | fuel + 1, t, st => do
    let r ← progress st.q st.algo st.population
    let st := { st with q := r.2.1, algo := r.2.2, shown := st.shown ++ [st.population] }
    if r.1 then do
      let st ← cellStep alg (envs t) st
      cellLoop alg envs progress fuel (t + 1) st
    else pure (true, st)

/-- `evolve_population` — `evolution.rs:132-183`. -/
def cellPopulation (alg : EvoAlgo I Mo U A P) (envs : Nat → Env I)
    (progress : Q → Cell A → Population I → Prog (Bool × Q × Cell A)) (fuel : Nat) (cell : Cell A)
    (initialPopulation : List I) (parameters : P) (q : Q) : Prog (Bool × RunState I (Cell A) Q) := do
  let cell ← cell.write fun a => Prog.lift (alg.configure a parameters)
  let (population, cell) ← cell.read fun a => alg.initPopulation (envs 0) a initialPopulation
  cellLoop alg envs progress fuel 1 { algo := cell, population, buffer := [], q, shown := [] }

/-- `run` — `evolution.rs:48-62`. -/
def cellRandom (M : EvoModel I Mo U) (alg : EvoAlgo I Mo U A P) (envs : Nat → Env I)
    (progress : Q → Cell A → Population I → Prog (Bool × Q × Cell A)) (fuel : Nat) (cell : Cell A) (newRandom : Prog I)
    (parameters : P) (q : Q) : Prog (Option I × RunState I (Cell A) Q) := do
  let (individuals, cell) ← cell.read fun a => M.extend (alg.model a) newRandom [] (alg.initialSize parameters)
  let r ← cellPopulation alg envs progress fuel cell individuals parameters q
  takeResult r

/-- `evolve_individual` — `evolution.rs:88-105`. -/
def cellIndividual (M : EvoModel I Mo U) (alg : EvoAlgo I Mo U A P) (envs : Nat → Env I)
    (progress : Q → Cell A → Population I → Prog (Bool × Q × Cell A)) (fuel : Nat) (cell : Cell A) (individual : I)
    (parameters : P) (q : Q) : Prog (Option I × RunState I (Cell A) Q) := do
  let (individuals, cell) ← cell.read fun a => M.extendWith (alg.model a) [] (alg.initialSize parameters) individual
  let r ← cellPopulation alg envs progress fuel cell individuals parameters q
  takeResult r

end RG
