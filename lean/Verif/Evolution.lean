import Verif.Algorithm

/-!
# Runs (`/repo/src/evolution.rs`)

* `Evolution` holds the algorithm value in a `RefCell`; a run takes its value before the run and leaves the one after.
* The progress closure is `FnMut`: its captured variables are the state `Q`, and it may draw random numbers, panic or not
  terminate. It does not start another run of the *same* `Evolution` value (see `Reentrant.lean`, C100).
* A loop that runs forever is described by its finite prefixes: `evolveLoop fuel` makes at most `fuel` calls of
  `progress`, and says whether the loop has ended.
* `shown` is a record of the arguments of `progress`, for specifications only.
-/

namespace RG
variable {I : Type} [Individual I] {Mo U A P Q : Type}

/-- The variables of `evolve_population`: the algorithm, the current population, the buffer `new_population`, the state of
the closure, and the populations shown to it so far (oldest first). -/
structure RunState (I A Q : Type) where
  algo : A
  population : Population I
  buffer : List I
  q : Q
  shown : List (Population I)

/-- The body of the loop — `evolution.rs:156-180`. -/
def generationStep (alg : EvoAlgo I Mo U A P) (env : Env I) (st : RunState I A Q) : Prog (RunState I A Q) := do
  let buffer := []
  let algo ← alg.prepare env.num st.algo st.population
  let buffer ← Prog.lift (alg.selectElites algo st.population buffer)
  let buffer ← alg.generate env.num algo st.population buffer
  let (population, buffer) ← Prog.lift (alg.replace env algo st.population buffer)
  pure { st with algo, population, buffer }

/-- `while progress(&population) { .. }` — `evolution.rs:155-180`. `true` in the result: the loop has ended. -/
def evolveLoop (alg : EvoAlgo I Mo U A P) (envs : Nat → Env I) (progress : Q → Population I → Prog (Bool × Q)) :
    (fuel : Nat) → (t : Nat) → RunState I A Q → Prog (Bool × RunState I A Q)
  | 0, _, st => pure (false, st)
  | fuel + 1, t, st => do
    let (continues, q) ← progress st.q st.population
    let st := { st with q, shown := st.shown ++ [st.population] }
    if continues then do
      let st ← generationStep alg (envs t) st
      evolveLoop alg envs progress fuel (t + 1) st
    else pure (true, st)

/-- `evolve_population` — `evolution.rs:132-183`. -/
def evolvePopulation (alg : EvoAlgo I Mo U A P) (envs : Nat → Env I) (progress : Q → Population I → Prog (Bool × Q))
    (fuel : Nat) (a : A) (initialPopulation : List I) (parameters : P) (q : Q) : Prog (Bool × RunState I A Q) := do
  let algo ← Prog.lift (alg.configure a parameters)
  let population ← alg.initPopulation (envs 0) algo initialPopulation
  evolveLoop alg envs progress fuel 1 { algo, population, buffer := [], q, shown := [] }

/-- The `take_fittest` at the end of `run` and `evolve_individual` — `evolution.rs:60-61, 103-104`: the returned individual,
if the loop has ended, and the state. -/
def takeResult (r : Bool × RunState I A Q) : Prog (Option I × RunState I A Q) :=
  if r.1 then do
    let x ← Prog.lift r.2.population.takeFittest
    pure (some x, r.2)
  else pure (none, r.2)

/-- `run` — `evolution.rs:48-62`; `newRandom` is `new_random(args, _)`. -/
def runRandom (M : EvoModel I Mo U) (alg : EvoAlgo I Mo U A P) (envs : Nat → Env I)
    (progress : Q → Population I → Prog (Bool × Q)) (fuel : Nat) (a : A) (newRandom : Prog I) (parameters : P) (q : Q) :
    Prog (Option I × RunState I A Q) := do
  let individuals ← M.extend (alg.model a) newRandom [] (alg.initialSize parameters)
  let r ← evolvePopulation alg envs progress fuel a individuals parameters q
  takeResult r

/-- `evolve_individual` — `evolution.rs:88-105`. -/
def evolveIndividual (M : EvoModel I Mo U) (alg : EvoAlgo I Mo U A P) (envs : Nat → Env I)
    (progress : Q → Population I → Prog (Bool × Q)) (fuel : Nat) (a : A) (individual : I) (parameters : P) (q : Q) :
    Prog (Option I × RunState I A Q) := do
  let individuals ← M.extendWith (alg.model a) [] (alg.initialSize parameters) individual
  let r ← evolvePopulation alg envs progress fuel a individuals parameters q
  takeResult r

end RG
