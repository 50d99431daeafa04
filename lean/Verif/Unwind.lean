import Verif.Reentrant

/-!
# Panics that a caller catches (`/repo/src/evolution.rs`, `ga.rs`, `aga.rs`)

`Evolution::run` takes `&self`, so the value outlives a panic in a run: a caller may catch the panic (`catch_unwind`, or a thread
that is joined) and use the value again. `Evolution` contains a `RefCell`, so the caller of `catch_unwind` needs
`AssertUnwindSafe`. Here the methods that change variables which outlive a panic say what they leave.

* The local variables of a run (population, buffer, pool) do not outlive a panic.
* A guard of a `RefCell` is dropped when a panic unwinds: the cell is then not in use (standard library, from memory).
* The captured variables of the progress closure outlive a panic. They are the state `Q`.
* A run that diverges leaves nothing.
-/

namespace RG
variable {I : Type} [Individual I] {Mo U A P Q S T : Type} {α β : Type}

/-- `catch_unwind`: `none` if the program panics. -/
def Prog.attempt : Prog α → Prog (Option α)
  | .done (.ok a) => pure (some a)
  | .done .panic => pure none
  | .done .diverge => .done .diverge
  | .pick n k => .pick n fun i => (k i).attempt

/-- Code that changes variables `S` which outlive a panic: the values it leaves, and its result, `none` if it panics. -/
def Unwinding (S α : Type) := S → Prog (S × Option α)

namespace Unwinding

def bind (m : Unwinding S α) (f : α → Unwinding S β) : Unwinding S β := fun s => do
  let r ← m s
  match r.2 with
  | some a => f a r.1
  | none => pure (r.1, none)

instance : Monad (Unwinding S) where
  pure a := fun s => (pure (s, some a) : Prog _)
  bind := bind

/-- An assignment. -/
def assign (f : S → S) : Unwinding S Unit := fun s => (pure (f s, some ()) : Prog _)

/-- An expression that changes no variable. -/
def eval (f : S → Prog α) : Unwinding S α := fun s => do
  let r ← (f s).attempt
  pure (s, r)

/-- Code that gets `&mut` to a part of the variables. -/
def within (get : S → T) (set : S → T → S) (m : Unwinding T α) : Unwinding S α := fun s => do
  let r ← m (get s)
  pure (set s r.1, r.2)

/-- `catch_unwind`. -/
def catching (m : Unwinding S α) : Unwinding S (Option α) := fun s => do
  let r ← m s
  pure (r.1, some r.2)

/-- The same code when nobody catches the panic. -/
def rethrow (m : Unwinding S α) (s : S) : Prog (α × S) := do
  let r ← m s
  match r.2 with
  | some a => pure (a, r.1)
  | none => Prog.lift .panic

/-- Specification: the code leaves variables related by `R` to those it found, also if it panics. -/
def Keeps (R : S → S → Prop) (m : Unwinding S α) : Prop := ∀ s, Prog.Partially (fun r => R s r.1) (m s)

end Unwinding

open Unwinding

/-- `configure` and `prepare_for_next_population`, the methods of `trait EvolutionAlgorithm` with `&mut self` —
`algorithms.rs:110, 186`. -/
structure UnwindingAlgo (I A P : Type) [Individual I] where
  configure : P → Unwinding A Unit
  prepare : NumEnv → Population I → Unwinding A Unit

/-- What `pre_generation` leaves of its two `&mut` arguments (`model.rs:117-124`), the model and the breeding parameters. -/
abbrev PreGeneration (I Mo U : Type) [Individual I] := Population I → Unwinding (Mo × ReproParams U) Unit

/-- `pre_generation` that does nothing — `model.rs:117-124` (default). -/
def PreGeneration.default : PreGeneration I Mo U := fun _ => pure ()

namespace Ga
/-- `configure`, statement by statement — `ga.rs:155-163`. -/
def configureUnwinding (p : GaParams) : Unwinding (Ga Mo U) Unit := do
  eval fun _ => Prog.lift p.validate
  assign fun a => { a with populationSize := p.populationSize }
  let eliteSize ← eval fun _ => Prog.lift (interpolateUsize 0 p.populationSize p.elitismRate)
  assign fun a => { a with eliteSize }
  assign fun a => { a with breeding := { a.breeding with crossoverRate := p.crossoverRate } }
  assign fun a => { a with breeding := { a.breeding with mutationRate := p.mutationRate } }
  let selector ← eval fun _ => Prog.lift p.selectionStrategy.createSelector
  assign fun a => { a with breeding := { a.breeding with parentSelector := .builtin selector } }

/-- `prepare_for_next_population` — `ga.rs:178-181`. The selectors do not panic when they are prepared. -/
def prepareUnwinding (M : EvoModel I Mo U) (pre : PreGeneration I Mo U) (env : NumEnv) (population : Population I) :
    Unwinding (Ga Mo U) Unit := do
  within (fun a => (a.model, a.breeding)) (fun a s => { a with model := s.1, breeding := s.2 }) (pre population)
  assign fun a => { a with
    breeding := { a.breeding with parentSelector := a.breeding.parentSelector.prepare env M.selectors population } }
end Ga

namespace Aga
/-- `configure`, statement by statement — `aga.rs:174-183`. -/
def configureUnwinding (p : AgaParams) : Unwinding (Aga Mo U) Unit := do
  eval fun _ => Prog.lift p.validate
  assign fun a => { a with populationSize := p.populationSize }
  let eliteSize ← eval fun _ => Prog.lift (interpolateUsize 0 p.populationSize p.elitismRate)
  assign fun a => { a with eliteSize }
  assign fun a => { a with adjustmentInterval := p.adjustmentInterval }
  assign fun a => { a with crossoverRateRange := p.crossoverRateRange }
  assign fun a => { a with mutationRateRange := p.mutationRateRange }
  let selector ← eval fun _ => Prog.lift p.selectionStrategy.createSelector
  assign fun a => { a with breeding := { a.breeding with parentSelector := .builtin selector } }

/-- `prepare_for_next_population` — `aga.rs:198-224`. The `match` (`aga.rs:199-220`) does not panic. -/
def prepareUnwinding (M : EvoModel I Mo U) (pre : PreGeneration I Mo U) (env : NumEnv) (population : Population I) :
    Unwinding (Aga Mo U) Unit := do
  assign fun a => a.adjust population.generation population.stats.std
  within (fun a => (a.model, a.breeding)) (fun a s => { a with model := s.1, breeding := s.2 }) (pre population)
  assign fun a => { a with
    breeding := { a.breeding with parentSelector := a.breeding.parentSelector.prepare env M.selectors population } }
end Aga

/-- The genetic algorithm — `ga.rs:141-182`. -/
def gaUnwinding (M : EvoModel I Mo U) (pre : PreGeneration I Mo U) : UnwindingAlgo I (Ga Mo U) GaParams where
  configure := Ga.configureUnwinding
  prepare := Ga.prepareUnwinding M pre

/-- The adaptive genetic algorithm — `aga.rs:160-225`. -/
def agaUnwinding (M : EvoModel I Mo U) (pre : PreGeneration I Mo U) : UnwindingAlgo I (Aga Mo U) AgaParams where
  configure := Aga.configureUnwinding
  prepare := Aga.prepareUnwinding M pre

/-! ### Runs -/

/-- A statement that uses `self.algorithm.borrow()`. -/
def readCell (f : A → Prog β) : Unwinding (Cell A × Q) β := fun s =>
  if s.1.flag = .writing then pure (s, none)
  else eval (fun s => f s.1.value) s

/-- A statement that uses `self.algorithm.borrow_mut()`. The guard is dropped at its end, also if `m` panics. -/
def writeCell (m : Unwinding A Unit) : Unwinding (Cell A × Q) Unit := fun s =>
  if s.1.flag = .unused then within (fun s => s.1.value) (fun s a => ({ s.1 with value := a }, s.2)) m s
  else pure (s, none)

/-- The body of the loop — `evolution.rs:156-180`. -/
def unwindingStep (alg : EvoAlgo I Mo U A P) (uw : UnwindingAlgo I A P) (env : Env I) (population : Population I) :
    Unwinding (Cell A × Q) (Population I) := do
  writeCell (uw.prepare env.num population)
  let buffer ← readCell fun a => Prog.lift (alg.selectElites a population [])
  let buffer ← readCell fun a => alg.generate env.num a population buffer
  let r ← readCell fun a => Prog.lift (alg.replace env a population buffer)
  pure r.1

/-- `while progress(&population) { .. }` — `evolution.rs:155-180`. `true` in the result: the loop has ended. -/
def unwindingLoop (alg : EvoAlgo I Mo U A P) (uw : UnwindingAlgo I A P) (envs : Nat → Env I)
    (progress : Population I → Unwinding (Cell A × Q) Bool) :
    (fuel : Nat) → (t : Nat) → Population I → Unwinding (Cell A × Q) (Bool × Population I)
  | 0, _, population => pure (false, population)
  | fuel + 1, t, population => do
    let continues ← progress population
    if continues then do
      let population ← unwindingStep alg uw (envs t) population
      unwindingLoop alg uw envs progress fuel (t + 1) population
    else pure (true, population)

/-- `evolve_population` — `evolution.rs:132-183`. -/
def unwindingPopulation (alg : EvoAlgo I Mo U A P) (uw : UnwindingAlgo I A P) (envs : Nat → Env I)
    (progress : Population I → Unwinding (Cell A × Q) Bool) (fuel : Nat) (initialPopulation : List I) (parameters : P) :
    Unwinding (Cell A × Q) (Bool × Population I) := do
  writeCell (uw.configure parameters)
  let population ← readCell fun a => alg.initPopulation (envs 0) a initialPopulation
  unwindingLoop alg uw envs progress fuel 1 population

/-- The `take_fittest` at the end of `run` and `evolve_individual` — `evolution.rs:60-61, 103-104`. -/
def unwindingResult (r : Bool × Population I) : Unwinding S (Option I) :=
  if r.1 then eval fun _ => Prog.lift r.2.takeFittest >>= fun x => pure (some x)
  else pure none

/-- `run` — `evolution.rs:48-62`. -/
def unwindingRandom (M : EvoModel I Mo U) (alg : EvoAlgo I Mo U A P) (uw : UnwindingAlgo I A P) (envs : Nat → Env I)
    (progress : Population I → Unwinding (Cell A × Q) Bool) (fuel : Nat) (newRandom : Prog I) (parameters : P) :
    Unwinding (Cell A × Q) (Option I) := do
  let individuals ← readCell fun a => M.extend (alg.model a) newRandom [] (alg.initialSize parameters)
  let r ← unwindingPopulation alg uw envs progress fuel individuals parameters
  unwindingResult r

/-- `evolve_individual` — `evolution.rs:88-105`. -/
def unwindingIndividual (M : EvoModel I Mo U) (alg : EvoAlgo I Mo U A P) (uw : UnwindingAlgo I A P) (envs : Nat → Env I)
    (progress : Population I → Unwinding (Cell A × Q) Bool) (fuel : Nat) (individual : I) (parameters : P) :
    Unwinding (Cell A × Q) (Option I) := do
  let individuals ← readCell fun a => M.extendWith (alg.model a) [] (alg.initialSize parameters) individual
  let r ← unwindingPopulation alg uw envs progress fuel individuals parameters
  unwindingResult r

end RG
