import Verif.Evolution

/-!
# User's methods with shared state (interior mutability)

The methods of `trait EvolutionModel` take `&self`, but a model may contain a `Mutex`, an atomic or a cache, and the progress closure,
`new_random` and the user's own selectors may share such a value with it. `W` is the type of everything shared in this way.

* `SProg W α` is a program that may also access the shared state. One access (`touch`) is atomic: a critical section of a lock, or one
  operation on an atomic. Between two accesses other tasks may run.
* `others w w'`: other threads of the user's program may change the shared state from `w` to `w'` at any time. `Eq` if there are none.
* Tasks of `rayon` (`algorithms.rs:169-171, 226-229`, `model.rs:243-247, 280-286`) are interleaved: at every moment some unfinished task
  makes its next draw or its next access (`Par`).
* What the library does between the user's methods is the same code as in `Model.lean`, `Algorithm.lean`, and `Evolution.lean`, with
  `SProg` or a `Domain` instead of `Prog`. Two domains are used: `outcomes` says what can happen, and `plays` with which probabilities,
  given a schedule that may depend on the past.

Simplifications: `extend_population` and `extend_population_with` are the default methods (a user's `breed` is arbitrary); `prepare` of a
user's selector, and `fitness`, `is_valid`, and `==` of an individual, do not use the shared state; deadlocks of the user's locks are not
described.
-/

namespace RG

/-! ### Programs with accesses to shared state -/

/-- A random program with accesses to a shared state. `touch new k`: if the state is `w`, it becomes `new w`, and the program goes on with
`k w`. -/
inductive SProg (W α : Type) where
  | done (r : Res α)
  | pick (n : Nat) (k : Nat → SProg W α)
  | touch (new : W → W) (k : W → SProg W α)

namespace SProg
variable {W α β : Type}

/-- Sequencing. -/
def bind : SProg W α → (α → SProg W β) → SProg W β
  | done (.ok a), f => f a
  | done .panic, _ => done .panic
  | done .diverge, _ => done .diverge
  | pick n k, f => pick n fun i => (k i).bind f
  | touch new k, f => touch new fun w => (k w).bind f

instance : Monad (SProg W) where
  pure a := done (.ok a)
  bind := bind

/-- A program without accesses. -/
def ofProg : Prog α → SProg W α
  | .done r => done r
  | .pick n k => pick n fun i => ofProg (k i)

/-- `p.ends others w r w'`: started in the shared state `w`, the program can end with outcome `r`, leaving the state `w'`, if other threads
change the state according to `others` before each access. -/
def ends (others : W → W → Prop) : SProg W α → W → Res α → W → Prop
  | done r, w, r', w' => r' = r ∧ w' = w
  | pick n k, w, r', w' => ∃ i, i ≤ n ∧ (k i).ends others w r' w'
  | touch new k, w, r', w' => ∃ w1, others w w1 ∧ (k w1).ends others (new w1) r' w'

end SProg

/-- What can happen: from which shared state, with which outcome, to which shared state. -/
def Sem (W α : Type) : Type := W → Res α → W → Prop

namespace Sem
variable {W α β : Type}

instance : Monad (Sem W) where
  pure a := fun w r w' => r = .ok a ∧ w' = w
  bind s f := fun w r w' => (∃ a w1, s w (.ok a) w1 ∧ f a w1 r w') ∨ (s w .panic w' ∧ r = .panic) ∨ (s w .diverge w' ∧ r = .diverge)

/-- Library code without randomness. -/
def lift (x : Res α) : Sem W α := fun w r w' => r = x ∧ w' = w

/-- One of the user's methods, called on the main thread. -/
def call (others : W → W → Prop) (p : SProg W α) : Sem W α := fun w r w' => p.ends others w r w'

end Sem

/-- Parallel tasks: at every moment some unfinished task makes its next draw or its next access to the shared state. The results are in the
order of the tasks. As soon as a task has failed, the whole may end with this failure; it need not, and other tasks may go on. -/
inductive Par {W α : Type} (others : W → W → Prop) : List (SProg W α) → W → Res (List α) → W → Prop
  | finished (as : List α) (w : W) : Par others (as.map fun a => .done (.ok a)) w (.ok as) w
  | failed (tasks : List (SProg W α)) (w : W) (r : Res α) (r' : Res (List α)) (mem : .done r ∈ tasks)
      (fails : (r = .panic ∧ r' = .panic) ∨ (r = .diverge ∧ r' = .diverge)) : Par others tasks w r' w
  | draw (before : List (SProg W α)) (n : Nat) (k : Nat → SProg W α) (after : List (SProg W α)) (i : Nat) (hi : i ≤ n) (w w' : W)
      (r : Res (List α)) (next : Par others (before ++ k i :: after) w r w') : Par others (before ++ .pick n k :: after) w r w'
  | access (before : List (SProg W α)) (new : W → W) (k : W → SProg W α) (after : List (SProg W α)) (w w1 w' : W) (r : Res (List α))
      (change : others w w1) (next : Par others (before ++ k w1 :: after) (new w1) r w') :
      Par others (before ++ .touch new k :: after) w r w'

/-- The tasks of a parallel iterator. -/
def Sem.par {W α : Type} (others : W → W → Prop) (tasks : List (SProg W α)) : Sem W (List α) := fun w r w' => Par others tasks w r w'

/-- How to interpret library code, calls of the user's methods, and parallel tasks. -/
structure Domain (W : Type) (m : Type → Type) where
  lift : {α : Type} → Res α → m α
  call : {α : Type} → SProg W α → m α
  par : {α : Type} → List (SProg W α) → m (List α)

/-- What can happen. -/
def outcomes {W : Type} (others : W → W → Prop) : Domain W (Sem W) := ⟨Sem.lift, Sem.call others, Sem.par others⟩

/-! ### Probabilities -/

/-- What can happen, with probabilities: `s w q` means that, started in the shared state `w`, one way of choosing who makes the next step,
and what other threads do, makes the whole behave like the program `q`, which ends with the outcome and the shared state. The choices may
depend on everything drawn so far and on the shared state, not on later draws. -/
def Play (W α : Type) : Type := W → Prog (Res α × W) → Prop

namespace Play
variable {W α β : Type}

/-- `q` goes on like a program of `f` wherever the first program ends normally. -/
def follow (f : α → Play W β) : Prog (Res α × W) → Prog (Res β × W) → Prop
  | .done (.ok (.ok a, w)), q => f a w q
  | .done (.ok (.panic, w)), q => q = .done (.ok (.panic, w))
  | .done (.ok (.diverge, w)), q => q = .done (.ok (.diverge, w))
  | .done .panic, q => q = .done .panic
  | .done .diverge, q => q = .done .diverge
  | .pick n k, q => ∃ k', q = .pick n k' ∧ ∀ i, i ≤ n → follow f (k i) (k' i)

instance : Monad (Play W) where
  pure a := fun w q => q = .done (.ok (.ok a, w))
  bind s f := fun w q => ∃ q1, s w q1 ∧ follow f q1 q

/-- Library code without randomness. -/
def lift (x : Res α) : Play W α := fun w q => q = .done (.ok (x, w))

/-- One of the user's methods, called on the main thread. -/
def call (others : W → W → Prop) : SProg W α → Play W α
  | .done r, w, q => q = .done (.ok (r, w))
  | .pick n k, w, q => ∃ k', q = .pick n k' ∧ ∀ i, i ≤ n → call others (k i) w (k' i)
  | .touch new k, w, q => ∃ w1, others w w1 ∧ call others (k w1) (new w1) q

end Play

/-- Parallel tasks, see `Par`: at every moment some unfinished task is chosen to make its next draw or its next access. -/
inductive ParPlay {W α : Type} (others : W → W → Prop) : List (SProg W α) → W → Prog (Res (List α) × W) → Prop
  | finished (as : List α) (w : W) : ParPlay others (as.map fun a => .done (.ok a)) w (.done (.ok (.ok as, w)))
  | failed (tasks : List (SProg W α)) (w : W) (r : Res α) (r' : Res (List α)) (mem : .done r ∈ tasks)
      (fails : (r = .panic ∧ r' = .panic) ∨ (r = .diverge ∧ r' = .diverge)) : ParPlay others tasks w (.done (.ok (r', w)))
  | draw (before : List (SProg W α)) (n : Nat) (k : Nat → SProg W α) (after : List (SProg W α)) (w : W)
      (q : Nat → Prog (Res (List α) × W)) (next : ∀ i, i ≤ n → ParPlay others (before ++ k i :: after) w (q i)) :
      ParPlay others (before ++ .pick n k :: after) w (.pick n q)
  | access (before : List (SProg W α)) (new : W → W) (k : W → SProg W α) (after : List (SProg W α)) (w w1 : W)
      (q : Prog (Res (List α) × W)) (change : others w w1) (next : ParPlay others (before ++ k w1 :: after) (new w1) q) :
      ParPlay others (before ++ .touch new k :: after) w q

/-- What can happen, with probabilities. -/
def plays {W : Type} (others : W → W → Prop) : Domain W (Play W) :=
  ⟨Play.lift, Play.call others, fun tasks w q => ParPlay others tasks w q⟩

/-! ### Models -/

variable {I : Type} [Individual I] {Mo U W A P Q : Type} {m : Type → Type} [Monad m]

/-- A user's selector (`selection.rs:61-131`) with access to shared state. -/
structure SharedSelector (I U W : Type) where
  prepare : U → Population I → U
  select : U → Population I → SProg W (Nat × I)
  selectDistinct : U → Population I → Nat → I → SProg W (Option (Nat × I))

/-- The methods of `trait EvolutionModel` (`model.rs:23-288`), see `EvoOps`. -/
structure SharedOps (I Mo U W : Type) [Individual I] where
  crossover : Mo → I → I → SProg W I
  mutate : Mo → I → SProg W I
  improve : Mo → I → SProg W I := fun _ i => pure i
  evaluate : Mo → I → SProg W I
  preGeneration : Mo → Population I → ReproParams U → SProg W (Mo × ReproParams U) := fun m _ r => pure (m, r)
  canSurvive : Mo → I → I → Population I → SProg W Bool := fun _ offspring parent _ => pure (defaultCanSurvive offspring parent)
  selectors : SharedSelector I U W

/-- Dynamic dispatch of `select`. -/
def SharedSelector.dispatch (cs : SharedSelector I U W) (env : NumEnv) (population : Population I) : DynSel U → SProg W (Nat × I)
  | .builtin s => .ofProg (s.select env population)
  | .custom u => cs.select u population

/-- Dynamic dispatch of `select_distinct`. -/
def SharedSelector.dispatchDistinct (cs : SharedSelector I U W) (env : NumEnv) (population : Population I) (maxTries : Nat) (excluded : I) :
    DynSel U → SProg W (Option (Nat × I))
  | .builtin s => .ofProg (RG.selectDistinct (s.select env population) excluded maxTries)
  | .custom u => cs.selectDistinct u population maxTries excluded

/-- `breed` (default) — `model.rs:144-185`. -/
def sharedBreed (M : SharedOps I Mo U W) (env : NumEnv) (model : Mo) (population : Population I) (parameters : ReproParams U) :
    SProg W I := do
  let (_, parent1) ← M.selectors.dispatch env population parameters.parentSelector
  let cross ← if population.len > 1 then do
      let u ← .ofProg genF64
      pure (u.lt parameters.crossoverRate)
    else pure false
  let parent2 ← if cross then do
      let r ← M.selectors.dispatchDistinct env population 3 parent1 parameters.parentSelector
      pure (r.map Prod.snd)
    else pure none
  let (fittestParent, offspring) ← match parent2 with
    | some parent2 => do
      let fittestParent := if (fitness parent1).lt (fitness parent2) then parent2 else parent1
      let offspring ← M.crossover model parent1 parent2
      pure (fittestParent, offspring)
    | none => pure (parent1, parent1)
  let u ← .ofProg genF64
  let offspring ← if u.lt parameters.mutationRate then M.mutate model offspring else pure offspring
  let offspring ← M.improve model offspring
  let offspring ← M.evaluate model offspring
  let survives ← if isValid offspring then M.canSurvive model offspring fittestParent population else pure false
  pure (if survives then offspring else fittestParent)

/-- `trait EvolutionModel` — `model.rs:23-288`. -/
structure SharedModel (I Mo U W : Type) [Individual I] extends SharedOps I Mo U W where
  breed : NumEnv → Mo → Population I → ReproParams U → SProg W I := sharedBreed toSharedOps

/-- `extend_population` (default) — `model.rs:233-248`. -/
def sharedExtend (D : Domain W m) (newRandom : SProg W I) (individuals : List I) (size : Nat) : m (List I) := do
  if size = 0 then pure individuals
  else
    let new ← D.par (List.replicate size newRandom)
    pure (individuals ++ new)

/-- `extend_population_with` (default) — `model.rs:264-287`. -/
def sharedExtendWith (D : Domain W m) (M : SharedModel I Mo U W) (model : Mo) (individuals : List I) (size : Nat)
    (individual : I) : m (List I) := do
  if size = 0 then pure individuals
  else
    let individuals := individuals ++ [individual]
    if size = 1 then pure individuals
    else
      let n ← D.lift (usizeSub size 1)
      let new ← D.par (List.replicate n (M.mutate model individual))
      pure (individuals ++ new)

/-! ### Algorithms -/

/-- `initialize_population` (default) — `algorithms.rs:165-175`. -/
def sharedInitialize (D : Domain W m) (M : SharedModel I Mo U W) (env : Env I) (model : Mo) (individuals : List I) :
    m (Population I) := do
  let evaluated ← D.par (individuals.map (M.evaluate model))
  let retained := evaluated.filter isValid
  D.lift (Population.new env.sort retained)

/-- `generate_new_population` (default) — `algorithms.rs:211-232`. -/
def sharedGenerate (D : Domain W m) (M : SharedModel I Mo U W) (env : NumEnv) (model : Mo) (repro : ReproParams U × Nat)
    (population : Population I) (offspring : List I) : m (List I) := do
  let (breedingParameters, offspringSize) := repro
  match offspringSize - offspring.length with
  | 0 => pure offspring
  | 1 => do
    let _ ← D.call (M.breed env model population breedingParameters)
    pure offspring
  | size => do
    let new ← D.par (List.replicate size (M.breed env model population breedingParameters))
    pure (offspring ++ new)

/-- Dynamic dispatch of `prepare`. -/
def SharedSelector.prepared (cs : SharedSelector I U W) (env : NumEnv) (population : Population I) : DynSel U → DynSel U
  | .builtin s => .builtin (s.prepare env population)
  | .custom u => .custom (cs.prepare u population)

/-- What a run uses of `trait EvolutionAlgorithm` and `trait EvolutionParameters` — `algorithms.rs:18-37, 45-254`, see `EvoAlgo`. -/
structure SharedAlgo (I Mo A P : Type) (m : Type → Type) [Individual I] where
  initialSize : P → Nat
  model : A → Mo
  configure : A → P → Res A
  selectElites : A → Population I → List I → Res (List I)
  initPopulation : Env I → A → List I → m (Population I)
  prepare : NumEnv → A → Population I → m A
  generate : NumEnv → A → Population I → List I → m (List I)
  replace : Env I → A → Population I → List I → Res (Population I × List I)

/-- `prepare_for_next_population` — `ga.rs:178-181`. -/
def Ga.sharedPrepare (D : Domain W m) (M : SharedModel I Mo U W) (env : NumEnv) (a : Ga Mo U) (population : Population I) :
    m (Ga Mo U) := do
  let (model, breeding) ← D.call (M.preGeneration a.model population a.breeding)
  pure { a with
    model := model
    breeding := { breeding with parentSelector := M.selectors.prepared env population breeding.parentSelector } }

/-- `impl EvolutionAlgorithm for GeneticAlgorithm` — `ga.rs:141-182`. -/
def sharedGa (D : Domain W m) (M : SharedModel I Mo U W) : SharedAlgo I Mo (Ga Mo U) GaParams m where
  initialSize p := p.populationSize
  model a := a.model
  configure := Ga.configure
  selectElites a population elites := .ok (takeElites a.eliteSize population elites)
  initPopulation env a := sharedInitialize D M env a.model
  prepare := Ga.sharedPrepare D M
  generate env a := sharedGenerate D M env a.model (a.breeding, a.populationSize)
  replace env _ := defaultReplace env

/-- `prepare_for_next_population` — `aga.rs:198-224`. -/
def Aga.sharedPrepare (D : Domain W m) (M : SharedModel I Mo U W) (env : NumEnv) (a : Aga Mo U) (population : Population I) :
    m (Aga Mo U) := do
  let a := a.adjust population.generation population.stats.std
  let (model, breeding) ← D.call (M.preGeneration a.model population a.breeding)
  pure { a with
    model := model
    breeding := { breeding with parentSelector := M.selectors.prepared env population breeding.parentSelector } }

/-- `impl EvolutionAlgorithm for AdaptiveGeneticAlgorithm` — `aga.rs:160-225`. -/
def sharedAga (D : Domain W m) (M : SharedModel I Mo U W) : SharedAlgo I Mo (Aga Mo U) AgaParams m where
  initialSize p := p.populationSize
  model a := a.model
  configure := Aga.configure
  selectElites a population elites := .ok (takeElites a.eliteSize population elites)
  initPopulation env a := sharedInitialize D M env a.model
  prepare := Aga.sharedPrepare D M
  generate env a := sharedGenerate D M env a.model (a.breeding, a.populationSize)
  replace env _ := defaultReplace env

/-! ### Runs -/

/-- The body of the loop — `evolution.rs:156-180`. -/
def sharedStep (D : Domain W m) (alg : SharedAlgo I Mo A P m) (env : Env I) (st : RunState I A Q) : m (RunState I A Q) := do
  let buffer := []
  let algo ← alg.prepare env.num st.algo st.population
  let buffer ← D.lift (alg.selectElites algo st.population buffer)
  let buffer ← alg.generate env.num algo st.population buffer
  let (population, buffer) ← D.lift (alg.replace env algo st.population buffer)
  pure { st with algo, population, buffer }

/-- `while progress(&population) { .. }` — `evolution.rs:155-180`. -/
def sharedLoop (D : Domain W m) (alg : SharedAlgo I Mo A P m) (envs : Nat → Env I)
    (progress : Q → Population I → SProg W (Bool × Q)) :
    (fuel : Nat) → (t : Nat) → RunState I A Q → m (Bool × RunState I A Q)
  | 0, _, st => pure (false, st)
  | fuel + 1, t, st => do
    let (continues, q) ← D.call (progress st.q st.population)
    let st := { st with q, shown := st.shown ++ [st.population] }
    if continues then do
      let st ← sharedStep D alg (envs t) st
      sharedLoop D alg envs progress fuel (t + 1) st
    else pure (true, st)

/-- `evolve_population` — `evolution.rs:132-183`. -/
def sharedPopulation (D : Domain W m) (alg : SharedAlgo I Mo A P m) (envs : Nat → Env I)
    (progress : Q → Population I → SProg W (Bool × Q)) (fuel : Nat) (a : A) (initialPopulation : List I) (parameters : P) (q : Q) :
    m (Bool × RunState I A Q) := do
  let algo ← D.lift (alg.configure a parameters)
  let population ← alg.initPopulation (envs 0) algo initialPopulation
  sharedLoop D alg envs progress fuel 1 { algo, population, buffer := [], q, shown := [] }

/-- `take_fittest` at the end — `evolution.rs:60-61, 103-104`. -/
def sharedResult (D : Domain W m) (r : Bool × RunState I A Q) : m (Option I × RunState I A Q) :=
  if r.1 then do
    let x ← D.lift r.2.population.takeFittest
    pure (some x, r.2)
  else pure (none, r.2)

/-- `run` — `evolution.rs:48-62`. -/
def sharedRandom (D : Domain W m) (alg : SharedAlgo I Mo A P m) (envs : Nat → Env I)
    (progress : Q → Population I → SProg W (Bool × Q)) (fuel : Nat) (a : A) (newRandom : SProg W I) (parameters : P) (q : Q) :
    m (Option I × RunState I A Q) := do
  let individuals ← sharedExtend D newRandom [] (alg.initialSize parameters)
  let r ← sharedPopulation D alg envs progress fuel a individuals parameters q
  sharedResult D r

/-- `evolve_individual` — `evolution.rs:88-105`. -/
def sharedIndividual (D : Domain W m) (M : SharedModel I Mo U W) (alg : SharedAlgo I Mo A P m) (envs : Nat → Env I)
    (progress : Q → Population I → SProg W (Bool × Q)) (fuel : Nat) (a : A) (individual : I) (parameters : P) (q : Q) :
    m (Option I × RunState I A Q) := do
  let individuals ← sharedExtendWith D M (alg.model a) [] (alg.initialSize parameters) individual
  let r ← sharedPopulation D alg envs progress fuel a individuals parameters q
  sharedResult D r

/-! ### Descriptions without shared state -/

/-- The program that draws what each access finds from the list `ws`. -/
def SProg.over {W α : Type} (ws : List W) : SProg W α → Prog α
  | .done r => .done r
  | .pick n k => .pick n fun i => (k i).over ws
  | .touch _ k => .pick (ws.length - 1) fun j => (ws[j]?).elim (.done .diverge) fun w => (k w).over ws

/-- The model each of whose accesses draws what it finds from the list `ws`. -/
def SharedModel.over (M : SharedModel I Mo U W) (ws : List W) : EvoModel I Mo U where
  crossover m a b := (M.crossover m a b).over ws
  mutate m a := (M.mutate m a).over ws
  improve m a := (M.improve m a).over ws
  evaluate m a := (M.evaluate m a).over ws
  preGeneration m p r := (M.preGeneration m p r).over ws
  canSurvive m o p pop := (M.canSurvive m o p pop).over ws
  selectors :=
    { prepare := M.selectors.prepare
      select := fun u p => (M.selectors.select u p).over ws
      selectDistinct := fun u p n x => (M.selectors.selectDistinct u p n x).over ws }
  breed env m p r := (M.breed env m p r).over ws

/-- As long as the shared state satisfies `Inv`, the accesses of the program keep `Inv`, and do not change what it does: it makes the draws
of `p`, and has the result of `p`. -/
inductive Refines {W α : Type} (Inv : W → Prop) : SProg W α → Prog α → Prop
  | done (r : Res α) : Refines Inv (.done r) (.done r)
  | pick (n : Nat) (k : Nat → SProg W α) (k' : Nat → Prog α) (h : ∀ i, i ≤ n → Refines Inv (k i) (k' i)) :
      Refines Inv (.pick n k) (.pick n k')
  | touch (new : W → W) (k : W → SProg W α) (p : Prog α) (keep : ∀ w, Inv w → Inv (new w))
      (h : ∀ w, Inv w → Refines Inv (k w) p) : Refines Inv (.touch new k) p

/-- Every method of `M` refines the one of `N`. -/
structure ModelRefines (Inv : W → Prop) (M : SharedModel I Mo U W) (N : EvoModel I Mo U) : Prop where
  mutate : ∀ m a, Refines Inv (M.mutate m a) (N.mutate m a)
  evaluate : ∀ m a, Refines Inv (M.evaluate m a) (N.evaluate m a)
  preGeneration : ∀ m p r, Refines Inv (M.preGeneration m p r) (N.preGeneration m p r)
  prepare : M.selectors.prepare = N.selectors.prepare
  breed : ∀ env m p r, Refines Inv (M.breed env m p r) (N.breed env m p r)

/-- Some result is possible, if each access may find anything. -/
def SProg.May {W α : Type} (p : SProg W α) (a : α) : Prop := ∃ w w', p.ends (fun _ _ => True) w (.ok a) w'

/-- Whatever each access finds, the program ends normally with a result satisfying `P`. -/
def SProg.Anyhow {W α : Type} (P : α → Prop) (p : SProg W α) : Prop :=
  ∀ w r w', p.ends (fun _ _ => True) w r w' → ∃ a, r = .ok a ∧ P a

/-- Breeding from a population of valid individuals gives valid individuals. -/
def SharedModel.BreedsValid (M : SharedModel I Mo U W) : Prop :=
  ∀ env model p r c, (∀ x ∈ p.individuals, isValid x = true) → (M.breed env model p r).May c → isValid c = true

/-- The user's selectors return members of the population, and `select_distinct` none equal to the excluded individual. -/
def SharedSelector.Members (cs : SharedSelector I U W) : Prop :=
  (∀ u p r, (cs.select u p).May r → r.2 ∈ p.individuals) ∧
    ∀ u p n ex r, (cs.selectDistinct u p n ex).May (some r) → r.2 ∈ p.individuals ∧ Individual.eq r.2 ex = false

/-- Whatever the shared state is, the methods of the model end normally and keep `Pr`; `breed` and `pre_generation` are the defaults. -/
structure SharedModel.Safe (M : SharedModel I Mo U W) (Pr : I → Prop) : Prop where
  crossover : ∀ m a b, Pr a → Pr b → (M.crossover m a b).Anyhow Pr
  mutate : ∀ m a, Pr a → (M.mutate m a).Anyhow Pr
  improve : ∀ m a, Pr a → (M.improve m a).Anyhow Pr
  evaluate : ∀ m a, Pr a → (M.evaluate m a).Anyhow Pr
  canSurvive : ∀ m a f p, Pr a → Pr f → (M.canSurvive m a f p).Anyhow fun _ => True
  preGeneration : ∀ m p b, M.preGeneration m p b = pure (m, b)
  breed : M.breed = sharedBreed M.toSharedOps

/-! ### Examples of shared state -/

/-- An `evaluate` with a memo table: under a lock, look the key up; if it is absent, compute the value, and, under the lock again, insert
it, possibly dropping other entries (`evict`). -/
def cachedEvaluate {K V : Type} [DecidableEq K] (key : I → K) (compute : K → V) (put : I → V → I)
    (evict : List (K × V) → List (K × V)) (i : I) : SProg (List (K × V)) I :=
  .touch id fun table => match table.lookup (key i) with
    | some v => pure (put i v)
    | none => .touch (fun table => (key i, compute (key i)) :: evict table) fun _ => pure (put i (compute (key i)))

/-- The model `N` with a memo table for `evaluate`. -/
def EvoModel.cached {K V : Type} [DecidableEq K] (N : EvoModel I Mo U) (key : I → K) (compute : K → V) (put : I → V → I)
    (evict : List (K × V) → List (K × V)) : SharedModel I Mo U (List (K × V)) :=
  { ({ crossover := fun m a b => .ofProg (N.crossover m a b)
       mutate := fun m a => .ofProg (N.mutate m a)
       improve := fun m a => .ofProg (N.improve m a)
       evaluate := fun _ a => cachedEvaluate key compute put evict a
       preGeneration := fun m p r => .ofProg (N.preGeneration m p r)
       canSurvive := fun m o p pop => .ofProg (N.canSurvive m o p pop)
       selectors :=
         { prepare := N.selectors.prepare
           select := fun u p => .ofProg (N.selectors.select u p)
           selectDistinct := fun u p n x => .ofProg (N.selectors.selectDistinct u p n x) } } : SharedOps I Mo U (List (K × V))) with }

/-- The model `N` as a model that does not use the shared state. -/
def EvoModel.alone (N : EvoModel I Mo U) (W : Type) : SharedModel I Mo U W where
  crossover m a b := .ofProg (N.crossover m a b)
  mutate m a := .ofProg (N.mutate m a)
  improve m a := .ofProg (N.improve m a)
  evaluate m a := .ofProg (N.evaluate m a)
  preGeneration m p r := .ofProg (N.preGeneration m p r)
  canSurvive m o p pop := .ofProg (N.canSurvive m o p pop)
  selectors :=
    { prepare := N.selectors.prepare
      select := fun u p => .ofProg (N.selectors.select u p)
      selectDistinct := fun u p n x => .ofProg (N.selectors.selectDistinct u p n x) }
  breed env m p r := .ofProg (N.breed env m p r)

end RG
