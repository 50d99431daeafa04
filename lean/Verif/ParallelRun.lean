import Verif.Parallel
import Verif.Evolution

/-!
# Whole runs with parallel tasks

Runs of `evolution.rs:48-183` in which the parallel loops are scheduled in any way: once with independent draws (`Scheduled...`), once
with concrete generators and the pool (`Pooled...`). `progress`, `pre_generation` and `evaluate` get no generator from the library; if
they draw, any outcome of theirs is allowed.
-/

namespace RG
variable {I : Type} [Individual I] {Mo U A P Q : Type}

/-! ### Independent draws -/

/-- `generate_new_population` (default) with its tasks interleaved in some way — `algorithms.rs:211-232`. -/
def ScheduledGenerate (M : EvoModel I Mo U) (env : NumEnv) (model : Mo) (repro : ReproParams U × Nat) (population : Population I)
    (offspring : List I) (g : Prog (List I)) : Prop :=
  match repro.2 - offspring.length with
  | 0 => g = pure offspring
  | 1 => g = (M.breed env model population repro.1 >>= fun _ => pure offspring)
  | size => ∃ q, Prog.Runs (List.replicate size (M.breed env model population repro.1)) q ∧ g = (q >>= fun new => pure (offspring ++ new))

/-- The loop of `evolve_population` — `evolution.rs:155-180`; how the tasks of a generation are interleaved may depend on the algorithm,
the closure and all populations so far. -/
inductive ScheduledLoop (M : EvoModel I Mo U) (alg : EvoAlgo I Mo U A P) (envs : Nat → Env I)
    (progress : Q → Population I → Prog (Bool × Q)) : Nat → Nat → RunState I A Q → Prog (Bool × RunState I A Q) → Prop
  | out (t : Nat) (st : RunState I A Q) : ScheduledLoop M alg envs progress 0 t st (pure (false, st))
  | turn (fuel t : Nat) (st : RunState I A Q) (gen : RunState I A Q → A → List I → Prog (List I))
      (rest : RunState I A Q → Prog (Bool × RunState I A Q))
      (hgen : ∀ st' algo buffer, ScheduledGenerate M (envs t).num (alg.model algo) (alg.repro algo) st'.population buffer (gen st' algo buffer))
      (hrest : ∀ st', ScheduledLoop M alg envs progress fuel (t + 1) st' (rest st')) :
      ScheduledLoop M alg envs progress (fuel + 1) t st (do
        let (continues, q) ← progress st.q st.population
        let st := { st with q, shown := st.shown ++ [st.population] }
        if continues then do
          let algo ← alg.prepare (envs t).num st.algo st.population
          let buffer ← Prog.lift (alg.selectElites algo st.population [])
          let buffer ← gen st algo buffer
          let (population, buffer) ← Prog.lift (alg.replace (envs t) algo st.population buffer)
          rest { st with algo, population, buffer }
        else pure (true, st))

/-- `evolve_population` — `evolution.rs:132-183`. The evaluations of the initial population are interleaved as well. -/
def ScheduledRun (M : EvoModel I Mo U) (alg : EvoAlgo I Mo U A P) (envs : Nat → Env I) (progress : Q → Population I → Prog (Bool × Q))
    (fuel : Nat) (a : A) (initialPopulation : List I) (parameters : P) (q : Q) (run : Prog (Bool × RunState I A Q)) : Prop :=
  ∃ (ev : A → Prog (List I)) (loop : RunState I A Q → Prog (Bool × RunState I A Q)),
    (∀ algo, Prog.Runs (initialPopulation.map (M.evaluate (alg.model algo))) (ev algo)) ∧
    (∀ st, ScheduledLoop M alg envs progress fuel 1 st (loop st)) ∧
    run = do
      let algo ← Prog.lift (alg.configure a parameters)
      let evaluated ← ev algo
      let population ← Prog.lift (Population.new (envs 0).sort (evaluated.filter isValid))
      loop { algo, population, buffer := [], q, shown := [] }

/-! ### Concrete generators -/

variable {σ : Type}

/-- `par_extend(repeatn(.., size).map_init(Self::rng, ..))` — `model.rs:243-247, 280-286`: every piece calls `rng()`; `calls` counts these
calls. The generators are dropped at the end of a piece, that is, never used again. -/
def FreshItems {α : Type} (make : Nat → σ) (draw : σ → Nat → Nat × σ) (item : Prog α) (size calls : Nat) (new : List α) (calls' : Nat) : Prop :=
  ∃ events m, (∀ j, Event.finish j ∉ events) ∧ (Machine.init ⟨[], calls⟩).steps make draw (fun _ => item) events = some m ∧
    m.collected size new ∧ calls' = m.pool.made

/-- The loop of `evolve_population` with the pool — `evolution.rs:155-180`: from a state and a pool to a result and a pool. -/
inductive PooledLoop (M : EvoModel I Mo U) (alg : EvoAlgo I Mo U A P) (envs : Nat → Env I) (make : Nat → σ)
    (draw : σ → Nat → Nat × σ) (progress : Q → Population I → Prog (Bool × Q)) :
    Nat → Nat → RunState I A Q → RngPool σ → Bool × RunState I A Q → RngPool σ → Prop
  | out (t : Nat) (st : RunState I A Q) (pool : RngPool σ) : PooledLoop M alg envs make draw progress 0 t st pool (false, st) pool
  | ended (fuel t : Nat) (st : RunState I A Q) (pool : RngPool σ) (q : Q) (stops : (progress st.q st.population).yields (.ok (false, q))) :
      PooledLoop M alg envs make draw progress (fuel + 1) t st pool (true, { st with q, shown := st.shown ++ [st.population] }) pool
  | turn (fuel t : Nat) (st : RunState I A Q) (pool pool' pool'' : RngPool σ) (q : Q) (algo : A) (elites buffer : List I)
      (population : Population I) (buffer' : List I) (r : Bool × RunState I A Q)
      (goes : (progress st.q st.population).yields (.ok (true, q)))
      (prepared : (alg.prepare (envs t).num st.algo st.population).yields (.ok algo))
      (selected : alg.selectElites algo st.population [] = .ok elites)
      (generated : PooledGenerate M (envs t).num make draw (alg.model algo) (alg.repro algo) st.population elites pool buffer pool')
      (replaced : alg.replace (envs t) algo st.population buffer = .ok (population, buffer'))
      (rest : PooledLoop M alg envs make draw progress fuel (t + 1)
        { algo, population, buffer := buffer', q, shown := st.shown ++ [st.population] } pool' r pool'') :
      PooledLoop M alg envs make draw progress (fuel + 1) t st pool r pool''

/-- `evolve_population` with a pool for `threads` threads — `evolution.rs:132-183`. -/
def PooledRun (M : EvoModel I Mo U) (alg : EvoAlgo I Mo U A P) (envs : Nat → Env I) (make : Nat → σ)
    (draw : σ → Nat → Nat × σ) (progress : Q → Population I → Prog (Bool × Q)) (threads fuel : Nat) (a : A) (initialPopulation : List I)
    (parameters : P) (q : Q) (r : Bool × RunState I A Q) : Prop :=
  ∃ algo population pool', alg.configure a parameters = .ok algo ∧
    (alg.initPopulation (envs 0) algo initialPopulation).yields (.ok population) ∧
    PooledLoop M alg envs make draw progress fuel 1 { algo, population, buffer := [], q, shown := [] } (RngPool.new make threads) r pool'

/-- `run` — `evolution.rs:48-62`: first a random population, then `evolve_population` and `take_fittest`. -/
def PooledRandom (M : EvoModel I Mo U) (alg : EvoAlgo I Mo U A P) (envs : Nat → Env I) (make : Nat → σ)
    (draw : σ → Nat → Nat × σ) (progress : Q → Population I → Prog (Bool × Q)) (threads fuel : Nat) (a : A) (newRandom : Prog I)
    (parameters : P) (q : Q) (x : Option I) (st : RunState I A Q) : Prop :=
  ∃ individuals calls r, FreshItems make draw newRandom (alg.initialSize parameters) 0 individuals calls ∧
    PooledRun M alg envs (fun i => make (calls + i)) draw progress threads fuel a individuals parameters q r ∧
    (takeResult r).yields (.ok (x, st))

/-- `evolve_individual` — `evolution.rs:88-105`: the individual and mutated copies of it, then as `run`. -/
def PooledIndividual (M : EvoModel I Mo U) (alg : EvoAlgo I Mo U A P) (envs : Nat → Env I) (make : Nat → σ)
    (draw : σ → Nat → Nat × σ) (progress : Q → Population I → Prog (Bool × Q)) (threads fuel : Nat) (a : A) (individual : I)
    (parameters : P) (q : Q) (x : Option I) (st : RunState I A Q) : Prop :=
  ∃ copies calls r, FreshItems make draw (M.mutate (alg.model a) individual) (alg.initialSize parameters - 1) 0 copies calls ∧
    PooledRun M alg envs (fun i => make (calls + i)) draw progress threads fuel a
      (if alg.initialSize parameters = 0 then [] else individual :: copies) parameters q r ∧
    (takeResult r).yields (.ok (x, st))

end RG
