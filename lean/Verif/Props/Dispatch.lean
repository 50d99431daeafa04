import Verif.Props.Evolution
import Verif.Proofs.Convergence

/-!
# Which parts are put together

Theorems about the plumbing: which selector a strategy builds, what a selector's `prepare` and `select` run, the documented
default values, and what one generation does for an arbitrary `EvolutionAlgorithm`. They belong to the properties C42, C43, C46,
C48, C50, C51, C56 and C59, and were added because wrong programs passed all other theorems (`/verif/seeded/LOG.jsonl`).
-/

set_option linter.unusedSectionVars false

namespace RG.Props
open RG RG.Prog
variable {I : Type} [Individual I] {Mo U A P Q : Type}

/-! ### Selectors -/

/-- **C46** `create_selector` builds the selector that the strategy names, with the strategy's parameters, and with nothing
prepared yet. -/
theorem C46_selector :
    (∀ size, size ≠ 0 → (SelectionStrategy.tournament size).createSelector = .ok (.tournament ⟨size⟩)) ∧
    SelectionStrategy.rouletteWheel.createSelector = .ok (.rouletteWheel ⟨F64.zero⟩) ∧
    (∀ t c, c ≠ F64.zero → c ≠ F64.nzero →
      (SelectionStrategy.boltzmann t c).createSelector = .ok (.boltzmann ⟨t, c, F64.zero⟩)) ∧
    SelectionStrategy.rank.createSelector = .ok .rank ∧
    (∀ bias, (SelectionStrategy.linear bias).createSelector = .ok (.linear ⟨bias⟩)) ∧
    (∀ ratio : F64, ratio.isFinite = true → 0 ≤ ratio.val → ratio.val < 1 →
      (SelectionStrategy.elitist ratio).createSelector = .ok (.elitist ⟨ratio⟩)) := by
  refine ⟨fun size h => ?_, rfl, fun t c h1 h2 => ?_, rfl, fun _ => rfl, fun r h1 h2 h3 => ?_⟩
  · simp only [SelectionStrategy.createSelector, (C46_tournament ⟨0⟩ size).1, if_neg h]; rfl
  · simp only [SelectionStrategy.createSelector, (C46_boltzmann ⟨t, c, c⟩ t c).1, if_neg (not_or.2 ⟨h1, h2⟩)]; rfl
  · simp only [SelectionStrategy.createSelector, ((C46_elitist ⟨r⟩ r).1 ⟨h1, h2, h3⟩).1]; rfl

/-- **C42** `prepare` of the roulette wheel: the total is the sum of the fitness values of *all* individuals, added with some
bracketing; what the selector held before does not matter. -/
theorem C42_prepare (env : NumEnv) (henv : env.LawfulSum) (s : RouletteWheelSelection) (p : Population I) :
    TreeSum (p.individuals.map fitness) (s.prepare env p).totalFitness := henv _

example (env : NumEnv) (henv : env.LawfulSum) :
    TreeSum [fitness (num 1), fitness (num 2), fitness (num 7)] (RouletteWheelSelection.new.prepare env
      (⟨[num 1, num 2, num 7], 0, 0, numPop.stats⟩ : Population Num)).totalFitness :=
  C42_prepare env henv _ (⟨[num 1, num 2, num 7], 0, 0, numPop.stats⟩ : Population Num)

/-- **C43** **C46** `prepare` of a built-in selector touches the roulette wheel and the Boltzmann selector only, and gives a
selector of the same kind with the same parameters (apart from the cooled temperature). -/
theorem C46_prepare (env : NumEnv) (p : Population I) :
    (∀ s, Selector.prepare env p (.tournament s) = .tournament s) ∧
    (∀ s, Selector.prepare env p (.rouletteWheel s) = .rouletteWheel ⟨env.parSum (p.individuals.map fitness)⟩) ∧
    (∀ s, Selector.prepare env p (.boltzmann s) = .boltzmann ⟨s.temperature.mul s.coolingRate, s.coolingRate,
      env.parSum (p.individuals.map fun x => env.exp ((fitness x).div (s.temperature.mul s.coolingRate)))⟩) ∧
    Selector.prepare env p .rank = .rank ∧
    (∀ s, Selector.prepare env p (.linear s) = .linear s) ∧
    (∀ s, Selector.prepare env p (.elitist s) = .elitist s) := by
  refine ⟨fun _ => rfl, fun _ => rfl, fun s => ?_, rfl, fun _ => rfl, fun _ => rfl⟩
  obtain ⟨h1, h2, h3⟩ := C43_prepare env s p
  show Selector.boltzmann (s.prepare env p) = _
  rw [← h3, ← h1]
  congr 1

/-- **C38**–**C44** `select` of a built-in selector runs the algorithm of its kind. -/
theorem C46_select (env : NumEnv) (p : Population I) :
    (∀ s, Selector.select env p (.tournament s) = s.select p) ∧
    (∀ s, Selector.select env p (.rouletteWheel s) = s.select p) ∧
    (∀ s, Selector.select env p (.boltzmann s) = s.select env p) ∧
    Selector.select env p .rank = rankSelect p ∧
    (∀ s, Selector.select env p (.linear s) = s.select p) ∧
    (∀ s, Selector.select env p (.elitist s) = s.select p) :=
  ⟨fun _ => rfl, fun _ => rfl, fun _ => rfl, rfl, fun _ => rfl, fun _ => rfl⟩

/-- **C38**, **C43**, **C45** A boxed selector is called through its own methods: a built-in one through those of its kind, a
user's one through the user's, `prepare` included. -/
theorem C46_dynamic (env : NumEnv) (cs : CustomSelector I U) (p : Population I) (tries : Nat) (x : I) :
    (∀ s, DynSel.prepare env cs p (.builtin s) = .builtin (s.prepare env p)) ∧
    (∀ u, DynSel.prepare env cs p (.custom u) = .custom (cs.prepare u p)) ∧
    (∀ s, DynSel.select env cs p (.builtin s) = s.select env p) ∧
    (∀ u, DynSel.select env cs p (.custom u) = cs.select u p) ∧
    (∀ s, DynSel.selectDistinct env cs p tries x (.builtin s) = selectDistinct (s.select env p) x tries) ∧
    (∀ u, DynSel.selectDistinct env cs p tries x (.custom u) = cs.selectDistinct u p tries x) :=
  ⟨fun _ => rfl, fun _ => rfl, fun _ => rfl, fun _ => rfl, fun _ => rfl, fun _ => rfl⟩

/-! ### Default values -/

/-- **C50** The documented default parameters. `0.01`, `0.1`, `0.3` and `0.8` are the nearest `f64`, which are given exactly. -/
theorem C50_default_values :
    (GaParams.default.populationSize = 100 ∧ GaParams.default.elitismRate.val = 5764607523034235 / 2 ^ 59 ∧
      GaParams.default.crossoverRate.val = 3602879701896397 / 2 ^ 52 ∧
      GaParams.default.mutationRate.val = 3602879701896397 / 2 ^ 55 ∧
      GaParams.default.selectionStrategy = .rouletteWheel) ∧
    (AgaParams.default.populationSize = 100 ∧ AgaParams.default.elitismRate.val = 5764607523034235 / 2 ^ 59 ∧
      AgaParams.default.crossoverRateRange.start.val = 5404319552844595 / 2 ^ 54 ∧
      AgaParams.default.crossoverRateRange.stop.val = 1 ∧
      AgaParams.default.mutationRateRange.start.val = 3602879701896397 / 2 ^ 55 ∧
      AgaParams.default.mutationRateRange.stop.val = 1 ∧
      AgaParams.default.selectionStrategy = .rouletteWheel ∧ AgaParams.default.adjustmentInterval = 1) ∧
    ((ReproParams.default : ReproParams U).crossoverRate.val = 3602879701896397 / 2 ^ 52 ∧
      (ReproParams.default : ReproParams U).mutationRate.val = 3602879701896397 / 2 ^ 55 ∧
      (ReproParams.default : ReproParams U).parentSelector = .builtin (.rouletteWheel ⟨F64.zero⟩)) := by
  refine ⟨⟨rfl, ?_, ?_, ?_, rfl⟩, ⟨rfl, ?_, ?_, ?_, ?_, ?_, rfl, rfl⟩, ?_, ?_, rfl⟩
  · show (F64.lit (1 / 100)).val = _; decide +kernel
  · show (F64.lit (8 / 10)).val = _; decide +kernel
  · show (F64.lit (1 / 10)).val = _; decide +kernel
  · show (F64.lit (1 / 100)).val = _; decide +kernel
  · show (F64.lit (3 / 10)).val = _; decide +kernel
  · rfl
  · show (F64.lit (1 / 10)).val = _; decide +kernel
  · rfl
  · show (F64.lit (8 / 10)).val = _; decide +kernel
  · show (F64.lit (1 / 10)).val = _; decide +kernel

/-! ### The algorithms -/

/-- **C51** The default `select_elites` (which the built-in algorithms override) appends one individual: one of the fittest, by
C03 and C09. It fails only if the statistics of the population do. -/
theorem C51_default_elites (p : Population I) (elites : List I) (l : List I) :
    defaultSelectElites p elites = .ok l ↔ ∃ x, p.fittest = .ok x ∧ l = elites ++ [x] := by
  unfold defaultSelectElites
  cases p.fittest <;> simp [eq_comm]

-- numPop is sorted, its last individual is the fittest
example : defaultSelectElites numPop [num 3] = .ok [num 3, num 5] := by decide +kernel

/-- **C50** A fresh algorithm has the given model and otherwise default values: no population, no elites, empty ranges, and the
default breeding parameters of `C50_default_values`. -/
theorem C50_fresh (m : Mo) :
    ((Ga.ofModel m : Ga Mo U).model = m ∧ (Ga.ofModel m : Ga Mo U).populationSize = 0 ∧ (Ga.ofModel m : Ga Mo U).eliteSize = 0 ∧
      (Ga.ofModel m : Ga Mo U).breeding = ReproParams.default) ∧
    ((Aga.ofModel m : Aga Mo U).model = m ∧ (Aga.ofModel m : Aga Mo U).populationSize = 0 ∧
      (Aga.ofModel m : Aga Mo U).eliteSize = 0 ∧ (Aga.ofModel m : Aga Mo U).adjustmentInterval = 0 ∧
      (Aga.ofModel m : Aga Mo U).crossoverRateRange = ⟨F64.zero, F64.zero⟩ ∧
      (Aga.ofModel m : Aga Mo U).mutationRateRange = ⟨F64.zero, F64.zero⟩ ∧
      (Aga.ofModel m : Aga Mo U).breeding = ReproParams.default ∧ (Aga.ofModel m : Aga Mo U).referenceStd = F64.zero) :=
  ⟨⟨rfl, rfl, rfl, rfl⟩, rfl, rfl, rfl, rfl, rfl, rfl, rfl, rfl⟩

/-- **C59** Genetic algorithm, before each generation: `pre_generation` is called first, with the current model and breeding
parameters; what it leaves is kept, and the selector it leaves is prepared with the current population. Nothing else changes. -/
theorem C59_ga_prepare (M : EvoModel I Mo U) (env : NumEnv) (a a' : Ga Mo U) (p : Population I) :
    (Ga.prepare M env a p).yields (.ok a') ↔
      ∃ m b, (M.preGeneration a.model p a.breeding).yields (.ok (m, b)) ∧ a'.model = m ∧
        a'.breeding.crossoverRate = b.crossoverRate ∧ a'.breeding.mutationRate = b.mutationRate ∧
        a'.breeding.parentSelector = b.parentSelector.prepare env M.selectors p ∧
        a'.populationSize = a.populationSize ∧ a'.eliteSize = a.eliteSize := by
  unfold Ga.prepare
  rw [yields_bind_ok]
  constructor
  · rintro ⟨⟨m, b⟩, h, h'⟩
    have h' := Res.ok.inj h'
    exact ⟨m, b, h, by simp [h']⟩
  · rintro ⟨m, b, h, h1, h2, h3, h4, h5, h6⟩
    refine ⟨(m, b), h, ?_⟩
    rw [yields_pure]
    obtain ⟨_, _, _, ⟨_, _, _⟩⟩ := a'
    simp_all

-- a `pre_generation` that installs rank selection and a mutation rate of 0
example : (Ga.prepare { numModel with preGeneration := fun m _ r => pure (m, { r with mutationRate := F64.zero, parentSelector := .builtin .rank }) }
    exEnv (Ga.ofModel ()) numPop).yields (.ok { (Ga.ofModel () : Ga Unit Empty) with
      breeding := { (ReproParams.default : ReproParams Empty) with mutationRate := F64.zero, parentSelector := .builtin .rank } }) :=
  (C59_ga_prepare _ _ _ _ _).2 ⟨(), _, rfl, rfl, rfl, rfl, rfl, rfl, rfl⟩

/-- **C56** One generation, for an arbitrary `EvolutionAlgorithm`: the algorithm is prepared with the current population; the
prepared algorithm selects elites into the emptied buffer, breeds, and replaces the population; it is kept for the next
generation. -/
theorem C56_generation (alg : EvoAlgo I Mo U A P) (env : Env I) (st st' : RunState I A Q) :
    (generationStep alg env st).yields (.ok st') ↔
      ∃ a elites offspring, (alg.prepare env.num st.algo st.population).yields (.ok a) ∧
        alg.selectElites a st.population [] = .ok elites ∧ (alg.generate env.num a st.population elites).yields (.ok offspring) ∧
        alg.replace env a st.population offspring = .ok (st'.population, st'.buffer) ∧ st'.algo = a ∧ st'.q = st.q ∧
        st'.shown = st.shown := by
  unfold generationStep
  simp only [yields_bind_ok, yields_pure, Res.ok.injEq]
  constructor
  · rintro ⟨a, h1, e, h2, o, h3, ⟨pop, buf⟩, h4, rfl⟩
    exact ⟨a, e, o, h1, Eq.symm h2, h3, Eq.symm h4, rfl, rfl, rfl⟩
  · rintro ⟨a, e, o, h1, h2, h3, h4, rfl, h6, h7⟩
    refine ⟨_, h1, e, Eq.symm h2, o, h3, _, Eq.symm h4, ?_⟩
    cases st'
    simp_all

/-- **C56** `run`: as many individuals as the parameters ask for are made by `new_random`, from the model that the algorithm had
before the run; the run goes on from exactly these, and when it has ended the fittest of its population is taken. -/
theorem C56_run (M : EvoModel I Mo U) (alg : EvoAlgo I Mo U A P) (envs : Nat → Env I)
    (progress : Q → Population I → Prog (Bool × Q)) (fuel : Nat) (a : A) (newRandom : Prog I) (p : P) (q : Q) (x : Option I)
    (st : RunState I A Q) :
    (runRandom M alg envs progress fuel a newRandom p q).yields (.ok (x, st)) ↔
      ∃ l ended, (M.extend (alg.model a) newRandom [] (alg.initialSize p)).yields (.ok l) ∧
        (evolvePopulation alg envs progress fuel a l p q).yields (.ok (ended, st)) ∧
        ((ended = true ∧ ∃ y, st.population.takeFittest = .ok y ∧ x = some y) ∨ (ended = false ∧ x = none)) := by
  unfold runRandom
  simp only [yields_bind_ok]
  constructor
  · rintro ⟨l, h1, ⟨ended, st'⟩, h2, h3⟩
    obtain ⟨rfl, h3⟩ := (yields_takeResult _ _ _).1 h3
    exact ⟨l, ended, h1, h2, h3⟩
  · rintro ⟨l, ended, h1, h2, h3⟩
    exact ⟨l, h1, (ended, st), h2, (yields_takeResult _ _ _).2 ⟨rfl, h3⟩⟩

/-- **C56** `evolve_individual`: the given individual is extended to as many as the parameters ask for, with the model that the
algorithm had before the run; the rest is as in `C56_run`. -/
theorem C56_individual (M : EvoModel I Mo U) (alg : EvoAlgo I Mo U A P) (envs : Nat → Env I)
    (progress : Q → Population I → Prog (Bool × Q)) (fuel : Nat) (a : A) (individual : I) (p : P) (q : Q) (x : Option I)
    (st : RunState I A Q) :
    (evolveIndividual M alg envs progress fuel a individual p q).yields (.ok (x, st)) ↔
      ∃ l ended, (M.extendWith (alg.model a) [] (alg.initialSize p) individual).yields (.ok l) ∧
        (evolvePopulation alg envs progress fuel a l p q).yields (.ok (ended, st)) ∧
        ((ended = true ∧ ∃ y, st.population.takeFittest = .ok y ∧ x = some y) ∨ (ended = false ∧ x = none)) := by
  unfold evolveIndividual
  simp only [yields_bind_ok]
  constructor
  · rintro ⟨l, h1, ⟨ended, st'⟩, h2, h3⟩
    obtain ⟨rfl, h3⟩ := (yields_takeResult _ _ _).1 h3
    exact ⟨l, ended, h1, h2, h3⟩
  · rintro ⟨l, ended, h1, h2, h3⟩
    exact ⟨l, h1, (ended, st), h2, (yields_takeResult _ _ _).2 ⟨rfl, h3⟩⟩

/-- **C56** What the built-in algorithms put in the places of the trait: the population size of the parameters is both the
initial and the maximal size; validation, configuration and preparation are their own; breeding uses their model, their
breeding parameters and their population size; the elites are the last `elite_size` individuals, without a failure; the other
methods are the default ones, with the current model. -/
theorem C56_builtin (M : EvoModel I Mo U) :
    ((∀ p : GaParams, (ga M).initialSize p = p.populationSize ∧ (ga M).maxSize p = p.populationSize ∧
        (ga M).validate p = p.validate) ∧
      (∀ a : Ga Mo U, (ga M).model a = a.model ∧ (ga M).repro a = (a.breeding, a.populationSize) ∧
        (∀ p, (ga M).configure a p = a.configure p) ∧ (∀ env pop, (ga M).prepare env a pop = a.prepare M env pop) ∧
        (∀ pop l, (ga M).selectElites a pop l = .ok (l ++ pop.individuals.drop (pop.individuals.length - a.eliteSize))) ∧
        (∀ env l, (ga M).initPopulation env a l = defaultInitialize M env a.model l) ∧
        (∀ env pop l, (ga M).generate env a pop l = defaultGenerate M env a.model (a.breeding, a.populationSize) pop l) ∧
        (∀ env pop l, (ga M).replace env a pop l = defaultReplace env pop l))) ∧
    ((∀ p : AgaParams, (aga M).initialSize p = p.populationSize ∧ (aga M).maxSize p = p.populationSize ∧
        (aga M).validate p = p.validate) ∧
      (∀ a : Aga Mo U, (aga M).model a = a.model ∧ (aga M).repro a = (a.breeding, a.populationSize) ∧
        (∀ p, (aga M).configure a p = a.configure p) ∧ (∀ env pop, (aga M).prepare env a pop = Aga.prepare M env a pop) ∧
        (∀ pop l, (aga M).selectElites a pop l = .ok (l ++ pop.individuals.drop (pop.individuals.length - a.eliteSize))) ∧
        (∀ env l, (aga M).initPopulation env a l = defaultInitialize M env a.model l) ∧
        (∀ env pop l, (aga M).generate env a pop l = defaultGenerate M env a.model (a.breeding, a.populationSize) pop l) ∧
        (∀ env pop l, (aga M).replace env a pop l = defaultReplace env pop l))) := by
  have hel : ∀ (n : Nat) (pop : Population I) (l : List I),
      takeElites n pop l = l ++ pop.individuals.drop (pop.individuals.length - n) := fun n pop l => by
    unfold takeElites
    by_cases h : n = 0 <;> simp [h, Population.len]
  refine ⟨⟨fun _ => ⟨rfl, rfl, rfl⟩, fun a => ⟨rfl, rfl, fun _ => rfl, fun _ _ => rfl, fun pop l => ?_, fun _ _ => rfl,
    fun _ _ _ => rfl, fun _ _ _ => rfl⟩⟩, fun _ => ⟨rfl, rfl, rfl⟩, fun a => ⟨rfl, rfl, fun _ => rfl, fun _ _ => rfl,
    fun pop l => ?_, fun _ _ => rfl, fun _ _ _ => rfl, fun _ _ _ => rfl⟩⟩
  · rw [← hel]; rfl
  · rw [← hel]; rfl

-- `run` with three individuals that are all `7`, and a closure that stops at once: equal individuals are kept once, and it is returned
example : ((runRandom numModel (ga numModel) (fun _ => exFullEnv) (untilGeneration 0) 10 (Ga.ofModel ()) (pure (num 7))
      smallParams 0).exec drawList []).1.okAnd (fun r => r.1 = some (num 7) ∧
        r.2.shown.map (fun p => p.individuals.length) = [1]) = true := by
  decide +kernel

/-! ### Crossover happens at its rate -/

/-- The probability that one of three selections compares different from the given outcome of a selection. -/
def threeTries (sel : Prog (Nat × I)) : Res (Nat × I) → ℚ
  | .ok x => 1 - (sel.prob fun c => Individual.eq c.2 x.2 = true) ^ 3
  | _ => 0

/-- **C48** With a built-in selector and at least two individuals, `crossover` is called with probability `⌈rate * 2^53⌉ / 2^53`
times the probability that one of three further selections compares different from the first: this is the probability that
`breed` fails when `crossover` panics, for operators that otherwise never fail. -/
theorem C48_crossover_probability (M : EvoOps I Mo U) (env : NumEnv) (model : Mo) (p : Population I) (r : ReproParams U)
    (s : Selector) (hs : r.parentSelector = .builtin s) (hp : 2 ≤ p.individuals.length)
    (hr : F64.zero.le r.crossoverRate = true ∧ r.crossoverRate.le F64.one = true)
    (hsel : Always (fun _ => True) (s.select env p))
    (h : Always (fun _ => True) (defaultBreed (M.withCrossover fun _ i _ => pure i) env model p r)) :
    (defaultBreed (M.withCrossover fun _ _ _ => Prog.done .panic) env model p r).probFail =
      ((⌈r.crossoverRate.val * 2 ^ 53⌉ : ℤ) : ℚ) / 2 ^ 53 *
        (s.select env p).expect (threeTries (s.select env p)) := by
  obtain ⟨f1, f2, f3⟩ := inClosedUnit_iff.1 (show inClosedUnit r.crossoverRate = true by
    unfold inClosedUnit; rw [hr.1, hr.2]; rfl)
  rw [← prob_fire f1 f2 f3]
  rw [defaultBreed_eq, always_bind] at h
  have hpar : ∀ c, breedParents (M.withCrossover c) env p r = breedParents M env p r := fun c => rfl
  rw [hpar] at h
  rw [defaultBreed_eq, hpar, probFail_bind_cond (fun ps : I × Option I => ps.2.isSome = true) (h.mono fun ps hps => ?_)]
  · show (breedParents M env p r).prob _ = _
    unfold breedParents prob
    rw [hs, expect_bind, ← expect_mul_left]
    have hsel' : Always (fun _ => True) ((DynSel.builtin s : DynSel U).select env M.selectors p) := hsel
    show ((DynSel.builtin s : DynSel U).select env M.selectors p).expect _ =
      ((DynSel.builtin s : DynSel U).select env M.selectors p).expect _
    refine expect_congr _ _ _ fun x hx => ?_
    obtain ⟨⟨i, x⟩, rfl, -⟩ := hsel' x hx
    set sel := (DynSel.builtin s : DynSel U).select env M.selectors p with hsel_def
    have hd : Always (fun _ => True) ((DynSel.builtin s : DynSel U).selectDistinct env M.selectors p 3 x) :=
      (selectDistinct_always hsel x 3).mono fun _ _ => trivial
    have hnone : ((DynSel.builtin s : DynSel U).selectDistinct env M.selectors p 3 x).prob (fun r => r = none) =
        (sel.prob fun c => Individual.eq c.2 x = true) ^ 3 := C45_give_up_probability _ x 3
    have hsome := prob_add_not_of_always _ (fun r : Option (Nat × I) => r = none) hd
    have hlen : p.len > 1 := hp
    show (((if p.len > 1 then _ else _) >>= _ : Prog (I × Option I))).prob (fun ps => ps.2.isSome = true) = _
    rw [if_pos hlen, bind_assoc, prob_bind_mul _ _ _ (fun u : F64 => u.lt r.crossoverRate = true)
      (1 - (sel.prob fun c => Individual.eq c.2 x = true) ^ 3)]
    · rfl
    · intro u _ hu
      simp only [bind_pure_left, hu, if_true, bind_assoc]
      rw [prob_bind_mul _ _ _ (fun r : Option (Nat × I) => ¬ r = none) 1]
      · linarith
      · intro o _ ho
        obtain ⟨c, rfl⟩ := Option.ne_none_iff_exists'.1 ho
        simp
      · intro o _ ho
        obtain rfl : o = none := by simpa using ho
        simp
    · intro u _ hu
      simp [hu]
  · obtain ⟨p1, p2⟩ := ps
    cases p2 with
    | none => exact probFail_of_always hps
    | some b => rfl

-- tournaments of two among three individuals, crossover rate 1/2
example : (defaultBreed (numOps.withCrossover fun _ _ _ => Prog.done .panic) exEnv () numPop numParams).probFail =
    2927 / 6561 := by
  rw [C48_crossover_probability numOps exEnv () numPop numParams (.tournament ⟨2⟩) rfl (by decide) (by decide +kernel)
    numPop_select]
  · rw [show numParams.crossoverRate.val = 1 / 2 by decide +kernel,
      show ((1 : ℚ) / 2 * 2 ^ 53) = ((2 ^ 52 : ℤ) : ℚ) by norm_num, Int.ceil_intCast,
      show (Selector.select exEnv numPop (.tournament ⟨2⟩)).expect
        (threeTries (Selector.select exEnv numPop (.tournament ⟨2⟩))) = 5854 / 6561 by decide +kernel]
    norm_num
  · refine defaultBreed_always (fun _ => True) _ exEnv () numPop numParams numPop_select (fun ex _ => ?_) ?_ ?_ ?_ ?_ ?_
    · exact (selectDistinct_always numPop_select ex 3).mono fun _ _ _ _ => trivial
    all_goals intros; exact (always_pure _ _).2 trivial

end RG.Props
