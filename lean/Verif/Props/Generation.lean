import Verif.Proofs.Generation
import Verif.Proofs.Stuck
import Verif.Props.Convergence

/-!
# Property C73: what happens in one generation, and in a run

`SpecRun.lean` describes a run as a path; the theorems say that the runs of the program are exactly these paths, and with what
probability all members of the next generation have a property.
-/

set_option linter.unusedSectionVars false

namespace RG.Props
open RG RG.Prog
variable {I : Type} [Individual I] {Mo U A P Q : Type}

/-- **C73** (one generation of the genetic algorithm) The body of the loop can lead from one state to another exactly if
`GaNext` relates them; it leaves the state of the closure alone, and the individuals of the old population in the buffer. -/
theorem C73_ga_generation (M : EvoModel I Mo U) (env : Env I) (henv : env.Lawful) (st st' : RunState I (Ga Mo U) Q) :
    (generationStep (ga M) env st).yields (.ok st') ↔
      GaNext M env st.algo st.population st'.algo st'.population ∧ st'.buffer = st.population.individuals ∧ st'.q = st.q ∧
        st'.shown = st.shown := by
  rw [yields_generationStep]
  constructor
  · rintro ⟨a, el, buf, pop, old, h1, h2, h3, h4, rfl⟩
    have h1 : (Ga.prepare M env.num st.algo st.population).yields (.ok a) := h1
    unfold Ga.prepare at h1
    rw [yields_bind_ok] at h1
    obtain ⟨⟨m, b⟩, g1, h1⟩ := h1
    rw [yields_pure] at h1
    cases h1
    cases h2
    obtain ⟨h5, h6⟩ := (replace_iff henv.sort _ _ _ _).1 h4
    exact ⟨⟨b, g1, rfl, rfl, rfl, buf, (generate_iff M env.num _ _ _ _ _ _).1 h3, h5⟩, h6, rfl, rfl⟩
  · rintro ⟨⟨r, h1, h2, h3, h4, members, h5, h6⟩, h7, h8, h9⟩
    obtain ⟨a', pop', buf', q', shown'⟩ := st'
    simp only at h1 h2 h3 h4 h5 h6 h7 h8 h9
    subst h7 h8 h9
    obtain ⟨m', n', e', b'⟩ := a'
    simp only at h1 h2 h3 h4 h5
    subst h2 h3 h4
    refine ⟨_, _, members, pop', st.population.individuals, ?_, rfl, (generate_iff M env.num _ _ _ _ _ _).2 h5,
      (replace_iff henv.sort _ _ _ _).2 ⟨h6, rfl⟩, rfl⟩
    show (Ga.prepare M env.num st.algo st.population).yields _
    unfold Ga.prepare
    rw [yields_bind_ok]
    exact ⟨_, h1, by rw [yields_pure]⟩

/-- **C73** (one generation of the adaptive genetic algorithm) The same with `AgaNext`. -/
theorem C73_aga_generation (M : EvoModel I Mo U) (env : Env I) (henv : env.Lawful) (st st' : RunState I (Aga Mo U) Q) :
    (generationStep (aga M) env st).yields (.ok st') ↔
      AgaNext M env st.algo st.population st'.algo st'.population ∧ st'.buffer = st.population.individuals ∧ st'.q = st.q ∧
        st'.shown = st.shown := by
  rw [yields_generationStep]
  obtain ⟨e1, e2, e3⟩ := st.algo.adjust_sizes st.population.generation st.population.stats.std
  constructor
  · rintro ⟨a, el, buf, pop, old, h1, h2, h3, h4, rfl⟩
    obtain ⟨m, b, g1, rfl⟩ := (C57_prepare M env.num st.algo a st.population).1.1 h1
    cases h2
    obtain ⟨h5, h6⟩ := (replace_iff henv.sort _ _ _ _).1 h4
    have h3 := (generate_iff M env.num _ _ _ _ _ _).1 h3
    dsimp only at h3
    rw [e1, e2] at h3
    exact ⟨⟨_, rfl, b, g1, rfl, buf, h3, h5⟩, h6, rfl, rfl⟩
  · rintro ⟨⟨b, rfl, r, h1, h2, members, h5, h6⟩, h7, h8, h9⟩
    obtain ⟨a', pop', buf', q', shown'⟩ := st'
    simp only at h1 h2 h5 h6 h7 h8 h9
    subst h7 h8 h9
    refine ⟨a', _, members, pop', st.population.individuals, (C57_prepare M env.num st.algo a' st.population).1.2 ⟨_, r, h1, h2⟩,
      rfl, ?_, (replace_iff henv.sort _ _ _ _).2 ⟨h6, rfl⟩, rfl⟩
    refine (generate_iff M env.num _ _ _ _ _ _).2 ?_
    have z1 : a'.eliteSize = st.algo.eliteSize := by rw [h2]; exact e1
    have z2 : a'.populationSize = st.algo.populationSize := by rw [h2]; exact e2
    rw [z1, z2]
    exact h5

/-- A first population: the given individuals are evaluated, and the valid ones of them are the members. -/
theorem init_iff (M : EvoModel I Mo U) (env : Env I) (henv : env.Lawful) (model : Mo) (l : List I) (pop : Population I) :
    (defaultInitialize M env model l).yields (.ok pop) ↔
      ∃ ev, List.Forall₂ (fun i e => (M.evaluate model i).yields (.ok e)) l ev ∧ Starts env.sort (ev.filter isValid) pop := by
  unfold defaultInitialize
  simp only [yields_bind_ok, yields_mapList, yields_lift]
  constructor
  · rintro ⟨ev, h1, h2⟩
    exact ⟨ev, h1, (new_iff henv.sort _ _).1 h2.symm⟩
  · rintro ⟨ev, h1, h2⟩
    exact ⟨ev, h1, ((new_iff henv.sort _ _).2 h2).symm⟩

/-- **C73** (runs of the genetic algorithm) The outcomes of `evolve_population`, looked at for at most `fuel` calls of
`progress`, are exactly the paths of `GaNext` from a first population. -/
theorem C73_ga_run (M : EvoModel I Mo U) (envs : Nat → Env I) (henv : ∀ t, (envs t).Lawful)
    (progress : Q → Population I → Prog (Bool × Q)) (fuel : Nat) (a : Ga Mo U) (init : List I) (p : GaParams) (q q' : Q)
    (fin : Bool) (a' : Ga Mo U) (pop' : Population I) (shown : List (Population I)) :
    (∃ buffer, (evolvePopulation (ga M) envs progress fuel a init p q).yields (.ok (fin, ⟨a', pop', buffer, q', shown⟩))) ↔
      ∃ a0 ev pop0, a.configure p = .ok a0 ∧
        List.Forall₂ (fun i e => (M.evaluate a0.model i).yields (.ok e)) init ev ∧
        Starts (envs 0).sort (ev.filter isValid) pop0 ∧ shown.length ≤ fuel ∧ (fin = false → shown.length = fuel) ∧
        RunPath (fun t => GaNext M (envs t)) progress 1 a0 pop0 q shown fin a' pop' q' := by
  have hloop := fun t st => loop_path (ga M) envs progress (fun t => GaNext M (envs t))
    (fun t st st' => C73_ga_generation M (envs t) (henv t) st st') fuel t st fin a' pop' q' shown
  constructor
  · rintro ⟨buf, h⟩
    obtain ⟨a0, pop0, c1, c2, c3⟩ := (yields_evolvePopulation _ _ _ _ _ _ _ _ _).1 h
    obtain ⟨ev, i1, i2⟩ := (init_iff M _ (henv 0) _ _ _).1 c2
    obtain ⟨new, rfl, k1, k2, k3⟩ := (hloop 1 _).1 ⟨buf, c3⟩
    exact ⟨a0, ev, pop0, c1, i1, i2, k1, k2, k3⟩
  · rintro ⟨a0, ev, pop0, c1, i1, i2, k1, k2, k3⟩
    obtain ⟨buf, hb⟩ := (hloop 1 ⟨a0, pop0, [], q, []⟩).2 ⟨shown, rfl, k1, k2, k3⟩
    exact ⟨buf, (yields_evolvePopulation _ _ _ _ _ _ _ _ _).2 ⟨a0, pop0, c1, (init_iff M _ (henv 0) _ _ _).2 ⟨ev, i1, i2⟩, hb⟩⟩

/-- **C73** (runs of the adaptive genetic algorithm) The same with `AgaNext`. -/
theorem C73_aga_run (M : EvoModel I Mo U) (envs : Nat → Env I) (henv : ∀ t, (envs t).Lawful)
    (progress : Q → Population I → Prog (Bool × Q)) (fuel : Nat) (a : Aga Mo U) (init : List I) (p : AgaParams) (q q' : Q)
    (fin : Bool) (a' : Aga Mo U) (pop' : Population I) (shown : List (Population I)) :
    (∃ buffer, (evolvePopulation (aga M) envs progress fuel a init p q).yields (.ok (fin, ⟨a', pop', buffer, q', shown⟩))) ↔
      ∃ a0 ev pop0, a.configure p = .ok a0 ∧
        List.Forall₂ (fun i e => (M.evaluate a0.model i).yields (.ok e)) init ev ∧
        Starts (envs 0).sort (ev.filter isValid) pop0 ∧ shown.length ≤ fuel ∧ (fin = false → shown.length = fuel) ∧
        RunPath (fun t => AgaNext M (envs t)) progress 1 a0 pop0 q shown fin a' pop' q' := by
  have hloop := fun t st => loop_path (aga M) envs progress (fun t => AgaNext M (envs t))
    (fun t st st' => C73_aga_generation M (envs t) (henv t) st st') fuel t st fin a' pop' q' shown
  constructor
  · rintro ⟨buf, h⟩
    obtain ⟨a0, pop0, c1, c2, c3⟩ := (yields_evolvePopulation _ _ _ _ _ _ _ _ _).1 h
    obtain ⟨ev, i1, i2⟩ := (init_iff M _ (henv 0) _ _ _).1 c2
    obtain ⟨new, rfl, k1, k2, k3⟩ := (hloop 1 _).1 ⟨buf, c3⟩
    exact ⟨a0, ev, pop0, c1, i1, i2, k1, k2, k3⟩
  · rintro ⟨a0, ev, pop0, c1, i1, i2, k1, k2, k3⟩
    obtain ⟨buf, hb⟩ := (hloop 1 ⟨a0, pop0, [], q, []⟩).2 ⟨shown, rfl, k1, k2, k3⟩
    exact ⟨buf, (yields_evolvePopulation _ _ _ _ _ _ _ _ _).2 ⟨a0, pop0, c1, (init_iff M _ (henv 0) _ _ _).2 ⟨ev, i1, i2⟩, hb⟩⟩

/-- **C73** (`run` and `evolve_individual`) Both extend an empty vector to the initial size, with the model as it is before
`configure`, hand the result to `evolve_population`, and return the individual at the position of the first maximum of
the last population. -/
theorem C73_result (M : EvoModel I Mo U) (alg : EvoAlgo I Mo U A P) (envs : Nat → Env I)
    (progress : Q → Population I → Prog (Bool × Q)) (fuel : Nat) (a : A) (p : P) (q : Q) (x : I) (st : RunState I A Q) :
    (∀ newRandom, (runRandom M alg envs progress fuel a newRandom p q).yields (.ok (some x, st)) ↔
      ∃ init, (M.extend (alg.model a) newRandom [] (alg.initialSize p)).yields (.ok init) ∧
        (evolvePopulation alg envs progress fuel a init p q).yields (.ok (true, st)) ∧
        st.population.individuals[st.population.stats.argMax]? = some x) ∧
    (∀ individual, (evolveIndividual M alg envs progress fuel a individual p q).yields (.ok (some x, st)) ↔
      ∃ init, (M.extendWith (alg.model a) [] (alg.initialSize p) individual).yields (.ok init) ∧
        (evolvePopulation alg envs progress fuel a init p q).yields (.ok (true, st)) ∧
        st.population.individuals[st.population.stats.argMax]? = some x) := by
  have htake : ∀ pop : Population I, pop.takeFittest = .ok x ↔ pop.individuals[pop.stats.argMax]? = some x := by
    intro pop
    unfold Population.takeFittest
    by_cases h : pop.stats.argMax < pop.individuals.length
    · obtain ⟨r, hr⟩ := Population.swapRemove_eq pop.individuals _ h
      rw [hr, List.getElem?_eq_getElem h]
      exact ⟨fun h => by cases h; rfl, fun h => by cases h; rfl⟩
    · rw [List.getElem?_eq_none (by omega)]
      unfold swapRemove
      simp [h]
  have hres : ∀ r : Bool × RunState I A Q, (takeResult r).yields (.ok (some x, st)) ↔
      r = (true, st) ∧ st.population.individuals[st.population.stats.argMax]? = some x := by
    rintro ⟨b, s⟩
    rw [yields_takeResult]
    constructor
    · rintro ⟨rfl, ⟨rfl, y, hy, e⟩ | ⟨_, e⟩⟩
      · cases e
        exact ⟨rfl, (htake _).1 hy⟩
      · cases e
    · rintro ⟨e, h⟩
      cases e
      exact ⟨rfl, Or.inl ⟨rfl, x, (htake _).2 h, rfl⟩⟩
  constructor
  · intro newRandom
    unfold runRandom
    simp only [yields_bind_ok, hres]
    constructor
    · rintro ⟨init, h1, _, h2, rfl, h3⟩; exact ⟨init, h1, h2, h3⟩
    · rintro ⟨init, h1, h2, h3⟩; exact ⟨init, h1, _, h2, rfl, h3⟩
  · intro ind
    unfold evolveIndividual
    simp only [yields_bind_ok, hres]
    constructor
    · rintro ⟨init, h1, _, h2, rfl, h3⟩; exact ⟨init, h1, h2, h3⟩
    · rintro ⟨init, h1, h2, h3⟩; exact ⟨init, h1, _, h2, rfl, h3⟩

-- a path of two generations
example : ∃ a0 a' pop0 pop' q' shown, RunPath (fun _ => GaNext numModel exFullEnv) (untilGeneration 2) 1 a0 pop0 0 shown true a' pop' q' ∧
    shown.map (fun p => (p.generation, p.individuals)) = [(0, [num 1, num 2]), (1, [num 2]), (2, [num 2, num 4])] := by
  have h : ((evolvePopulation (ga numModel) (fun _ => exFullEnv) (untilGeneration 2) 10 (Ga.ofModel ()) [num 1, num 2]
      smallParams 0).exec drawList []).1.okAnd (fun r => r.1 = true ∧
        r.2.shown.map (fun p => (p.generation, p.individuals)) = [(0, [num 1, num 2]), (1, [num 2]), (2, [num 2, num 4])]) = true := by
    decide +kernel
  obtain ⟨⟨fin, a', pop', buf, q', shown⟩, h1, h0⟩ := Res.of_okAnd h
  obtain ⟨rfl, h2⟩ := of_decide_eq_true h0
  obtain ⟨a0, ev, pop0, -, -, -, -, -, h3⟩ := (C73_ga_run numModel _ (fun _ => exFullEnv_lawful) _ _ _ _ _ _ _ _ _ _ _).1
    ⟨buf, yields_of_draws _ _ _ h1⟩
  exact ⟨a0, a', pop0, pop', q', shown, h3, h2⟩

/-! ### The law of one generation -/

section
variable {M : EvoModel I Mo U} {alg : EvoAlgo I Mo U A P} {elite size : A → Nat} {eliteOf : P → Nat}

/-- The law of one generation of a standard algorithm whose settings for it are not random. -/
theorem generation_law (hstd : Standard M alg elite size eliteOf) (env : Env I) (henv : env.Lawful) (Pr : I → Prop)
    [DecidablePred Pr] (hresp : ∀ x y : I, Individual.eq x y = true → (Pr x ↔ Pr y)) (st : RunState I A Q) (a : A)
    (hprep : alg.prepare env.num st.algo st.population = pure a)
    (hel : ∀ x ∈ st.population.individuals.drop (st.population.individuals.length - elite a), Pr x)
    (hm : min (elite a) st.population.individuals.length + 2 ≤ size a) :
    (generationStep alg env st).prob (fun st' => ∀ x ∈ st'.population.individuals, Pr x) =
      (M.breed env.num (alg.model a) st.population (alg.repro a).1).prob Pr ^
        (size a - min (elite a) st.population.individuals.length) := by
  unfold generationStep
  rw [hprep]
  simp only [Prog.bind_pure_left]
  rw [hstd.elites, takeElites_eq, List.nil_append]
  obtain ⟨r, n, hr⟩ : ∃ r n, alg.repro a = (r, n) := ⟨_, _, rfl⟩
  have hn : n = size a := by rw [← hstd.bred a, hr]
  set el := st.population.individuals.drop (st.population.individuals.length - elite a) with hdef
  have hlen : el.length = min (elite a) st.population.individuals.length := by rw [hdef, List.length_drop]; omega
  have hgen : alg.generate env.num a st.population el =
      (replicate (n - el.length) (M.breed env.num (alg.model a) st.population r) >>= fun new => pure (el ++ new)) := by
    rw [hstd.generate, hr]
    unfold defaultGenerate
    simp only
    obtain ⟨k, hk⟩ : ∃ k, n - el.length = k + 2 := ⟨n - el.length - 2, by omega⟩
    rw [hk]
    rfl
  simp only [Prog.lift_ok, Prog.bind_pure_left]
  rw [hgen]
  simp only [bind_assoc, Prog.bind_pure_left]
  rw [hr, ← hlen, ← hn, ← prob_replicate_all]
  have key : ∀ new, (replicate (n - el.length) (M.breed env.num (alg.model a) st.population r)).yields (.ok new) →
      ∃ pop old, alg.replace env a st.population (el ++ new) = .ok (pop, old) ∧ ((∀ x ∈ pop.individuals, Pr x) ↔ ∀ x ∈ new, Pr x) := by
    intro new hnew
    have hne : el ++ new ≠ [] := by
      obtain ⟨hl, -⟩ := (yields_replicate _ _ _).1 hnew
      intro h
      have := congrArg List.length h
      rw [List.length_append, hl, List.length_nil] at this
      omega
    rw [hstd.replace]
    unfold defaultReplace
    rw [Population.replace_eq henv.sort, if_neg hne]
    refine ⟨_, _, rfl, ?_⟩
    show (∀ x ∈ dedup (env.sort (el ++ new)), Pr x) ↔ _
    constructor
    · intro h x hx
      rcases dedup_covers (env.sort (el ++ new)) x ((henv.sort.perm _).mem_iff.2 (List.mem_append_right _ hx)) with hx | ⟨y, hy, e⟩
      · exact h x hx
      · exact (hresp x y e).2 (h y hy)
    · intro h x hx
      rcases List.mem_append.1 (mem_dedup_sort henv.sort hx) with hx | hx
      · exact hel x hx
      · exact h x hx
  rw [prob_bind_mul _ _ _ (fun new => ∀ x ∈ new, Pr x) 1, mul_one]
  · intro new hnew hall
    obtain ⟨pop, old, e, hiff⟩ := key new hnew
    rw [e]
    simp only [Prog.lift_ok, Prog.bind_pure_left, prob_pure]
    exact if_pos (hiff.2 hall)
  · intro new hnew hall
    obtain ⟨pop, old, e, hiff⟩ := key new hnew
    rw [e]
    simp only [Prog.lift_ok, Prog.bind_pure_left, prob_pure]
    exact if_neg fun h => hall (hiff.1 h)

end

/-- **C73** (the law of one generation of the genetic algorithm) With the default `pre_generation`: if the elites have a
property that does not distinguish individuals that compare equal, and at least two individuals are missing, then all
members of the next generation have the property with probability `q ^ missing`, where `q` is the probability that
`breed`, called with the given rates and the *prepared* selector, returns an individual with the property. -/
theorem C73_ga_law (M : EvoModel I Mo U) (hpre : ∀ m p b, M.preGeneration m p b = pure (m, b)) (env : Env I)
    (henv : env.Lawful) (Pr : I → Prop) [DecidablePred Pr] (hresp : ∀ x y : I, Individual.eq x y = true → (Pr x ↔ Pr y))
    (st : RunState I (Ga Mo U) Q) (elites : List I) (hsuf : elites <:+ st.population.individuals)
    (hnum : elites.length = min st.algo.eliteSize st.population.individuals.length) (hel : ∀ x ∈ elites, Pr x)
    (hm : elites.length + 2 ≤ st.algo.populationSize) :
    (generationStep (ga M) env st).prob (fun st' => ∀ x ∈ st'.population.individuals, Pr x) =
      (M.breed env.num st.algo.model st.population ⟨st.algo.breeding.crossoverRate, st.algo.breeding.mutationRate,
        st.algo.breeding.parentSelector.prepare env.num M.selectors st.population⟩).prob Pr ^
        (st.algo.populationSize - elites.length) := by
  have hp : (ga M).prepare env.num st.algo st.population = pure { st.algo with breeding := ⟨st.algo.breeding.crossoverRate,
      st.algo.breeding.mutationRate, st.algo.breeding.parentSelector.prepare env.num M.selectors st.population⟩ } := by
    show Ga.prepare M env.num st.algo st.population = _
    unfold Ga.prepare
    rw [hpre, bind_pure_left]
  rw [hnum] at hm ⊢
  rw [(suffix_iff _ _ _).1 ⟨hsuf, hnum⟩] at hel
  exact generation_law (ga_standard M) env henv Pr hresp st _ hp hel hm

/-- **C73** (the law of one generation of the adaptive genetic algorithm) The same with the adjusted rates. -/
theorem C73_aga_law (M : EvoModel I Mo U) (hpre : ∀ m p b, M.preGeneration m p b = pure (m, b)) (env : Env I)
    (henv : env.Lawful) (Pr : I → Prop) [DecidablePred Pr] (hresp : ∀ x y : I, Individual.eq x y = true → (Pr x ↔ Pr y))
    (st : RunState I (Aga Mo U) Q) (elites : List I) (hsuf : elites <:+ st.population.individuals)
    (hnum : elites.length = min st.algo.eliteSize st.population.individuals.length) (hel : ∀ x ∈ elites, Pr x)
    (hm : elites.length + 2 ≤ st.algo.populationSize) (b : Aga Mo U)
    (hb : b = st.algo.adjust st.population.generation st.population.stats.std) :
    (generationStep (aga M) env st).prob (fun st' => ∀ x ∈ st'.population.individuals, Pr x) =
      (M.breed env.num st.algo.model st.population ⟨b.breeding.crossoverRate, b.breeding.mutationRate,
        b.breeding.parentSelector.prepare env.num M.selectors st.population⟩).prob Pr ^
        (st.algo.populationSize - elites.length) := by
  obtain ⟨e1, e2, e3⟩ := st.algo.adjust_sizes st.population.generation st.population.stats.std
  rw [← hb] at e1 e2 e3
  have hp : (aga M).prepare env.num st.algo st.population = pure { b with breeding := ⟨b.breeding.crossoverRate,
      b.breeding.mutationRate, b.breeding.parentSelector.prepare env.num M.selectors st.population⟩ } := by
    show Aga.prepare M env.num st.algo st.population = _
    unfold Aga.prepare
    dsimp only
    rw [hpre, bind_pure_left, hb]
  rw [hnum] at hm ⊢
  rw [(suffix_iff _ _ _).1 ⟨hsuf, hnum⟩] at hel
  rw [← e1] at hel hm ⊢
  rw [← e2] at hm ⊢
  rw [← e3]
  exact generation_law (aga_standard M) env henv Pr hresp st _ hp hel hm

-- four individuals, one elite, three bred ones, and the property of having at least the fitness 2
example (q : Unit) (sel : DynSel Empty) :
    let st : RunState Num (Ga Unit Empty) Unit := ⟨⟨(), 4, 1, ⟨F64.lit (1 / 2), F64.lit (1 / 4), sel⟩⟩, numPop, [], q, []⟩
    (generationStep (ga guessModel) exFullEnv st).prob (fun st' => ∀ x ∈ st'.population.individuals,
        (F64.lit 2).le (fitness x) = true) =
      (guessModel.breed exFullEnv.num () numPop ⟨F64.lit (1 / 2), F64.lit (1 / 4),
        sel.prepare exFullEnv.num guessModel.selectors numPop⟩).prob (fun x => (F64.lit 2).le (fitness x) = true) ^ 3 := by
  refine C73_ga_law guessModel (fun _ _ _ => rfl) exFullEnv exFullEnv_lawful _ (fun x y h => ?_) _ [num 5] ?_ ?_ ?_ ?_
  · have hxy := F64.le_of_feq (num_eqFitness x y h)
    have hyx : (fitness y).le (fitness x) = true := F64.le_of_feq (by
      have := num_eqFitness x y h
      rw [F64.feq_iff] at this ⊢
      exact ⟨this.2.1, this.1, this.2.2.symm⟩)
    exact ⟨fun h => F64.le_trans h hxy, fun h => F64.le_trans h hyx⟩
  · exact ⟨[num 1, num 2], rfl⟩
  · rfl
  · intro x hx
    rw [List.mem_singleton.1 hx]
    decide +kernel
  · show 1 + 2 ≤ 4
    norm_num

end RG.Props
