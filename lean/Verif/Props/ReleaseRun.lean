import Verif.ReleaseRun
import Verif.ProgSame
import Verif.Props.Release
import Verif.Props.OneMaxRandom

/-!
# Property C113: whole runs in both kinds of build

With fewer than `2^32` individuals and fewer than `2^64` generations, a run makes the same draws and has the same outcome in a build with
overflow checks, in a release build, and in the model of the rest of this project, which counts generations without bound.
-/

set_option linter.unusedSectionVars false

namespace RG.Props
open RG RG.Prog
variable {I : Type} [Individual I] {Mo U A P Q : Type}

theorem build_succ (b : Build) {n : Nat} (h : n + 1 < 2 ^ 64) : b.succ n = .ok (n + 1) := by
  cases b
  · show usizeAdd n 1 = _
    unfold usizeAdd; rw [if_pos h]
  · show Res.ok (wrapAdd n 1) = _
    rw [wrapAdd_of_lt h]

theorem build_interpolate (b : Build) {n : Nat} (hn : n < 2 ^ 64) (r : F64) : b.interpolate 0 n r = interpolateUsize 0 n r := by
  cases b
  · rfl
  · exact (C76_interpolate 0 n (Nat.zero_le _) hn r).symm

theorem build_selectBuiltin (b : Build) (env : NumEnv) (p : Population I) (hp : p.len < 2 ^ 32) (s : Selector) :
    b.selectBuiltin env p s = s.select env p := by
  cases b
  · rfl
  · exact C76_select env p hp s

/-- **C113** Breeding from fewer than `2^32` individuals is the same program in both builds. -/
theorem C113_breed (b : Build) (M : EvoOps I Mo U) (env : NumEnv) (model : Mo) (p : Population I) (hp : p.len < 2 ^ 32)
    (r : ReproParams U) : b.breed M env model p r = defaultBreed M env model p r := by
  have h1 : b.select env M.selectors p r.parentSelector = r.parentSelector.select env M.selectors p := by
    cases r.parentSelector with
    | builtin s => exact build_selectBuiltin b env p hp s
    | custom u => rfl
  have h2 : ∀ x, b.selectDistinct env M.selectors p 3 x r.parentSelector = r.parentSelector.selectDistinct env M.selectors p 3 x := by
    intro x
    cases r.parentSelector with
    | builtin s =>
      show RG.selectDistinct (b.selectBuiltin env p s) x 3 = RG.selectDistinct (s.select env p) x 3
      rw [build_selectBuiltin b env p hp s]
    | custom u => rfl
  unfold Build.breed defaultBreed
  rw [h1]
  simp only [h2]
  rfl

/-- **C113** So is replacing a population whose counters do not overflow. -/
theorem C113_replace (b : Build) (sort : List I → List I) (p : Population I) (l : List I) (hg : p.generation + 1 < 2 ^ 64)
    (hs : p.stagnation + 1 < 2 ^ 64) : b.replace sort p l = p.replace sort l := by
  unfold Build.replace Population.replace
  simp only [build_succ b hg, build_succ b hs]
  cases sortDedupCollect sort l with
  | ok x =>
    obtain ⟨xs, st⟩ := x
    simp only [Res.bind_ok]
    split <;> rfl
  | panic => rfl
  | diverge => rfl

/-- What a build must share with the algorithm of the model. -/
structure SameBuild (alg alg' : EvoAlgo I Mo U A P) : Prop where
  configure : ∀ a p, alg.initialSize p < 2 ^ 32 → alg'.configure a p = alg.configure a p
  init : ∀ env a l, alg'.initPopulation env a l = alg.initPopulation env a l
  elites : ∀ a p l, alg'.selectElites a p l = alg.selectElites a p l
  prepare : ∀ env a p, alg'.prepare env a p = alg.prepare env a p
  generate : ∀ env a p l, p.len < 2 ^ 32 → alg'.generate env a p l = alg.generate env a p l
  replace : ∀ env a p l, p.generation + 1 < 2 ^ 64 → p.stagnation + 1 < 2 ^ 64 → alg'.replace env a p l = alg.replace env a p l

section
variable {M : EvoModel I Mo U} {alg alg' : EvoAlgo I Mo U A P} {elite size : A → Nat} {eliteOf : P → Nat}

theorem step_same (h : SameBuild alg alg') (env : Env I) (st : RunState I A Q) (hl : st.population.len < 2 ^ 32)
    (hg : st.population.generation + 1 < 2 ^ 64) (hs : st.population.stagnation + 1 < 2 ^ 64) :
    generationStep alg' env st = generationStep alg env st := by
  unfold generationStep
  simp only [h.prepare, h.elites, h.generate _ _ _ _ hl, h.replace _ _ _ _ hg hs]

theorem loop_same (hstd : Standard M alg elite size eliteOf) (h : SameBuild alg alg') (envs : Nat → Env I)
    (henv : ∀ t, (envs t).Lawful) (progress : Q → Population I → Prog (Bool × Q)) (fuel t : Nat) (st : RunState I A Q)
    (hl : st.population.len < 2 ^ 32) (hsz : size st.algo < 2 ^ 32) (hel : elite st.algo ≤ size st.algo)
    (hsg : st.population.stagnation ≤ st.population.generation) (hf : st.population.generation + fuel < 2 ^ 64) :
    (evolveLoop alg envs progress fuel t st).Same (evolveLoop alg' envs progress fuel t st) := by
  induction fuel generalizing t st with
  | zero => exact Same.refl _
  | succ fuel ih =>
    rw [evolveLoop, evolveLoop]
    refine Same.bind_right _ fun ⟨cont, q'⟩ _ => ?_
    cases cont
    · exact Same.refl _
    · simp only [if_true]
      rw [step_same h (envs t) { st with q := q', shown := st.shown ++ [st.population] } hl (by show st.population.generation + 1 < _; omega)
        (by show st.population.stagnation + 1 < _; omega)]
      refine Same.bind_right _ fun st1 hs1 => ?_
      have hstep := hstd.step (henv t) hs1
      have hgen : st1.population.generation = st.population.generation + 1 := hstep.generation
      have hstag : st1.population.stagnation ≤ st.population.stagnation + 1 := by
        rw [hstep.stagnation]
        split
        · exact Nat.zero_le _
        · exact le_refl _
      have he : elite st1.algo = elite st.algo := hstep.eliteEq
      have hz : size st1.algo = size st.algo := hstep.sizeEq
      obtain ⟨new, m1, -, m3⟩ := hstep.made
      refine ih (t + 1) st1 ?_ (by omega) (by omega) (by omega) (by omega)
      show st1.population.individuals.length < _
      rw [m1]
      exact ((length_dedup_sort (henv t).sort _).trans (m3 hel)).trans_lt hsz

theorem run_same (hstd : Standard M alg elite size eliteOf) (h : SameBuild alg alg') (envs : Nat → Env I)
    (henv : ∀ t, (envs t).Lawful) (progress : Q → Population I → Prog (Bool × Q)) (fuel : Nat) (hf : fuel < 2 ^ 64) (a : A)
    (init : List I) (hl : init.length < 2 ^ 32) (p : P) (hp : alg.initialSize p < 2 ^ 32) (q : Q) :
    (evolvePopulation alg envs progress fuel a init p q).Same (evolvePopulation alg' envs progress fuel a init p q) := by
  unfold evolvePopulation
  rw [h.configure a p hp]
  refine Same.bind_right _ fun a' ha' => ?_
  have ha' : alg.configure a p = .ok a' := ((yields_lift _ _).1 ha').symm
  obtain ⟨-, s1, s2, s3⟩ := hstd.configure _ _ _ ha' (hp.le.trans (by norm_num))
  rw [h.init]
  refine Same.bind_right _ fun pop hpop => ?_
  rw [hstd.init] at hpop
  obtain ⟨-, g1, g2, g3, -⟩ := init_wf (henv 0) hpop
  refine loop_same hstd h envs henv progress fuel 1 _ (g3.trans_lt hl) (by rw [s1]; exact hp) (by rw [s1, s2]; exact s3.le)
    (by show pop.stagnation ≤ pop.generation; omega) (by show pop.generation + fuel < _; omega)

end

theorem generate_same (b : Build) (M : EvoModel I Mo U) (hM : M.breed = defaultBreed M.toEvoOps) (env : NumEnv) (model : Mo)
    (r : ReproParams U × Nat) (p : Population I) (hp : p.len < 2 ^ 32) (l : List I) :
    defaultGenerate (b.model M) env model r p l = defaultGenerate M env model r p l := by
  have e : ∀ r, (b.model M).breed env model p r = M.breed env model p r := fun r => by
    rw [hM]; exact C113_breed b M.toEvoOps env model p hp r
  unfold defaultGenerate
  simp only [e]

theorem ga_sameBuild (b : Build) (M : EvoModel I Mo U) (hM : M.breed = defaultBreed M.toEvoOps) : SameBuild (ga M) (b.ga M) where
  configure a p hp := by
    show b.configureGa a p = a.configure p
    unfold Build.configureGa Ga.configure
    have hp : p.populationSize < 2 ^ 32 := hp
    rw [build_interpolate b (lt_trans hp (by norm_num))]
  init _ _ _ := rfl
  elites _ _ _ := rfl
  prepare _ _ _ := rfl
  generate env a p l hp := generate_same b M hM env a.model (a.breeding, a.populationSize) p hp l
  replace env _ p l hg hs := C113_replace b env.sort p l hg hs

theorem aga_sameBuild (b : Build) (M : EvoModel I Mo U) (hM : M.breed = defaultBreed M.toEvoOps) : SameBuild (aga M) (b.aga M) where
  configure a p hp := by
    show b.configureAga a p = a.configure p
    unfold Build.configureAga Aga.configure
    have hp : p.populationSize < 2 ^ 32 := hp
    rw [build_interpolate b (lt_trans hp (by norm_num))]
  init _ _ _ := rfl
  elites _ _ _ := rfl
  prepare _ _ _ := rfl
  generate env a p l hp := generate_same b M hM env a.model (a.breeding, a.populationSize) p hp l
  replace env _ p l hg hs := C113_replace b env.sort p l hg hs

/-- **C113** `evolve_population` of the genetic algorithm in either build: the same draws and the same outcome, whatever the model's
operators and `progress` do, for fewer than `2^32` individuals and `2^64` calls of `progress`. -/
theorem C113_ga (b : Build) (M : EvoModel I Mo U) (hM : M.breed = defaultBreed M.toEvoOps) (envs : Nat → Env I)
    (henv : ∀ t, (envs t).Lawful) (progress : Q → Population I → Prog (Bool × Q)) (fuel : Nat) (hf : fuel < 2 ^ 64) (a : Ga Mo U)
    (init : List I) (hl : init.length < 2 ^ 32) (p : GaParams) (hp : p.populationSize < 2 ^ 32) (q : Q) :
    (evolvePopulation (ga M) envs progress fuel a init p q).Same (evolvePopulation (b.ga M) envs progress fuel a init p q) :=
  run_same (ga_standard M) (ga_sameBuild b M hM) envs henv progress fuel hf a init hl p hp q

/-- **C113** The same for the adaptive genetic algorithm. -/
theorem C113_aga (b : Build) (M : EvoModel I Mo U) (hM : M.breed = defaultBreed M.toEvoOps) (envs : Nat → Env I)
    (henv : ∀ t, (envs t).Lawful) (progress : Q → Population I → Prog (Bool × Q)) (fuel : Nat) (hf : fuel < 2 ^ 64) (a : Aga Mo U)
    (init : List I) (hl : init.length < 2 ^ 32) (p : AgaParams) (hp : p.populationSize < 2 ^ 32) (q : Q) :
    (evolvePopulation (aga M) envs progress fuel a init p q).Same (evolvePopulation (b.aga M) envs progress fuel a init p q) :=
  run_same (aga_standard M) (aga_sameBuild b M hM) envs henv progress fuel hf a init hl p hp q

theorem extend_length (newRandom : Prog I) (n : Nat) (l : List I) (h : (defaultExtend newRandom [] n).yields (.ok l)) : l.length = n := by
  unfold defaultExtend at h
  split at h
  · rename_i h0
    cases (yields_pure _ _).1 h
    rw [h0]; rfl
  · obtain ⟨new, h1, h2⟩ := (yields_bind_ok _ _ _).1 h
    cases (yields_pure _ _).1 h2
    rw [List.nil_append]
    exact ((yields_replicate _ _ _).1 h1).1

/-- **C113** `run` of both algorithms, on models with the default `extend_population`. -/
theorem C113_run (b : Build) (M : EvoModel I Mo U) (hM : M.breed = defaultBreed M.toEvoOps) (hx : M.extend = fun _ => defaultExtend)
    (envs : Nat → Env I) (henv : ∀ t, (envs t).Lawful) (progress : Q → Population I → Prog (Bool × Q)) (fuel : Nat) (hf : fuel < 2 ^ 64)
    (newRandom : Prog I) (q : Q) :
    (∀ (a : Ga Mo U) (p : GaParams), p.populationSize < 2 ^ 32 →
      (runRandom M (ga M) envs progress fuel a newRandom p q).Same (runRandom (b.model M) (b.ga M) envs progress fuel a newRandom p q)) ∧
    ∀ (a : Aga Mo U) (p : AgaParams), p.populationSize < 2 ^ 32 →
      (runRandom M (aga M) envs progress fuel a newRandom p q).Same (runRandom (b.model M) (b.aga M) envs progress fuel a newRandom p q) := by
  constructor
  · intro a p hp
    refine Same.bind_right (M.extend a.model newRandom [] p.populationSize) fun init hi => ?_
    rw [hx] at hi
    exact (C113_ga b M hM envs henv progress fuel hf a init (by rw [extend_length _ _ _ hi]; exact hp) p hp q).bind fun _ _ => Same.refl _
  · intro a p hp
    refine Same.bind_right (M.extend a.model newRandom [] p.populationSize) fun init hi => ?_
    rw [hx] at hi
    exact (C113_aga b M hM envs henv progress fuel hf a init (by rw [extend_length _ _ _ hi]; exact hp) p hp q).bind fun _ _ => Same.refl _

theorem extendWith_length (M : EvoOps I Mo U) (model : Mo) (n : Nat) (x : I) (l : List I)
    (h : (defaultExtendWith M model [] n x).yields (.ok l)) : l.length = n := by
  unfold defaultExtendWith at h
  split at h
  · rename_i h0
    cases (yields_pure _ _).1 h
    rw [h0]; rfl
  · dsimp only at h
    split at h
    · rename_i h1
      cases (yields_pure _ _).1 h
      rw [h1]; rfl
    · obtain ⟨m, h1, h2⟩ := (yields_bind_ok _ _ _).1 h
      have h1 := (yields_lift _ _).1 h1
      unfold usizeSub at h1
      rw [if_pos (by omega)] at h1
      cases h1
      obtain ⟨new, h3, h4⟩ := (yields_bind_ok _ _ _).1 h2
      cases (yields_pure _ _).1 h4
      have := ((yields_replicate _ _ _).1 h3).1
      simp only [List.nil_append, List.singleton_append, List.length_cons]
      omega

/-- **C113** `evolve_individual` of both algorithms, on models with the default `extend_population_with`. -/
theorem C113_evolve_individual (b : Build) (M : EvoModel I Mo U) (hM : M.breed = defaultBreed M.toEvoOps)
    (hx : M.extendWith = defaultExtendWith M.toEvoOps) (envs : Nat → Env I) (henv : ∀ t, (envs t).Lawful)
    (progress : Q → Population I → Prog (Bool × Q)) (fuel : Nat) (hf : fuel < 2 ^ 64) (x : I) (q : Q) :
    (∀ (a : Ga Mo U) (p : GaParams), p.populationSize < 2 ^ 32 →
      (evolveIndividual M (ga M) envs progress fuel a x p q).Same (evolveIndividual (b.model M) (b.ga M) envs progress fuel a x p q)) ∧
    ∀ (a : Aga Mo U) (p : AgaParams), p.populationSize < 2 ^ 32 →
      (evolveIndividual M (aga M) envs progress fuel a x p q).Same (evolveIndividual (b.model M) (b.aga M) envs progress fuel a x p q) := by
  constructor
  · intro a p hp
    refine Same.bind_right (M.extendWith a.model [] p.populationSize x) fun init hi => ?_
    rw [hx] at hi
    exact (C113_ga b M hM envs henv progress fuel hf a init (by rw [extendWith_length _ _ _ _ _ hi]; exact hp) p hp q).bind
      fun _ _ => Same.refl _
  · intro a p hp
    refine Same.bind_right (M.extendWith a.model [] p.populationSize x) fun init hi => ?_
    rw [hx] at hi
    exact (C113_aga b M hM envs henv progress fuel hf a init (by rw [extendWith_length _ _ _ _ _ hi]; exact hp) p hp q).bind
      fun _ _ => Same.refl _

/-- **C113** So anything with a probability has the same probability in both builds. -/
theorem C113_prob (M : EvoModel I Mo U) (hM : M.breed = defaultBreed M.toEvoOps) (envs : Nat → Env I)
    (henv : ∀ t, (envs t).Lawful) (progress : Q → Population I → Prog (Bool × Q)) (fuel : Nat) (hf : fuel < 2 ^ 64) (a : Ga Mo U)
    (init : List I) (hl : init.length < 2 ^ 32) (p : GaParams) (hp : p.populationSize < 2 ^ 32) (q : Q)
    (R : Bool × RunState I (Ga Mo U) Q → Prop) [DecidablePred R] :
    (evolvePopulation (Build.release.ga M) envs progress fuel a init p q).prob R =
      (evolvePopulation (Build.checked.ga M) envs progress fuel a init p q).prob R :=
  ((C113_ga .release M hM envs henv progress fuel hf a init hl p hp q).symm.trans
    (C113_ga .checked M hM envs henv progress fuel hf a init hl p hp q)).expect _

/-- **C113** The bound on the generations is needed: at generation `2^64 - 1` a checked build panics, and a release build goes on at
generation 0, at which the adaptive algorithm starts anew with its reference spread and rates. -/
theorem C113_overflow_counterexample (sort : List I → List I) (p : Population I) (hg : p.generation = 2 ^ 64 - 1) (l : List I)
    (p' : Population I) (old : List I) (h : p.replace sort l = .ok (p', old)) :
    Build.checked.replace sort p l = .panic ∧ p'.generation = 2 ^ 64 ∧
    (∃ p'', Build.release.replace sort p l = .ok (p'', old) ∧ p''.generation = 0 ∧ p''.individuals = p'.individuals) ∧
    ∀ (a : Aga Mo U) (std : F64), (a.adjust 0 std).referenceStd = std := by
  unfold Population.replace at h
  unfold Build.replace
  cases hc : sortDedupCollect sort l with
  | ok x =>
    obtain ⟨xs, st⟩ := x
    rw [hc] at h
    cases h
    have hc' : Build.checked.succ p.generation = .panic := by
      show usizeAdd _ _ = _
      rw [hg]; decide +kernel
    have hr' : Build.release.succ p.generation = .ok 0 := by
      show Res.ok (wrapAdd _ _) = _
      rw [hg]; decide +kernel
    refine ⟨?_, by show p.generation + 1 = _; rw [hg]; norm_num, ?_, fun a std => rfl⟩
    · simp only [Res.bind_ok, hc']; rfl
    · simp only [Res.bind_ok, hr']
      split
      · exact ⟨_, rfl, rfl, rfl⟩
      · exact ⟨_, rfl, rfl, rfl⟩
  | panic => rw [hc] at h; cases h
  | diverge => rw [hc] at h; cases h

/-- OneMax with the documented parameters meets the hypotheses. -/
example (k : Nat) (hk : k < 2 ^ 64) :
    (runRandom OneMax.model (ga OneMax.model) (fun _ => oneEnv) untilSolved k (Ga.ofModel ()) (OneMax.newRandom 100) docParams ()).Same
      (runRandom (Build.release.model OneMax.model) (Build.release.ga OneMax.model) (fun _ => oneEnv) untilSolved k (Ga.ofModel ())
        (OneMax.newRandom 100) docParams ()) :=
  (C113_run .release OneMax.model rfl rfl (fun _ => oneEnv) (fun _ => oneEnv_lawful) untilSolved k hk (OneMax.newRandom 100) ()).1 _ _
    (by norm_num [docParams, GaParams.default])

/-- A population at the last generation, replaced by one individual. -/
example : (Population.replace refSort ⟨[OneMax.ofGenome [true]], 2 ^ 64 - 1, 0, ⟨Stats.collect [F64.one]⟩⟩ [OneMax.ofGenome [false]]).okAnd
    (fun r => r.1.generation = 2 ^ 64) = true := by decide +kernel

end RG.Props
