import Verif.Proofs.Calls
import Verif.Props.Convergence

/-!
# C115: how often a run calls the user's methods

`M.counting op` is the model with a mark at every call of the method `op` (`Calls.lean`); `p.spends r c` says that some sequence
of draws makes `p` end with outcome `r` after `c` marks, that is, after `c` calls of `op`. The calls are those of the default
`breed` (`model.rs:144-185`), `initialize_population` (`algorithms.rs:165-175`), `generate_new_population`
(`algorithms.rs:211-232`), `prepare_for_next_population` (`ga.rs:178-181`, `aga.rs:198-224`), and `extend_population_with`
(`model.rs:264-287`).
-/

set_option linter.unusedSectionVars false

namespace RG.Props
open RG RG.Prog
variable {I : Type} [Individual I] {Mo U A P Q : Type}

/-- **C115** (counting changes nothing) The marks leave the probability of every outcome of a run of the genetic algorithm as it is. -/
theorem C115_same_ga (op : Method) (M : EvoModel I Mo U) (hM : M.breed = defaultBreed M.toEvoOps) (envs : Nat → Env I)
    (progress : Q → Population I → Prog (Bool × Q)) (fuel : Nat) (a : Ga Mo U) (init : List I) (p : GaParams) (q : Q)
    (g : Res (Bool × RunState I (Ga Mo U) Q) → ℚ) :
    (evolvePopulation (ga (M.counting op)) envs progress fuel a init p q).expect g =
      (evolvePopulation (ga M) envs progress fuel a init p q).expect g :=
  run_law (ga_sameAlgo op M hM) envs progress fuel a init p q g

/-- **C115** (counting changes nothing) The same for the adaptive genetic algorithm. -/
theorem C115_same_aga (op : Method) (M : EvoModel I Mo U) (hM : M.breed = defaultBreed M.toEvoOps) (envs : Nat → Env I)
    (progress : Q → Population I → Prog (Bool × Q)) (fuel : Nat) (a : Aga Mo U) (init : List I) (p : AgaParams) (q : Q)
    (g : Res (Bool × RunState I (Aga Mo U) Q) → ℚ) :
    (evolvePopulation (aga (M.counting op)) envs progress fuel a init p q).expect g =
      (evolvePopulation (aga M) envs progress fuel a init p q).expect g :=
  run_law (aga_sameAlgo op M hM) envs progress fuel a init p q g

/-- **C115** (every outcome is counted) A program has an outcome exactly if it has it after some number of marks. -/
theorem C115_counted {α : Type} (p : Prog α) (r : Res α) : p.yields r ↔ ∃ c, p.spends r c :=
  ⟨spends_of_yields, fun ⟨_, h⟩ => yields_of_spends h⟩

/-- **C115** (breeding) To breed one individual takes exactly one `improve` and one `evaluate`, at most one `crossover`, one
`mutate` and one `can_survive`, and no `pre_generation`. -/
theorem C115_breed (op : Method) {M : EvoOps I Mo U} (hM : M.Unmarked) (env : NumEnv) (model : Mo) (p : Population I)
    (hp : p.len ≤ 2 ^ 64) (r : ReproParams U) {x : I} {c : Nat}
    (h : (defaultBreed (M.counting op) env model p r).spends (.ok x) c) :
    (op = .improve ∨ op = .evaluate → c = 1) ∧ (op = .preGeneration → c = 0) ∧ c ≤ 1 := by
  obtain ⟨h1, h2⟩ := breed_spent op hM env model p hp r x c h
  cases op <;> simp [Method.least, Method.most] at * <;> omega

/-- **C115** (a generation) Breeding up to `n` individuals when `offspring` already holds some takes one `improve` and one
`evaluate` for each missing one. That includes the case of exactly one missing individual, which is bred and dropped. -/
theorem C115_generate (op : Method) {M : EvoModel I Mo U} (hM : M.toEvoOps.Unmarked) (env : NumEnv) (model : Mo)
    (p : Population I) (hp : p.len ≤ 2 ^ 64) (r : ReproParams U) (n : Nat) (offspring : List I) {l : List I} {c : Nat}
    (h : (defaultGenerate (M.counting op) env model (r, n) p offspring).spends (.ok l) c) :
    (op = .improve ∨ op = .evaluate → c = n - offspring.length) ∧ (op = .preGeneration → c = 0) ∧ c ≤ n - offspring.length := by
  obtain ⟨h1, h2⟩ := generate_spent op hM env model p hp (r, n) offspring l c h
  cases op <;> simp [Method.least, Method.most] at * <;> omega

private theorem sum_inGeneration (op : Method) (each N E : Nat) (l : List (Population I)) :
    (l.map fun pop => op.inGeneration each (N - min E pop.len)).sum =
      (if op = .preGeneration then l.length else 0) + (l.map (missing N E)).sum * each := by
  induction l with
  | nil => simp
  | cons p l ih =>
    rw [List.map_cons, List.map_cons, List.sum_cons, List.sum_cons, ih, List.length_cons, Nat.add_mul]
    unfold Method.inGeneration missing
    split <;> omega

private theorem calls_of_bounds {op : Method} {n N E c : Nat} {l : List (Population I)}
    (h : (if op = .evaluate then n else 0) + (l.map fun pop => op.inGeneration op.least (N - min E pop.len)).sum ≤ c ∧
      c ≤ (if op = .evaluate then n else 0) + (l.map fun pop => op.inGeneration op.most (N - min E pop.len)).sum) :
    (op = .evaluate → c = n + (l.map (missing N E)).sum) ∧ (op = .improve → c = (l.map (missing N E)).sum) ∧
      (op = .preGeneration → c = l.length) ∧
      (op = .crossover ∨ op = .mutate ∨ op = .canSurvive → c ≤ (l.map (missing N E)).sum) := by
  rw [sum_inGeneration, sum_inGeneration] at h
  cases op <;> simp [Method.least, Method.most] at * <;> omega

/-- **C115** (a run of the genetic algorithm) Over the whole run, `evaluate` is called once for every initial individual and once
for every individual bred; `improve` once for every individual bred; `pre_generation` once for every generation; `crossover`,
`mutate` and `can_survive` at most once for every individual bred. The number bred for a generation is the population size less
the elites, of which there are as many as configured or as there are individuals. -/
theorem C115_ga (op : Method) {M : EvoModel I Mo U} (hM : M.toEvoOps.Unmarked) (envs : Nat → Env I) (henv : ∀ t, (envs t).Lawful)
    (progress : Q → Population I → Prog (Bool × Q)) (hq : ∀ q p, (progress q p).Unmarked) (fuel : Nat) (a : Ga Mo U)
    (init : List I) (hl : init.length ≤ 2 ^ 64) (p : GaParams) (hp : p.populationSize ≤ 2 ^ 53) (q : Q) {fin : Bool}
    {st : RunState I (Ga Mo U) Q} {c : Nat}
    (h : (evolvePopulation (ga (M.counting op)) envs progress fuel a init p q).spends (.ok (fin, st)) c) :
    let bred := bredInRun p.populationSize (eliteCount p.populationSize p.elitismRate) fin st.shown
    (op = .evaluate → c = init.length + bred) ∧ (op = .improve → c = bred) ∧
      (op = .preGeneration → c = (bredFrom fin st.shown).length) ∧
      (op = .crossover ∨ op = .mutate ∨ op = .canSurvive → c ≤ bred) :=
  calls_of_bounds (run_spent hM (ga_standard _) (ga_counted op hM) envs henv progress hq fuel a init hl p hp q (fin, st) c h)

/-- **C115** (a run of the adaptive genetic algorithm) The same. -/
theorem C115_aga (op : Method) {M : EvoModel I Mo U} (hM : M.toEvoOps.Unmarked) (envs : Nat → Env I) (henv : ∀ t, (envs t).Lawful)
    (progress : Q → Population I → Prog (Bool × Q)) (hq : ∀ q p, (progress q p).Unmarked) (fuel : Nat) (a : Aga Mo U)
    (init : List I) (hl : init.length ≤ 2 ^ 64) (p : AgaParams) (hp : p.populationSize ≤ 2 ^ 53) (q : Q) {fin : Bool}
    {st : RunState I (Aga Mo U) Q} {c : Nat}
    (h : (evolvePopulation (aga (M.counting op)) envs progress fuel a init p q).spends (.ok (fin, st)) c) :
    let bred := bredInRun p.populationSize (eliteCount p.populationSize p.elitismRate) fin st.shown
    (op = .evaluate → c = init.length + bred) ∧ (op = .improve → c = bred) ∧
      (op = .preGeneration → c = (bredFrom fin st.shown).length) ∧
      (op = .crossover ∨ op = .mutate ∨ op = .canSurvive → c ≤ bred) :=
  calls_of_bounds (run_spent hM (aga_standard _) (aga_counted op hM) envs henv progress hq fuel a init hl p hp q (fin, st) c h)

/-- **C115** (budget) In `g` generations between `g * (size - elites)` and `g * size` individuals are bred; exactly
`g * (size - elites)` if no population had fewer individuals than elites. -/
theorem C115_budget (size elites : Nat) (fin : Bool) (shown : List (Population I)) :
    (bredFrom fin shown).length * (size - elites) ≤ bredInRun size elites fin shown ∧
      bredInRun size elites fin shown ≤ (bredFrom fin shown).length * size ∧
      ((∀ p ∈ bredFrom fin shown, elites ≤ p.len) →
        bredInRun size elites fin shown = (bredFrom fin shown).length * (size - elites)) := by
  unfold bredInRun
  generalize bredFrom fin shown = l
  induction l with
  | nil => simp
  | cons p l ih =>
    obtain ⟨h1, h2, h3⟩ := ih
    have hm : missing size elites p = size - min elites p.len := rfl
    simp only [List.map_cons, List.sum_cons, List.length_cons, Nat.succ_mul, hm, List.forall_mem_cons]
    refine ⟨by omega, by omega, fun ⟨k1, k2⟩ => ?_⟩
    rw [h3 k2, min_eq_left k1]; omega

/-- **C115** (`evolve_individual`) Filling the initial population from one individual takes `size - 1` calls of `mutate` and none of
the other methods. -/
theorem C115_extend_with (op : Method) {M : EvoModel I Mo U} (hM : M.toEvoOps.Unmarked) (model : Mo) (individuals : List I) (size : Nat)
    (x : I) {l : List I} {c : Nat} (h : ((M.counting op).extendWith model individuals size x).spends (.ok l) c) :
    c = if op = .mutate then size - 1 else 0 := by
  refine (?_ : Spent (fun _ c => c = if op = .mutate then size - 1 else 0) _) l c h
  show Spent _ (defaultExtendWith (M.toEvoOps.counting op) model individuals size x)
  unfold defaultExtendWith
  by_cases h0 : size = 0
  · rw [if_pos h0]; exact spent_pure (by simp [h0])
  rw [if_neg h0]
  by_cases h1 : size = 1
  · simp only [if_pos h1]; exact spent_pure (by simp [h1])
  simp only [if_neg h1]
  refine spent_bind (spent_lift fun n hn => ?_)
  · unfold usizeSub at hn
    split at hn
    · cases hn
      have hm := (spent_unmarked (b := decide (op = .mutate)) (hM.mutate model x)).mono fun y c (hc : c = _) =>
        (⟨hc.ge, hc.le⟩ : (if decide (op = .mutate) = true then 1 else 0) ≤ c ∧ c ≤ if decide (op = .mutate) = true then 1 else 0)
      refine spent_bind ((spent_replicate hm (size - 1)).mono fun new c hc => spent_pure ?_)
      by_cases ho : op = .mutate
      · simp [ho] at hc ⊢; omega
      · simp [ho] at hc ⊢; omega
    · cases hn

/-! ### An example -/

theorem guess_unmarked : guessModel.toEvoOps.Unmarked where
  crossover _ _ _ := unmarked_pure _
  mutate _ _ := (unmarked_uniform (by norm_num)).bind fun _ _ => unmarked_pure _
  improve _ _ := unmarked_pure _
  evaluate _ _ := unmarked_pure _
  preGeneration _ _ _ := unmarked_pure _
  canSurvive _ _ _ _ := unmarked_pure _
  select u := u.elim
  selectDistinct u := u.elim

-- with the default parameters (100 individuals, 1 elite), 3 initial individuals and 10 generations: between 993 and 1003 evaluations
example {st : RunState Num (Ga Unit Empty) Unit} {c : Nat} (hs : st.shown.length = 11)
    (h : (evolvePopulation (ga (guessModel.counting .evaluate)) (fun _ => exFullEnv) (fun q p => pure (p.generation < 10, q)) 20
      (Ga.ofModel ()) [num 1, num 2, num 5] GaParams.default ()).spends (.ok (true, st)) c) : 993 ≤ c ∧ c ≤ 1003 := by
  have hc := (C115_ga .evaluate guess_unmarked (fun _ => exFullEnv) (fun _ => exFullEnv_lawful) _ (fun _ _ => unmarked_pure _) 20 _ _
    (by simp) GaParams.default (by simp [GaParams.default]) () h).1 rfl
  have he : eliteCount GaParams.default.populationSize GaParams.default.elitismRate = 1 := by decide +kernel
  obtain ⟨b1, b2, -⟩ := C115_budget 100 1 true st.shown
  have hb : (bredFrom true st.shown).length = 10 := by simp [bredFrom, hs]
  rw [hb] at b1 b2
  rw [he] at hc
  change c = 3 + bredInRun 100 1 true st.shown at hc
  omega

end RG.Props
