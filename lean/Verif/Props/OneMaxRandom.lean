import Verif.Props.OneMaxConvergence
import Verif.Props.Convergence

/-!
# Property C71: how likely the genetic algorithm solves OneMax from a random population
-/

set_option linter.unusedSectionVars false

namespace RG.Props
open RG RG.Prog
variable {I Mo U : Type} [Individual I] {Q : Type}

/-- If `progress` stops exactly when the level is reached, a run that has ended returns an individual at the level. -/
theorem prob_ended_le_result {M : EvoModel I Mo U} {Pr : I → Prop} {envs : Nat → Env I} {a : Ga Mo U} {p : GaParams} {init : List I}
    (hc : GaRun M Pr envs a p init) (target : F64) (progress : Q → Population I → Prog (Bool × Q))
    (hstop : ∀ q pop b q', GoodPop pop → (progress q pop).yields (.ok (b, q')) → (b = false ↔ Reached target pop)) (k : Nat) (q : Q) :
    (evolvePopulation (ga M) envs progress k a init p q).prob (fun r => r.1 = true) ≤
      (evolvePopulation (ga M) envs progress k a init p q >>= takeResult).prob
        (fun r => (r.1.any fun x => target.le (fitness x)) = true) := by
  refine prob_le_bind _ _ _ _ fun r hy hfin => ?_
  obtain ⟨fin, st⟩ := r
  cases hfin
  obtain ⟨a', hcfg, hi⟩ := hc.first (Q := Q)
  obtain ⟨a'', pop, c1, c2, c3⟩ := (yields_evolvePopulation _ _ _ _ _ _ _ _ _).1 hy
  rw [hcfg] at c1; cases c1
  have hgood : GoodPop st.population ∧ Reached target st.population := by
    have hw := hi.partially pop c2 q
    have hloop : ∀ (fuel t : Nat) (st0 st : RunState I (Ga Mo U) Q), GoodPop st0.population →
        (evolveLoop (ga M) envs progress fuel t st0).yields (.ok (true, st)) →
        GoodPop st.population ∧ Reached target st.population := by
      intro fuel
      induction fuel with
      | zero => intro t st0 st _ h; cases h
      | succ fuel ih =>
        intro t st0 st hg h
        rcases (yields_evolveLoop_succ _ _ _ _ _ _ _).1 h with ⟨q1, g1, e⟩ | ⟨q1, st2, _, g2, g3⟩
        · cases e
          exact ⟨hg, (hstop _ _ _ _ hg g1).1 rfl⟩
        · exact ih (t + 1) st2 st (((ga_standard M).step (hc.env t) g2).good (hc.env t)
            (breedsValid_default M hc.ops.breed hc.members hc.distinct) hc.notNaN hg) g3
    exact hloop _ _ _ _ hw.2.1 c3
  obtain ⟨hg, x, hx, hxt⟩ := hgood
  obtain ⟨f1, f2⟩ := hg.wf.fittest_ok
  obtain ⟨b, hb1, hb2, -, hb4⟩ := hg.best hc.notNaN
  have hres : takeResult (true, st) = pure (some b, st) := by
    unfold takeResult
    simp only [if_true]
    rw [f2, hb2, lift_ok, bind_pure_left]
  rw [hres]
  simp only [prob_pure, Option.any_some]
  rw [if_pos (F64.le_trans hxt (hb4 x hx))]

theorem takeFittest_mem {p : Population I} {x : I} (h : p.takeFittest = .ok x) : x ∈ p.individuals := by
  unfold Population.takeFittest swapRemove at h
  cases h1 : p.individuals[p.stats.argMax]? with
  | none => rw [h1] at h; cases h
  | some y =>
    cases h2 : p.individuals.getLast? with
    | none => rw [h1, h2] at h; cases h
    | some z =>
      rw [h1, h2] at h
      cases h
      exact List.mem_of_getElem? h1

theorem oneLevel_top_le {n : Nat} (hn : n ≠ 0) (h : n < 2 ^ 53) (x : F64) : (oneLevel n (n - 1)).le x = F64.one.le x := by
  have hk := oneLevel_top hn h.le
  have hf := (oneLevel_val (n := n) (i := n - 1) (by omega) h (by omega)).1
  unfold F64.le
  rw [hk, F64.isNaN_of_finite hf]
  rfl

/-- A random population is all `false` with probability `2 ^ (- n N)`. -/
theorem prob_all_false (n N : Nat) (hN : N ≠ 0) :
    (defaultExtend (OneMax.newRandom n) [] N).prob (fun l => ∀ x ∈ l, x.genome = List.replicate n false) = 1 / 2 ^ (n * N) ∧
    (defaultExtend (OneMax.newRandom n) [] N).prob (fun l => ¬ ∀ x ∈ l, x.genome = List.replicate n false) = 1 - 1 / 2 ^ (n * N) := by
  have halw : Always (fun l : List OneMax => l.length = N ∧ ∀ x ∈ l, x.fit = F64.zero) (Prog.replicate N (OneMax.newRandom n)) := by
    refine always_replicate _ _ ?_ _
    unfold OneMax.newRandom
    rw [always_bind]
    have hb : Always (fun _ => True) OneMax.randomBit := by
      unfold OneMax.randomBit
      rw [always_bind, always_uniform]
      exact ⟨by norm_num, fun i _ => by simp⟩
    exact (always_replicate _ _ hb n).mono fun l hl => by rw [always_pure]; rfl
  have h1 : (defaultExtend (OneMax.newRandom n) [] N).prob (fun l => ∀ x ∈ l, x.genome = List.replicate n false) = 1 / 2 ^ (n * N) := by
    unfold defaultExtend
    rw [if_neg hN, prob_bind_pure _ _ (fun l => [] ++ l) (fun _ _ => rfl)]
    have := prob_replicate_eq (OneMax.newRandom n) (List.replicate N ⟨List.replicate n false, F64.zero⟩)
    rw [List.length_replicate] at this
    have h0 := C63_new_random (List.replicate n false)
    rw [List.length_replicate] at h0
    rw [List.map_replicate, List.prod_replicate, h0] at this
    rw [pow_mul, ← one_div_pow, ← this]
    refine prob_congr _ _ _ fun l hl => ?_
    obtain ⟨l1, l2⟩ := halw.partially l hl
    rw [List.eq_replicate_iff, List.nil_append]
    constructor
    · intro h
      refine ⟨l1, fun x hx => ?_⟩
      have e1 := h x hx
      have e2 := l2 x hx
      cases x
      simp_all
    · rintro ⟨-, h⟩ x hx
      rw [h x hx]
  refine ⟨h1, ?_⟩
  have h2 : Always (fun _ => True) (defaultExtend (OneMax.newRandom n) [] N) := by
    unfold defaultExtend
    rw [if_neg hN, always_bind]
    exact halw.mono fun l _ => by simp
  have := prob_add_not_of_always _ (fun l : List OneMax => ∀ x ∈ l, x.genome = List.replicate n false) h2
  linarith

/-- The hypotheses of C71 on the parameters and the environment. -/
structure OneMaxParams (envs : Nat → Env OneMax) (p : GaParams) (n : Nat) : Prop where
  bits : 2 ≤ n ∧ n < 2 ^ 53
  env : ∀ t, (envs t).Lawful
  valid : p.Valid
  strategy : Prefers p.selectionStrategy
  size : p.populationSize ≤ 2 ^ 24
  elites : 1 ≤ eliteCount p.populationSize p.elitismRate
  two : eliteCount p.populationSize p.elitismRate + 2 ≤ p.populationSize

/-- The run has returned a genome of `true` bits only. -/
def Solved {A : Type} (n : Nat) (r : Option OneMax × RunState OneMax A Q) : Prop :=
  r.1.map (fun x => x.genome) = some (List.replicate n true)

instance {A : Type} (n : Nat) : DecidablePred (Solved (A := A) (Q := Q) n) := fun _ => inferInstanceAs (Decidable (_ = _))

section
variable {envs : Nat → Env OneMax} {p : GaParams} {n : Nat}

theorem OneMaxParams.okP (h : OneMaxParams envs p n) :
    p.Valid ∧ p.selectionStrategy.Valid ∧ ∀ b, p.selectionStrategy = .linear b → SafeBias b := by
  exact ⟨h.valid, h.strategy.valid, h.strategy.linear⟩

theorem OneMaxParams.run (h : OneMaxParams envs p n) (init : List OneMax) (hl : init.length = p.populationSize)
    (hg : ∀ x ∈ init, x.genome.length = n) (ht : ∃ x ∈ init, true ∈ x.genome) : OneMaxRun envs p init n where
  bits := h.bits
  env := h.env
  valid := h.valid
  strategy := h.strategy
  size := h.size
  len := hl ▸ h.size
  elites := h.elites
  two := h.two
  lengths := hg
  seed := ht

theorem random_population (n N : Nat) (hN : N ≠ 0) :
    Always (fun l : List OneMax => l.length = N ∧ ∀ x ∈ l, x.genome.length = n) (defaultExtend (OneMax.newRandom n) [] N) := by
  unfold defaultExtend
  rw [if_neg hN, always_bind]
  exact (always_replicate _ _ (newRandom_length n) _).mono fun l hl => by simpa using hl

/-- **C71** `run` cannot solve OneMax with a higher probability than that of a `true` bit in the random initial population, which is
`1 - 2 ^ (- n N)` for `N` individuals of `n` bits, however long it runs and whatever `progress` does. -/
theorem C71_at_most (h : OneMaxParams envs p n) (a : Ga Unit Empty) (progress : Q → Population OneMax → Prog (Bool × Q))
    (hpr : ∀ q p, p.WF → Always (fun _ => True) (progress q p)) (k : Nat) (q : Q) :
    (runRandom OneMax.model (ga OneMax.model) envs progress k a (OneMax.newRandom n) p q).prob (Solved n) ≤
      1 - 1 / 2 ^ (n * p.populationSize) := by
  obtain ⟨h2, hn⟩ := h.bits
  have htwo := h.two
  rw [← (prob_all_false n p.populationSize (by omega)).2, ← one_mul (Prog.prob (defaultExtend _ _ _) _)]
  refine prob_bind_le _ _ _ _ _ (fun _ _ _ => prob_le_one _ _) fun init hi hall => ?_
  have hall : ∀ x ∈ init, x.genome = List.replicate n false := by simpa using hall
  obtain ⟨l1, l2⟩ := (random_population n p.populationSize (by omega)).partially init hi
  refine prob_eq_zero _ _ fun r hr hs => ?_
  obtain ⟨⟨fin, st1⟩, g2, g3⟩ := (yields_bind_ok _ _ _).1 hr
  obtain ⟨o, st⟩ := r
  have hne : init ≠ [] := fun e => by rw [e] at l1; simp at l1; omega
  have hrun := (C63_no_new_bits (ga_standard _) (ga_safe (C63_operators (fun _ => True) n (by omega))) envs h.env progress hpr k a n
    (by omega) hn.le p q h.okP (by show 2 ≤ p.populationSize; omega)
    (lt_of_le_of_lt h.size (by norm_num)) false init hne (by rw [l1]; exact lt_of_le_of_lt h.size (by norm_num)) hall).partially _ g2
  cases o with
  | none => cases hs
  | some x =>
    obtain ⟨rfl, g3⟩ := (yields_takeResult _ _ _).1 g3
    rcases g3 with ⟨-, y, hy, hxy⟩ | ⟨-, hxy⟩
    · cases hxy
      have := hrun.2 x (takeFittest_mem hy)
      unfold Solved at hs
      rw [Option.map_some, this] at hs
      have := congrArg (fun o => o.map fun l => l[0]?) hs
      simp [show 0 < n by omega] at this
    · cases hxy

/-- **C71** If `progress` stops exactly at the fitness 1, `run` has solved OneMax within `k` generations with at least this
probability. -/
theorem C71_at_least (h : OneMaxParams envs p n) (a : Ga Unit Empty) (progress : Q → Population OneMax → Prog (Bool × Q))
    (hpr : ∀ q p, p.WF → Always (fun _ => True) (progress q p))
    (hstop : ∀ q pop b q', GoodPop pop → (progress q pop).yields (.ok (b, q')) → (b = false ↔ Reached F64.one pop)) (k : Nat) (q : Q) :
    (1 - fewSuccesses ((1 - skipChance p.crossoverRate * p.mutationRate.val / (2 * p.populationSize * n)) ^
        (p.populationSize - eliteCount p.populationSize p.elitismRate)) k (n - 1)) * (1 - 1 / 2 ^ (n * p.populationSize)) ≤
      (runRandom OneMax.model (ga OneMax.model) envs progress (k + 1) a (OneMax.newRandom n) p q).prob (Solved n) := by
  obtain ⟨h2, hn⟩ := h.bits
  have htwo := h.two
  rw [← (prob_all_false n p.populationSize (by omega)).2]
  have hreach : (runRandom OneMax.model (ga OneMax.model) envs progress (k + 1) a (OneMax.newRandom n) p q).prob
      (fun r => (r.1.any fun x => F64.one.le (fitness x)) = true) ≤
      (runRandom OneMax.model (ga OneMax.model) envs progress (k + 1) a (OneMax.newRandom n) p q).prob (Solved n) := by
    refine prob_mono _ _ _ fun r hr hle => ?_
    obtain ⟨o, st⟩ := r
    cases o with
    | none => cases hle
    | some x =>
      obtain ⟨k1, k2⟩ := ((C63_run (ga_standard _) (ga_safe (C63_operators (fun _ => True) n (by omega))) envs h.env progress hpr
        (k + 1) a n (by omega) hn.le p q h.okP (by show 2 ≤ p.populationSize; omega)
        (lt_of_le_of_lt h.size (by norm_num))).partially _ hr).1 x rfl
      have hle : F64.one.le (fitness x) = true := hle
      rw [k2, ← oneLevel_top_le (by omega) hn, oneLevel_le x k1 hn (by omega)] at hle
      unfold Solved
      rw [Option.map_some, Option.some.injEq]
      have hc : ones x.genome = x.genome.length := le_antisymm List.count_le_length (by omega)
      exact List.eq_replicate_iff.2 ⟨k1, fun b hb => (List.count_eq_length.1 hc b hb).symm⟩
  refine le_trans ?_ hreach
  refine mul_prob_le_bind _ _ _ _ _ fun init hi hsome => ?_
  obtain ⟨l1, l2⟩ := (random_population n p.populationSize (by omega)).partially init hi
  have htrue : ∃ x ∈ init, true ∈ x.genome := by
    by_contra hno
    refine hsome fun x hx => List.eq_replicate_iff.2 ⟨l2 x hx, fun b hb => ?_⟩
    cases b
    · rfl
    · exact absurd ⟨x, hx, hb⟩ hno
  have hr := h.run init l1 l2 htrue
  have hbig : bigSize p init = p.populationSize := by unfold bigSize; rw [l1, max_self]
  have hnq : (2 : ℚ) ≤ n := by exact_mod_cast h2
  have hc := hr.climbs a (fun i => 1 / n)
    (fun i => ⟨by positivity, by rw [div_le_one (by linarith)]; linarith⟩)
    (fun i hi => (oneChance_bounds (by omega)).2.2)
  refine le_trans ?_ (prob_ended_le_result hc.toGaRun F64.one progress hstop (k + 1) q)
  have := C70_ends hr a progress hpr (fun q pop q' hg hr hy => by simpa using (hstop q pop true q' hg hy).2 hr) k q
  rwa [hbig] at this

/-- **C71** So with a positive mutation rate and a crossover rate below 1, the probability that `run` solves OneMax tends to
`1 - 2 ^ (- n N)`, and not to 1. -/
theorem C71_limit (h : OneMaxParams envs p n) (a : Ga Unit Empty) (hκ : 0 < skipChance p.crossoverRate)
    (hρ : 0 < p.mutationRate.val) (progress : Q → Population OneMax → Prog (Bool × Q))
    (hpr : ∀ q p, p.WF → Always (fun _ => True) (progress q p))
    (hstop : ∀ q pop b q', GoodPop pop → (progress q pop).yields (.ok (b, q')) → (b = false ↔ Reached F64.one pop)) (q : Q) (ε : ℚ) (hε : 0 < ε) :
    ∃ K, ∀ k, K ≤ k →
      |(runRandom OneMax.model (ga OneMax.model) envs progress k a (OneMax.newRandom n) p q).prob (Solved n) -
        (1 - 1 / 2 ^ (n * p.populationSize))| ≤ ε := by
  obtain ⟨h2, hn⟩ := h.bits
  have htwo := h.two
  have hnq : (2 : ℚ) ≤ n := by exact_mod_cast h2
  have hNq : (2 : ℚ) ≤ p.populationSize := by exact_mod_cast (by omega : 2 ≤ p.populationSize)
  set x := skipChance p.crossoverRate * p.mutationRate.val / (2 * p.populationSize * n) with hx
  have hx0 : 0 < x := by positivity
  have hx1 : x ≤ 1 := by
    have hk : skipChance p.crossoverRate ≤ 1 := by
      unfold skipChance
      have : (0 : ℤ) ≤ ⌈p.crossoverRate.val * 2 ^ 53⌉ := Int.ceil_nonneg (mul_nonneg h.valid.2.2.1.2.1 (by norm_num))
      have : (0 : ℚ) ≤ (⌈p.crossoverRate.val * 2 ^ 53⌉ : ℤ) / 2 ^ 53 := div_nonneg (by exact_mod_cast this) (by norm_num)
      linarith
    have hr : p.mutationRate.val ≤ 1 := h.valid.2.2.2.2.2
    rw [hx, div_le_one (by positivity)]
    nlinarith
  obtain ⟨K, hK⟩ := fewSuccesses_tendsto (x := (1 - x) ^ (p.populationSize - eliteCount p.populationSize p.elitismRate))
    (pow_nonneg (by linarith) _) (pow_lt_one₀ (by linarith) (by linarith) (by omega)) (n - 1) hε
  refine ⟨K + 1, fun k hk => ?_⟩
  obtain ⟨j, rfl⟩ : ∃ j, k = j + 1 := ⟨k - 1, by omega⟩
  have u := C71_at_most h a progress hpr (j + 1) q
  have l := C71_at_least h a progress hpr hstop j q
  have hf := hK j (by omega)
  have hz : (0 : ℚ) < 1 / 2 ^ (n * p.populationSize) := by positivity
  have hz1 : (1 : ℚ) / 2 ^ (n * p.populationSize) ≤ 1 := div_le_one_of_le₀ (one_le_pow₀ (by norm_num)) (by positivity)
  rw [abs_le]
  refine ⟨?_, by linarith⟩
  rw [← hx] at l
  nlinarith

end

/-! ### An example -/

theorem default_oneMax : OneMaxParams (fun _ => oneEnv) GaParams.default 8 where
  bits := by norm_num
  env _ := oneEnv_lawful
  valid := C50_defaults.1
  strategy := Or.inr (Or.inr (Or.inr (Or.inl rfl)))
  size := by simp [GaParams.default]
  elites := by decide +kernel
  two := by decide +kernel

-- with the default parameters and 8 bits: the limit is 1 - 2 ^ -800
example (ε : ℚ) (hε : 0 < ε) : ∃ K, ∀ k, K ≤ k →
    |(runRandom OneMax.model (ga OneMax.model) (fun _ => oneEnv) untilSolved k (Ga.ofModel ()) (OneMax.newRandom 8)
      GaParams.default ()).prob (Solved 8) - (1 - 1 / 2 ^ 800)| ≤ ε := by
  have h1 : skipChance GaParams.default.crossoverRate = (2 ^ 53 - 7205759403792794) / 2 ^ 53 := by decide +kernel
  have h2 : GaParams.default.mutationRate.val = 3602879701896397 / 2 ^ 55 := by decide +kernel
  exact C71_limit default_oneMax (Ga.ofModel ()) (by rw [h1]; norm_num) (by rw [h2]; norm_num) untilSolved
    (fun q p w => untilSolved_always w) untilSolved_iff () ε hε

/-- The parameters of the example in the documentation of `GeneticAlgorithm` (`ga.rs:120-125`). -/
def docParams : GaParams :=
  { GaParams.default with
    crossoverRate := F64.lit (7 / 10), mutationRate := F64.lit (2 / 10), selectionStrategy := .linear (F64.lit (5 / 4)) }

theorem doc_oneMax : OneMaxParams (fun _ => oneEnv) docParams 100 where
  bits := by norm_num
  env _ := oneEnv_lawful
  valid := by
    unfold GaParams.Valid F64.InHalfOpenUnit F64.InClosedUnit
    decide +kernel
  strategy := Or.inr (Or.inr (Or.inr (Or.inr ⟨_, rfl, goodBias_example _ (by simp)⟩)))
  size := by simp [docParams, GaParams.default]
  elites := by decide +kernel
  two := by decide +kernel

/-- **C71** The example in the documentation of `GeneticAlgorithm`: `run` with 100 bits and linear selection. The assertion at its end
can fail, whatever the bound on the generations; without that bound it holds with a probability that tends to `1 - 2^-10000`. -/
theorem C71_documentation :
    (∀ (progress : Q → Population OneMax → Prog (Bool × Q)), (∀ q p, p.WF → Always (fun _ => True) (progress q p)) → ∀ k q,
      (runRandom OneMax.model (ga OneMax.model) (fun _ => oneEnv) progress k (Ga.ofModel ()) (OneMax.newRandom 100)
        docParams q).prob (Solved 100) ≤ 1 - 1 / 2 ^ (100 * 100)) ∧
    ∀ ε : ℚ, 0 < ε → ∃ K, ∀ k, K ≤ k →
      |(runRandom OneMax.model (ga OneMax.model) (fun _ => oneEnv) untilSolved k (Ga.ofModel ()) (OneMax.newRandom 100)
        docParams ()).prob (Solved 100) - (1 - 1 / 2 ^ (100 * 100))| ≤ ε := by
  have h1 : 0 < skipChance docParams.crossoverRate := by decide +kernel
  have h2 : 0 < docParams.mutationRate.val := by decide +kernel
  exact ⟨fun progress hpr k q => C71_at_most doc_oneMax (Ga.ofModel ()) progress hpr k q,
    fun ε hε => C71_limit doc_oneMax (Ga.ofModel ()) h1 h2 untilSolved (fun q p w => untilSolved_always w) untilSolved_iff () ε hε⟩

end RG.Props
