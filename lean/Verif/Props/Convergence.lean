import Verif.Proofs.GaConvergence
import Verif.Props.Total

/-!
# Property C67: the genetic algorithm reaches any level that one mutation can reach

`Reached target p` says that some individual of `p` has a fitness of at least `target`. With mutation rate `ρ` and a mutation
that reaches the level with probability at least `δ` from every individual (`MutationReaches`), one bred individual misses the
level with probability at most `1 - ρ δ`. Every generation breeds at least `m = population_size - elites` individuals, so after
`k` generations the level is missed with probability at most `(1 - ρ δ) ^ (m k)`.
-/

set_option linter.unusedSectionVars false

namespace RG.Props
open RG RG.Prog
variable {I : Type} [Individual I] {Mo U Q : Type} {M : EvoModel I Mo U} {Pr : I → Prop} {envs : Nat → Env I} {a : Ga Mo U}
  {p : GaParams} {init : List I} {target : F64} {δ : ℚ}

/-- **C67** With at least one elite: the probability that a run goes on for `k` generations without having reached the level. -/
theorem C67_missed (h : Converges M Pr envs a p init target δ)
    (hel : 1 ≤ eliteCount p.populationSize p.elitismRate) (progress : Q → Population I → Prog (Bool × Q)) (k : Nat) (q : Q) :
    (evolvePopulation (ga M) envs progress k a init p q).prob (fun r => r.1 = false ∧ ¬ Reached target r.2.population) ≤
      (1 - p.mutationRate.val * δ) ^ ((p.populationSize - eliteCount p.populationSize p.elitismRate) * k) := by
  obtain ⟨a', hc, hi⟩ := h.first (Q := Q)
  have hpos := mul_nonneg h.rate_mem.2.1 h.nonneg
  have hδ := h.le_one
  unfold evolvePopulation
  rw [hc]
  simp only [lift_ok, bind_pure_left]
  refine prob_bind_le_const _ _ _ _ (pow_nonneg (by linarith) _) fun pop hpop => ?_
  obtain ⟨i1, i2, i3, i4⟩ := hi.partially pop hpop q
  have htwo := h.two
  exact prob_loop_missed (ga_standard M) envs h.env (breedsValid_default M h.ops.breed h.members h.distinct) h.notNaN h.eqFitness
    progress target _ (by linarith) (by linarith) _ _ p.populationSize (by omega) (by omega) (ConvState M Pr a p)
    ConvState.show (fun t st st' hs hst => hs.step h.toGaRun t st st' hst) (fun t st b hs hg hb => h.breed t st b hs hg hb) hel k 1 _
    i1 i2 i3 i4

/-- **C67** If `progress` never continues once the level is reached, the run ends within `k + 1` calls with at least this
probability. In particular it does not panic or hang with the rest. -/
theorem C67_ends (h : Converges M Pr envs a p init target δ)
    (progress : Q → Population I → Prog (Bool × Q)) (hpr : ∀ q p, p.WF → Always (fun _ => True) (progress q p))
    (hstop : ∀ q pop q', GoodPop pop → Reached target pop → ¬ (progress q pop).yields (.ok (true, q'))) (k : Nat) (q : Q) :
    1 - (1 - p.mutationRate.val * δ) ^ ((p.populationSize - eliteCount p.populationSize p.elitismRate) * k) ≤
      (evolvePopulation (ga M) envs progress (k + 1) a init p q).prob (fun r => r.1 = true) := by
  have hrun := C64_run (ga_standard M) (ga_safe h.ops) h.ops envs h.env progress hpr (k + 1) a init p q
    ⟨h.valid, h.strategy, h.linear⟩ (by have := h.two; show 2 ≤ p.populationSize; omega) h.size h.len h.prop h.start
  have hsum := prob_add_not_of_always _ (fun r : Bool × RunState I (Ga Mo U) Q => r.1 = true) hrun
  have hle : (evolvePopulation (ga M) envs progress (k + 1) a init p q).prob (fun r => ¬ r.1 = true) ≤
      (1 - p.mutationRate.val * δ) ^ ((p.populationSize - eliteCount p.populationSize p.elitismRate) * k) := by
    obtain ⟨a', hc, hi⟩ := h.first (Q := Q)
    have hpos := mul_nonneg h.rate_mem.2.1 h.nonneg
    have hδ := h.le_one
    unfold evolvePopulation
    rw [hc]
    simp only [lift_ok, bind_pure_left, Bool.not_eq_true]
    refine prob_bind_le_const _ _ _ _ (pow_nonneg (by linarith) _) fun pop hpop => ?_
    obtain ⟨i1, i2, i3, i4⟩ := hi.partially pop hpop q
    have htwo := h.two
    exact prob_loop_runs (ga_standard M) envs h.env (breedsValid_default M h.ops.breed h.members h.distinct) h.notNaN
      h.eqFitness progress target _ (by linarith) (by linarith) _ _ p.populationSize (by omega) (by omega) (ConvState M Pr a p)
      ConvState.show (fun t st st' hs hst => hs.step h.toGaRun t st st' hst) (fun t st b hs hg hb => h.breed t st b hs hg hb) hstop
      k 1 _ i1 i2 i3 i4
  linarith

/-- **C67** So with a positive mutation rate, and a mutation that can reach the level from everywhere, the run ends almost
surely. -/
theorem C67_almost_surely (h : Converges M Pr envs a p init target δ)
    (hpos : 0 < p.mutationRate.val * δ) (progress : Q → Population I → Prog (Bool × Q))
    (hpr : ∀ q p, p.WF → Always (fun _ => True) (progress q p))
    (hstop : ∀ q pop q', GoodPop pop → Reached target pop → ¬ (progress q pop).yields (.ok (true, q'))) (q : Q) (ε : ℚ) (hε : 0 < ε) :
    ∃ K, ∀ k, K ≤ k → 1 - ε ≤ (evolvePopulation (ga M) envs progress k a init p q).prob (fun r => r.1 = true) := by
  have hδ := h.le_one
  obtain ⟨K, hK⟩ := exists_pow_lt_of_lt_one hε (show 1 - p.mutationRate.val * δ < 1 by linarith)
  refine ⟨K + 1, fun k hk => ?_⟩
  obtain ⟨j, rfl⟩ : ∃ j, k = j + 1 := ⟨k - 1, by omega⟩
  refine le_trans ?_ (C67_ends h progress hpr hstop j q)
  have htwo := h.two
  have hm : K ≤ (p.populationSize - eliteCount p.populationSize p.elitismRate) * j :=
    le_trans (by omega : K ≤ 1 * j) (Nat.mul_le_mul_right _ (by omega))
  have := pow_le_pow_of_le_one (show 0 ≤ 1 - p.mutationRate.val * δ by linarith) (by linarith) hm
  linarith

/-- **C67** `run` with random individuals that are valid once evaluated, stopped exactly when the level is reached, returns an
individual at the level with at least this probability. -/
theorem C67_run (hx : M.extend = fun _ => defaultExtend) (newRandom : Prog I)
    (hr : Always (fun x => Pr x ∧ Always (fun e => isValid e = true) (M.evaluate a.model x)) newRandom)
    (h : ∀ init : List I, init.length = p.populationSize →
      (∀ x ∈ init, Pr x ∧ Always (fun e => isValid e = true) (M.evaluate a.model x)) → Converges M Pr envs a p init target δ)
    (progress : Q → Population I → Prog (Bool × Q)) (hpr : ∀ q p, p.WF → Always (fun _ => True) (progress q p))
    (hstop : ∀ q pop b q', GoodPop pop → (progress q pop).yields (.ok (b, q')) → (b = false ↔ Reached target pop)) (k : Nat) (q : Q) :
    1 - (1 - p.mutationRate.val * δ) ^ ((p.populationSize - eliteCount p.populationSize p.elitismRate) * k) ≤
      (runRandom M (ga M) envs progress (k + 1) a newRandom p q).prob
        (fun r => (r.1.any fun x => target.le (fitness x)) = true) := by
  unfold runRandom
  rw [hx]
  have hsz : (2 : Nat) ≤ p.populationSize := by
    by_cases he : p.populationSize = 0
    · exact absurd (h [] (by simp [he]) (by simp)).valid.1 (by simp [he])
    · obtain ⟨x, hxy⟩ := hr.exists_yields
      have := (h (List.replicate p.populationSize x) (by simp) (fun y hy => by
        rw [(List.mem_replicate.1 hy).2]; exact hr.partially x hxy)).two
      omega
  have hext : Always (fun l : List I => l.length = p.populationSize ∧
      ∀ x ∈ l, Pr x ∧ Always (fun e => isValid e = true) (M.evaluate a.model x))
      (defaultExtend newRandom [] p.populationSize) := by
    unfold defaultExtend
    rw [if_neg (by omega), always_bind]
    exact (always_replicate _ _ hr _).mono fun l hl => by simpa using hl
  refine le_prob_bind_of_always _ _ _ _ hext fun init ⟨l1, l2⟩ => ?_
  have hc := h init l1 l2
  refine (C67_ends hc progress hpr (fun q pop q' hg hr hy => by
    have := (hstop q pop true q' hg hy).2 hr; cases this) k q).trans ?_
  refine prob_le_bind _ _ _ _ fun r hy hfin => ?_
  obtain ⟨fin, st⟩ := r
  cases hfin
  obtain ⟨a', hcfg, hi⟩ := hc.first (Q := Q)
  obtain ⟨a'', pop, c1, c2, c3⟩ := (yields_evolvePopulation _ _ _ _ _ _ _ _ _).1 hy
  rw [hcfg] at c1; cases c1
  have hgood : GoodPop st.population ∧ Reached target st.population := by
    have hw := hi.partially pop c2 q
    have hloop : ∀ (fuel t : Nat) (st0 st : RunState I (Ga Mo U) Q), GoodPop st0.population →
        (evolveLoop (ga M) envs progress fuel t st0).yields (.ok (true, st)) →
        GoodPop st.population ∧ Reached target st.population := by
      intro fuel
      induction fuel with
      | zero => intro t st0 st _ h; cases h
      | succ fuel ih =>
        intro t st0 st hg h
        rcases (yields_evolveLoop_succ _ _ _ _ _ _ _).1 h with ⟨q1, g1, e⟩ | ⟨q1, st2, _, g2, g3⟩
        · cases e
          exact ⟨hg, (hstop _ _ _ _ hg g1).1 rfl⟩
        · exact ih (t + 1) st2 st (((ga_standard M).step (hc.env t) g2).good (hc.env t)
            (breedsValid_default M hc.ops.breed hc.members hc.distinct) hc.notNaN hg) g3
    exact hloop _ _ _ _ hw.2.1 c3
  obtain ⟨hg, x, hx, hxt⟩ := hgood
  obtain ⟨f1, f2⟩ := hg.wf.fittest_ok
  obtain ⟨b, hb1, hb2, -, hb4⟩ := hg.best hc.notNaN
  have hres : takeResult (true, st) = pure (some b, st) := by
    unfold takeResult
    simp only [if_true]
    rw [f2, hb2, lift_ok, bind_pure_left]
  rw [hres]
  simp only [prob_pure, Option.any_some]
  rw [if_pos (F64.le_trans hxt (hb4 x hx))]

/-! ### An example -/

/-- Numbers 0 to 9; mutation draws a new one. -/
def guessModel : EvoModel Num Unit Empty :=
  { ({ crossover := fun _ a _ => pure a
       mutate := fun _ _ => do let k ← Prog.uniform 10; pure (num k)
       evaluate := fun _ a => pure a
       selectors := ⟨fun u => u.elim, fun u => u.elim, fun u => u.elim⟩ } : EvoOps Num Unit Empty) with }

theorem guess_safe : SafeOps guessModel (fun x => isValid x = true) where
  crossover _ a b ha _ := by show Always _ (pure a); simpa using ha
  mutate _ a _ := by
    show Always _ (Prog.uniform 10 >>= fun k => pure (num k))
    rw [always_bind, always_uniform]
    refine ⟨by norm_num, fun i hi => ?_⟩
    rw [always_pure]
    interval_cases i <;> decide +kernel
  improve _ a ha := by show Always _ (pure a); simpa using ha
  evaluate _ a ha := by show Always _ (pure a); simpa using ha
  canSurvive _ _ _ _ _ _ := by show Always _ (pure _); simp
  preGeneration _ _ _ := rfl
  breed := rfl

-- with the default parameters, a target of 9 is reached by a mutation with probability 1/10
theorem guess_converges (init : List Num) (h0 : init ≠ []) (hl : init.length < 2 ^ 32) (hv : ∀ x ∈ init, isValid x = true) :
    Converges guessModel (fun x => isValid x = true) (fun _ => exFullEnv) (Ga.ofModel ()) GaParams.default init
      (F64.lit 9) (1 / 10) where
  ops := guess_safe
  survive := rfl
  members := fun u => u.elim
  distinct := fun u => u.elim
  notNaN := validNotNaN_default
  eqFitness := num_eqFitness
  env _ := exFullEnv_lawful
  valid := C50_defaults.1
  strategy := C50_defaults.2.1
  linear := by simp [GaParams.default]
  size := by simp [GaParams.default]
  two := by decide +kernel
  len := hl
  prop := hv
  start := by
    obtain ⟨x, hx⟩ := List.exists_mem_of_ne_nil _ h0
    exact ⟨x, hx, by show Always _ (pure x); simpa using hv x hx⟩
  nonneg := by norm_num
  reaches o _ := by
    show (1 / 10 : ℚ) ≤ (Prog.uniform 10 >>= fun k => pure (num k)).prob _
    decide +kernel

-- so a run that stops at 9 ends: after 300 calls of `progress` with probability at least 1 - (99/100)^(99 * 299)
example (q : Unit) : 1 - (1 - GaParams.default.mutationRate.val * (1 / 10)) ^ (99 * 299) ≤
    (evolvePopulation (ga guessModel) (fun _ => exFullEnv)
      (fun q p => pure (p.individuals.all fun x => !(F64.lit 9).le (fitness x), q)) (299 + 1) (Ga.ofModel ())
      [num 0] GaParams.default q).prob (fun r => r.1 = true) := by
  have h := C67_ends (guess_converges [num 0] (by simp) (by simp) (by simp; decide +kernel))
    (fun (q : Unit) p => pure (p.individuals.all fun x => !(F64.lit 9).le (fitness x), q)) (fun _ _ _ => by simp)
    (fun q pop q' _ ⟨x, hx, hx2⟩ hy => by
      simp only [yields_pure, Res.ok.injEq, Prod.mk.injEq] at hy
      have := List.all_eq_true.1 hy.1.symm x hx
      rw [hx2] at this
      cases this) 299 q
  have he : GaParams.default.populationSize - eliteCount GaParams.default.populationSize GaParams.default.elitismRate = 99 := by
    decide +kernel
  rwa [he] at h

end RG.Props
