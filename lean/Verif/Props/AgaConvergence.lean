import Verif.Proofs.AgaLadder
import Verif.Props.Ladder
import Verif.Props.Stuck

/-!
# Property C72: the adaptive genetic algorithm converges if its initial population has a spread

The counterpart of C67 and C69 for the adaptive algorithm, and of C68, where it gets stuck because the initial spread is zero.
With ordered ranges and a finite positive reference spread (`AgaRun`), all mutation rates are at least the lower end of their range
and all crossover rates at most the upper end (or what `interpolate` makes of it, `lowSkip`).
-/

set_option linter.unusedSectionVars false

namespace RG.Props
open RG RG.Prog
variable {I : Type} [Individual I] {Mo U Q : Type} {M : EvoModel I Mo U} {Pr : I → Prop} {envs : Nat → Env I} {a : Aga Mo U}
  {p : AgaParams} {init : List I} {target : F64}

/-! ### Mutations that reach the level at once -/

section
variable {δ : ℚ}

theorem AgaRun.rate_mem (h : AgaRun M Pr envs a p init) :
    0 ≤ p.mutationRateRange.start.val ∧ p.mutationRateRange.start.val ≤ 1 := h.valid.2.2.2.2.1.2

theorem AgaRun.le_one (h : AgaRun M Pr envs a p init) (h0 : 0 ≤ δ) (hδ : MutationReaches M a.model Pr target δ) :
    p.mutationRateRange.start.val * δ ≤ 1 := by
  obtain ⟨x, hx, -⟩ := h.start
  exact mul_le_one₀ h.rate_mem.2 h0 ((hδ x (h.prop x hx)).trans (prob_le_one _ _))

/-- The state of a run and the chance of a bred individual. -/
theorem AgaRun.breed (h : AgaRun M Pr envs a p init) (h0 : 0 ≤ δ) (hδ : MutationReaches M a.model Pr target δ) (t : Nat)
    (st : RunState I (Aga Mo U) Q) (b : Aga Mo U)
    (hs : ClimbState M (aga M) Aga.eliteSize Aga.populationSize Pr (max p.populationSize init.length) (AgaOk p a.model) st)
    (hb : ((aga M).prepare (envs t).num st.algo st.population).yields (.ok b)) :
    (M.breed (envs t).num ((aga M).model b) st.population ((aga M).repro b).1).prob (fun c => ¬ target.le (fitness c) = true) ≤
      1 - p.mutationRateRange.start.val * δ := by
  have hsz := h.size
  have hln := h.len
  obtain ⟨b1, b2, -, -⟩ := (aga_steady h (B := max p.populationSize init.length) (by omega)).breeds _ _ _ _ hs.ok hb
  rw [b1, h.ops.breed]
  exact prob_breed_missed M.toEvoOps h.members h.distinct h.survive _ _ _ _ Pr hs.fine.prop
    (fun x y hx hy => (h.ops.crossover _ x y hx hy).partially) (fun x hx => h.notNaN x (hs.fine.good.valid x hx)) target _ δ h0
    (h.le_one h0 hδ) b2 hδ

theorem AgaRun.step (h : AgaRun M Pr envs a p init) (t : Nat) (st st' : RunState I (Aga Mo U) Q)
    (hs : ClimbState M (aga M) Aga.eliteSize Aga.populationSize Pr (max p.populationSize init.length) (AgaOk p a.model) st)
    (hst : (generationStep (aga M) (envs t) st).yields (.ok st')) :
    ClimbState M (aga M) Aga.eliteSize Aga.populationSize Pr (max p.populationSize init.length) (AgaOk p a.model) st' := by
  have hsz := h.size
  have hln := h.len
  exact hs.step (aga_standard M) (aga_safe h.ops) h.ops h.members h.distinct h.notNaN (aga_steady h (by omega)) (h.env t) st st' hst

/-- **C72** With at least one elite: the probability that a run goes on for `k` generations without having reached the level. -/
theorem C72_missed (h : AgaRun M Pr envs a p init) (h0 : 0 ≤ δ) (hδ : MutationReaches M a.model Pr target δ)
    (hel : 1 ≤ eliteCount p.populationSize p.elitismRate) (progress : Q → Population I → Prog (Bool × Q)) (k : Nat) (q : Q) :
    (evolvePopulation (aga M) envs progress k a init p q).prob (fun r => r.1 = false ∧ ¬ Reached target r.2.population) ≤
      (1 - p.mutationRateRange.start.val * δ) ^ ((p.populationSize - eliteCount p.populationSize p.elitismRate) * k) := by
  obtain ⟨a', hc, hi⟩ := h.begin (Q := Q) target
  have hpos := mul_nonneg h.rate_mem.1 h0
  have hle := h.le_one h0 hδ
  unfold evolvePopulation
  rw [hc]
  simp only [lift_ok, bind_pure_left]
  refine prob_bind_le_const _ _ _ _ (pow_nonneg (by linarith) _) fun pop hpop => ?_
  obtain ⟨i1, -, i3, i4⟩ := hi.partially pop hpop q
  have htwo := h.two
  exact prob_loop_missed (aga_standard M) envs h.env (breedsValid_default M h.ops.breed h.members h.distinct) h.notNaN h.eqFitness
    progress target _ (by linarith) (by linarith) _ _ p.populationSize (by omega) (by omega) _
    ClimbState.show h.step (fun t st b hs hg hb => h.breed h0 hδ t st b hs hb) hel k 1 _
    i1 i1.fine.good i3 i4

/-- **C72** If `progress` never continues once the level is reached, the run ends within `k + 1` calls with at least this
probability. -/
theorem C72_ends (h : AgaRun M Pr envs a p init) (h0 : 0 ≤ δ) (hδ : MutationReaches M a.model Pr target δ)
    (progress : Q → Population I → Prog (Bool × Q)) (hpr : ∀ q p, p.WF → Always (fun _ => True) (progress q p))
    (hstop : ∀ q pop q', GoodPop pop → Reached target pop → ¬ (progress q pop).yields (.ok (true, q'))) (k : Nat) (q : Q) :
    1 - (1 - p.mutationRateRange.start.val * δ) ^ ((p.populationSize - eliteCount p.populationSize p.elitismRate) * k) ≤
      (evolvePopulation (aga M) envs progress (k + 1) a init p q).prob (fun r => r.1 = true) := by
  have hrun := C64_run (aga_standard M) (aga_safe h.ops) h.ops envs h.env progress hpr (k + 1) a init p q
    ⟨h.valid, h.strategy, h.linear⟩ (by have := h.two; show 2 ≤ p.populationSize; omega) h.size h.len h.prop h.start
  have hsum := prob_add_not_of_always _ (fun r : Bool × RunState I (Aga Mo U) Q => r.1 = true) hrun
  have hle : (evolvePopulation (aga M) envs progress (k + 1) a init p q).prob (fun r => ¬ r.1 = true) ≤
      (1 - p.mutationRateRange.start.val * δ) ^ ((p.populationSize - eliteCount p.populationSize p.elitismRate) * k) := by
    obtain ⟨a', hc, hi⟩ := h.begin (Q := Q) target
    have hpos := mul_nonneg h.rate_mem.1 h0
    have hle := h.le_one h0 hδ
    unfold evolvePopulation
    rw [hc]
    simp only [lift_ok, bind_pure_left, Bool.not_eq_true]
    refine prob_bind_le_const _ _ _ _ (pow_nonneg (by linarith) _) fun pop hpop => ?_
    obtain ⟨i1, -, i3, i4⟩ := hi.partially pop hpop q
    have htwo := h.two
    exact prob_loop_runs (aga_standard M) envs h.env (breedsValid_default M h.ops.breed h.members h.distinct) h.notNaN
      h.eqFitness progress target _ (by linarith) (by linarith) _ _ p.populationSize (by omega) (by omega) _
      ClimbState.show h.step (fun t st b hs hg hb => h.breed h0 hδ t st b hs hb) hstop k 1 _
      i1 i1.fine.good i3 i4
  linarith

/-- **C72** So with a mutation range above 0 and a mutation that can reach the level from everywhere, the run ends almost surely. -/
theorem C72_almost_surely (h : AgaRun M Pr envs a p init) (hδ : MutationReaches M a.model Pr target δ) (hpos : 0 < δ)
    (hρ : 0 < p.mutationRateRange.start.val) (progress : Q → Population I → Prog (Bool × Q))
    (hpr : ∀ q p, p.WF → Always (fun _ => True) (progress q p))
    (hstop : ∀ q pop q', GoodPop pop → Reached target pop → ¬ (progress q pop).yields (.ok (true, q'))) (q : Q) (ε : ℚ) (hε : 0 < ε) :
    ∃ K, ∀ k, K ≤ k → 1 - ε ≤ (evolvePopulation (aga M) envs progress k a init p q).prob (fun r => r.1 = true) := by
  have hle := h.le_one hpos.le hδ
  have hp : 0 < p.mutationRateRange.start.val * δ := mul_pos hρ hpos
  obtain ⟨K, hK⟩ := exists_pow_lt_of_lt_one hε (show 1 - p.mutationRateRange.start.val * δ < 1 by linarith)
  refine ⟨K + 1, fun k hk => ?_⟩
  obtain ⟨j, rfl⟩ : ∃ j, k = j + 1 := ⟨k - 1, by omega⟩
  refine le_trans ?_ (C72_ends h hpos.le hδ progress hpr hstop j q)
  have htwo := h.two
  have hm : K ≤ (p.populationSize - eliteCount p.populationSize p.elitismRate) * j :=
    le_trans (by omega : K ≤ 1 * j) (Nat.mul_le_mul_right _ (by omega))
  have := pow_le_pow_of_le_one (show 0 ≤ 1 - p.mutationRateRange.start.val * δ by linarith) (by linarith) hm
  linarith

end

/-! ### Mutations that climb a ladder of levels -/

/-- The hypotheses on the levels `level 0` to `level L`. -/
structure AgaClimbs (M : EvoModel I Mo U) (Pr : I → Prop) (envs : Nat → Env I) (a : Aga Mo U) (p : AgaParams) (init : List I)
    (level : Nat → F64) (L : Nat) (σ : ℚ) (δ : Nat → ℚ) : Prop extends AgaRun M Pr envs a p init where
  elites : 1 ≤ eliteCount p.populationSize p.elitismRate
  bottom : ∃ x ∈ init, Always (fun e => isValid e = true ∧ (level 0).le (fitness e) = true) (M.evaluate a.model x)
  bounds : (0 ≤ σ ∧ σ ≤ 1) ∧ ∀ i, 0 ≤ δ i ∧ δ i ≤ 1
  select : ∀ t i, i < L →
    SelectsFit p.selectionStrategy (envs t).num (FinePop M Pr (max p.populationSize init.length)) (level i) σ
  climbs : ∀ i, i < L → MutationClimbs M a.model Pr (level i) (level (i + 1)) (δ i)

/-- A lower bound for the probability that a bred individual climbs. -/
def agaChance (p : AgaParams) (σ δ : ℚ) : ℚ := σ * lowSkip p.crossoverRateRange * p.mutationRateRange.start.val * δ

section
variable {level : Nat → F64} {L : Nat} {σ : ℚ} {δ : Nat → ℚ}

theorem AgaRun.skip_mem (h : AgaRun M Pr envs a p init) :
    0 ≤ lowSkip p.crossoverRateRange ∧ lowSkip p.crossoverRateRange ≤ 1 := by
  obtain ⟨-, -, c1, c2, -⟩ := h.valid
  have htop : (interpolateF64 p.crossoverRateRange.start p.crossoverRateRange.stop F64.one).InClosedUnit :=
    F64.unit_interval.1 (C18_f64 _ _ _ (F64.unit_interval.2 c1) (F64.unit_interval.2 c2) (by decide +kernel))
  unfold lowSkip
  rw [skipChance_eq c2, skipChance_eq htop]
  exact ⟨le_min (prob_nonneg _ _) (prob_nonneg _ _), (min_le_left _ _).trans (prob_le_one _ _)⟩

theorem AgaClimbs.chance_mem (h : AgaClimbs M Pr envs a p init level L σ δ) (i : Nat) :
    0 ≤ agaChance p σ (δ i) ∧ agaChance p σ (δ i) ≤ 1 := by
  obtain ⟨⟨s0, s1⟩, hd⟩ := h.bounds
  obtain ⟨d0, d1⟩ := hd i
  obtain ⟨r0, r1⟩ := h.rate_mem
  obtain ⟨k0, k1⟩ := h.skip_mem
  unfold agaChance
  constructor
  · positivity
  · exact mul_le_one₀ (mul_le_one₀ (mul_le_one₀ s1 k0 k1) r0 r1) d0 d1

theorem AgaClimbs.breed (h : AgaClimbs M Pr envs a p init level L σ δ) (t : Nat) (st : RunState I (Aga Mo U) Q) (b : Aga Mo U)
    (i : Nat) (hs : ClimbState M (aga M) Aga.eliteSize Aga.populationSize Pr (max p.populationSize init.length) (AgaOk p a.model) st)
    (hi : i < L) (hr : Reached (level i) st.population)
    (hb : ((aga M).prepare (envs t).num st.algo st.population).yields (.ok b)) :
    (M.breed (envs t).num ((aga M).model b) st.population ((aga M).repro b).1).prob
      (fun c => ¬ (level (i + 1)).le (fitness c) = true) ≤ 1 - agaChance p σ (δ i) := by
  have hsz := h.size
  have hln := h.len
  exact hs.breed h.ops h.survive h.notNaN (aga_steady h.toAgaRun (by omega)) _ (level i) (level (i + 1)) σ (δ i)
    h.skip_mem.1 h.skip_mem.2 h.rate_mem.1 (h.bounds.2 i) (h.select t i hi) (h.climbs i hi) st b hr hb

/-- **C72** The expected number of calls of `progress`, if it stops at the top level. -/
theorem C72_expected (h : AgaClimbs M Pr envs a p init level L σ δ) (hpos : ∀ i, i < L → 0 < agaChance p σ (δ i))
    (progress : Q → Population I → Prog (Bool × Q))
    (hstop : ∀ q pop q', GoodPop pop → Reached (level L) pop → ¬ (progress q pop).yields (.ok (true, q'))) (k : Nat) (q : Q) :
    (evolvePopulation (aga M) envs progress k a init p q).expect callsOf ≤
      1 + ∑ i ∈ Finset.range L,
        1 / (1 - (1 - agaChance p σ (δ i)) ^ (p.populationSize - eliteCount p.populationSize p.elitismRate)) := by
  obtain ⟨a', hc, hi⟩ := h.begin (Q := Q) (level 0)
  have htwo := h.two
  have hch := h.chance_mem
  set m := p.populationSize - eliteCount p.populationSize p.elitismRate with hm
  have hx1 : ∀ i, i < L → (1 - agaChance p σ (δ i)) ^ m < 1 := fun i hi =>
    pow_lt_one₀ (by have := hch i; linarith) (by have := hpos i hi; linarith) (by omega)
  have hsum : 0 ≤ ∑ i ∈ Finset.range L, 1 / (1 - (1 - agaChance p σ (δ i)) ^ m) :=
    Finset.sum_nonneg fun i hi => one_div_nonneg.2 (by have := hx1 i (Finset.mem_range.1 hi); linarith)
  unfold evolvePopulation
  rw [hc]
  simp only [lift_ok, bind_pure_left]
  refine expect_bind_le_const _ _ _ _ (by simp only [callsOf]; linarith) (by simp only [callsOf]; linarith) fun pop hpop => ?_
  obtain ⟨i1, i2, i3, i4⟩ := hi.partially pop hpop q
  have := expect_ladder_calls (aga_standard M) envs h.env (breedsValid_default M h.ops.breed h.members h.distinct) h.notNaN h.eqFitness
    progress level (fun i => 1 - agaChance p σ (δ i)) (fun i => by have := hch i; linarith) (fun i => by have := hch i; linarith)
    m _ p.populationSize L (by omega) (by omega) h.elites _ ClimbState.show h.step
    (fun t st b i hs _ hi hr hb => h.breed t st b i hs hi hr hb)
    hstop (fun i => (1 - agaChance p σ (δ i)) ^ m) hx1 (fun i _ => le_rfl) k 1 0 (Nat.zero_le _) _ i1 i1.fine.good i3 i4 (i2 h.bottom)
  rw [Nat.Ico_zero_eq_range] at this
  simpa using this

/-- **C72** With the same chance at all levels: the run ends within `k + 1` calls with at least the probability of `L` successes in
`k` trials. -/
theorem C72_ladder_ends {δ : ℚ} (h : AgaClimbs M Pr envs a p init level L σ fun _ => δ)
    (progress : Q → Population I → Prog (Bool × Q)) (hpr : ∀ q p, p.WF → Always (fun _ => True) (progress q p))
    (hstop : ∀ q pop q', GoodPop pop → Reached (level L) pop → ¬ (progress q pop).yields (.ok (true, q'))) (k : Nat) (q : Q) :
    1 - fewSuccesses ((1 - agaChance p σ δ) ^ (p.populationSize - eliteCount p.populationSize p.elitismRate)) k L ≤
      (evolvePopulation (aga M) envs progress (k + 1) a init p q).prob (fun r => r.1 = true) := by
  have hrun := C64_run (aga_standard M) (aga_safe h.ops) h.ops envs h.env progress hpr (k + 1) a init p q
    ⟨h.valid, h.strategy, h.linear⟩ (by have := h.two; show 2 ≤ p.populationSize; omega) h.size h.len h.prop h.start
  have hsum := prob_add_not_of_always _ (fun r : Bool × RunState I (Aga Mo U) Q => r.1 = true) hrun
  have hle : (evolvePopulation (aga M) envs progress (k + 1) a init p q).prob (fun r => ¬ r.1 = true) ≤
      fewSuccesses ((1 - agaChance p σ δ) ^ (p.populationSize - eliteCount p.populationSize p.elitismRate)) k L := by
    obtain ⟨a', hc, hi⟩ := h.begin (Q := Q) (level 0)
    have htwo := h.two
    have hch := h.chance_mem 0
    set m := p.populationSize - eliteCount p.populationSize p.elitismRate with hm
    have hx0 : 0 ≤ (1 - agaChance p σ δ) ^ m := pow_nonneg (by linarith) _
    have hx1 : (1 - agaChance p σ δ) ^ m ≤ 1 := pow_le_one₀ (by linarith) (by linarith)
    unfold evolvePopulation
    rw [hc]
    simp only [lift_ok, bind_pure_left, Bool.not_eq_true]
    refine prob_bind_le_const _ _ _ _ (fewSuccesses_nonneg hx0 hx1 _ _) fun pop hpop => ?_
    obtain ⟨i1, i2, i3, i4⟩ := hi.partially pop hpop q
    exact prob_ladder_runs (aga_standard M) envs h.env (breedsValid_default M h.ops.breed h.members h.distinct) h.notNaN h.eqFitness
      progress level (fun i => 1 - agaChance p σ δ) (fun i => by linarith) (fun i => by linarith)
      m _ p.populationSize L (by omega) (by omega) h.elites _ ClimbState.show h.step
      (fun t st b i hs _ hi hr hb => h.breed t st b i hs hi hr hb)
      hstop _ hx0 hx1 (fun i _ => le_rfl) k 1 L le_rfl _ i1 i1.fine.good i3 i4 (by simpa using i2 h.bottom)
  linarith

/-- **C72** So if every level can be left, the run ends almost surely. -/
theorem C72_ladder_almost_surely {δ : ℚ} (h : AgaClimbs M Pr envs a p init level L σ fun _ => δ) (hpos : 0 < agaChance p σ δ)
    (progress : Q → Population I → Prog (Bool × Q)) (hpr : ∀ q p, p.WF → Always (fun _ => True) (progress q p))
    (hstop : ∀ q pop q', GoodPop pop → Reached (level L) pop → ¬ (progress q pop).yields (.ok (true, q'))) (q : Q) (ε : ℚ) (hε : 0 < ε) :
    ∃ K, ∀ k, K ≤ k → 1 - ε ≤ (evolvePopulation (aga M) envs progress k a init p q).prob (fun r => r.1 = true) := by
  have hch := h.chance_mem 0
  have htwo := h.two
  obtain ⟨K, hK⟩ := fewSuccesses_tendsto (x := (1 - agaChance p σ δ) ^ (p.populationSize - eliteCount p.populationSize p.elitismRate))
    (pow_nonneg (by linarith) _) (pow_lt_one₀ (by linarith) (by linarith) (by omega)) L hε
  refine ⟨K + 1, fun k hk => ?_⟩
  obtain ⟨j, rfl⟩ : ∃ j, k = j + 1 := ⟨k - 1, by omega⟩
  have h1 := C72_ladder_ends h progress hpr hstop j q
  have h2 := hK j (by omega)
  linarith

end
/-! ### The example of C68, started with two individuals -/

theorem guess_safe_ten : SafeOps guessModel (fun x => x ∈ tenNums) where
  crossover _ a b ha _ := by show Always _ (pure a); simpa using ha
  mutate _ a _ := by
    show Always _ (Prog.uniform 10 >>= fun k => pure (num k))
    rw [always_bind, always_uniform]
    refine ⟨by norm_num, fun i hi => ?_⟩
    rw [always_pure]
    interval_cases i <;> decide +kernel
  improve _ a ha := by show Always _ (pure a); simpa using ha
  evaluate _ a ha := by show Always _ (pure a); simpa using ha
  canSurvive _ _ _ _ _ _ := by show Always _ (pure _); simp
  preGeneration _ _ _ := rfl
  breed := rfl

/-- The numbers 0 and 1 have a spread. -/
theorem twoNums_spread : (Population.new exFullEnv.sort [num 0, num 1]).okAnd
    (fun pop => pop.stats.std.isFinite = true ∧ 0 < pop.stats.std.val) := by decide +kernel

theorem twoNums_good {M : EvoModel Num Unit Empty} (he : M.evaluate = fun _ a => pure a) (pop : Population Num)
    (h : (defaultInitialize M exFullEnv () [num 0, num 1]).yields (.ok pop)) : GoodSpread pop.stats.std := by
  have hs := twoNums_spread
  have h0 : isValid (num 0) = true := by decide +kernel
  have h1 : isValid (num 1) = true := by decide +kernel
  unfold defaultInitialize at h
  rw [he] at h
  simp only [Prog.mapList, bind_pure_left, List.filter_cons, h0, h1, if_true, List.filter_nil, yields_lift] at h
  rw [← h] at hs
  simpa [Res.okAnd, GoodSpread] using hs

theorem tenNums_small (x : Num) (hx : x ∈ tenNums) : (fitness x).isFinite = true ∧ |(fitness x).val| < pow2 1023 := by
  have : ∀ x ∈ tenNums, (fitness x).isFinite = true ∧ |(fitness x).val| < pow2 4 := by decide +kernel
  exact ⟨(this x hx).1, (this x hx).2.trans (pow2_lt.2 (by norm_num))⟩

theorem guess_agaRun : AgaRun guessModel (fun x => x ∈ tenNums) (fun _ => exFullEnv) (Aga.ofModel ()) AgaParams.default
    [num 0, num 1] where
  ops := guess_safe_ten
  survive := rfl
  members := fun u => u.elim
  distinct := fun u => u.elim
  notNaN := validNotNaN_default
  eqFitness := num_eqFitness
  env _ := exFullEnv_lawful
  valid := C50_defaults.2.2.1
  strategy := C50_defaults.2.2.2
  linear := by simp [AgaParams.default]
  size := by simp [AgaParams.default]
  two := by decide +kernel
  len := by simp
  prop := by decide +kernel
  start := ⟨num 0, by simp, by show Always _ (pure _); simp; decide +kernel⟩
  crossOrder := by decide +kernel
  mutOrder := by decide +kernel
  spread := Or.inr ⟨fun x hx _ _ => tenNums_small x hx, fun pop hpop => twoNums_good rfl pop hpop⟩

/-- **C72** The counterpart of `C68_contrast`: started with 0 and 1 instead of 0, the adaptive algorithm with the default
parameters reaches 9 almost surely. -/
theorem C72_contrast (ε : ℚ) (hε : 0 < ε) : ∃ K, ∀ k, K ≤ k → 1 - ε ≤ (evolvePopulation (aga guessModel) (fun _ => exFullEnv)
      (fun q p => pure (p.individuals.all fun x => !(F64.lit 9).le (fitness x), q)) k (Aga.ofModel ()) [num 0, num 1]
      AgaParams.default ()).prob (fun r => r.1 = true) := by
  refine C72_almost_surely (δ := 1 / 10) (target := F64.lit 9) guess_agaRun (fun o _ => ?_) (by norm_num) (by decide +kernel) _
    (fun _ _ _ => by simp) (fun q pop q' _ ⟨x, hx, hx2⟩ hy => ?_) () ε hε
  · show (1 / 10 : ℚ) ≤ (Prog.uniform 10 >>= fun k => pure (num k)).prob _
    decide +kernel
  · simp only [yields_pure, Res.ok.injEq, Prod.mk.injEq] at hy
    have := List.all_eq_true.1 hy.1.symm x hx
    rw [hx2] at this
    cases this

/-- The default parameters with tournaments of two and crossover rates up to 0.8. -/
def duelAgaParams : AgaParams :=
  { AgaParams.default with
    selectionStrategy := .tournament 2
    crossoverRateRange := ⟨F64.lit (5 / 10), F64.lit (8 / 10)⟩ }

theorem step_agaClimbs : AgaClimbs stepModel (fun x => x ∈ tenNums) (fun _ => exFullEnv) (Aga.ofModel ()) duelAgaParams
    [num 0, num 1] (fun i => F64.lit i) 9 (1 / 100) (fun _ => 1 / 2) where
  ops := step_safe
  survive := rfl
  members := fun u => u.elim
  distinct := fun u => u.elim
  notNaN := validNotNaN_default
  eqFitness := num_eqFitness
  env _ := exFullEnv_lawful
  valid := by
    obtain ⟨h1, h2, -, -, h5, h6⟩ := C50_defaults.2.2.1
    exact ⟨h1, h2, by unfold F64.InClosedUnit; decide +kernel, by unfold F64.InClosedUnit; decide +kernel, h5, h6⟩
  strategy := by simp [duelAgaParams, SelectionStrategy.Valid]
  linear := by simp [duelAgaParams]
  size := by simp [duelAgaParams, AgaParams.default]
  two := by decide +kernel
  len := by simp
  prop := by decide +kernel
  start := ⟨num 0, by simp, by show Always _ (pure _); simp; decide +kernel⟩
  crossOrder := by decide +kernel
  mutOrder := by decide +kernel
  spread := Or.inr ⟨fun x hx _ _ => tenNums_small x hx, fun pop hpop => twoNums_good rfl pop hpop⟩
  elites := by decide +kernel
  bottom := ⟨num 0, by simp, by show Always _ (pure _); simp only [always_pure]; decide +kernel⟩
  bounds := by norm_num
  select t i _ := by
    have := C69_selects stepModel (fun x => x ∈ tenNums) (max duelAgaParams.populationSize [num 0, num 1].length)
      (by simp [duelAgaParams, AgaParams.default]) exFullEnv.num (F64.lit i) duelAgaParams.selectionStrategy
      (Or.inl ⟨2, rfl, by norm_num⟩)
    simpa [duelAgaParams, AgaParams.default] using this
  climbs i hi o ho he hv hlo hup := by
    show (1 / 2 : ℚ) ≤ (Prog.uniform 2 >>= fun k => pure _).prob _
    clear he hv hup
    revert hlo o
    interval_cases i <;> decide +kernel

-- the chance of a climb is positive, so these runs end almost surely as well
example (ε : ℚ) (hε : 0 < ε) : ∃ K, ∀ k, K ≤ k → 1 - ε ≤ (evolvePopulation (aga stepModel) (fun _ => exFullEnv)
      (fun q p => pure (p.individuals.all fun x => !(F64.lit 9).le (fitness x), q)) k (Aga.ofModel ()) [num 0, num 1]
      duelAgaParams ()).prob (fun r => r.1 = true) :=
  C72_ladder_almost_surely step_agaClimbs (by decide +kernel) _ (fun _ _ _ => by simp)
    (fun q pop q' _ ⟨x, hx, hx2⟩ hy => by
      simp only [yields_pure, Res.ok.injEq, Prod.mk.injEq] at hy
      have := List.all_eq_true.1 hy.1.symm x hx
      rw [show (F64.lit 9).le (fitness x) = true from hx2] at this
      cases this) () ε hε

end RG.Props
