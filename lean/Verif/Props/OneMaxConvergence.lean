import Verif.Proofs.OneMaxClimb

/-!
# Property C70: the genetic algorithm solves OneMax
-/

set_option linter.unusedSectionVars false

namespace RG.Props
open RG RG.Prog
variable {Q : Type}

/-- A strategy that prefers fitter individuals in some way, with valid parameters. -/
def Prefers (s : SelectionStrategy) : Prop :=
  (∃ k, s = .tournament k ∧ k ≠ 0) ∨ s = .rank ∨ (∃ r, s = .elitist r ∧ r.isFinite = true ∧ 0 ≤ r.val ∧ r.val < 1) ∨
    s = .rouletteWheel ∨ ∃ b, s = .linear b ∧ GoodBias b

theorem Prefers.valid {s : SelectionStrategy} (h : Prefers s) : s.Valid := by
  rcases h with ⟨k, rfl, hk0⟩ | rfl | ⟨r, rfl, hr⟩ | rfl | ⟨b, rfl, hb⟩
  · exact hk0
  · trivial
  · exact hr
  · trivial
  · trivial

theorem Prefers.linear {s : SelectionStrategy} (h : Prefers s) (b : F64) (hs : s = .linear b) : SafeBias b := by
  subst hs
  rcases h with ⟨k, hk, hk0⟩ | hs | ⟨r, hr, hr'⟩ | hs | ⟨b', hs, hb⟩
  · cases hk
  · cases hs
  · cases hr
  · cases hs
  · cases hs; exact hb.2.2.2

/-- The hypotheses of C70: OneMax on `n` bits with valid parameters, at least one elite and two bred individuals, sizes up to
`2^24`, and an initial population with a `true` bit in it. -/
structure OneMaxRun (envs : Nat → Env OneMax) (p : GaParams) (init : List OneMax) (n : Nat) : Prop where
  bits : 2 ≤ n ∧ n < 2 ^ 53
  env : ∀ t, (envs t).Lawful
  valid : p.Valid
  strategy : Prefers p.selectionStrategy
  size : p.populationSize ≤ 2 ^ 24
  len : init.length ≤ 2 ^ 24
  elites : 1 ≤ eliteCount p.populationSize p.elitismRate
  two : eliteCount p.populationSize p.elitismRate + 2 ≤ p.populationSize
  lengths : ∀ x ∈ init, x.genome.length = n
  seed : ∃ x ∈ init, true ∈ x.genome

/-- The population size that bounds the chance of selection. -/
def bigSize (p : GaParams) (init : List OneMax) : Nat := max p.populationSize init.length

section
variable {envs : Nat → Env OneMax} {p : GaParams} {init : List OneMax} {n : Nat}

theorem OneMaxRun.climbs (h : OneMaxRun envs p init n) (a : Ga Unit Empty) (δ : Nat → ℚ) (hδ0 : ∀ i, 0 ≤ δ i ∧ δ i ≤ 1)
    (hδ : ∀ i, i < n - 1 → δ i ≤ oneChance n i) :
    Climbs OneMax.model (fun x => x.genome.length = n ∧ ∀ b ∈ x.genome, True) envs a p init (oneLevel n) (n - 1)
      (1 / (2 * bigSize p init)) δ := by
  obtain ⟨h2, hn⟩ := h.bits
  have hne : ∀ x : OneMax, x.genome.length = n → x.genome ≠ [] := by
    rintro x hx h0; rw [h0] at hx; simp at hx; omega
  have hval : ∀ x ∈ init, Always (fun e => isValid e = true) (OneMax.model.evaluate a.model x) := fun x hx => by
    show Always _ (pure (OneMax.evaluate x))
    rw [always_pure]
    exact (C63_ratio x (hne x (h.lengths x hx)) (by rw [h.lengths x hx]; omega)).2.2.2.2.2
  have hB1 : 1 ≤ bigSize p init := le_trans (by have := h.two; omega) (le_max_left _ _)
  have hB2 : bigSize p init ≤ 2 ^ 24 := max_le h.size h.len
  have hBq : (1 : ℚ) ≤ bigSize p init := by exact_mod_cast hB1
  refine { ops := C63_operators (fun _ => True) n (by omega), survive := rfl, members := oneMax_members, distinct := oneMax_distinct,
           notNaN := validNotNaN_default, eqFitness := oneMax_eqFitness, env := h.env, valid := h.valid, strategy := ?_,
           linear := ?_, size := lt_of_le_of_lt h.size (by norm_num), two := h.two, len := lt_of_le_of_lt h.len (by norm_num),
           prop := fun x hx => ⟨h.lengths x hx, by simp⟩, start := ?_, elites := h.elites, bottom := ?_, bounds := ?_,
           select := ?_, climbs := ?_ }
  · exact h.strategy.valid
  · exact h.strategy.linear
  · obtain ⟨x, hx, -⟩ := h.seed
    exact ⟨x, hx, hval x hx⟩
  · obtain ⟨x, hx, hb⟩ := h.seed
    refine ⟨x, hx, ?_⟩
    show Always _ (pure (OneMax.evaluate x))
    rw [always_pure]
    refine ⟨by have := hval x hx; rwa [show OneMax.model.evaluate a.model x = pure (OneMax.evaluate x) from rfl, always_pure] at this, ?_⟩
    rw [oneLevel_le x (h.lengths x hx) hn (by omega)]
    exact List.count_pos_iff.2 hb
  · refine ⟨⟨by positivity, ?_⟩, hδ0⟩
    rw [div_le_one (by linarith)]; linarith
  · intro t i hi
    rcases h.strategy with hs | hs | hs | hs | hs
    · exact selects_half (C69_selects _ _ _ (lt_of_le_of_lt hB2 (by norm_num)) _ _ _ (Or.inl hs)) hBq
    · exact selects_half (C69_selects _ _ _ (lt_of_le_of_lt hB2 (by norm_num)) _ _ _ (Or.inr (Or.inl hs))) hBq
    · exact selects_half (C69_selects _ _ _ (lt_of_le_of_lt hB2 (by norm_num)) _ _ _ (Or.inr (Or.inr (Or.inl hs)))) hBq
    · rw [hs]
      have hfin : ∀ x : OneMax, x.genome.length = n → (fitness (OneMax.evaluate x)).isFinite = true ∧
          0 ≤ (fitness (OneMax.evaluate x)).val ∧ (fitness (OneMax.evaluate x)).val ≤ 1 := fun x hx => by
        obtain ⟨-, c2, -, c4, c5, -⟩ := C63_ratio x (hne x hx) (by omega)
        exact ⟨c2, c4, c5⟩
      obtain ⟨l1, l2⟩ := oneLevel_val (n := n) (i := i) (by omega) hn (by omega)
      refine C69_selects_roulette _ _ _ hB2 _ (h.env t).2 ?_ _ l1 ?_
      · rintro x ⟨hx, -⟩ hev -
        have := hfin x hx
        rw [evaluated_oneMax hev] at this
        refine ⟨this.1, this.2.1, this.2.2.trans ?_⟩
        exact one_le_zpow₀ (by norm_num) (by norm_num)
      · exact le_trans (zpow_le_zpow_right₀ (by norm_num) (by norm_num)) l2
    · exact selects_half (C69_selects _ _ _ (lt_of_le_of_lt hB2 (by norm_num)) _ _ _ (Or.inr (Or.inr (Or.inr hs)))) hBq
  · intro i hi o h1 h2 h3 h4 h5
    exact (hδ i hi).trans (oneMax_climbs hn (by omega) o h1 h2 h3 h4 h5)

/-- Reaching the top level. -/
theorem oneLevel_top {n : Nat} (hn : n ≠ 0) (h : n ≤ 2 ^ 53) : (oneLevel n (n - 1)).key = F64.one.key := by
  obtain ⟨f, v⟩ := F64.ofNat_exact (n := n) h
  have hpos : (n : ℚ) ≠ 0 := by exact_mod_cast hn
  have hr : Rep (1 : ℚ) := by have := rep_nat (n := 1) (by norm_num); simpa using this
  have e := F64.div_finite f f (by rw [v]; exact hpos)
  rw [v, div_self hpos] at e
  obtain ⟨g1, g2⟩ := F64.round_rep (s := (F64.ofNat n).signBit ^^ (F64.ofNat n).signBit) hr
  unfold oneLevel
  rw [show n - 1 + 1 = n by omega, e, F64.key_eq_finite g1 rfl, g2]
  rfl

theorem reached_top {n : Nat} (hn : n ≠ 0) (h : n < 2 ^ 53) (pop : Population OneMax) :
    Reached (oneLevel n (n - 1)) pop ↔ Reached F64.one pop := by
  have hk := oneLevel_top hn h.le
  have hf := (oneLevel_val (n := n) (i := n - 1) (by omega) h (by omega)).1
  have : ∀ x : F64, (oneLevel n (n - 1)).le x = F64.one.le x := fun x => by
    unfold F64.le
    rw [hk, F64.isNaN_of_finite hf]
    rfl
  unfold Reached
  simp only [this]

/-- **C70** From an initial population with at least one `true` bit, a run of the genetic algorithm that stops when the fitness 1 is
reached calls `progress` at most `n + 4 B (n - 1) H(n - 1) / (m κ ρ)` times on average: for genomes of `n` bits, populations of at
most `B` individuals of which `m` are bred, the probability `κ` of no crossover, and the mutation rate `ρ`. `H` are the harmonic
numbers. -/
theorem C70_expected (h : OneMaxRun envs p init n) (a : Ga Unit Empty) (hκ : 0 < skipChance p.crossoverRate)
    (hρ : 0 < p.mutationRate.val) (progress : Q → Population OneMax → Prog (Bool × Q))
    (hstop : ∀ q pop q', GoodPop pop → Reached F64.one pop → ¬ (progress q pop).yields (.ok (true, q'))) (k : Nat) (q : Q) :
    (evolvePopulation (ga OneMax.model) envs progress k a init p q).expect callsOf ≤
      n + 4 * bigSize p init * (n - 1) * harmonic (n - 1) /
        (((p.populationSize - eliteCount p.populationSize p.elitismRate : Nat) : ℚ) * skipChance p.crossoverRate * p.mutationRate.val) := by
  obtain ⟨h2, hn⟩ := h.bits
  have htwo := h.two
  have hc := h.climbs a (fun i => if i < n - 1 then oneChance n i else 0)
    (fun i => by
      by_cases hi : i < n - 1
      · rw [if_pos hi]
        have := oneChance_bounds (n := n) (i := i) (by omega)
        exact ⟨this.1.le, by linarith [this.2.1]⟩
      · rw [if_neg hi]; norm_num)
    (fun i hi => by rw [if_pos hi])
  have hB : (1 : ℚ) ≤ bigSize p init := by
    exact_mod_cast le_trans (by omega : 1 ≤ p.populationSize) (le_max_left p.populationSize init.length)
  set m := p.populationSize - eliteCount p.populationSize p.elitismRate with hm
  have hmq : (0 : ℚ) < m := by exact_mod_cast (by omega : 0 < m)
  set κ := skipChance p.crossoverRate
  set ρ := p.mutationRate.val
  set B : ℚ := (bigSize p init : ℚ)
  have hch : ∀ i, i < n - 1 → climbChance p (1 / (2 * B)) (if i < n - 1 then oneChance n i else 0) =
      κ * ρ / (2 * B) * oneChance n i := fun i hi => by
    rw [if_pos hi]; unfold climbChance; ring
  have hpos : ∀ i, i < n - 1 → 0 < climbChance p (1 / (2 * B)) (if i < n - 1 then oneChance n i else 0) := fun i hi => by
    rw [hch i hi]
    exact mul_pos (by positivity) (oneChance_bounds (by omega)).1
  refine (C69_expected hc hpos progress (fun q pop q' hg hr => hstop q pop q' hg ((reached_top (by omega) hn pop).1 hr)) k q).trans ?_
  have hsum : ∑ i ∈ Finset.range (n - 1), 1 / (1 - (1 - climbChance p (1 / (2 * B)) (if i < n - 1 then oneChance n i else 0)) ^ m) ≤
      ∑ i ∈ Finset.range (n - 1), (1 + 2 * B / (m * κ * ρ) * (1 / oneChance n i)) := by
    refine Finset.sum_le_sum fun i hi => ?_
    rw [Finset.mem_range] at hi
    refine (waiting_le (hpos i hi) (hc.chance_mem i).2 m (by omega)).trans (le_of_eq ?_)
    rw [hch i hi]
    have := (oneChance_bounds (n := n) (i := i) (by omega)).1
    field_simp
  rw [Finset.sum_add_distrib, ← Finset.mul_sum, sum_oneChance n h2] at hsum
  simp only [Finset.sum_const, Finset.card_range, nsmul_eq_mul, mul_one] at hsum
  rw [Nat.cast_sub (by omega : 1 ≤ n), Nat.cast_one] at hsum
  refine (add_le_add_right hsum 1).trans (le_of_eq ?_)
  field_simp
  ring

/-- **C70** So such a run ends almost surely. -/
theorem C70_almost_surely (h : OneMaxRun envs p init n) (a : Ga Unit Empty) (hκ : 0 < skipChance p.crossoverRate)
    (hρ : 0 < p.mutationRate.val) (progress : Q → Population OneMax → Prog (Bool × Q))
    (hpr : ∀ q p, p.WF → Always (fun _ => True) (progress q p))
    (hstop : ∀ q pop q', GoodPop pop → Reached F64.one pop → ¬ (progress q pop).yields (.ok (true, q'))) (q : Q) (ε : ℚ) (hε : 0 < ε) :
    ∃ K, ∀ k, K ≤ k → 1 - ε ≤ (evolvePopulation (ga OneMax.model) envs progress k a init p q).prob (fun r => r.1 = true) := by
  obtain ⟨h2, hn⟩ := h.bits
  have hnq : (2 : ℚ) ≤ n := by exact_mod_cast h2
  have htwo := h.two
  have hB : (1 : ℚ) ≤ bigSize p init := by
    exact_mod_cast le_trans (by omega : 1 ≤ p.populationSize) (le_max_left p.populationSize init.length)
  have hc := h.climbs a (fun i => 1 / n)
    (fun i => ⟨by positivity, by rw [div_le_one (by linarith)]; linarith⟩)
    (fun i hi => (oneChance_bounds (by omega)).2.2)
  refine C69_almost_surely hc ?_ progress hpr (fun q pop q' hg hr => hstop q pop q' hg ((reached_top (by omega) hn pop).1 hr)) q ε hε
  unfold climbChance
  positivity

/-- **C70** The probability that such a run has ended after `k + 1` calls of `progress`: at least that of `n - 1` successes in `k`
trials, each with the success probability `1 - (1 - κ ρ / (2 B n)) ^ m`. -/
theorem C70_ends (h : OneMaxRun envs p init n) (a : Ga Unit Empty) (progress : Q → Population OneMax → Prog (Bool × Q))
    (hpr : ∀ q p, p.WF → Always (fun _ => True) (progress q p))
    (hstop : ∀ q pop q', GoodPop pop → Reached F64.one pop → ¬ (progress q pop).yields (.ok (true, q'))) (k : Nat) (q : Q) :
    1 - fewSuccesses ((1 - skipChance p.crossoverRate * p.mutationRate.val / (2 * bigSize p init * n)) ^
        (p.populationSize - eliteCount p.populationSize p.elitismRate)) k (n - 1) ≤
      (evolvePopulation (ga OneMax.model) envs progress (k + 1) a init p q).prob (fun r => r.1 = true) := by
  obtain ⟨h2, hn⟩ := h.bits
  have hnq : (2 : ℚ) ≤ n := by exact_mod_cast h2
  have hc := h.climbs a (fun i => 1 / n)
    (fun i => ⟨by positivity, by rw [div_le_one (by linarith)]; linarith⟩)
    (fun i hi => (oneChance_bounds (by omega)).2.2)
  have := C69_ends hc progress hpr (fun q pop q' hg hr => hstop q pop q' hg ((reached_top (by omega) hn pop).1 hr)) k q
  have he : climbChance p (1 / (2 * bigSize p init)) (1 / n) =
      skipChance p.crossoverRate * p.mutationRate.val / (2 * bigSize p init * n) := by
    unfold climbChance
    field_simp
  rwa [he] at this

end

/-! ### An example -/

/-- Genomes of five bits with one `true`. -/
def loneBit : OneMax := .ofGenome [false, true, false, false, false]

theorem loneBit_run : OneMaxRun (fun _ => oneEnv) GaParams.default [loneBit] 5 where
  bits := by norm_num
  env _ := oneEnv_lawful
  valid := C50_defaults.1
  strategy := Or.inr (Or.inr (Or.inr (Or.inl rfl)))
  size := by simp [GaParams.default]
  len := by simp
  elites := by decide +kernel
  two := by decide +kernel
  lengths := by simp [loneBit, OneMax.ofGenome]
  seed := ⟨loneBit, by simp, by simp [loneBit, OneMax.ofGenome]⟩

/-- Go on until the fitness 1 is reached: `population.fittest().fitness() < 1.0`. -/
def untilSolved (q : Unit) (p : Population OneMax) : Prog (Bool × Unit) := do
  let x ← Prog.lift p.fittest
  pure ((fitness x).lt F64.one, q)

theorem untilSolved_always {q : Unit} {pop : Population OneMax} (w : pop.WF) : Always (fun _ => True) (untilSolved q pop) := by
  rw [untilSolved, w.fittest_ok.1]; simp

theorem untilSolved_iff (q : Unit) (pop : Population OneMax) (b : Bool) (q' : Unit) (hg : GoodPop pop)
    (hy : (untilSolved q pop).yields (.ok (b, q'))) : b = false ↔ Reached F64.one pop := by
  obtain ⟨x, hx, e, -, hle⟩ := hg.best validNotNaN_default
  have hn := validNotNaN_default x (hg.valid x hx)
  rw [untilSolved, e] at hy
  simp only [lift_ok, bind_pure_left, yields_pure, Res.ok.injEq, Prod.mk.injEq] at hy
  rw [hy.1, F64.not_lt_iff_le hn rfl]
  exact ⟨fun h => ⟨x, hx, h⟩, fun ⟨y, hy, h⟩ => F64.le_trans h (hle y hy)⟩

theorem untilSolved_goes {q : Unit} {pop : Population OneMax} (hg : GoodPop pop) (hr : ¬ Reached F64.one pop) :
    Always (fun r => r.1 = true) (untilSolved q pop) := by
  refine ((untilSolved_always hg.wf).and fun r hr => hr).mono fun r h => ?_
  have := untilSolved_iff q pop r.1 r.2 hg h.2
  by_contra hc
  exact hr (this.1 (by simpa using hc))

-- with the default parameters it takes at most 1700 generations on average to set the other four bits
example (k : Nat) : (evolvePopulation (ga OneMax.model) (fun _ => oneEnv) untilSolved k (Ga.ofModel ()) [loneBit] GaParams.default
    ()).expect callsOf ≤ 1700 := by
  have h1 : skipChance GaParams.default.crossoverRate = (2 ^ 53 - 7205759403792794) / 2 ^ 53 := by decide +kernel
  have h2 : GaParams.default.mutationRate.val = 3602879701896397 / 2 ^ 55 := by decide +kernel
  have h3 : GaParams.default.populationSize - eliteCount GaParams.default.populationSize GaParams.default.elitismRate = 99 := by
    decide +kernel
  have h4 : bigSize GaParams.default [loneBit] = 100 := by decide +kernel
  have h5 : harmonic 4 = 25 / 12 := by decide +kernel
  have h := C70_expected loneBit_run (Ga.ofModel ()) (by rw [h1]; norm_num) (by rw [h2]; norm_num) untilSolved
    (fun q pop q' hg hr hy => by simpa using (untilSolved_iff q pop true q' hg hy).2 hr) k ()
  rw [h1, h2, h3, h4, show 5 - 1 = 4 from rfl, h5] at h
  refine h.trans ?_
  norm_num

end RG.Props
