import Verif.Proofs.GaLadder
import Verif.Props.Convergence
import Verif.Props.LinearF64

/-!
# Property C69: the genetic algorithm climbs a ladder of fitness levels

C67 needs a mutation that reaches the target at once. Here a mutation only has to lead from every level to the next one
(`Climbs`). A bred individual then climbs with probability at least `c = climbChance p σ δ = σ κ ρ δ`, for the probabilities `σ` that
selection finds a parent at the present level, `κ` that there is no crossover, `ρ` that there is a mutation, `δ` that the mutation
climbs. A generation breeds at least `m = population_size - elites` individuals and keeps its best, so it fails to climb with
probability at most `x = (1 - c) ^ m`.
-/

set_option linter.unusedSectionVars false

namespace RG.Props
open RG RG.Prog
variable {I : Type} [Individual I] {Mo U Q : Type} {M : EvoModel I Mo U} {Pr : I → Prop} {envs : Nat → Env I} {a : Ga Mo U}
  {p : GaParams} {init : List I} {level : Nat → F64} {L : Nat} {σ : ℚ}

theorem Climbs.chance_mem {δ : Nat → ℚ} (h : Climbs M Pr envs a p init level L σ δ) (i : Nat) :
    0 ≤ climbChance p σ (δ i) ∧ climbChance p σ (δ i) ≤ 1 := by
  obtain ⟨⟨s0, s1⟩, hd⟩ := h.bounds
  obtain ⟨d0, d1⟩ := hd i
  obtain ⟨-, r0, r1⟩ := h.rate_mem
  obtain ⟨k0, k1, -⟩ := h.skip
  unfold climbChance
  constructor
  · positivity
  · exact mul_le_one₀ (mul_le_one₀ (mul_le_one₀ s1 k0 k1) r0 r1) d0 d1

/-- **C69** The expected number of calls of `progress`, if it stops at the top level: at most one more than the sum of the expected
waiting times at the levels, whatever the bound on the number of generations. -/
theorem C69_expected {δ : Nat → ℚ} (h : Climbs M Pr envs a p init level L σ δ) (hpos : ∀ i, i < L → 0 < climbChance p σ (δ i))
    (progress : Q → Population I → Prog (Bool × Q))
    (hstop : ∀ q pop q', GoodPop pop → Reached (level L) pop → ¬ (progress q pop).yields (.ok (true, q'))) (k : Nat) (q : Q) :
    (evolvePopulation (ga M) envs progress k a init p q).expect callsOf ≤
      1 + ∑ i ∈ Finset.range L,
        1 / (1 - (1 - climbChance p σ (δ i)) ^ (p.populationSize - eliteCount p.populationSize p.elitismRate)) := by
  obtain ⟨a', hc, hi⟩ := h.begin (Q := Q)
  have htwo := h.two
  have hch := h.chance_mem
  set m := p.populationSize - eliteCount p.populationSize p.elitismRate with hm
  have hx1 : ∀ i, i < L → (1 - climbChance p σ (δ i)) ^ m < 1 := fun i hi =>
    pow_lt_one₀ (by have := hch i; linarith) (by have := hpos i hi; linarith) (by omega)
  have hsum : 0 ≤ ∑ i ∈ Finset.range L, 1 / (1 - (1 - climbChance p σ (δ i)) ^ m) :=
    Finset.sum_nonneg fun i hi => one_div_nonneg.2 (by have := hx1 i (Finset.mem_range.1 hi); linarith)
  unfold evolvePopulation
  rw [hc]
  simp only [lift_ok, bind_pure_left]
  refine expect_bind_le_const _ _ _ _ (by simp only [callsOf]; linarith) (by simp only [callsOf]; linarith) fun pop hpop => ?_
  obtain ⟨i1, i2, i3, i4⟩ := hi.partially pop hpop q
  obtain ⟨⟨s0, s1⟩, hd⟩ := h.bounds
  have := expect_ladder_calls (ga_standard M) envs h.env (breedsValid_default M h.ops.breed h.members h.distinct) h.notNaN h.eqFitness
    progress level (fun i => 1 - climbChance p σ (δ i)) (fun i => by have := hch i; linarith) (fun i => by have := hch i; linarith)
    m _ p.populationSize L (by omega) (by omega) h.elites (ClimbState M (ga M) Ga.eliteSize Ga.populationSize Pr
      (max p.populationSize init.length) (GaOk p a.model)) ClimbState.show
    (fun t st st' hs hst => hs.step (ga_standard M) (ga_safe h.ops) h.ops h.members h.distinct h.notNaN (ga_steady h.toGaRun _)
      (h.env t) st st' hst)
    (fun t st b i hs _ hi hr hb => hs.breed h.ops h.survive h.notNaN (ga_steady h.toGaRun _) _ (level i) (level (i + 1)) σ (δ i)
      h.skip.1 h.skip.2.1 h.rate_mem.2.1 (hd i) (h.select t i hi) (h.climbs i hi) st b hr hb)
    hstop (fun i => (1 - climbChance p σ (δ i)) ^ m) hx1 (fun i _ => le_rfl) k 1 0 (Nat.zero_le _) _ i1 i1.fine.good i3 i4 i2
  rw [Nat.Ico_zero_eq_range] at this
  simpa using this

section
variable {δ : ℚ}

/-- **C69** With the same chance at all levels: the probability that a run goes on for `k` generations without having reached the
top is at most that of fewer than `L` successes in `k` trials, each failing with probability `x`. -/
theorem C69_missed (h : Climbs M Pr envs a p init level L σ fun _ => δ) (progress : Q → Population I → Prog (Bool × Q)) (k : Nat)
    (q : Q) :
    (evolvePopulation (ga M) envs progress k a init p q).prob (fun r => r.1 = false ∧ ¬ Reached (level L) r.2.population) ≤
      fewSuccesses ((1 - climbChance p σ δ) ^ (p.populationSize - eliteCount p.populationSize p.elitismRate)) k L := by
  obtain ⟨a', hc, hi⟩ := h.begin (Q := Q)
  have htwo := h.two
  have hch := h.chance_mem 0
  set m := p.populationSize - eliteCount p.populationSize p.elitismRate with hm
  have hx0 : 0 ≤ (1 - climbChance p σ δ) ^ m := pow_nonneg (by linarith) _
  have hx1 : (1 - climbChance p σ δ) ^ m ≤ 1 := pow_le_one₀ (by linarith) (by linarith)
  unfold evolvePopulation
  rw [hc]
  simp only [lift_ok, bind_pure_left]
  refine prob_bind_le_const _ _ _ _ (fewSuccesses_nonneg hx0 hx1 _ _) fun pop hpop => ?_
  obtain ⟨i1, i2, i3, i4⟩ := hi.partially pop hpop q
  obtain ⟨⟨s0, s1⟩, hd⟩ := h.bounds
  exact prob_ladder_missed (ga_standard M) envs h.env (breedsValid_default M h.ops.breed h.members h.distinct) h.notNaN h.eqFitness
    progress level (fun i => 1 - climbChance p σ δ) (fun i => by linarith) (fun i => by linarith)
    m _ p.populationSize L (by omega) (by omega) h.elites (ClimbState M (ga M) Ga.eliteSize Ga.populationSize Pr
      (max p.populationSize init.length) (GaOk p a.model)) ClimbState.show
    (fun t st st' hs hst => hs.step (ga_standard M) (ga_safe h.ops) h.ops h.members h.distinct h.notNaN (ga_steady h.toGaRun _)
      (h.env t) st st' hst)
    (fun t st b i hs _ hi hr hb => hs.breed h.ops h.survive h.notNaN (ga_steady h.toGaRun _) _ (level i) (level (i + 1)) σ δ
      h.skip.1 h.skip.2.1 h.rate_mem.2.1 (hd i) (h.select t i hi) (h.climbs i hi) st b hr hb)
    _ hx0 hx1 (fun i _ => le_rfl) k 1 L le_rfl _ i1 i1.fine.good i3 i4 (by simpa using i2)

/-- **C69** If `progress` never continues once the top is reached, the run ends within `k + 1` calls with at least this
probability. -/
theorem C69_ends (h : Climbs M Pr envs a p init level L σ fun _ => δ)
    (progress : Q → Population I → Prog (Bool × Q)) (hpr : ∀ q p, p.WF → Always (fun _ => True) (progress q p))
    (hstop : ∀ q pop q', GoodPop pop → Reached (level L) pop → ¬ (progress q pop).yields (.ok (true, q'))) (k : Nat) (q : Q) :
    1 - fewSuccesses ((1 - climbChance p σ δ) ^ (p.populationSize - eliteCount p.populationSize p.elitismRate)) k L ≤
      (evolvePopulation (ga M) envs progress (k + 1) a init p q).prob (fun r => r.1 = true) := by
  have hrun := C64_run (ga_standard M) (ga_safe h.ops) h.ops envs h.env progress hpr (k + 1) a init p q
    ⟨h.valid, h.strategy, h.linear⟩ (by have := h.two; show 2 ≤ p.populationSize; omega) h.size h.len h.prop h.start
  have hsum := prob_add_not_of_always _ (fun r : Bool × RunState I (Ga Mo U) Q => r.1 = true) hrun
  have hle : (evolvePopulation (ga M) envs progress (k + 1) a init p q).prob (fun r => ¬ r.1 = true) ≤
      fewSuccesses ((1 - climbChance p σ δ) ^ (p.populationSize - eliteCount p.populationSize p.elitismRate)) k L := by
    obtain ⟨a', hc, hi⟩ := h.begin (Q := Q)
    have htwo := h.two
    have hch := h.chance_mem 0
    set m := p.populationSize - eliteCount p.populationSize p.elitismRate with hm
    have hx0 : 0 ≤ (1 - climbChance p σ δ) ^ m := pow_nonneg (by linarith) _
    have hx1 : (1 - climbChance p σ δ) ^ m ≤ 1 := pow_le_one₀ (by linarith) (by linarith)
    unfold evolvePopulation
    rw [hc]
    simp only [lift_ok, bind_pure_left, Bool.not_eq_true]
    refine prob_bind_le_const _ _ _ _ (fewSuccesses_nonneg hx0 hx1 _ _) fun pop hpop => ?_
    obtain ⟨i1, i2, i3, i4⟩ := hi.partially pop hpop q
    obtain ⟨⟨s0, s1⟩, hd⟩ := h.bounds
    exact prob_ladder_runs (ga_standard M) envs h.env (breedsValid_default M h.ops.breed h.members h.distinct) h.notNaN h.eqFitness
      progress level (fun i => 1 - climbChance p σ δ) (fun i => by linarith) (fun i => by linarith)
      m _ p.populationSize L (by omega) (by omega) h.elites (ClimbState M (ga M) Ga.eliteSize Ga.populationSize Pr
        (max p.populationSize init.length) (GaOk p a.model)) ClimbState.show
      (fun t st st' hs hst => hs.step (ga_standard M) (ga_safe h.ops) h.ops h.members h.distinct h.notNaN (ga_steady h.toGaRun _)
        (h.env t) st st' hst)
      (fun t st b i hs _ hi hr hb => hs.breed h.ops h.survive h.notNaN (ga_steady h.toGaRun _) _ (level i) (level (i + 1)) σ δ
        h.skip.1 h.skip.2.1 h.rate_mem.2.1 (hd i) (h.select t i hi) (h.climbs i hi) st b hr hb)
      hstop _ hx0 hx1 (fun i _ => le_rfl) k 1 L le_rfl _ i1 i1.fine.good i3 i4 (by simpa using i2)
  linarith

/-- **C69** So if every level can be left, the run ends almost surely. -/
theorem C69_almost_surely (h : Climbs M Pr envs a p init level L σ fun _ => δ) (hpos : 0 < climbChance p σ δ)
    (progress : Q → Population I → Prog (Bool × Q)) (hpr : ∀ q p, p.WF → Always (fun _ => True) (progress q p))
    (hstop : ∀ q pop q', GoodPop pop → Reached (level L) pop → ¬ (progress q pop).yields (.ok (true, q'))) (q : Q) (ε : ℚ) (hε : 0 < ε) :
    ∃ K, ∀ k, K ≤ k → 1 - ε ≤ (evolvePopulation (ga M) envs progress k a init p q).prob (fun r => r.1 = true) := by
  have hch := h.chance_mem 0
  have htwo := h.two
  obtain ⟨K, hK⟩ := fewSuccesses_tendsto (x := (1 - climbChance p σ δ) ^ (p.populationSize - eliteCount p.populationSize p.elitismRate))
    (pow_nonneg (by linarith) _) (pow_lt_one₀ (by linarith) (by linarith) (by omega)) L hε
  refine ⟨K + 1, fun k hk => ?_⟩
  obtain ⟨j, rfl⟩ : ∃ j, k = j + 1 := ⟨k - 1, by omega⟩
  have h1 := C69_ends h progress hpr hstop j q
  have h2 := hK j (by omega)
  linarith

end

/-! ### Selection -/

/-- A bias for linear selection in `f64` for which no draw fails, between `1 + 2^-7` and 2. (C44: 1.25, 1.5 and 2 are such.) -/
def GoodBias (b : F64) : Prop := b.isFinite = true ∧ 1 + 1 / 2 ^ 7 ≤ b.val ∧ b.val ≤ 2 ∧ SafeBias b

/-- The bias of the documentation and some others. -/
theorem goodBias_example : ∀ b ∈ [(5 : ℚ) / 4, 3 / 2, 2], GoodBias (F64.lit b) := by
  have h : ∀ b ∈ [(5 : ℚ) / 4, 3 / 2, 2], (F64.lit b).isFinite = true ∧ 1 + 1 / 2 ^ 7 ≤ (F64.lit b).val ∧ (F64.lit b).val ≤ 2 := by
    decide +kernel
  exact fun b hb => ⟨(h b hb).1, (h b hb).2.1, (h b hb).2.2, C44_safe_bias.1 b hb⟩

/-- **C69** Tournament (of at least one), rank, elitist (with a valid ratio) and linear selection (with a good bias) select the last
individual, which is a fittest one, with probability at least `1 / n`. -/
theorem C69_selects_last (env : NumEnv) (s : Selector)
    (hs : (∃ t, s = .tournament t ∧ t.size ≠ 0) ∨ s = .rank ∨
      (∃ e, s = .elitist e ∧ e.ratio.isFinite = true ∧ 0 ≤ e.ratio.val ∧ e.ratio.val < 1) ∨ ∃ l, s = .linear l ∧ GoodBias l.bias)
    (pop : Population I) (hne : pop.individuals ≠ []) (hn : pop.individuals.length < 2 ^ 32) :
    1 / (pop.individuals.length : ℚ) ≤ (s.select env pop).prob (fun r => r.1 + 1 = pop.individuals.length) := by
  have hpos := List.length_pos_of_ne_nil hne
  set n := pop.individuals.length with hnn
  have hpq : (0 : ℚ) < n := by exact_mod_cast hpos
  have h1q : (1 : ℚ) ≤ n := by exact_mod_cast hpos
  have key : (s.select env pop).prob (fun r => r.1 + 1 = n) = (s.select env pop).prob (fun r => r.1 = n - 1) :=
    le_antisymm (prob_mono _ _ _ fun r _ h => by omega) (prob_mono _ _ _ fun r _ h => by omega)
  have hcast : ((n - 1 : Nat) : ℚ) = n - 1 := by rw [Nat.cast_sub hpos]; simp
  rw [key]
  rcases hs with ⟨t, rfl, ht⟩ | rfl | ⟨e, rfl, he⟩ | ⟨l, rfl, hl1, hl2, hl3, hl4⟩
  · show _ ≤ (t.select pop).prob _
    rw [C39_probability t ht pop (n - 1) (by omega), hcast, ← hnn, sub_add_cancel, div_le_div_iff₀ hpq (pow_pos hpq _), one_mul]
    obtain ⟨k, hk⟩ : ∃ k, t.size = k + 1 := ⟨t.size - 1, by omega⟩
    rw [hk]
    have h2 : ((n : ℚ) - 1) ^ k ≤ (n : ℚ) ^ k := pow_le_pow_left₀ (by linarith) (by linarith) _
    have h3 : (n : ℚ) ^ (k + 1) = (n : ℚ) ^ k * n := pow_succ _ _
    have h4 : ((n : ℚ) - 1) ^ (k + 1) = ((n : ℚ) - 1) ^ k * (n - 1) := pow_succ _ _
    rw [h3, h4]
    have h5 : ((n : ℚ) - 1) ^ k * (n - 1) ≤ (n : ℚ) ^ k * (n - 1) := mul_le_mul_of_nonneg_right h2 (by linarith)
    have h6 : 0 < (n : ℚ) ^ k := pow_pos hpq _
    nlinarith
  · show _ ≤ (rankSelect pop).prob _
    rw [C40_probability pop hn (n - 1) (by omega), hcast, ← hnn, sub_add_cancel, div_le_div_iff₀ hpq (by positivity)]
    nlinarith
  · show _ ≤ (e.select pop).prob _
    obtain ⟨b, -, b2, b3, -⟩ := C41_uniform e he pop hne (hn.le.trans (by norm_num))
    have hb2 : (b : ℚ) < n := by exact_mod_cast b2
    have hb0 : (0 : ℚ) ≤ b := by positivity
    rw [b3 (n - 1) (by omega) (by omega), ← hnn]
    exact one_div_le_one_div_of_le (by linarith) (by linarith)
  · show _ ≤ (l.select pop).prob _
    rcases Nat.lt_or_ge n 2 with h2 | h2
    · have h1 : n = 1 := by omega
      rw [prob_eq_one_of_always _ _ ((C44_f64_safe l.bias hl4 pop hne (hn.le.trans (by norm_num))).mono fun r hr => by
        have := hr.1; omega), h1]
      norm_num
    · have := C84_fittest l.bias hl1 hl2 hl3 pop h2 hn
      refine this.trans (prob_mono _ _ _ fun r _ h => by omega)

/-- **C69** So these strategies select an individual at the level with probability at least `1 / B`, for populations of at most `B`. -/
theorem C69_selects (M : EvoModel I Mo U) (Pr : I → Prop) (B : Nat) (hB : B < 2 ^ 32) (env : NumEnv) (target : F64)
    (s : SelectionStrategy) (hs : (∃ k, s = .tournament k ∧ k ≠ 0) ∨ s = .rank ∨
      (∃ r, s = .elitist r ∧ r.isFinite = true ∧ 0 ≤ r.val ∧ r.val < 1) ∨ ∃ b, s = .linear b ∧ GoodBias b) :
    SelectsFit s env (FinePop M Pr B) target (1 / B) := by
  rintro sel ⟨s0, h0, l, rfl⟩ pop hpop ⟨x, hx, hxt⟩
  have hkind : ∀ env (pop : Population I), s0.prepare env pop = s0 ∧ ((∃ t, s0 = .tournament t ∧ t.size ≠ 0) ∨ s0 = .rank ∨
      (∃ e, s0 = .elitist e ∧ e.ratio.isFinite = true ∧ 0 ≤ e.ratio.val ∧ e.ratio.val < 1) ∨ ∃ l, s0 = .linear l ∧ GoodBias l.bias) := by
    intro env pop
    rcases hs with ⟨k, rfl, hk⟩ | rfl | ⟨r, rfl, hr⟩ | ⟨b, rfl, hb⟩
    · have h0 : (TournamentSelection.new k >>= fun t => pure (Selector.tournament t)) = Res.ok s0 := h0
      rw [(C46_tournament ⟨1⟩ k).1, if_neg hk] at h0
      cases h0
      exact ⟨rfl, Or.inl ⟨_, rfl, hk⟩⟩
    · cases h0
      exact ⟨rfl, Or.inr (Or.inl rfl)⟩
    · have h0 : (ElitistSelection.new r >>= fun t => pure (Selector.elitist t)) = Res.ok s0 := h0
      rw [((C46_elitist ⟨r⟩ r).1 hr).1] at h0
      cases h0
      exact ⟨rfl, Or.inr (Or.inr (Or.inl ⟨_, rfl, hr⟩))⟩
    · cases h0
      exact ⟨rfl, Or.inr (Or.inr (Or.inr ⟨_, rfl, hb⟩))⟩
  have hfold : ∀ l : List (NumEnv × Population I), l.foldl (fun s ep => s.prepare ep.1 ep.2) s0 = s0 := by
    intro l
    induction l with
    | nil => rfl
    | cons ep l ih => rw [List.foldl_cons, (hkind _ _).1, ih]
  rw [hfold, (hkind env pop).1]
  have hne : pop.individuals ≠ [] := List.ne_nil_of_mem hx
  have hpos := List.length_pos_of_ne_nil hne
  have h1 := C69_selects_last env s0 (hkind env pop).2 pop hne (hpop.len.trans_lt hB)
  have hlen : (pop.individuals.length : ℚ) ≤ B := by exact_mod_cast hpop.len
  have hpq : (0 : ℚ) < pop.individuals.length := by exact_mod_cast hpos
  refine (one_div_le_one_div_of_le hpq hlen).trans (h1.trans (prob_mono _ _ _ fun r hr hl => ?_))
  obtain ⟨m1, m2⟩ := s0.select_isMember env pop r hr
  obtain ⟨i, hi, rfl⟩ := List.mem_iff_getElem.1 hx
  obtain ⟨m3, m4⟩ := List.getElem?_eq_some_iff.1 m2
  rcases Nat.lt_or_ge i r.1 with hlt | hge
  · have := List.pairwise_iff_getElem.1 hpop.good.sorted i r.1 hi m3 hlt
    rw [m4] at this
    exact F64.le_trans hxt this
  · have : i = r.1 := by omega
    subst this
    rw [← m4]; exact hxt

/-! ### An example -/

/-- Numbers 0 to 9; mutation adds 1 with probability 1/2. -/
def stepModel : EvoModel Num Unit Empty :=
  { ({ crossover := fun _ a _ => pure a
       mutate := fun _ a => do
         let k ← Prog.uniform 2
         pure (if k = 0 ∧ a.v.lt (F64.lit 9) = true then ⟨a.v.add F64.one⟩ else a)
       evaluate := fun _ a => pure a
       selectors := ⟨fun u => u.elim, fun u => u.elim, fun u => u.elim⟩ } : EvoOps Num Unit Empty) with }

/-- The numbers 0 to 9. -/
def tenNums : List Num := (List.range 10).map fun k => num k

theorem step_safe : SafeOps stepModel (fun x => x ∈ tenNums) where
  crossover _ a b ha _ := by show Always _ (pure a); simpa using ha
  mutate _ a ha := by
    show Always _ (Prog.uniform 2 >>= fun k => pure _)
    rw [always_bind, always_uniform]
    refine ⟨by norm_num, fun i hi => ?_⟩
    rw [always_pure]
    revert a
    interval_cases i <;> decide +kernel
  improve _ a ha := by show Always _ (pure a); simpa using ha
  evaluate _ a ha := by show Always _ (pure a); simpa using ha
  canSurvive _ _ _ _ _ _ := by show Always _ (pure _); simp
  preGeneration _ _ _ := rfl
  breed := rfl

/-- The default parameters with tournaments of two. -/
def duelParams : GaParams := { GaParams.default with selectionStrategy := .tournament 2 }

theorem step_climbs : Climbs stepModel (fun x => x ∈ tenNums) (fun _ => exFullEnv) (Ga.ofModel ()) duelParams [num 0]
    (fun i => F64.lit i) 9 (1 / 100) (fun _ => 1 / 2) where
  ops := step_safe
  survive := rfl
  members := fun u => u.elim
  distinct := fun u => u.elim
  notNaN := validNotNaN_default
  eqFitness := num_eqFitness
  env _ := exFullEnv_lawful
  valid := C50_defaults.1
  strategy := by simp [duelParams, SelectionStrategy.Valid]
  linear := by simp [duelParams]
  size := by simp [duelParams, GaParams.default]
  two := by decide +kernel
  len := by simp
  prop := by decide +kernel
  start := ⟨num 0, by simp, by show Always _ (pure _); simp; decide +kernel⟩
  elites := by decide +kernel
  bottom := ⟨num 0, by simp, by show Always _ (pure _); simp only [always_pure]; decide +kernel⟩
  bounds := by norm_num
  select t i _ := by
    have := C69_selects stepModel (fun x => x ∈ tenNums) (max duelParams.populationSize [num 0].length)
      (by simp [duelParams, GaParams.default]) exFullEnv.num (F64.lit i) duelParams.selectionStrategy
      (Or.inl ⟨2, rfl, by norm_num⟩)
    simpa [duelParams, GaParams.default] using this
  climbs i hi o ho he hv hlo hup := by
    show (1 / 2 : ℚ) ≤ (Prog.uniform 2 >>= fun k => pure _).prob _
    clear he hv hup
    revert hlo o
    interval_cases i <;> decide +kernel

-- so a run that is stopped at 9 ends after at most 1200 calls of `progress` on average
example (k : Nat) (q : Unit) : (evolvePopulation (ga stepModel) (fun _ => exFullEnv)
      (fun q p => pure (p.individuals.all fun x => !(F64.lit 9).le (fitness x), q)) k (Ga.ofModel ()) [num 0] duelParams q).expect
        callsOf ≤ 1200 := by
  have hc : climbChance duelParams (1 / 100) (1 / 2) =
      1 / 100 * skipChance (F64.lit (8 / 10)) * (F64.lit (1 / 10)).val * (1 / 2) := rfl
  have h1 : skipChance (F64.lit (8 / 10)) = (2 ^ 53 - 7205759403792794) / 2 ^ 53 := by decide +kernel
  have h2 : (F64.lit (1 / 10)).val = 3602879701896397 / 2 ^ 55 := by decide +kernel
  have h := C69_expected step_climbs (fun i _ => by rw [hc, h1, h2]; norm_num)
    (fun (q : Unit) p => pure (p.individuals.all fun x => !(F64.lit 9).le (fitness x), q))
    (fun q pop q' _ ⟨x, hx, hx2⟩ hy => by
      simp only [yields_pure, Res.ok.injEq, Prod.mk.injEq] at hy
      have := List.all_eq_true.1 hy.1.symm x hx
      rw [show (F64.lit 9).le (fitness x) = true from hx2] at this
      cases this) k q
  have he : duelParams.populationSize - eliteCount duelParams.populationSize duelParams.elitismRate = 99 := by decide +kernel
  rw [he, hc, h1, h2] at h
  refine h.trans ?_
  norm_num

end RG.Props
