import Verif.Props.CrossLadder
import Verif.Props.OneMaxConvergence
import Verif.Props.Spread
import Verif.Props.Stuck

/-!
# Property C80: OneMax at any crossover rate, and with the adaptive algorithm

C70 needs a crossover rate below 1. By C79 that is unnecessary: SinglePoint crossover copies the second parent with probability
`1 / n`. The adaptive algorithm needs an initial spread, which two individuals with different numbers of ones give it (C78).
-/

set_option linter.unusedSectionVars false

namespace RG.Props
open RG RG.Prog
variable {Q : Type}

/-- SinglePoint crossover copies the second parent with probability `1 / n`, and the mutation of the copy climbs. -/
theorem oneMax_crosses {n i : Nat} (hn : n < 2 ^ 53) (hi : i + 1 < n) :
    CrossClimbs OneMax.model () (fun x => x.genome.length = n ∧ ∀ b ∈ x.genome, True) (oneLevel n i) (oneLevel n (i + 1))
      (oneChance n i / n) := by
  rintro a b ⟨⟨ha, -⟩, -, -⟩ ⟨⟨hb, -⟩, hev, -⟩ hlo - -
  rw [← evaluated_oneMax hev, oneLevel_le b hb hn (by omega)] at hlo
  have hne : a.genome ≠ [] := by rintro h; rw [h] at ha; simp at ha; omega
  have hnq : (0 : ℚ) < n := by exact_mod_cast (by omega : 0 < n)
  show _ ≤ (OneMax.crossover a b >>= fun o => OneMax.mutate o >>= fun y => pure y >>= fun y => pure (OneMax.evaluate y)).prob _
  have hcopy : 1 / (n : ℚ) ≤ (OneMax.crossover a b).prob (fun o => o = ⟨b.genome, F64.zero⟩) := by
    unfold prob
    rw [C63_crossover a b (by omega) hne, ha]
    refine div_le_div_of_nonneg_right ?_ hnq.le
    refine le_trans ?_ (Finset.single_le_sum (fun k _ => ?_) (Finset.mem_range.2 (by omega : 0 < n)))
    · simp
    · dsimp only; split <;> norm_num
  have := oneMax_mutates hn hi ⟨b.genome, F64.zero⟩ hb hlo
  refine le_trans ?_ (mul_prob_le_bind _ _ (fun o => o = ⟨b.genome, F64.zero⟩) _ (oneChance n i) fun o _ ho => by rw [ho]; exact this)
  rw [div_eq_mul_one_div]
  exact mul_le_mul_of_nonneg_left hcopy (oneChance_bounds hi).1.le

/-- The sum of the waiting times at the levels. -/
theorem sum_waiting {n m : Nat} {B ρ : ℚ} (h2 : 2 ≤ n) (hm : 1 ≤ m) (hB : 1 ≤ B) (hρ : 0 < ρ) (hρ1 : ρ ≤ 1) (δ : Nat → ℚ)
    (hδ : ∀ i, i < n - 1 → δ i = oneChance n i / n) :
    1 + ∑ i ∈ Finset.range (n - 1), 1 / (1 - (1 - crossedChance (1 / (2 * B)) ρ (δ i)) ^ m) ≤
      n + 8 * B * n * (n - 1) * harmonic (n - 1) / (m * ρ) := by
  have hnq : (2 : ℚ) ≤ n := by exact_mod_cast h2
  have hmq : (1 : ℚ) ≤ m := by exact_mod_cast hm
  have hsum : ∑ i ∈ Finset.range (n - 1), 1 / (1 - (1 - crossedChance (1 / (2 * B)) ρ (δ i)) ^ m) ≤
      ∑ i ∈ Finset.range (n - 1), (1 + 4 * B * n / (m * ρ) * (1 / oneChance n i)) := by
    refine Finset.sum_le_sum fun i hi => ?_
    rw [Finset.mem_range] at hi
    obtain ⟨o1, o2, -⟩ := oneChance_bounds (n := n) (i := i) (by omega)
    have hpos : 0 < oneChance n i / n := div_pos o1 (by linarith)
    have hle : oneChance n i / n ≤ 1 := by rw [div_le_one (by linarith)]; linarith
    have hs : 0 < 1 / (2 * B) := by positivity
    have hs1 : 1 / (2 * B) ≤ 1 := by rw [div_le_one (by linarith)]; linarith
    rw [hδ i hi]
    refine (waiting_le (x := crossedChance (1 / (2 * B)) ρ (oneChance n i / n)) (by unfold crossedChance; positivity)
      (crossedChance_mem ⟨hs.le, hs1⟩ ⟨hρ.le, hρ1⟩ ⟨hpos.le, hle⟩).2 m hm).trans (le_of_eq ?_)
    unfold crossedChance
    field_simp
    ring
  rw [Finset.sum_add_distrib, ← Finset.mul_sum, sum_oneChance n h2] at hsum
  simp only [Finset.sum_const, Finset.card_range, nsmul_eq_mul, mul_one] at hsum
  rw [Nat.cast_sub (by omega : 1 ≤ n), Nat.cast_one] at hsum
  refine (add_le_add_right hsum 1).trans (le_of_eq ?_)
  field_simp
  ring

section
variable {envs : Nat → Env OneMax} {p : GaParams} {init : List OneMax} {n : Nat}

/-- **C80** The genetic algorithm on OneMax, as in C70 but at any crossover rate, even 1: with `B`, `m`, `ρ` and `H` as there, a run
that stops when the fitness 1 is reached calls `progress` at most `n + 8 B n (n - 1) H(n - 1) / (m ρ)` times on average. -/
theorem C80_ga_expected (h : OneMaxRun envs p init n) (a : Ga Unit Empty) (hρ : 0 < p.mutationRate.val)
    (progress : Q → Population OneMax → Prog (Bool × Q))
    (hstop : ∀ q pop q', GoodPop pop → Reached F64.one pop → ¬ (progress q pop).yields (.ok (true, q'))) (k : Nat) (q : Q) :
    (evolvePopulation (ga OneMax.model) envs progress k a init p q).expect callsOf ≤
      n + 8 * bigSize p init * n * (n - 1) * harmonic (n - 1) /
        (((p.populationSize - eliteCount p.populationSize p.elitismRate : Nat) : ℚ) * p.mutationRate.val) := by
  obtain ⟨h2, hn⟩ := h.bits
  have htwo := h.two
  have hnq : (2 : ℚ) ≤ n := by exact_mod_cast h2
  have hB : (1 : ℚ) ≤ bigSize p init := by
    exact_mod_cast le_trans (by omega : 1 ≤ p.populationSize) (le_max_left p.populationSize init.length)
  have hd : ∀ i, 0 ≤ (if i < n - 1 then oneChance n i / n else 0) ∧ (if i < n - 1 then oneChance n i / n else 0) ≤ (1 : ℚ) := by
    intro i
    by_cases hi : i < n - 1
    · rw [if_pos hi]
      obtain ⟨o1, o2, -⟩ := oneChance_bounds (n := n) (i := i) (by omega)
      exact ⟨div_nonneg o1.le (by linarith), by rw [div_le_one (by linarith)]; linarith⟩
    · rw [if_neg hi]; norm_num
  have hc := h.climbs a (fun i => if i < n - 1 then oneChance n i / n else 0) hd (fun i hi => by
    rw [if_pos hi]
    exact div_le_self (oneChance_bounds (by omega)).1.le (by linarith))
  refine (C79_ga_expected hc (fun i hi => by rw [if_pos hi]; exact oneMax_crosses hn (by omega)) (fun i hi => ?_) progress
    (fun q pop q' hg hr => hstop q pop q' hg ((reached_top (by omega) hn pop).1 hr)) k q).trans
    (sum_waiting h2 (by omega) hB hρ hc.rate_mem.2.2 _ fun i hi => if_pos hi)
  rw [if_pos hi]
  have := (oneChance_bounds (n := n) (i := i) (by omega)).1
  unfold crossedChance
  have : 0 < oneChance n i / n := div_pos this (by linarith)
  positivity

/-- **C80** So such a run ends almost surely. -/
theorem C80_ga_almost_surely (h : OneMaxRun envs p init n) (a : Ga Unit Empty) (hρ : 0 < p.mutationRate.val)
    (progress : Q → Population OneMax → Prog (Bool × Q)) (hpr : ∀ q p, p.WF → Always (fun _ => True) (progress q p))
    (hstop : ∀ q pop q', GoodPop pop → Reached F64.one pop → ¬ (progress q pop).yields (.ok (true, q'))) (q : Q) (ε : ℚ) (hε : 0 < ε) :
    ∃ K, ∀ k, K ≤ k → 1 - ε ≤ (evolvePopulation (ga OneMax.model) envs progress k a init p q).prob (fun r => r.1 = true) := by
  obtain ⟨h2, hn⟩ := h.bits
  have htwo := h.two
  have hnq : (2 : ℚ) ≤ n := by exact_mod_cast h2
  have hB : (1 : ℚ) ≤ bigSize p init := by
    exact_mod_cast le_trans (by omega : 1 ≤ p.populationSize) (le_max_left p.populationSize init.length)
  have h1 : 1 / (n : ℚ) / n ≤ 1 / n := div_le_self (by positivity) (by linarith)
  have hc := h.climbs a (fun i => 1 / n / n)
    (fun i => ⟨by positivity, h1.trans (by rw [div_le_one (by linarith)]; linarith)⟩)
    (fun i hi => h1.trans (oneChance_bounds (by omega)).2.2)
  refine C79_ga_almost_surely hc (fun i hi a b ha hb hl hu1 hu2 => ?_) ?_ progress hpr
    (fun q pop q' hg hr => hstop q pop q' hg ((reached_top (by omega) hn pop).1 hr)) q ε hε
  · refine le_trans ?_ (oneMax_crosses hn (by omega) a b ha hb hl hu1 hu2)
    exact div_le_div_of_nonneg_right (oneChance_bounds (by omega)).2.2 (by linarith)
  · unfold crossedChance
    positivity

end

/-! ### The spread of an initial population -/

section
variable {env : Env OneMax} {init : List OneMax} {n : Nat} {pop : Population OneMax}

/-- **C80** Genomes of `n ≤ 2^49` bits: the spread of the initial population is zero exactly if all individuals have the same number
of ones; otherwise it is finite and positive. -/
theorem C80_spread (henv : env.Lawful) (hn : 1 ≤ n ∧ n ≤ 2 ^ 49) (hlen : ∀ x ∈ init, x.genome.length = n) (hsz : init.length ≤ 2 ^ 53)
    (hpop : (defaultInitialize OneMax.model env () init).yields (.ok pop)) :
    (pop.stats.std.feq F64.zero = true ↔ ∀ x ∈ init, ∀ y ∈ init, ones x.genome = ones y.genome) ∧
    ((∃ x ∈ init, ∃ y ∈ init, ones x.genome ≠ ones y.genome) → GoodSpread pop.stats.std) := by
  have hnq : (1 : ℚ) ≤ n := by exact_mod_cast hn.1
  have hnq' : (n : ℚ) ≤ pow2 49 := by
    rw [show (49 : Int) = ((49 : Nat) : Int) from rfl, pow2_natCast]; exact_mod_cast hn.2
  obtain ⟨hwf, -, -, hl, -⟩ := init_wf henv hpop
  obtain ⟨ev, e1, -, -, -, e2, e3⟩ := C62_initialize OneMax.model env henv () init pop hpop
  have hev : ∀ x ∈ pop.individuals, ∃ u ∈ init, x = OneMax.evaluate u := by
    intro x hx
    obtain ⟨u, hu, hux⟩ := forall₂_mem_right e1 x (e2 x hx).1
    exact ⟨u, hu, Res.ok.inj hux⟩
  have hne : ∀ u ∈ init, u.genome ≠ [] := by
    rintro u hu h0; have := hlen u hu; rw [h0] at this; simp at this; omega
  have hfit : ∀ u ∈ init, (fitness (OneMax.evaluate u)).isFinite = true ∧
      (fitness (OneMax.evaluate u)).val = rndQ (ones u.genome / n) ∧ 0 ≤ (fitness (OneMax.evaluate u)).val ∧
      (fitness (OneMax.evaluate u)).val ≤ 1 ∧ isValid (OneMax.evaluate u) = true := fun u hu => by
    obtain ⟨-, c2, c3, c4, c5, c6⟩ := C63_ratio u (hne u hu) (by rw [hlen u hu]; omega)
    rw [hlen u hu] at c3
    exact ⟨c2, c3, c4, c5, c6⟩
  have hin : ∀ u ∈ init, ∃ x ∈ pop.individuals, (fitness (OneMax.evaluate u)).feq (fitness x) = true := by
    intro u hu
    obtain ⟨e, he, hue⟩ := forall₂_mem_left e1 u hu
    have hue : e = OneMax.evaluate u := Res.ok.inj hue
    subst hue
    obtain ⟨f1, -, -, -, f5⟩ := hfit u hu
    rcases e3 _ he f5 with h | ⟨y, hy, hyx⟩
    · exact ⟨_, h, by rw [feq_finite f1 f1]⟩
    · exact ⟨y, hy, oneMax_eqFitness _ _ hyx⟩
  -- rounding moves a ratio by less than a quarter of the gap
  have herr : ∀ k : Nat, k ≤ n → |rndQ ((k : ℚ) / n) - k / n| ≤ pow2 (-53) := by
    intro k hk
    rcases Nat.eq_zero_or_pos k with rfl | hk0
    · simp [rndQ_zero]; exact (pow2_pos _).le
    · have hkq : (1 : ℚ) ≤ k := by exact_mod_cast hk0
      have hkn : (k : ℚ) / n ≤ 1 := by rw [div_le_one (by linarith)]; exact_mod_cast hk
      have hk1 : 0 ≤ (k : ℚ) / n := by positivity
      refine (rndQ_rel_err ?_).trans ?_
      · rw [abs_of_nonneg hk1]
        calc pow2 (-1022) ≤ pow2 (-49) := pow2_le.2 (by norm_num)
          _ ≤ k / n := by
            rw [le_div_iff₀ (by linarith)]
            calc pow2 (-49) * n ≤ pow2 (-49) * pow2 49 := mul_le_mul_of_nonneg_left hnq' (pow2_pos _).le
              _ = 1 := by rw [← pow2_add, ← pow2_zero]; norm_num
              _ ≤ k := hkq
      · rw [abs_of_nonneg hk1]
        exact mul_le_of_le_one_right (pow2_pos _).le hkn
  have hgap : ∀ j k : Nat, j ≤ n → k ≤ n → j ≠ k → pow2 (-50) ≤ |rndQ ((j : ℚ) / n) - rndQ ((k : ℚ) / n)| := by
    intro j k hj hk hjk
    have h1 := herr j hj
    have h2 := herr k hk
    have h3 : pow2 (-49) ≤ |(j : ℚ) / n - k / n| := by
      rw [← sub_div, abs_div, abs_of_nonneg (by linarith : (0 : ℚ) ≤ n), le_div_iff₀ (by linarith)]
      calc pow2 (-49) * n ≤ pow2 (-49) * pow2 49 := mul_le_mul_of_nonneg_left hnq' (pow2_pos _).le
        _ = 1 := by rw [← pow2_add, ← pow2_zero]; norm_num
        _ ≤ |(j : ℚ) - k| := by
          have : ((j : ℤ) - k) ≠ 0 := by omega
          exact_mod_cast Int.one_le_abs this
    have h4 : |(j : ℚ) / n - k / n| ≤ |rndQ ((j : ℚ) / n) - rndQ ((k : ℚ) / n)| + |rndQ ((j : ℚ) / n) - j / n| +
        |rndQ ((k : ℚ) / n) - k / n| := by
      have e : (j : ℚ) / n - k / n = (rndQ ((j : ℚ) / n) - rndQ ((k : ℚ) / n)) - (rndQ ((j : ℚ) / n) - j / n) +
        (rndQ ((k : ℚ) / n) - k / n) := by ring
      have a1 := abs_add_le ((rndQ ((j : ℚ) / n) - rndQ ((k : ℚ) / n)) - (rndQ ((j : ℚ) / n) - j / n)) (rndQ ((k : ℚ) / n) - k / n)
      have a2 := abs_sub (rndQ ((j : ℚ) / n) - rndQ ((k : ℚ) / n)) (rndQ ((j : ℚ) / n) - j / n)
      rw [← e] at a1
      linarith
    have e1 : pow2 (-49) = 16 * pow2 (-53) := by
      rw [show (-49 : Int) = 4 + -53 by norm_num, pow2_add, show (4 : Int) = ((4 : Nat) : Int) from rfl, pow2_natCast]; norm_num
    have e2 : pow2 (-50) = 8 * pow2 (-53) := by
      rw [show (-50 : Int) = 3 + -53 by norm_num, pow2_add, show (3 : Int) = ((3 : Nat) : Int) from rfl, pow2_natCast]; norm_num
    have := pow2_pos (-53)
    linarith
  have hones : ∀ u ∈ init, ones u.genome ≤ n := fun u hu => by
    have : ones u.genome ≤ u.genome.length := List.count_le_length
    rwa [hlen u hu] at this
  have heq : ∀ u ∈ init, ∀ v ∈ init,
      ((fitness (OneMax.evaluate u)).feq (fitness (OneMax.evaluate v)) = true ↔ ones u.genome = ones v.genome) := by
    intro u hu v hv
    obtain ⟨f1, f2, -⟩ := hfit u hu
    obtain ⟨g1, g2, -⟩ := hfit v hv
    rw [feq_finite f1 g1, f2, g2]
    refine ⟨fun h => ?_, fun h => by rw [h]⟩
    by_contra hne
    have := hgap _ _ (hones u hu) (hones v hv) hne
    rw [h, sub_self, abs_zero] at this
    exact absurd this (not_le.2 (pow2_pos _))
  have hplain : PlainFitness pop := by
    refine ⟨hl.trans hsz, fun x hx => ?_, fun x hx y hy hxy => ?_⟩
    · obtain ⟨u, hu, rfl⟩ := hev x hx
      obtain ⟨f1, -, f3, f4, -⟩ := hfit u hu
      refine ⟨f1, ?_⟩
      rw [abs_of_nonneg f3]
      exact f4.trans (by rw [← pow2_zero]; exact pow2_le.2 (by norm_num))
    · obtain ⟨u, hu, rfl⟩ := hev x hx
      obtain ⟨v, hv, rfl⟩ := hev y hy
      obtain ⟨f1, f2, f3, f4, -⟩ := hfit u hu
      obtain ⟨g1, g2, -⟩ := hfit v hv
      have hne : ones u.genome ≠ ones v.genome := fun h => by rw [(heq u hu v hv).2 h] at hxy; cases hxy
      have := hgap _ _ (hones u hu) (hones v hv) hne
      rw [← f2, ← g2] at this
      refine ⟨(pow2_le.2 (by norm_num)).trans this, le_trans ?_ this⟩
      rw [abs_of_nonneg f3]
      exact mul_le_of_le_one_right (pow2_pos _).le f4
  obtain ⟨s1, s2⟩ := C78_population pop hwf hplain
  have htr : ∀ {a b c : F64}, a.feq b = true → b.feq c = true → a.feq c = true := fun h1 h2 => by
    rw [F64.feq_iff] at *; exact ⟨h1.1, h2.2.1, h1.2.2.trans h2.2.2⟩
  have hall : (∀ x ∈ pop.individuals, ∀ y ∈ pop.individuals, (fitness x).feq (fitness y) = true) ↔
      ∀ x ∈ init, ∀ y ∈ init, ones x.genome = ones y.genome := by
    constructor
    · intro h u hu v hv
      obtain ⟨x, hx, h1⟩ := hin u hu
      obtain ⟨y, hy, h2⟩ := hin v hv
      exact (heq u hu v hv).1 (htr (htr h1 (h x hx y hy)) (feq_symm h2))
    · intro h x hx y hy
      obtain ⟨u, hu, rfl⟩ := hev x hx
      obtain ⟨v, hv, rfl⟩ := hev y hy
      exact (heq u hu v hv).2 (h u hu v hv)
  refine ⟨s1.trans hall, ?_⟩
  rintro ⟨u, hu, v, hv, huv⟩
  refine s2 ?_
  by_contra hno
  refine huv (hall.1 (fun x hx y hy => ?_) u hu v hv)
  by_contra hxy
  exact hno ⟨x, hx, y, hy, by simpa using hxy⟩

end

/-! ### The adaptive algorithm -/

/-- The adaptive algorithm on OneMax with `n` bits: parameters as in C70, ordered ranges, and either no adjustment of the rates or
initial individuals with different numbers of ones. -/
structure OneMaxAga (envs : Nat → Env OneMax) (p : AgaParams) (init : List OneMax) (n : Nat) : Prop where
  bits : 2 ≤ n ∧ n < 2 ^ 53
  env : ∀ t, (envs t).Lawful
  valid : p.Valid
  strategy : Prefers p.selectionStrategy
  size : p.populationSize ≤ 2 ^ 24
  len : init.length ≤ 2 ^ 24
  elites : 1 ≤ eliteCount p.populationSize p.elitismRate
  two : eliteCount p.populationSize p.elitismRate + 2 ≤ p.populationSize
  lengths : ∀ x ∈ init, x.genome.length = n
  seed : ∃ x ∈ init, true ∈ x.genome
  crossOrder : p.crossoverRateRange.start.le p.crossoverRateRange.stop = true
  mutOrder : p.mutationRateRange.start.le p.mutationRateRange.stop = true
  spread : p.adjustmentInterval = 0 ∨ n ≤ 2 ^ 49 ∧ ∃ x ∈ init, ∃ y ∈ init, ones x.genome ≠ ones y.genome

section
variable {envs : Nat → Env OneMax} {p : AgaParams} {init : List OneMax} {n : Nat}

theorem OneMaxAga.climbs (h : OneMaxAga envs p init n) (a : Aga Unit Empty) (δ : Nat → ℚ) (hδ0 : ∀ i, 0 ≤ δ i ∧ δ i ≤ 1)
    (hδ : ∀ i, i < n - 1 → δ i ≤ oneChance n i) :
    AgaClimbs OneMax.model (fun x => x.genome.length = n ∧ ∀ b ∈ x.genome, True) envs a p init (oneLevel n) (n - 1)
      (1 / (2 * (max p.populationSize init.length : Nat))) δ := by
  obtain ⟨v1, v2, v3, -, v5, -⟩ := h.valid
  have hr : OneMaxRun envs ⟨p.populationSize, p.elitismRate, p.crossoverRateRange.start, p.mutationRateRange.start,
      p.selectionStrategy⟩ init n :=
    ⟨h.bits, h.env, ⟨v1, v2, v3, v5⟩, h.strategy, h.size, h.len, h.elites, h.two, h.lengths, h.seed⟩
  have c := hr.climbs (Ga.ofModel ()) δ hδ0 hδ
  obtain ⟨h2, hn⟩ := h.bits
  refine { ops := c.ops, survive := c.survive, members := c.members, distinct := c.distinct, notNaN := c.notNaN,
           eqFitness := c.eqFitness, env := c.env, valid := h.valid, strategy := c.strategy, linear := c.linear,
           size := c.size, two := c.two, len := c.len, prop := c.prop, start := c.start, crossOrder := h.crossOrder,
           mutOrder := h.mutOrder, spread := ?_, elites := c.elites, bottom := c.bottom, bounds := c.bounds, select := c.select,
           climbs := c.climbs }
  rcases h.spread with h0 | ⟨hb, hxy⟩
  · exact Or.inl h0
  refine Or.inr ⟨?_, fun pop hpop => ?_⟩
  · rintro x ⟨hx, -⟩ hev -
    obtain ⟨-, c2, -, c4, c5, -⟩ := C63_ratio x (by rintro h0; rw [h0] at hx; simp at hx; omega) (by omega)
    rw [evaluated_oneMax hev] at c2 c4 c5
    refine ⟨c2, ?_⟩
    rw [abs_of_nonneg c4]
    exact lt_of_le_of_lt c5 (by rw [← pow2_zero]; exact pow2_lt.2 (by norm_num))
  · exact (C80_spread (h.env 0) ⟨by omega, hb⟩ h.lengths (h.len.trans (by norm_num)) hpop).2 hxy

/-- **C80** The adaptive algorithm on OneMax, with `B` the larger of the population size and the number of initial individuals, `m` the
number of bred individuals per generation, `ρ` the lower end of the mutation range, and any crossover range: a run that stops when
the fitness 1 is reached calls `progress` at most `n + 8 B n (n - 1) H(n - 1) / (m ρ)` times on average. -/
theorem C80_aga_expected (h : OneMaxAga envs p init n) (a : Aga Unit Empty) (hρ : 0 < p.mutationRateRange.start.val)
    (progress : Q → Population OneMax → Prog (Bool × Q))
    (hstop : ∀ q pop q', GoodPop pop → Reached F64.one pop → ¬ (progress q pop).yields (.ok (true, q'))) (k : Nat) (q : Q) :
    (evolvePopulation (aga OneMax.model) envs progress k a init p q).expect callsOf ≤
      n + 8 * (max p.populationSize init.length : Nat) * n * (n - 1) * harmonic (n - 1) /
        (((p.populationSize - eliteCount p.populationSize p.elitismRate : Nat) : ℚ) * p.mutationRateRange.start.val) := by
  obtain ⟨h2, hn⟩ := h.bits
  have htwo := h.two
  have hnq : (2 : ℚ) ≤ n := by exact_mod_cast h2
  have hB : (1 : ℚ) ≤ (max p.populationSize init.length : Nat) := by
    exact_mod_cast le_trans (by omega : 1 ≤ p.populationSize) (le_max_left p.populationSize init.length)
  have hd : ∀ i, 0 ≤ (if i < n - 1 then oneChance n i / n else 0) ∧ (if i < n - 1 then oneChance n i / n else 0) ≤ (1 : ℚ) := by
    intro i
    by_cases hi : i < n - 1
    · rw [if_pos hi]
      obtain ⟨o1, o2, -⟩ := oneChance_bounds (n := n) (i := i) (by omega)
      exact ⟨div_nonneg o1.le (by linarith), by rw [div_le_one (by linarith)]; linarith⟩
    · rw [if_neg hi]; norm_num
  have hc := h.climbs a (fun i => if i < n - 1 then oneChance n i / n else 0) hd (fun i hi => by
    rw [if_pos hi]
    exact div_le_self (oneChance_bounds (by omega)).1.le (by linarith))
  refine (C79_aga_expected hc (fun i hi => by rw [if_pos hi]; exact oneMax_crosses hn (by omega)) (fun i hi => ?_) progress
    (fun q pop q' hg hr => hstop q pop q' hg ((reached_top (by omega) hn pop).1 hr)) k q).trans
    (sum_waiting h2 (by omega) hB hρ hc.rate_mem.2 _ fun i hi => if_pos hi)
  rw [if_pos hi]
  have := (oneChance_bounds (n := n) (i := i) (by omega)).1
  unfold crossedChance
  have : 0 < oneChance n i / n := div_pos this (by linarith)
  positivity

/-- **C80** So such a run ends almost surely. -/
theorem C80_aga_almost_surely (h : OneMaxAga envs p init n) (a : Aga Unit Empty) (hρ : 0 < p.mutationRateRange.start.val)
    (progress : Q → Population OneMax → Prog (Bool × Q)) (hpr : ∀ q p, p.WF → Always (fun _ => True) (progress q p))
    (hstop : ∀ q pop q', GoodPop pop → Reached F64.one pop → ¬ (progress q pop).yields (.ok (true, q'))) (q : Q) (ε : ℚ) (hε : 0 < ε) :
    ∃ K, ∀ k, K ≤ k → 1 - ε ≤ (evolvePopulation (aga OneMax.model) envs progress k a init p q).prob (fun r => r.1 = true) := by
  obtain ⟨h2, hn⟩ := h.bits
  have htwo := h.two
  have hnq : (2 : ℚ) ≤ n := by exact_mod_cast h2
  have hB : (1 : ℚ) ≤ (max p.populationSize init.length : Nat) := by
    exact_mod_cast le_trans (by omega : 1 ≤ p.populationSize) (le_max_left p.populationSize init.length)
  have h1 : 1 / (n : ℚ) / n ≤ 1 / n := div_le_self (by positivity) (by linarith)
  have hc := h.climbs a (fun i => 1 / n / n)
    (fun i => ⟨by positivity, h1.trans (by rw [div_le_one (by linarith)]; linarith)⟩)
    (fun i hi => h1.trans (oneChance_bounds (by omega)).2.2)
  refine C79_aga_almost_surely hc (fun i hi a b ha hb hl hu1 hu2 => ?_) ?_ progress hpr
    (fun q pop q' hg hr => hstop q pop q' hg ((reached_top (by omega) hn pop).1 hr)) q ε hε
  · refine le_trans ?_ (oneMax_crosses hn (by omega) a b ha hb hl hu1 hu2)
    exact div_le_div_of_nonneg_right (oneChance_bounds (by omega)).2.2 (by linarith)
  · unfold crossedChance
    positivity

theorem ofNat_signBit (n : Nat) : (F64.ofNat n).signBit = false := by
  unfold F64.ofNat F64.round
  split
  · rw [if_neg (by simp)]
    simpa [F64.signBit] using rndQ_nonneg (x := (n : ℚ)) (by positivity)
  · simp [F64.signBit]

/-- The fitness of OneMax is not `-0`. -/
theorem oneMax_fin (x : OneMax) (h0 : x.genome ≠ []) (hn : x.genome.length ≤ 2 ^ 53) :
    ∃ v hv, fitness (OneMax.evaluate x) = F64.fin v hv := by
  have hpos : (0 : ℚ) < x.genome.length := by exact_mod_cast List.length_pos_of_ne_nil h0
  have hle : (x.genome.filter fun one => one).length ≤ x.genome.length := List.length_filter_le _ _
  obtain ⟨f1, v1⟩ := F64.ofNat_exact (n := (x.genome.filter fun one => one).length) (by omega)
  obtain ⟨f2, v2⟩ := F64.ofNat_exact hn
  have hfin := (C63_ratio x h0 hn).2.1
  have hd : fitness (OneMax.evaluate x) = (F64.ofNat (x.genome.filter fun one => one).length).div (F64.ofNat x.genome.length) := rfl
  rw [hd, F64.div_finite f1 f2 (by rw [v2]; exact hpos.ne'), ofNat_signBit, ofNat_signBit] at hfin ⊢
  unfold F64.round at hfin ⊢
  split at hfin
  · rename_i hlt
    rw [dif_pos hlt, if_neg (by simp)]
    exact ⟨_, _, rfl⟩
  · cases hfin

/-- **C80** The condition on the start is needed: from one genome that is not solved, with the rates adjusted in every generation, the
adaptive algorithm goes on forever with probability at least `(1 - ρ)^N`, where `ρ` is the lower end of the mutation range, rounded up
to a multiple of `2^-53`, and `N` the population size. -/
theorem C80_aga_stuck (genome : List Bool) (hn : 1 ≤ genome.length ∧ genome.length < 2 ^ 53) (hf : false ∈ genome)
    (henv : ∀ t, (envs t).Lawful) (hv : p.Valid) (hs : p.selectionStrategy.Valid) (hl : ∀ b, p.selectionStrategy = .linear b → SafeBias b)
    (hsz : p.populationSize < 2 ^ 32) (htwo : eliteCount p.populationSize p.elitismRate + 2 ≤ p.populationSize)
    (hint : p.adjustmentInterval = 1) (progress : Q → Population OneMax → Prog (Bool × Q))
    (hgo : ∀ q pop, GoodPop pop → ¬ Reached F64.one pop → Always (fun r => r.1 = true) (progress q pop)) (k : Nat)
    (a : Aga Unit Empty) (q : Q) :
    (1 - (⌈p.mutationRateRange.start.val * 2 ^ 53⌉ : ℤ) / 2 ^ 53) ^ p.populationSize ≤
      (evolvePopulation (aga OneMax.model) envs progress k a [OneMax.evaluate (.ofGenome genome)] p q).prob
        (fun r => r.1 = false ∧ ∀ y ∈ r.2.population.individuals, y.genome = genome) := by
  have hne : (OneMax.ofGenome genome).genome ≠ [] := by
    intro h0; have : genome = [] := h0; rw [this] at hn; simp at hn
  obtain ⟨-, c2, c3, c4, c5, c6⟩ := C63_ratio (.ofGenome genome) hne hn.2.le
  obtain ⟨v, hv', e⟩ := oneMax_fin (.ofGenome genome) hne hn.2.le
  have hst : MayStick OneMax.model (fun x => x.genome.length = genome.length ∧ ∀ b ∈ x.genome, True) envs p
      (OneMax.evaluate (.ofGenome genome)) v hv' :=
    { ops := C63_operators (fun _ => True) genome.length (by omega), members := oneMax_members, distinct := oneMax_distinct,
      env := henv, valid := hv, strategy := hs, linear := hl, size := hsz, two := htwo, interval := hint,
      prop := ⟨rfl, by simp⟩, isValid := c6, fitness := e, evaluate := fun _ o ho => Res.ok.inj ho,
      fixed := fun _ o ho => Res.ok.inj ho }
  obtain ⟨-, -, -, -, m1, -⟩ := hv
  have := C68_probability hst progress (fun s pop w hall => hgo s pop
    ⟨w, fun y hy => by rw [hall y hy]; exact c6, List.pairwise_of_forall_mem_list fun y hy z hz => by
      rw [hall y hy, hall z hz]; exact F64.le_refl (validNotNaN_default _ c6)⟩ ?_) k a q
  · rw [prob_fire m1.1 m1.2.1 m1.2.2] at this
    refine this.trans (prob_mono _ _ _ fun r _ hr => ⟨hr.1, fun y hy => ?_⟩)
    rw [hr.2 y hy]; rfl
  · rw [← reached_top (n := genome.length) (by omega) hn.2]
    rintro ⟨y, hy, hle⟩
    rw [hall y hy, oneLevel_le (n := genome.length) (i := genome.length - 1) (.ofGenome genome) rfl hn.2 (by omega)] at hle
    have h1 : ones (OneMax.ofGenome genome).genome ≤ genome.length := List.count_le_length
    have h2 : List.count true genome = genome.length := by
      have : ones (OneMax.ofGenome genome).genome = List.count true genome := rfl
      omega
    exact absurd (List.count_eq_length.1 h2 false hf) (by simp)

end

/-! ### An example -/

/-- Five bits, two of them `true`. -/
def twoBits : OneMax := .ofGenome [false, true, false, true, false]

theorem twoBits_run : OneMaxAga (fun _ => oneEnv) AgaParams.default [loneBit, twoBits] 5 where
  bits := by norm_num
  env _ := oneEnv_lawful
  valid := C50_defaults.2.2.1
  strategy := Or.inr (Or.inr (Or.inr (Or.inl rfl)))
  size := by simp [AgaParams.default]
  len := by simp
  elites := by decide +kernel
  two := by decide +kernel
  lengths := by simp [loneBit, twoBits, OneMax.ofGenome]
  seed := ⟨loneBit, by simp, by simp [loneBit, OneMax.ofGenome]⟩
  crossOrder := by decide +kernel
  mutOrder := by decide +kernel
  spread := Or.inr ⟨by norm_num, loneBit, by simp, twoBits, by simp, by decide +kernel⟩

/-- **C80** The default parameters: from one genome with one `true` bit the adaptive algorithm may go on forever; from this one and one
with two `true` bits it finds the solution almost surely. -/
theorem C80_contrast :
    (∃ c : ℚ, 0 < c ∧ ∀ k, c ≤ (evolvePopulation (aga OneMax.model) (fun _ => oneEnv) untilSolved k (Aga.ofModel ())
      [OneMax.evaluate loneBit] AgaParams.default ()).prob (fun r => r.1 = false)) ∧
    (∀ ε : ℚ, 0 < ε → ∃ K, ∀ k, K ≤ k → 1 - ε ≤ (evolvePopulation (aga OneMax.model) (fun _ => oneEnv) untilSolved k (Aga.ofModel ())
      [loneBit, twoBits] AgaParams.default ()).prob (fun r => r.1 = true)) := by
  have hm : AgaParams.default.mutationRateRange.start.val = 3602879701896397 / 2 ^ 55 := by decide +kernel
  constructor
  · refine ⟨(1 - (⌈AgaParams.default.mutationRateRange.start.val * 2 ^ 53⌉ : ℤ) / 2 ^ 53) ^ AgaParams.default.populationSize,
      pow_pos (by rw [hm]; norm_num) _, fun k => ?_⟩
    refine (C80_aga_stuck [false, true, false, false, false] (by simp) (by simp) (fun _ => oneEnv_lawful) C50_defaults.2.2.1
      C50_defaults.2.2.2 (by simp [AgaParams.default]) (by simp [AgaParams.default]) (by decide +kernel) rfl untilSolved
      (fun q pop hg hr => untilSolved_goes hg hr) k (Aga.ofModel ()) ()).trans (prob_mono _ _ _ fun r _ hr => hr.1)
  · intro ε hε
    exact C80_aga_almost_surely twoBits_run (Aga.ofModel ()) (by rw [hm]; norm_num) untilSolved
      (fun _ _ w => untilSolved_always w)
      (fun q pop q' hg hr hy => by simpa using (untilSolved_iff q pop true q' hg hy).2 hr) () ε hε

-- it takes at most 3400 generations on average
example (k : Nat) : (evolvePopulation (aga OneMax.model) (fun _ => oneEnv) untilSolved k (Aga.ofModel ()) [loneBit, twoBits]
    AgaParams.default ()).expect callsOf ≤ 3400 := by
  have h2 : AgaParams.default.mutationRateRange.start.val = 3602879701896397 / 2 ^ 55 := by decide +kernel
  have h3 : AgaParams.default.populationSize - eliteCount AgaParams.default.populationSize AgaParams.default.elitismRate = 99 := by
    decide +kernel
  have h4 : max AgaParams.default.populationSize [loneBit, twoBits].length = 100 := by decide +kernel
  have h5 : harmonic 4 = 25 / 12 := by decide +kernel
  have h := C80_aga_expected twoBits_run (Aga.ofModel ()) (by rw [h2]; norm_num) untilSolved
    (fun q pop q' hg hr hy => by simpa using (untilSolved_iff q pop true q' hg hy).2 hr) k ()
  rw [h2, h3, h4, show 5 - 1 = 4 from rfl, h5] at h
  refine h.trans ?_
  norm_num

-- the genetic algorithm with crossover rate 1
example (k : Nat) : (evolvePopulation (ga OneMax.model) (fun _ => oneEnv) untilSolved k (Ga.ofModel ()) [loneBit]
    { GaParams.default with crossoverRate := F64.one } ()).expect callsOf ≤ 3400 := by
  have h2 : GaParams.default.mutationRate.val = 3602879701896397 / 2 ^ 55 := by decide +kernel
  have h3 : GaParams.default.populationSize - eliteCount GaParams.default.populationSize GaParams.default.elitismRate = 99 := by
    decide +kernel
  have h4 : bigSize { GaParams.default with crossoverRate := F64.one } [loneBit] = 100 := by decide +kernel
  have h5 : harmonic 4 = 25 / 12 := by decide +kernel
  have hr : OneMaxRun (fun _ => oneEnv) { GaParams.default with crossoverRate := F64.one } [loneBit] 5 :=
    { loneBit_run with
      valid := by
        obtain ⟨v1, v2, -, v4⟩ := C50_defaults.1
        exact ⟨v1, v2, by unfold F64.InClosedUnit; decide +kernel, v4⟩ }
  have h := C80_ga_expected hr (Ga.ofModel ()) (by rw [h2]; norm_num) untilSolved
    (fun q pop q' hg hr hy => by simpa using (untilSolved_iff q pop true q' hg hy).2 hr) k ()
  rw [h2, h3, h4, show 5 - 1 = 4 from rfl, h5] at h
  refine h.trans ?_
  norm_num

end RG.Props
