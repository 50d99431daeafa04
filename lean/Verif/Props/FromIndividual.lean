import Verif.Props.OneMaxAga
import Verif.Props.Route
import Verif.Props.ReleaseRun

/-!
# C114 — What holds for runs holds for `run` and `evolve_individual`

Most theorems about the course of a run are about `evolve_population` on a given initial population. `run` and
`evolve_individual` make that population themselves, and return its fittest individual at the end. Here is how bounds carry
over, for every algorithm that works as the built-in ones do, and what they say about `evolve_individual` on OneMax and on
arrangements.
-/

set_option linter.unusedSectionVars false

namespace RG.Props
open RG RG.Prog
variable {I : Type} [Individual I] {Mo U A P Q : Type} {M : EvoModel I Mo U} {alg : EvoAlgo I Mo U A P} {elite size : A → Nat}
  {eliteOf : P → Nat} {envs : Nat → Env I}

/-- What a run that ends leaves, if `progress` stops only when `stop` holds. -/
theorem ended_good (hstd : Standard M alg elite size eliteOf) (henv : ∀ t, (envs t).Lawful) (hb : M.BreedsValid) (hv : ValidNotNaN I)
    (progress : Q → Population I → Prog (Bool × Q)) (stop : Population I → Prop)
    (hstop : ∀ q pop q', GoodPop pop → (progress q pop).yields (.ok (false, q')) → stop pop) (fuel : Nat) (a : A) (init : List I)
    (p : P) (q : Q) (st : RunState I A Q) (h : (evolvePopulation alg envs progress fuel a init p q).yields (.ok (true, st))) :
    GoodPop st.population ∧ stop st.population := by
  obtain ⟨a', pop, -, c2, c3⟩ := (yields_evolvePopulation _ _ _ _ _ _ _ _ _).1 h
  rw [hstd.init] at c2
  have hloop : ∀ (fuel t : Nat) (st0 st : RunState I A Q), GoodPop st0.population →
      (evolveLoop alg envs progress fuel t st0).yields (.ok (true, st)) → GoodPop st.population ∧ stop st.population := by
    intro fuel
    induction fuel with
    | zero => intro t st0 st _ h; cases h
    | succ fuel ih =>
      intro t st0 st hg h
      rcases (yields_evolveLoop_succ _ _ _ _ _ _ _).1 h with ⟨q1, g1, e⟩ | ⟨q1, st2, _, g2, g3⟩
      · cases e
        exact ⟨hg, hstop _ _ _ hg g1⟩
      · exact ih (t + 1) st2 st ((hstd.step (henv t) g2).good (henv t) hb hv hg) g3
  exact hloop _ _ _ _ ((init_wf (henv 0) c2).2.2.2.2.2 hv) c3

/-- The end of a run that ended: its fittest individual. -/
theorem takeResult_good {st : RunState I A Q} (hg : GoodPop st.population) {g : I → Bool}
    (hr : ∀ x, st.population.fittest = .ok x → g x = true) :
    (takeResult (true, st)).prob (fun r => r.1.any g = true) = 1 := by
  obtain ⟨f1, f2⟩ := hg.wf.fittest_ok
  unfold takeResult
  simp only [if_true]
  rw [f2, f1, lift_ok, bind_pure_left, prob_pure, if_pos]
  simpa using hr _ f1

/-- The initial population of `evolve_individual`. -/
theorem extendWith_always (M : EvoOps I Mo U) (model : Mo) (S : I → Prop) (x : I) (hS : S x) (hm : Always S (M.mutate model x)) (n : Nat)
    (hn : 1 ≤ n) : Always (fun l : List I => l.length = n ∧ x ∈ l ∧ ∀ y ∈ l, S y) (defaultExtendWith M model [] n x) := by
  unfold defaultExtendWith
  rw [if_neg (by omega)]
  dsimp only
  split
  · rename_i h1; rw [always_pure]; exact ⟨by rw [h1]; rfl, by simp, by simpa using hS⟩
  · have hu : usizeSub n 1 = .ok (n - 1) := by
      unfold usizeSub; rw [if_pos hn]
    rw [hu, lift_ok, bind_pure_left, always_bind]
    refine (always_replicate _ _ hm _).mono fun l hl => ?_
    rw [always_pure]
    refine ⟨?_, by simp, ?_⟩
    · simp only [List.nil_append, List.length_append, List.length_singleton, hl.1]; omega
    · intro y hy
      rcases List.mem_append.1 hy with hy | hy
      · have : y = x := by simpa using hy
        rw [this]; exact hS
      · exact hl.2 y hy

section
variable (hstd : Standard M alg elite size eliteOf) (henv : ∀ t, (envs t).Lawful) (hb : M.BreedsValid) (hv : ValidNotNaN I)
  (progress : Q → Population I → Prog (Bool × Q)) (g : I → Bool)
  (hstop : ∀ q pop q', GoodPop pop → (progress q pop).yields (.ok (false, q')) → ∀ x, pop.fittest = .ok x → g x = true)
include hstd henv hb hv hstop

/-- **C114** If every run from `initial_population_size` individuals with the property `S` ends within `fuel` calls with
probability at least `c`, and stops only if the fittest individual has the property `g`, then `run`, with random individuals
that have the property `S`, returns an individual with the property `g` with probability at least `c`. -/
theorem C114_run (hx : M.extend = fun _ => defaultExtend) (S : I → Prop) (newRandom : Prog I) (hr : Always S newRandom) (fuel : Nat) (a : A)
    (p : P) (q : Q) (c : ℚ)
    (h : ∀ init : List I, init.length = alg.initialSize p → (∀ x ∈ init, S x) →
      c ≤ (evolvePopulation alg envs progress fuel a init p q).prob (fun r => r.1 = true)) :
    c ≤ (runRandom M alg envs progress fuel a newRandom p q).prob (fun r => r.1.any g = true) := by
  unfold runRandom
  rw [hx]
  have hext : Always (fun l : List I => l.length = alg.initialSize p ∧ ∀ x ∈ l, S x)
      (defaultExtend newRandom [] (alg.initialSize p)) := by
    unfold defaultExtend
    split
    · rename_i h0; rw [always_pure]; exact ⟨h0.symm, by simp⟩
    · rw [always_bind]
      exact (always_replicate _ _ hr _).mono fun l hl => by simpa using hl
  refine le_prob_bind_of_always _ _ _ _ hext fun init ⟨l1, l2⟩ => (h init l1 l2).trans ?_
  refine prob_le_bind _ _ _ _ fun r hy hfin => ?_
  obtain ⟨fin, st⟩ := r
  cases hfin
  obtain ⟨g1, g2⟩ := ended_good hstd henv hb hv progress _ hstop fuel a init p q st hy
  exact takeResult_good g1 g2

/-- **C114** The same for `evolve_individual`, whose initial population is the given individual and mutants of it. -/
theorem C114_evolve_individual (hx : M.extendWith = defaultExtendWith M.toEvoOps) (S : I → Prop) (x : I) (hS : S x) (fuel : Nat) (a : A)
    (hm : Always S (M.mutate (alg.model a) x)) (p : P) (hp : 1 ≤ alg.initialSize p) (q : Q) (c : ℚ)
    (h : ∀ init : List I, init.length = alg.initialSize p → x ∈ init → (∀ y ∈ init, S y) →
      c ≤ (evolvePopulation alg envs progress fuel a init p q).prob (fun r => r.1 = true)) :
    c ≤ (evolveIndividual M alg envs progress fuel a x p q).prob (fun r => r.1.any g = true) := by
  unfold evolveIndividual
  rw [hx]
  have hext := extendWith_always M.toEvoOps (alg.model a) S x hS hm _ hp
  refine le_prob_bind_of_always _ _ _ _ hext fun init ⟨l1, l2, l3⟩ => (h init l1 l2 l3).trans ?_
  refine prob_le_bind _ _ _ _ fun r hy hfin => ?_
  obtain ⟨fin, st⟩ := r
  cases hfin
  obtain ⟨g1, g2⟩ := ended_good hstd henv hb hv progress _ hstop fuel a init p q st hy
  exact takeResult_good g1 g2

end

/-- The number of calls of `progress` in `run` and `evolve_individual`. -/
def callsIn : Res (Option I × RunState I A Q) → ℚ
  | .ok r => r.2.shown.length
  | _ => 0

theorem takeResult_calls (r : Bool × RunState I A Q) : (takeResult r).expect callsIn ≤ callsOf (.ok r) := by
  rw [← expect_const (takeResult r) (callsOf (.ok r))]
  refine expect_mono _ _ _ fun y hy => ?_
  rcases y with ⟨o, st⟩ | _ | _
  · obtain ⟨rfl, -⟩ := (yields_takeResult _ _ _).1 hy
    exact le_rfl
  · exact Nat.cast_nonneg _
  · exact Nat.cast_nonneg _

theorem takes_calls (p : Prog (Bool × RunState I A Q)) : (p >>= takeResult).expect callsIn ≤ p.expect callsOf := by
  rw [expect_bind]
  refine expect_mono _ _ _ fun r _ => ?_
  rcases r with r | _ | _
  · exact takeResult_calls r
  · exact le_rfl
  · exact le_rfl

/-- **C114** A bound on the expected number of calls of `progress`, for all the initial populations that can occur. -/
theorem C114_calls (progress : Q → Population I → Prog (Bool × Q)) (fuel : Nat) (a : A) (p : P) (q : Q) (c : ℚ) (hc : 0 ≤ c) :
    (∀ newRandom, (∀ init, (M.extend (alg.model a) newRandom [] (alg.initialSize p)).yields (.ok init) →
        (evolvePopulation alg envs progress fuel a init p q).expect callsOf ≤ c) →
      (runRandom M alg envs progress fuel a newRandom p q).expect callsIn ≤ c) ∧
    (∀ x, (∀ init, (M.extendWith (alg.model a) [] (alg.initialSize p) x).yields (.ok init) →
        (evolvePopulation alg envs progress fuel a init p q).expect callsOf ≤ c) →
      (evolveIndividual M alg envs progress fuel a x p q).expect callsIn ≤ c) :=
  ⟨fun _ h => expect_bind_le_const _ _ _ _ hc hc fun init hi => (takes_calls _).trans (h init hi),
   fun _ h => expect_bind_le_const _ _ _ _ hc hc fun init hi => (takes_calls _).trans (h init hi)⟩

/-! ### OneMax -/

/-- `progress` stops exactly when the level is reached. -/
theorem stops_at {target : F64} (hv : ValidNotNaN I) {progress : Q → Population I → Prog (Bool × Q)}
    (hstop : ∀ q pop b q', GoodPop pop → (progress q pop).yields (.ok (b, q')) → (b = false ↔ Reached target pop)) :
    (∀ q pop q', GoodPop pop → Reached target pop → ¬ (progress q pop).yields (.ok (true, q'))) ∧
    ∀ q pop q', GoodPop pop → (progress q pop).yields (.ok (false, q')) → ∀ x, pop.fittest = .ok x → target.le (fitness x) = true := by
  refine ⟨fun q pop q' hg hr hy => ?_, fun q pop q' hg hy x hx => ?_⟩
  · have := (hstop q pop true q' hg hy).2 hr; cases this
  · obtain ⟨y, hy1, hy2⟩ := (hstop q pop false q' hg hy).1 rfl
    obtain ⟨b, hb1, hb2, -, hb4⟩ := hg.best hv
    rw [hb2] at hx; cases hx
    exact F64.le_trans hy2 (hb4 y hy1)

section
variable {envs : Nat → Env OneMax} {n : Nat} {x : OneMax}

theorem oneMax_mutants (hn : n ≠ 0) (hx : x.genome.length = n) :
    Always (fun y : OneMax => y.genome.length = n) (OneMax.model.mutate () x) :=
  ((C63_operators (fun _ => True) n hn).mutate () x ⟨hx, fun _ _ => trivial⟩).mono fun _ h => h.1

theorem OneMaxRun.from {p : GaParams} (h : OneMaxRun envs p [x] n) (init : List OneMax) (h1 : init.length = p.populationSize)
    (h2 : x ∈ init) (h3 : ∀ y ∈ init, y.genome.length = n) : OneMaxRun envs p init n where
  bits := h.bits
  env := h.env
  valid := h.valid
  strategy := h.strategy
  size := h.size
  len := by rw [h1]; exact h.size
  elites := h.elites
  two := h.two
  lengths := h3
  seed := by
    obtain ⟨y, hy, ht⟩ := h.seed
    exact ⟨x, h2, by rwa [← List.mem_singleton.1 hy]⟩

/-- **C114** OneMax from one genome with a `true` bit: `evolve_individual` of the genetic algorithm, stopped when the fitness 1 is
reached, returns an individual of fitness 1 within `k + 1` calls with at least the probability of `n - 1` successes in `k` trials, so
almost surely, and calls `progress` at most `n + 8 N n (n - 1) H(n - 1) / (m ρ)` times on average, `N` being the population size, `m` the
number of bred individuals and `ρ` the mutation rate. -/
theorem C114_oneMax {p : GaParams} (h : OneMaxRun envs p [x] n) (a : Ga Unit Empty) (hρ : 0 < p.mutationRate.val)
    (progress : Q → Population OneMax → Prog (Bool × Q)) (hpr : ∀ q p, p.WF → Always (fun _ => True) (progress q p))
    (hstop : ∀ q pop b q', GoodPop pop → (progress q pop).yields (.ok (b, q')) → (b = false ↔ Reached F64.one pop)) (q : Q) :
    (∀ k, 1 - fewSuccesses ((1 - p.mutationRate.val / (4 * p.populationSize * (n * n))) ^
        (p.populationSize - eliteCount p.populationSize p.elitismRate)) k (n - 1) ≤
      (evolveIndividual OneMax.model (ga OneMax.model) envs progress (k + 1) a x p q).prob
        (fun r => r.1.any (fun y => F64.one.le (fitness y)) = true)) ∧
    (∀ ε : ℚ, 0 < ε → ∃ K, ∀ k, K ≤ k → 1 - ε ≤ (evolveIndividual OneMax.model (ga OneMax.model) envs progress k a x p q).prob
        (fun r => r.1.any (fun y => F64.one.le (fitness y)) = true)) ∧
    ∀ k, (evolveIndividual OneMax.model (ga OneMax.model) envs progress k a x p q).expect callsIn ≤
      n + 8 * p.populationSize * n * (n - 1) * harmonic (n - 1) /
        (((p.populationSize - eliteCount p.populationSize p.elitismRate : Nat) : ℚ) * p.mutationRate.val) := by
  obtain ⟨h2, hn⟩ := h.bits
  have htwo := h.two
  have hlen : x.genome.length = n := h.lengths x (by simp)
  have hnq : (2 : ℚ) ≤ n := by exact_mod_cast h2
  have hN : (2 : ℚ) ≤ p.populationSize := by exact_mod_cast (by omega : 2 ≤ p.populationSize)
  obtain ⟨s1, s2⟩ := stops_at validNotNaN_default hstop
  have hmut := oneMax_mutants (n := n) (by omega) hlen
  have hbig : ∀ init : List OneMax, init.length = p.populationSize → bigSize p init = p.populationSize := fun init hi => by
    unfold bigSize; rw [hi, max_self]
  have hend : ∀ k, 1 - fewSuccesses ((1 - p.mutationRate.val / (4 * p.populationSize * (n * n))) ^
        (p.populationSize - eliteCount p.populationSize p.elitismRate)) k (n - 1) ≤
      (evolveIndividual OneMax.model (ga OneMax.model) envs progress (k + 1) a x p q).prob
        (fun r => r.1.any (fun y => F64.one.le (fitness y)) = true) := by
    intro k
    refine C114_evolve_individual (ga_standard _) h.env oneMax_breedsValid validNotNaN_default progress _ s2 rfl
      (fun y => y.genome.length = n) x hlen (k + 1) a hmut p (show 1 ≤ p.populationSize by omega) q _ fun init i1 i2 i3 => ?_
    have i1 : init.length = p.populationSize := i1
    have hr := h.from init i1 i2 i3
    have h1 : 1 / (n : ℚ) / n ≤ 1 / n := div_le_self (by positivity) (by linarith)
    have hc := hr.climbs a (fun i => 1 / n / n)
      (fun i => ⟨by positivity, h1.trans (by rw [div_le_one (by linarith)]; linarith)⟩)
      (fun i hi => h1.trans (oneChance_bounds (by omega)).2.2)
    have := C79_ga_ends hc (fun i hi a b ha hb hl hu1 hu2 => le_trans
        (div_le_div_of_nonneg_right (oneChance_bounds (by omega)).2.2 (by linarith)) (oneMax_crosses hn (by omega) a b ha hb hl hu1 hu2))
      progress hpr (fun q pop q' hg hr => s1 q pop q' hg ((reached_top (by omega) hn pop).1 hr)) k q
    have he : crossedChance (1 / (2 * (bigSize p init : ℚ))) p.mutationRate.val (1 / n / n) =
        p.mutationRate.val / (4 * p.populationSize * (n * n)) := by
      rw [hbig init i1]
      unfold crossedChance
      field_simp
      norm_num
    rwa [he] at this
  refine ⟨hend, fun ε hε => ?_, fun k => ?_⟩
  · have hx0 : 0 < p.mutationRate.val / (4 * p.populationSize * (n * n)) := by positivity
    have hx1 : p.mutationRate.val / (4 * p.populationSize * (n * n)) ≤ 1 := by
      have hr : p.mutationRate.val ≤ 1 := h.valid.2.2.2.2.2
      rw [div_le_one (by positivity)]
      nlinarith [mul_pos (show (0 : ℚ) < p.populationSize by linarith) (show (0 : ℚ) < n * n by positivity),
        mul_le_mul hnq hnq (by norm_num) (by linarith)]
    obtain ⟨K, hK⟩ := fewSuccesses_tendsto
      (x := (1 - p.mutationRate.val / (4 * p.populationSize * (n * n))) ^ (p.populationSize - eliteCount p.populationSize p.elitismRate))
      (pow_nonneg (by linarith) _) (pow_lt_one₀ (by linarith) (by linarith) (by omega)) (n - 1) hε
    refine ⟨K + 1, fun k hk => ?_⟩
    obtain ⟨j, rfl⟩ : ∃ j, k = j + 1 := ⟨k - 1, by omega⟩
    have h1 := hend j
    have h2 := hK j (by omega)
    linarith
  · have hm : (0 : ℚ) < (p.populationSize - eliteCount p.populationSize p.elitismRate : Nat) := by
      exact_mod_cast (by omega : 0 < p.populationSize - eliteCount p.populationSize p.elitismRate)
    refine (C114_calls progress k a p q _ ?_).2 x fun init hi => ?_
    · have : (0 : ℚ) ≤ harmonic (n - 1) := by unfold harmonic; positivity
      have : (0 : ℚ) ≤ n - 1 := by linarith
      positivity
    · obtain ⟨i1, i2, i3⟩ := (extendWith_always OneMax.model.toEvoOps () (fun y : OneMax => y.genome.length = n) x hlen hmut
        p.populationSize (by omega)).partially init hi
      have := C80_ga_expected (h.from init i1 i2 i3) a hρ progress s1 k q
      rwa [hbig init i1] at this

theorem OneMaxAga.from {p : AgaParams} (h : OneMaxAga envs p [x] n) (h0 : p.adjustmentInterval = 0) (init : List OneMax)
    (h1 : init.length = p.populationSize) (h2 : x ∈ init) (h3 : ∀ y ∈ init, y.genome.length = n) : OneMaxAga envs p init n where
  bits := h.bits
  env := h.env
  valid := h.valid
  strategy := h.strategy
  size := h.size
  len := by rw [h1]; exact h.size
  elites := h.elites
  two := h.two
  lengths := h3
  seed := by
    obtain ⟨y, hy, ht⟩ := h.seed
    exact ⟨x, h2, by rwa [← List.mem_singleton.1 hy]⟩
  crossOrder := h.crossOrder
  mutOrder := h.mutOrder
  spread := Or.inl h0

/-- **C114** The same for the adaptive algorithm when its rates are not adjusted, with `ρ` the lower end of the mutation range. -/
theorem C114_oneMax_aga {p : AgaParams} (h : OneMaxAga envs p [x] n) (h0 : p.adjustmentInterval = 0) (a : Aga Unit Empty)
    (hρ : 0 < p.mutationRateRange.start.val)
    (progress : Q → Population OneMax → Prog (Bool × Q)) (hpr : ∀ q p, p.WF → Always (fun _ => True) (progress q p))
    (hstop : ∀ q pop b q', GoodPop pop → (progress q pop).yields (.ok (b, q')) → (b = false ↔ Reached F64.one pop)) (q : Q) :
    (∀ k, 1 - fewSuccesses ((1 - p.mutationRateRange.start.val / (4 * p.populationSize * (n * n))) ^
        (p.populationSize - eliteCount p.populationSize p.elitismRate)) k (n - 1) ≤
      (evolveIndividual OneMax.model (aga OneMax.model) envs progress (k + 1) a x p q).prob
        (fun r => r.1.any (fun y => F64.one.le (fitness y)) = true)) ∧
    (∀ ε : ℚ, 0 < ε → ∃ K, ∀ k, K ≤ k → 1 - ε ≤ (evolveIndividual OneMax.model (aga OneMax.model) envs progress k a x p q).prob
        (fun r => r.1.any (fun y => F64.one.le (fitness y)) = true)) ∧
    ∀ k, (evolveIndividual OneMax.model (aga OneMax.model) envs progress k a x p q).expect callsIn ≤
      n + 8 * p.populationSize * n * (n - 1) * harmonic (n - 1) /
        (((p.populationSize - eliteCount p.populationSize p.elitismRate : Nat) : ℚ) * p.mutationRateRange.start.val) := by
  obtain ⟨h2, hn⟩ := h.bits
  have htwo := h.two
  have hlen : x.genome.length = n := h.lengths x (by simp)
  have hnq : (2 : ℚ) ≤ n := by exact_mod_cast h2
  have hN : (2 : ℚ) ≤ p.populationSize := by exact_mod_cast (by omega : 2 ≤ p.populationSize)
  obtain ⟨s1, s2⟩ := stops_at validNotNaN_default hstop
  have hmut := oneMax_mutants (n := n) (by omega) hlen
  have hbig : ∀ init : List OneMax, init.length = p.populationSize → max p.populationSize init.length = p.populationSize := fun init hi => by
    rw [hi, max_self]
  have hend : ∀ k, 1 - fewSuccesses ((1 - p.mutationRateRange.start.val / (4 * p.populationSize * (n * n))) ^
        (p.populationSize - eliteCount p.populationSize p.elitismRate)) k (n - 1) ≤
      (evolveIndividual OneMax.model (aga OneMax.model) envs progress (k + 1) a x p q).prob
        (fun r => r.1.any (fun y => F64.one.le (fitness y)) = true) := by
    intro k
    refine C114_evolve_individual (aga_standard _) h.env oneMax_breedsValid validNotNaN_default progress _ s2 rfl
      (fun y => y.genome.length = n) x hlen (k + 1) a hmut p (show 1 ≤ p.populationSize by omega) q _ fun init i1 i2 i3 => ?_
    have i1 : init.length = p.populationSize := i1
    have hr := h.from h0 init i1 i2 i3
    have h1 : 1 / (n : ℚ) / n ≤ 1 / n := div_le_self (by positivity) (by linarith)
    have hc := hr.climbs a (fun i => 1 / n / n)
      (fun i => ⟨by positivity, h1.trans (by rw [div_le_one (by linarith)]; linarith)⟩)
      (fun i hi => h1.trans (oneChance_bounds (by omega)).2.2)
    have := C79_aga_ends hc (fun i hi a b ha hb hl hu1 hu2 => le_trans
        (div_le_div_of_nonneg_right (oneChance_bounds (by omega)).2.2 (by linarith)) (oneMax_crosses hn (by omega) a b ha hb hl hu1 hu2))
      progress hpr (fun q pop q' hg hr => s1 q pop q' hg ((reached_top (by omega) hn pop).1 hr)) k q
    have he : crossedChance (1 / (2 * (max p.populationSize init.length : Nat))) p.mutationRateRange.start.val (1 / n / n) =
        p.mutationRateRange.start.val / (4 * p.populationSize * (n * n)) := by
      rw [hbig init i1]
      unfold crossedChance
      field_simp
      norm_num
    rwa [he] at this
  refine ⟨hend, fun ε hε => ?_, fun k => ?_⟩
  · have hx0 : 0 < p.mutationRateRange.start.val / (4 * p.populationSize * (n * n)) := by positivity
    have hx1 : p.mutationRateRange.start.val / (4 * p.populationSize * (n * n)) ≤ 1 := by
      have hr : p.mutationRateRange.start.val ≤ 1 := h.valid.2.2.2.2.1.2.2
      rw [div_le_one (by positivity)]
      nlinarith [mul_pos (show (0 : ℚ) < p.populationSize by linarith) (show (0 : ℚ) < n * n by positivity),
        mul_le_mul hnq hnq (by norm_num) (by linarith)]
    obtain ⟨K, hK⟩ := fewSuccesses_tendsto
      (x := (1 - p.mutationRateRange.start.val / (4 * p.populationSize * (n * n))) ^ (p.populationSize - eliteCount p.populationSize p.elitismRate))
      (pow_nonneg (by linarith) _) (pow_lt_one₀ (by linarith) (by linarith) (by omega)) (n - 1) hε
    refine ⟨K + 1, fun k hk => ?_⟩
    obtain ⟨j, rfl⟩ : ∃ j, k = j + 1 := ⟨k - 1, by omega⟩
    have h1 := hend j
    have h2 := hK j (by omega)
    linarith
  · have hm : (0 : ℚ) < (p.populationSize - eliteCount p.populationSize p.elitismRate : Nat) := by
      exact_mod_cast (by omega : 0 < p.populationSize - eliteCount p.populationSize p.elitismRate)
    refine (C114_calls progress k a p q _ ?_).2 x fun init hi => ?_
    · have : (0 : ℚ) ≤ harmonic (n - 1) := by unfold harmonic; positivity
      have : (0 : ℚ) ≤ n - 1 := by linarith
      positivity
    · obtain ⟨i1, i2, i3⟩ := (extendWith_always OneMax.model.toEvoOps () (fun y : OneMax => y.genome.length = n) x hlen hmut
        p.populationSize (by omega)).partially init hi
      have := C80_aga_expected (h.from h0 init i1 i2 i3) a hρ progress s1 k q
      rwa [hbig init i1] at this

theorem mapList_pure' {α β : Type} (f : α → β) (l : List α) : Prog.mapList (fun a => (pure (f a) : Prog β)) l = pure (l.map f) := by
  induction l with
  | nil => rfl
  | cons a l ih => unfold mapList; rw [ih]; rfl

theorem dedupFrom_replicate {I : Type} [Individual I] (y : I) (hy : Individual.eq y y = true) (n : Nat) :
    dedupFrom y (List.replicate n y) = [] := by
  induction n with
  | zero => rfl
  | succ n ih => rw [List.replicate_succ, dedupFrom, if_pos hy, ih]

/-- Copies of one genome make the same population as the genome alone. -/
theorem copies_initialize {env : Env OneMax} (henv : env.Lawful) (genome : List Bool) (hn : 1 ≤ genome.length ∧ genome.length < 2 ^ 53)
    (init : List OneMax) (h0 : init ≠ []) (h : ∀ y ∈ init, y.genome = genome) :
    defaultInitialize OneMax.model env () init = defaultInitialize OneMax.model env () [OneMax.evaluate (.ofGenome genome)] := by
  have hne : (OneMax.ofGenome genome).genome ≠ [] := by
    intro h0; have : genome = [] := h0; rw [this] at hn; simp at hn
  obtain ⟨-, c2, c3, c4, c5, c6⟩ := C63_ratio (.ofGenome genome) hne hn.2.le
  have heq : Individual.eq (OneMax.evaluate (.ofGenome genome)) (OneMax.evaluate (.ofGenome genome)) = true := by
    show (_ == _ && F64.feq _ _) = true
    rw [beq_self_eq_true, Bool.true_and]
    exact F64.feq_iff.2 ⟨F64.isNaN_of_finite c2, F64.isNaN_of_finite c2, rfl⟩
  have hmap : init.map OneMax.evaluate = List.replicate init.length (OneMax.evaluate (.ofGenome genome)) := by
    rw [List.eq_replicate_iff]
    refine ⟨by simp, fun y hy => ?_⟩
    obtain ⟨z, hz, rfl⟩ := List.mem_map.1 hy
    unfold OneMax.evaluate
    rw [h z hz]
    rfl
  have hone : ([OneMax.evaluate (.ofGenome genome)] : List OneMax).map OneMax.evaluate =
      List.replicate 1 (OneMax.evaluate (.ofGenome genome)) := rfl
  have key : ∀ k, k ≠ 0 → dedup (env.sort ((List.replicate k (OneMax.evaluate (.ofGenome genome))).filter isValid)) =
      [OneMax.evaluate (.ofGenome genome)] := by
    intro k hk
    have hf : (List.replicate k (OneMax.evaluate (.ofGenome genome))).filter isValid = List.replicate k (OneMax.evaluate (.ofGenome genome)) :=
      List.filter_eq_self.2 fun y hy => by rw [(List.mem_replicate.1 hy).2]; exact c6
    have hs : env.sort (List.replicate k (OneMax.evaluate (.ofGenome genome))) = List.replicate k (OneMax.evaluate (.ofGenome genome)) :=
      List.perm_replicate.1 (henv.sort.perm _)
    rw [hf, hs]
    obtain ⟨j, rfl⟩ : ∃ j, k = j + 1 := ⟨k - 1, by omega⟩
    rw [List.replicate_succ, dedup, dedupFrom_replicate _ heq]
  have hini : ∀ l : List OneMax, defaultInitialize OneMax.model env () l = Prog.lift (Population.new env.sort ((l.map OneMax.evaluate).filter isValid)) := by
    intro l
    unfold defaultInitialize
    rw [show OneMax.model.evaluate () = fun y => (pure (OneMax.evaluate y) : Prog OneMax) from rfl, mapList_pure', bind_pure_left]
  rw [hini, hini, hmap, hone]
  unfold Population.new sortDedupCollect
  rw [key _ (by simpa using h0), key 1 (by norm_num)]

/-- **C114** The adaptive algorithm that adjusts its rates in every generation (as by default) can get stuck in `evolve_individual`,
because the mutants of the individual may all be equal to it: with probability at least `μ^(N - 1) (1 - ρ)^N`, where `μ` is the
probability that a mutation of the individual changes nothing, it goes on forever, with no other genome than the given one. -/
theorem C114_aga_stuck {p : AgaParams} (x : OneMax) (hn : 1 ≤ x.genome.length ∧ x.genome.length < 2 ^ 53) (hf : false ∈ x.genome)
    (henv : ∀ t, (envs t).Lawful) (hv : p.Valid) (hs : p.selectionStrategy.Valid) (hl : ∀ b, p.selectionStrategy = .linear b → SafeBias b)
    (hsz : p.populationSize < 2 ^ 32) (htwo : eliteCount p.populationSize p.elitismRate + 2 ≤ p.populationSize)
    (hint : p.adjustmentInterval = 1) (progress : Q → Population OneMax → Prog (Bool × Q))
    (hgo : ∀ q pop, GoodPop pop → ¬ Reached F64.one pop → Always (fun r => r.1 = true) (progress q pop)) (k : Nat)
    (a : Aga Unit Empty) (q : Q) :
    (1 - (⌈p.mutationRateRange.start.val * 2 ^ 53⌉ : ℤ) / 2 ^ 53) ^ p.populationSize *
        (OneMax.mutate x).prob (fun y => y.genome = x.genome) ^ (p.populationSize - 1) ≤
      (evolveIndividual OneMax.model (aga OneMax.model) envs progress k a x p q).prob
        (fun r => r.1 = none ∧ ∀ y ∈ r.2.population.individuals, y.genome = x.genome) := by
  have hext : (OneMax.model.extendWith () [] p.populationSize x).prob (fun l => ∀ y ∈ l, y.genome = x.genome) =
      (OneMax.mutate x).prob (fun y => y.genome = x.genome) ^ (p.populationSize - 1) := by
    rw [← prob_replicate_all]
    show (defaultExtendWith OneMax.model.toEvoOps () [] p.populationSize x).prob _ = _
    have hu : usizeSub p.populationSize 1 = .ok (p.populationSize - 1) := by
      unfold usizeSub; rw [if_pos (by omega)]
    unfold defaultExtendWith
    rw [if_neg (by omega)]
    dsimp only
    rw [if_neg (by omega), hu, lift_ok, bind_pure_left]
    rw [prob_bind_pure _ _ (fun new => [] ++ [x] ++ new) (fun _ _ => rfl)]
    exact prob_congr _ _ _ fun l _ => by simp
  rw [← hext]
  refine mul_prob_le_bind _ _ _ _ _ fun init hi hall => ?_
  have hlen := extendWith_length _ _ _ _ _ hi
  have hne : init ≠ [] := by rintro rfl; simp at hlen; omega
  have hrun : evolvePopulation (aga OneMax.model) envs progress k a init p q =
      evolvePopulation (aga OneMax.model) envs progress k a [OneMax.evaluate (.ofGenome x.genome)] p q := by
    unfold evolvePopulation
    rcases (aga OneMax.model).configure a p with a' | _ | _
    · simp only [lift_ok, bind_pure_left]
      rw [(aga_standard OneMax.model).init, (aga_standard OneMax.model).init,
        show (aga OneMax.model).model a' = () from rfl, copies_initialize (henv 0) x.genome hn init hne hall]
    · rfl
    · rfl
  rw [hrun]
  refine (C80_aga_stuck x.genome hn hf henv hv hs hl hsz htwo hint progress hgo k a q).trans ?_
  refine prob_le_bind _ _ _ _ fun r _ hr => ?_
  obtain ⟨fin, st⟩ := r
  obtain ⟨rfl, h2⟩ := hr
  unfold takeResult
  simp only [Bool.false_eq_true, if_false, prob_pure]
  rw [if_pos ⟨trivial, h2⟩]

end

/-! ### Arrangements -/

/-- **C114** With `Scramble` as mutation, `evolve_individual` of the genetic algorithm improves any arrangement whose objective is a
number up to any other: stopped at the fitness of an arrangement `best`, it returns an individual at least as fit almost surely, and
within `k + 1` calls with at least this probability. -/
theorem C114_route {G : Type} [DecidableEq G] {Pb : Route.Problem G} {genes best : List G} {envs : Nat → Env (Route G)} {p : GaParams}
    {x : Route G} (h : RouteRun Pb genes envs p [x]) (a : Ga Unit Empty) (hs : Pb.mutation = .scramble)
    (hn : 2 ≤ genes.length) (hb : best.Perm genes) (hfin : (Pb.objective best).isFinite = true)
    (progress : Q → Population (Route G) → Prog (Bool × Q)) (hpr : ∀ q p, p.WF → Always (fun _ => True) (progress q p))
    (hstop : ∀ q pop b q', GoodPop pop → (progress q pop).yields (.ok (b, q')) → (b = false ↔ Reached (Pb.objective best) pop)) (q : Q) :
    (∀ k, 1 - (1 - p.mutationRate.val * (1 / ((genes.length - 1) * genes.length.factorial))) ^
        ((p.populationSize - eliteCount p.populationSize p.elitismRate) * k) ≤
      (evolveIndividual (Route.model Pb) (ga (Route.model Pb)) envs progress (k + 1) a x p q).prob
        (fun r => r.1.any (fun y => (Pb.objective best).le (fitness y)) = true)) ∧
    (0 < p.mutationRate.val → ∀ ε : ℚ, 0 < ε → ∃ K, ∀ k, K ≤ k → 1 - ε ≤
      (evolveIndividual (Route.model Pb) (ga (Route.model Pb)) envs progress k a x p q).prob
        (fun r => r.1.any (fun y => (Pb.objective best).le (fitness y)) = true)) := by
  have htwo := h.two
  obtain ⟨s1, s2⟩ := stops_at validNotNaN_default hstop
  have hend : ∀ k, 1 - (1 - p.mutationRate.val * (1 / ((genes.length - 1) * genes.length.factorial))) ^
        ((p.populationSize - eliteCount p.populationSize p.elitismRate) * k) ≤
      (evolveIndividual (Route.model Pb) (ga (Route.model Pb)) envs progress (k + 1) a x p q).prob
        (fun r => r.1.any (fun y => (Pb.objective best).le (fitness y)) = true) := by
    intro k
    refine C114_evolve_individual (ga_standard _) h.env (breedsValid_default _ rfl (fun u => u.elim) (fun u => u.elim))
      validNotNaN_default progress _ s2 rfl (fun y => y.genome.Perm genes) x (h.genomes x (by simp)) (k + 1) a
      (h.arranges.safe.mutate () x (h.genomes x (by simp))) p (show 1 ≤ p.populationSize by omega) q _ fun init i1 i2 i3 => ?_
    have i1 : init.length = p.populationSize := i1
    have hr : RouteRun Pb genes envs p init :=
      { arranges := h.arranges, env := h.env, valid := h.valid, strategy := h.strategy, linear := h.linear, size := h.size, two := h.two,
        len := by rw [i1]; exact h.size
        genomes := i3
        start := by
          obtain ⟨y, hy, hf⟩ := h.start
          exact ⟨x, i2, by rwa [← List.mem_singleton.1 hy]⟩ }
    exact (C88_scramble_solves hr a hs hn hb hfin progress hpr s1 q).1 k
  refine ⟨hend, fun hρ ε hε => ?_⟩
  have hnq : (2 : ℚ) ≤ genes.length := by exact_mod_cast hn
  have hf1 : (1 : ℚ) ≤ genes.length.factorial := by exact_mod_cast Nat.factorial_pos _
  have hd : (1 : ℚ) ≤ (genes.length - 1) * genes.length.factorial := by nlinarith
  have hδ1 : 1 / (((genes.length : ℚ) - 1) * genes.length.factorial) ≤ 1 := by rw [div_le_one (by linarith)]; exact hd
  have hδ0 : 0 < 1 / (((genes.length : ℚ) - 1) * genes.length.factorial) := div_pos one_pos (by linarith)
  have hr1 : p.mutationRate.val ≤ 1 := h.valid.2.2.2.2.2
  have hx0 := mul_pos hρ hδ0
  have hx1 : p.mutationRate.val * (1 / (((genes.length : ℚ) - 1) * genes.length.factorial)) ≤ 1 := by
    have := mul_le_mul hr1 hδ1 hδ0.le (by norm_num)
    linarith
  obtain ⟨K, hK⟩ := exists_pow_lt_of_lt_one hε
    (show 1 - p.mutationRate.val * (1 / (((genes.length : ℚ) - 1) * genes.length.factorial)) < 1 by linarith)
  refine ⟨K + 1, fun k hk => ?_⟩
  obtain ⟨j, rfl⟩ : ∃ j, k = j + 1 := ⟨k - 1, by omega⟩
  refine le_trans ?_ (hend j)
  have hm : K ≤ (p.populationSize - eliteCount p.populationSize p.elitismRate) * j :=
    le_trans (by omega : K ≤ 1 * j) (Nat.mul_le_mul_right _ (by omega))
  have := pow_le_pow_of_le_one (show 0 ≤ 1 - p.mutationRate.val * (1 / (((genes.length : ℚ) - 1) * genes.length.factorial)) by linarith)
    (by linarith) hm
  linarith

/-! ### Examples -/

-- from one `true` bit among five, with the default parameters: `evolve_individual` solves it almost surely
example (ε : ℚ) (hε : 0 < ε) : ∃ K, ∀ k, K ≤ k → 1 - ε ≤ (evolveIndividual OneMax.model (ga OneMax.model) (fun _ => oneEnv) untilSolved k
    (Ga.ofModel ()) loneBit GaParams.default ()).prob (fun r => r.1.any (fun y => F64.one.le (fitness y)) = true) :=
  (C114_oneMax loneBit_run (Ga.ofModel ()) (by
      rw [show GaParams.default.mutationRate.val = 3602879701896397 / 2 ^ 55 from by decide +kernel]; norm_num) untilSolved
    (fun _ _ w => untilSolved_always w) (fun q pop b q' hg hy => untilSolved_iff q pop b q' hg hy) ()).2.1 ε hε

/-- **C114** With the default parameters of the adaptive algorithm, `evolve_individual` on five bits with one `true` goes on forever with
positive probability. -/
theorem C114_aga_stuck_default : ∃ c : ℚ, 0 < c ∧ ∀ k, c ≤ (evolveIndividual OneMax.model (aga OneMax.model) (fun _ => oneEnv) untilSolved k
    (Aga.ofModel ()) loneBit AgaParams.default ()).prob (fun r => r.1 = none) := by
  have hm : AgaParams.default.mutationRateRange.start.val = 3602879701896397 / 2 ^ 55 := by decide +kernel
  have hμ : (OneMax.mutate loneBit).prob (fun y => y.genome = loneBit.genome) = 3 / 5 := by decide +kernel
  refine ⟨_, ?_, fun k => (C114_aga_stuck loneBit (by simp [loneBit, OneMax.ofGenome]) (by simp [loneBit, OneMax.ofGenome])
    (fun _ => oneEnv_lawful) C50_defaults.2.2.1 C50_defaults.2.2.2 (by simp [AgaParams.default]) (by simp [AgaParams.default])
    (by decide +kernel) rfl untilSolved (fun q pop hg hr => untilSolved_goes hg hr) k (Aga.ofModel ()) ()).trans
      (prob_mono _ _ _ fun r _ hr => hr.1)⟩
  rw [hμ]
  exact mul_pos (pow_pos (by rw [hm]; norm_num) _) (pow_pos (by norm_num) _)

end RG.Props
