import Verif.Proofs.CrossLadder
import Verif.Props.AgaConvergence

/-!
# Property C79: climbing a ladder of levels at any crossover rate

C69 and C72 count the generations in which an offspring is *not* crossed, so they say nothing if the crossover rate is 1 — as the
upper end of the default range of the adaptive algorithm is. Here crossover may climb, too: `CrossClimbs` demands that two
individuals, the second at the present level, none at the next one, have an offspring at the next one with some probability (after the
mutation); nothing is demanded if only the first one is at the level. Then a bred individual climbs with probability at least
`crossedChance σ ρ δ = σ ρ δ / 2`, whatever the crossover rate is and however it changes.
-/

set_option linter.unusedSectionVars false

namespace RG.Props
open RG RG.Prog
variable {I : Type} [Individual I] {Mo U Q : Type} {M : EvoModel I Mo U} {Pr : I → Prop} {envs : Nat → Env I}
  {init : List I} {level : Nat → F64} {L : Nat} {σ : ℚ}

/-- A lower bound for the probability that a bred individual climbs, at any crossover rate: a parent at the present level is selected
with probability `σ`, the mutation fires with probability `ρ` and climbs with probability `δ`. -/
def crossedChance (σ ρ δ : ℚ) : ℚ := σ / 2 * ρ * δ

theorem crossedChance_mem {σ ρ δ : ℚ} (hσ : 0 ≤ σ ∧ σ ≤ 1) (hρ : 0 ≤ ρ ∧ ρ ≤ 1) (hδ : 0 ≤ δ ∧ δ ≤ 1) :
    0 ≤ crossedChance σ ρ δ ∧ crossedChance σ ρ δ ≤ 1 := by
  obtain ⟨s0, s1⟩ := hσ
  obtain ⟨r0, r1⟩ := hρ
  obtain ⟨d0, d1⟩ := hδ
  unfold crossedChance
  constructor
  · positivity
  · exact mul_le_one₀ (mul_le_one₀ (by linarith) r0 r1) d0 d1

/-- **C79** The parents that the default `breed` chooses, for a total selection mechanism of this library: with at least half the
probability of selecting an individual of some set `S`, the second parent is in `S`, or there is no second parent and the first one
is in `S`. This holds for every crossover rate. `S` must not separate individuals that are equal for `==`. -/
theorem C79_parents (M : EvoOps I Mo U) (env : NumEnv) (p : Population I) (r : ReproParams U) (S : I → Prop) [DecidablePred S]
    (sel : Selector) (hsel : r.parentSelector = .builtin sel) (htot : Always (fun _ => True) (sel.select env p))
    (hd : ∀ c x, S c → ¬ S x → Individual.eq c x = false) :
    (sel.select env p).prob (fun x => S x.2) / 2 ≤
      (breedParents M env p r).prob (fun ps => (ps.2 = none ∧ S ps.1) ∨ ∃ b, ps.2 = some b ∧ S b) := by
  refine (prob_goodPair M env p r S sel hsel htot hd _ le_rfl).trans (prob_mono _ _ _ ?_)
  rintro ⟨x, o⟩ _ h
  cases o with
  | none => exact Or.inl ⟨rfl, h⟩
  | some b => exact Or.inr ⟨b, rfl, h⟩

/-! ### The genetic algorithm -/

section
variable {a : Ga Mo U} {p : GaParams} {δ : Nat → ℚ}

/-- **C79** The expected number of calls of `progress` of the genetic algorithm, if it stops at the top level. -/
theorem C79_ga_expected (h : Climbs M Pr envs a p init level L σ δ)
    (hx : ∀ i, i < L → CrossClimbs M a.model Pr (level i) (level (i + 1)) (δ i))
    (hpos : ∀ i, i < L → 0 < crossedChance σ p.mutationRate.val (δ i)) (progress : Q → Population I → Prog (Bool × Q))
    (hstop : ∀ q pop q', GoodPop pop → Reached (level L) pop → ¬ (progress q pop).yields (.ok (true, q'))) (k : Nat) (q : Q) :
    (evolvePopulation (ga M) envs progress k a init p q).expect callsOf ≤
      1 + ∑ i ∈ Finset.range L, 1 / (1 - (1 - crossedChance σ p.mutationRate.val (δ i)) ^
        (p.populationSize - eliteCount p.populationSize p.elitismRate)) := by
  obtain ⟨hs, hd⟩ := h.bounds
  refine ladder_run_expected (ga_standard M) envs h.env (breedsValid_default M h.ops.breed h.members h.distinct) h.notNaN h.eqFitness
    progress level _ (fun i => crossedChance_mem hs h.rate_mem.2 (hd i)) _ _ L h.two h.elites
    (ClimbState M (ga M) Ga.eliteSize Ga.populationSize Pr (max p.populationSize init.length) (GaOk p a.model))
    (fun st hs => hs.fine.good) ClimbState.show
    (fun t st st' hs hst => hs.step (ga_standard M) (ga_safe h.ops) h.ops h.members h.distinct h.notNaN (ga_steady h.toGaRun _)
      (h.env t) st st' hst)
    (fun t st b i hs _ hi hr hb => hs.breed_crossed (ga_safe h.ops) h.ops h.survive h.notNaN h.eqFitness (ga_steady h.toGaRun _) _
      (level i) (level (i + 1)) σ (δ i) h.rate_mem.2.1 (hd i) (h.select t i hi) (h.climbs i hi) (hx i hi) st b hr hb)
    a p init h.begin hstop hpos k q

/-- **C79** With the same chance at all levels: the run ends within `k + 1` calls with at least the probability of `L` successes in
`k` trials. -/
theorem C79_ga_ends {δ : ℚ} (h : Climbs M Pr envs a p init level L σ fun _ => δ)
    (hx : ∀ i, i < L → CrossClimbs M a.model Pr (level i) (level (i + 1)) δ)
    (progress : Q → Population I → Prog (Bool × Q)) (hpr : ∀ q p, p.WF → Always (fun _ => True) (progress q p))
    (hstop : ∀ q pop q', GoodPop pop → Reached (level L) pop → ¬ (progress q pop).yields (.ok (true, q'))) (k : Nat) (q : Q) :
    1 - fewSuccesses ((1 - crossedChance σ p.mutationRate.val δ) ^ (p.populationSize - eliteCount p.populationSize p.elitismRate))
        k L ≤
      (evolvePopulation (ga M) envs progress (k + 1) a init p q).prob (fun r => r.1 = true) := by
  obtain ⟨hs, hd⟩ := h.bounds
  refine ladder_run_ends (ga_standard M) envs h.env (breedsValid_default M h.ops.breed h.members h.distinct) h.notNaN h.eqFitness
    progress level (fun _ => crossedChance σ p.mutationRate.val δ) (fun i => crossedChance_mem hs h.rate_mem.2 (hd i)) _ _ L h.two h.elites
    (ClimbState M (ga M) Ga.eliteSize Ga.populationSize Pr (max p.populationSize init.length) (GaOk p a.model))
    (fun st hs => hs.fine.good) ClimbState.show
    (fun t st st' hs hst => hs.step (ga_standard M) (ga_safe h.ops) h.ops h.members h.distinct h.notNaN (ga_steady h.toGaRun _)
      (h.env t) st st' hst)
    (fun t st b i hs _ hi hr hb => hs.breed_crossed (ga_safe h.ops) h.ops h.survive h.notNaN h.eqFitness (ga_steady h.toGaRun _) _
      (level i) (level (i + 1)) σ δ h.rate_mem.2.1 (hd i) (h.select t i hi) (h.climbs i hi) (hx i hi) st b hr hb)
    a p init h.begin hstop _ (fun _ => rfl) k q
    ((C64_run (ga_standard M) (ga_safe h.ops) h.ops envs h.env progress hpr (k + 1) a init p q
      ⟨h.valid, h.strategy, h.linear⟩ (by have := h.two; show 2 ≤ p.populationSize; omega) h.size h.len h.prop h.start).mono
      fun _ _ => trivial)

/-- **C79** So if every level can be left, the run ends almost surely, at any crossover rate. -/
theorem C79_ga_almost_surely {δ : ℚ} (h : Climbs M Pr envs a p init level L σ fun _ => δ)
    (hx : ∀ i, i < L → CrossClimbs M a.model Pr (level i) (level (i + 1)) δ)
    (hpos : 0 < crossedChance σ p.mutationRate.val δ)
    (progress : Q → Population I → Prog (Bool × Q)) (hpr : ∀ q p, p.WF → Always (fun _ => True) (progress q p))
    (hstop : ∀ q pop q', GoodPop pop → Reached (level L) pop → ¬ (progress q pop).yields (.ok (true, q'))) (q : Q) (ε : ℚ) (hε : 0 < ε) :
    ∃ K, ∀ k, K ≤ k → 1 - ε ≤ (evolvePopulation (ga M) envs progress k a init p q).prob (fun r => r.1 = true) := by
  obtain ⟨hs, hd⟩ := h.bounds
  have hch := crossedChance_mem hs h.rate_mem.2 (hd 0)
  have htwo := h.two
  obtain ⟨K, hK⟩ := fewSuccesses_tendsto
    (x := (1 - crossedChance σ p.mutationRate.val δ) ^ (p.populationSize - eliteCount p.populationSize p.elitismRate))
    (pow_nonneg (by linarith) _) (pow_lt_one₀ (by linarith) (by linarith) (by omega)) L hε
  refine ⟨K + 1, fun k hk => ?_⟩
  obtain ⟨j, rfl⟩ : ∃ j, k = j + 1 := ⟨k - 1, by omega⟩
  have h1 := C79_ga_ends h hx progress hpr hstop j q
  have h2 := hK j (by omega)
  linarith

end

/-! ### The adaptive genetic algorithm -/

section
variable {a : Aga Mo U} {p : AgaParams} {δ : Nat → ℚ}

/-- The state at the first call of `progress`. -/
theorem AgaClimbs.begins (h : AgaClimbs M Pr envs a p init level L σ δ) :
    ∃ a', (aga M).configure a p = .ok a' ∧ Always (fun pop => ∀ q : Q,
      ClimbState M (aga M) Aga.eliteSize Aga.populationSize Pr (max p.populationSize init.length) (AgaOk p a.model)
        ({ algo := a', population := pop, buffer := [], q, shown := [] } : RunState I (Aga Mo U) Q) ∧
      Reached (level 0) pop ∧ a'.eliteSize = eliteCount p.populationSize p.elitismRate ∧ a'.populationSize = p.populationSize)
      ((aga M).initPopulation (envs 0) a' init) := by
  obtain ⟨a', hc, hi⟩ := h.begin (Q := Q) (level 0)
  exact ⟨a', hc, hi.mono fun pop hp q => ⟨(hp q).1, (hp q).2.1 h.bottom, (hp q).2.2⟩⟩

theorem AgaClimbs.breed_crossed (h : AgaClimbs M Pr envs a p init level L σ δ)
    (hx : ∀ i, i < L → CrossClimbs M a.model Pr (level i) (level (i + 1)) (δ i)) (t : Nat) (st : RunState I (Aga Mo U) Q)
    (b : Aga Mo U) (i : Nat)
    (hs : ClimbState M (aga M) Aga.eliteSize Aga.populationSize Pr (max p.populationSize init.length) (AgaOk p a.model) st)
    (hi : i < L) (hr : Reached (level i) st.population)
    (hb : ((aga M).prepare (envs t).num st.algo st.population).yields (.ok b)) :
    (M.breed (envs t).num ((aga M).model b) st.population ((aga M).repro b).1).prob
      (fun c => ¬ (level (i + 1)).le (fitness c) = true) ≤ 1 - crossedChance σ p.mutationRateRange.start.val (δ i) := by
  have hsz := h.size
  have hln := h.len
  exact hs.breed_crossed (aga_safe h.ops) h.ops h.survive h.notNaN h.eqFitness (aga_steady h.toAgaRun (by omega)) _ (level i)
    (level (i + 1)) σ (δ i) h.rate_mem.1 (h.bounds.2 i) (h.select t i hi) (h.climbs i hi) (hx i hi) st b hr hb

/-- **C79** The expected number of calls of `progress` of the adaptive algorithm, if it stops at the top level. -/
theorem C79_aga_expected (h : AgaClimbs M Pr envs a p init level L σ δ)
    (hx : ∀ i, i < L → CrossClimbs M a.model Pr (level i) (level (i + 1)) (δ i))
    (hpos : ∀ i, i < L → 0 < crossedChance σ p.mutationRateRange.start.val (δ i)) (progress : Q → Population I → Prog (Bool × Q))
    (hstop : ∀ q pop q', GoodPop pop → Reached (level L) pop → ¬ (progress q pop).yields (.ok (true, q'))) (k : Nat) (q : Q) :
    (evolvePopulation (aga M) envs progress k a init p q).expect callsOf ≤
      1 + ∑ i ∈ Finset.range L, 1 / (1 - (1 - crossedChance σ p.mutationRateRange.start.val (δ i)) ^
        (p.populationSize - eliteCount p.populationSize p.elitismRate)) := by
  obtain ⟨hs, hd⟩ := h.bounds
  exact ladder_run_expected (aga_standard M) envs h.env (breedsValid_default M h.ops.breed h.members h.distinct) h.notNaN h.eqFitness
    progress level _ (fun i => crossedChance_mem hs h.rate_mem (hd i)) _ _ L h.two h.elites
    (ClimbState M (aga M) Aga.eliteSize Aga.populationSize Pr (max p.populationSize init.length) (AgaOk p a.model))
    (fun st hs => hs.fine.good) ClimbState.show h.step
    (fun t st b i hs _ hi hr hb => h.breed_crossed hx t st b i hs hi hr hb) a p init h.begins hstop hpos k q

/-- **C79** With the same chance at all levels: the run ends within `k + 1` calls with at least the probability of `L` successes in
`k` trials. -/
theorem C79_aga_ends {δ : ℚ} (h : AgaClimbs M Pr envs a p init level L σ fun _ => δ)
    (hx : ∀ i, i < L → CrossClimbs M a.model Pr (level i) (level (i + 1)) δ)
    (progress : Q → Population I → Prog (Bool × Q)) (hpr : ∀ q p, p.WF → Always (fun _ => True) (progress q p))
    (hstop : ∀ q pop q', GoodPop pop → Reached (level L) pop → ¬ (progress q pop).yields (.ok (true, q'))) (k : Nat) (q : Q) :
    1 - fewSuccesses ((1 - crossedChance σ p.mutationRateRange.start.val δ) ^
        (p.populationSize - eliteCount p.populationSize p.elitismRate)) k L ≤
      (evolvePopulation (aga M) envs progress (k + 1) a init p q).prob (fun r => r.1 = true) := by
  obtain ⟨hs, hd⟩ := h.bounds
  exact ladder_run_ends (aga_standard M) envs h.env (breedsValid_default M h.ops.breed h.members h.distinct) h.notNaN h.eqFitness
    progress level (fun _ => crossedChance σ p.mutationRateRange.start.val δ) (fun i => crossedChance_mem hs h.rate_mem (hd i)) _ _ L
    h.two h.elites
    (ClimbState M (aga M) Aga.eliteSize Aga.populationSize Pr (max p.populationSize init.length) (AgaOk p a.model))
    (fun st hs => hs.fine.good) ClimbState.show h.step
    (fun t st b i hs _ hi hr hb => h.breed_crossed hx t st b i hs hi hr hb) a p init h.begins hstop _ (fun _ => rfl) k q
    ((C64_run (aga_standard M) (aga_safe h.ops) h.ops envs h.env progress hpr (k + 1) a init p q
      ⟨h.valid, h.strategy, h.linear⟩ (by have := h.two; show 2 ≤ p.populationSize; omega) h.size h.len h.prop h.start).mono
      fun _ _ => trivial)

/-- **C79** So if every level can be left, the run of the adaptive algorithm ends almost surely, whatever the crossover range. -/
theorem C79_aga_almost_surely {δ : ℚ} (h : AgaClimbs M Pr envs a p init level L σ fun _ => δ)
    (hx : ∀ i, i < L → CrossClimbs M a.model Pr (level i) (level (i + 1)) δ)
    (hpos : 0 < crossedChance σ p.mutationRateRange.start.val δ)
    (progress : Q → Population I → Prog (Bool × Q)) (hpr : ∀ q p, p.WF → Always (fun _ => True) (progress q p))
    (hstop : ∀ q pop q', GoodPop pop → Reached (level L) pop → ¬ (progress q pop).yields (.ok (true, q'))) (q : Q) (ε : ℚ) (hε : 0 < ε) :
    ∃ K, ∀ k, K ≤ k → 1 - ε ≤ (evolvePopulation (aga M) envs progress k a init p q).prob (fun r => r.1 = true) := by
  obtain ⟨hs, hd⟩ := h.bounds
  have hch := crossedChance_mem hs h.rate_mem (hd 0)
  have htwo := h.two
  obtain ⟨K, hK⟩ := fewSuccesses_tendsto
    (x := (1 - crossedChance σ p.mutationRateRange.start.val δ) ^ (p.populationSize - eliteCount p.populationSize p.elitismRate))
    (pow_nonneg (by linarith) _) (pow_lt_one₀ (by linarith) (by linarith) (by omega)) L hε
  refine ⟨K + 1, fun k hk => ?_⟩
  obtain ⟨j, rfl⟩ : ∃ j, k = j + 1 := ⟨k - 1, by omega⟩
  have h1 := C79_aga_ends h hx progress hpr hstop j q
  have h2 := hK j (by omega)
  linarith

end

end RG.Props
