import Verif.Proofs.Total
import Verif.Proofs.Convergence

/-!
# Hypotheses and helper lemmas for C67: the genetic algorithm reaches any level that one mutation can reach
-/

set_option linter.unusedSectionVars false

namespace RG.Props
open RG RG.Prog
variable {I : Type} [Individual I] {Mo U Q : Type}

/-- What a mutation has to offer: of an individual with property `Pr` it gives, once improved and evaluated, a valid
individual at the level with probability at least `δ`. -/
def MutationReaches (M : EvoModel I Mo U) (model : Mo) (Pr : I → Prop) (target : F64) (δ : ℚ) : Prop :=
  ∀ o, Pr o → δ ≤ (M.mutate model o >>= fun o => M.improve model o >>= fun o => M.evaluate model o).prob
    (fun c => isValid c = true ∧ target.le (fitness c) = true)

/-- A run of the genetic algorithm that cannot fail, on a model with the default survival rule. -/
structure GaRun (M : EvoModel I Mo U) (Pr : I → Prop) (envs : Nat → Env I) (a : Ga Mo U) (p : GaParams) (init : List I) : Prop where
  ops : SafeOps M Pr
  survive : M.canSurvive = fun _ offspring parent _ => pure ((fitness parent).le (fitness offspring))
  members : M.selectors.ReturnsMembers
  distinct : M.selectors.DistinctMembers
  notNaN : ValidNotNaN I
  eqFitness : EqFitness I
  env : ∀ t, (envs t).Lawful
  valid : p.Valid
  strategy : p.selectionStrategy.Valid
  linear : ∀ b, p.selectionStrategy = .linear b → SafeBias b
  size : p.populationSize < 2 ^ 32
  two : eliteCount p.populationSize p.elitismRate + 2 ≤ p.populationSize
  len : init.length < 2 ^ 32
  prop : ∀ x ∈ init, Pr x
  start : ∃ x ∈ init, Always (fun e => isValid e = true) (M.evaluate a.model x)

/-- The hypotheses of C67 on the model, the environment and the parameters. -/
structure Converges (M : EvoModel I Mo U) (Pr : I → Prop) (envs : Nat → Env I) (a : Ga Mo U) (p : GaParams) (init : List I)
    (target : F64) (δ : ℚ) : Prop extends GaRun M Pr envs a p init where
  nonneg : 0 ≤ δ
  reaches : MutationReaches M a.model Pr target δ

/-- The states of such a run. -/
structure ConvState (M : EvoModel I Mo U) (Pr : I → Prop) (a : Ga Mo U) (p : GaParams) (st : RunState I (Ga Mo U) Q) : Prop where
  safe : Safe (ga M) Ga.eliteSize Ga.populationSize Pr st
  model : st.algo.model = a.model
  rate : st.algo.breeding.mutationRate = p.mutationRate
  cross : st.algo.breeding.crossoverRate = p.crossoverRate

section
variable {M : EvoModel I Mo U} {Pr : I → Prop} {envs : Nat → Env I} {a : Ga Mo U} {p : GaParams} {init : List I} {target : F64}
  {δ : ℚ}

theorem gaPrepare_eq (hM : SafeOps M Pr) (env : NumEnv) (b : Ga Mo U) (pop : Population I) :
    Ga.prepare M env b pop =
      pure { b with breeding := { b.breeding with parentSelector := b.breeding.parentSelector.prepare env M.selectors pop } } := by
  unfold Ga.prepare
  rw [hM.preGeneration, bind_pure_left]

theorem ConvState.step (h : GaRun M Pr envs a p init) (t : Nat) (st st' : RunState I (Ga Mo U) Q)
    (hs : ConvState M Pr a p st) (hst : (generationStep (ga M) (envs t) st).yields (.ok st')) : ConvState M Pr a p st' := by
  have h1 := (step_always (ga_standard M) (ga_safe h.ops) h.ops (envs t) (h.env t) st hs.safe).partially st' hst
  obtain ⟨b, el, buf, pop, old, g1, -, -, -, rfl⟩ := (yields_generationStep _ _ _ _).1 hst
  have g1 : (Ga.prepare M (envs t).num st.algo st.population).yields (.ok b) := g1
  rw [gaPrepare_eq h.ops, yields_pure] at g1
  cases g1
  exact ⟨h1, hs.model, hs.rate, hs.cross⟩

theorem ConvState.show (st : RunState I (Ga Mo U) Q) (q' : Q) (hs : ConvState M Pr a p st) :
    ConvState M Pr a p { st with q := q', shown := st.shown ++ [st.population] } :=
  ⟨⟨hs.safe.wf, hs.safe.len, hs.safe.prop, hs.safe.sel, hs.safe.two, hs.safe.sizeLt, hs.safe.eliteLe, fun pop hp => by
    rcases List.mem_append.1 hp with hp | hp
    · exact hs.safe.shown pop hp
    · rw [List.mem_singleton.1 hp]; exact hs.safe.prop⟩, hs.model, hs.rate, hs.cross⟩

theorem GaRun.rate_mem (h : GaRun M Pr envs a p init) :
    p.mutationRate.isFinite = true ∧ 0 ≤ p.mutationRate.val ∧ p.mutationRate.val ≤ 1 := h.valid.2.2.2

theorem GaRun.rate_le (h : GaRun M Pr envs a p init) :
    p.mutationRate.val ≤ genF64.prob (fun u => u.lt p.mutationRate = true) := by
  obtain ⟨h1, h2, h3⟩ := h.rate_mem
  rw [prob_fire h1 h2 h3, le_div_iff₀ (by norm_num)]
  exact Int.le_ceil _

theorem Converges.le_one (h : Converges M Pr envs a p init target δ) : p.mutationRate.val * δ ≤ 1 := by
  obtain ⟨x, hx, -⟩ := h.start
  exact mul_le_one₀ h.rate_mem.2.2 h.nonneg ((h.reaches x (h.prop x hx)).trans (prob_le_one _ _))

theorem Converges.breed (h : Converges M Pr envs a p init target δ) (t : Nat)
    (st : RunState I (Ga Mo U) Q) (b : Ga Mo U)
    (hs : ConvState M Pr a p st) (hg : GoodPop st.population)
    (hb : ((ga M).prepare (envs t).num st.algo st.population).yields (.ok b)) :
    (M.breed (envs t).num ((ga M).model b) st.population ((ga M).repro b).1).prob
      (fun c => ¬ target.le (fitness c) = true) ≤ 1 - p.mutationRate.val * δ := by
  have hb : (Ga.prepare M (envs t).num st.algo st.population).yields (.ok b) := hb
  rw [gaPrepare_eq h.ops, yields_pure] at hb
  cases hb
  show (M.breed _ st.algo.model _ _).prob _ ≤ _
  rw [hs.model, h.ops.breed]
  refine prob_breed_missed M.toEvoOps h.members h.distinct h.survive _ _ _ _ Pr hs.safe.prop
    (fun x y hx hy => (h.ops.crossover _ x y hx hy).partially) (fun x hx => h.notNaN x (hg.valid x hx)) target _ δ h.nonneg h.le_one
    ?_ h.reaches
  show _ ≤ genF64.prob (fun u => u.lt st.algo.breeding.mutationRate = true)
  rw [hs.rate]
  exact h.rate_le

/-- The state at the first call of `progress`. -/
theorem GaRun.first (h : GaRun M Pr envs a p init) :
    ∃ a', (ga M).configure a p = .ok a' ∧ Always (fun pop => ∀ q : Q,
      ConvState M Pr a p ({ algo := a', population := pop, buffer := [], q, shown := [] } : RunState I (Ga Mo U) Q) ∧
      GoodPop pop ∧ a'.eliteSize = eliteCount p.populationSize p.elitismRate ∧ a'.populationSize = p.populationSize)
      ((ga M).initPopulation (envs 0) a' init) := by
  obtain ⟨a', hc, hsel⟩ := (ga_safe h.ops).configure a p ⟨h.valid, h.strategy, h.linear⟩
  obtain ⟨hm, s1, s2, s3⟩ := (ga_standard M).configure _ _ _ hc (h.size.le.trans (by norm_num))
  have s1 : a'.populationSize = p.populationSize := s1
  have hrate : a'.breeding.mutationRate = p.mutationRate ∧ a'.breeding.crossoverRate = p.crossoverRate := by
    have hc : Ga.configure a p = .ok a' := hc
    obtain ⟨sel, hsel, _⟩ := (createSelector_spec _).1 h.strategy
    obtain ⟨k, hk⟩ : ∃ k, interpolateUsize 0 p.populationSize p.elitismRate = .ok k := by
      unfold interpolateUsize usizeSub; rw [if_pos (Nat.zero_le _)]; exact ⟨_, rfl⟩
    unfold Ga.configure at hc
    rw [(C50_ga p).1 h.valid, hk, hsel] at hc
    cases hc
    exact ⟨rfl, rfl⟩
  have hmod : a'.model = a.model := hm
  refine ⟨a', hc, ?_⟩
  have hst : ∃ x ∈ init, Always (fun e => isValid e = true) (M.evaluate a'.model x) := by rw [hmod]; exact h.start
  show Always _ (defaultInitialize M (envs 0) a'.model init)
  refine ((init_always h.ops (envs 0) (h.env 0) a'.model init h.prop hst).and fun pop hpop => init_wf (h.env 0) hpop).mono ?_
  rintro pop ⟨⟨w, l, hP⟩, -, -, -, -, -, hg⟩ q
  have htwo := h.two
  exact ⟨⟨⟨w, l.trans_lt h.len, hP, hsel, by show 2 ≤ a'.populationSize; omega,
    by show a'.populationSize < _; rw [s1]; exact h.size, by show a'.eliteSize ≤ a'.populationSize; rw [s1, s2]; exact s3.le,
    by simp⟩, hmod, hrate.1, hrate.2⟩, hg h.notNaN, s2, s1⟩

end
end RG.Props
