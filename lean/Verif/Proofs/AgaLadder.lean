import Verif.Proofs.GaLadder
import Verif.Props.Stats

/-!
# Hypotheses and helper lemmas for C72: the adaptive genetic algorithm with an initial spread
-/

set_option linter.unusedSectionVars false

namespace RG
open Prog

theorem F64.div_not_nan {a b : F64} (ha : F64.zero.le a = true) (hb : b.isFinite = true) (h0 : 0 < b.val) :
    (a.div b).isNaN = false := by
  rcases F64.nonneg_cases ha with rfl | ⟨hf, -⟩
  · cases b with
    | nan => cases hb
    | inf s => cases hb
    | nzero => rfl
    | fin q h => rfl
  · rw [F64.div_finite hf hb h0.ne']
    exact F64.round_ne_nan _ _

end RG

namespace RG.Props
open RG RG.Prog
variable {I : Type} [Individual I] {Mo U A P Q : Type}

theorem fire_add_skip (r : F64) : genF64.prob (fun u => ¬ u.lt r = true) = 1 - genF64.prob (fun u => u.lt r = true) := by
  have := prob_add_not_of_always (S := fun _ => True) genF64 (fun u => u.lt r = true) (by
    unfold genF64
    rw [always_bind, always_uniform]
    exact ⟨by norm_num, fun i _ => by simp⟩)
  linarith

theorem feq_symm {a b : F64} (h : a.feq b = true) : b.feq a = true := by
  rw [F64.feq_iff] at *
  exact ⟨h.2.1, h.1, h.2.2.symm⟩

/-- A higher rate fires at least as often. -/
theorem fire_mono {r r' : F64} (h : r.le r' = true) :
    genF64.prob (fun u => u.lt r = true) ≤ genF64.prob (fun u => u.lt r' = true) :=
  prob_mono _ _ _ fun _ _ hu => F64.lt_of_lt_of_le hu h

/-- `reference_std` is a finite positive number. -/
def GoodSpread (s : F64) : Prop := s.isFinite = true ∧ 0 < s.val

/-- The smallest probability of no crossover for the rates of a range. -/
def lowSkip (r : FRange F64) : ℚ := min (skipChance r.stop) (skipChance (interpolateF64 r.start r.stop F64.one))

/-- A run of the adaptive genetic algorithm that cannot fail, with ordered ranges, on a model with the default survival rule.
The algorithm is not adaptive (`adjustment_interval = 0`) or the initial population has a spread; then also the fitness values are
not so large that the spread may overflow. -/
structure AgaRun (M : EvoModel I Mo U) (Pr : I → Prop) (envs : Nat → Env I) (a : Aga Mo U) (p : AgaParams) (init : List I) : Prop where
  ops : SafeOps M Pr
  survive : M.canSurvive = fun _ offspring parent _ => pure ((fitness parent).le (fitness offspring))
  members : M.selectors.ReturnsMembers
  distinct : M.selectors.DistinctMembers
  notNaN : ValidNotNaN I
  eqFitness : EqFitness I
  env : ∀ t, (envs t).Lawful
  valid : p.Valid
  strategy : p.selectionStrategy.Valid
  linear : ∀ b, p.selectionStrategy = .linear b → SafeBias b
  size : p.populationSize < 2 ^ 32
  two : eliteCount p.populationSize p.elitismRate + 2 ≤ p.populationSize
  len : init.length < 2 ^ 32
  prop : ∀ x ∈ init, Pr x
  start : ∃ x ∈ init, Always (fun e => isValid e = true) (M.evaluate a.model x)
  crossOrder : p.crossoverRateRange.start.le p.crossoverRateRange.stop = true
  mutOrder : p.mutationRateRange.start.le p.mutationRateRange.stop = true
  spread : p.adjustmentInterval = 0 ∨
    (∀ x, Pr x → Evaluated M x → isValid x = true → (fitness x).isFinite = true ∧ |(fitness x).val| < pow2 1023) ∧
    ∀ pop, (defaultInitialize M (envs 0) a.model init).yields (.ok pop) → GoodSpread pop.stats.std

/-- What the algorithm needs in each generation. -/
structure AgaOk (p : AgaParams) (model : Mo) (b : Aga Mo U) (pop : Population I) : Prop where
  model : b.model = model
  interval : b.adjustmentInterval = p.adjustmentInterval
  cross : b.crossoverRateRange = p.crossoverRateRange
  mutation : b.mutationRateRange = p.mutationRateRange
  selector : ∃ sel, OfStrategy (I := I) p.selectionStrategy sel ∧ b.breeding.parentSelector = .builtin sel
  std : p.adjustmentInterval = 0 ∨ F64.zero.le pop.stats.std = true
  first : pop.generation = 0 → p.adjustmentInterval = 0 ∨ GoodSpread pop.stats.std
  later : pop.generation ≠ 0 → (p.adjustmentInterval = 0 ∨ GoodSpread b.referenceStd) ∧
    p.mutationRateRange.start.val ≤ genF64.prob (fun u => u.lt b.breeding.mutationRate = true) ∧
    lowSkip p.crossoverRateRange ≤ genF64.prob (fun u => ¬ u.lt b.breeding.crossoverRate = true)

section
variable {M : EvoModel I Mo U} {Pr : I → Prop} {envs : Nat → Env I} {a : Aga Mo U} {p : AgaParams} {init : List I}

theorem skipChance_eq {r : F64} (h : r.InClosedUnit) : skipChance r = genF64.prob (fun u => ¬ u.lt r = true) := by
  obtain ⟨h1, h2, h3⟩ := h
  rw [fire_add_skip, prob_fire h1 h2 h3]
  rfl

theorem rate_le_fire {r : F64} (h : r.InClosedUnit) : r.val ≤ genF64.prob (fun u => u.lt r = true) := by
  obtain ⟨h1, h2, h3⟩ := h
  rw [prob_fire h1 h2 h3, le_div_iff₀ (by norm_num)]
  exact Int.le_ceil _

/-- The adjusted rates, at any spread, in terms of probabilities. -/
theorem adjusted_chances (hv : p.Valid) (hc : p.crossoverRateRange.start.le p.crossoverRateRange.stop = true)
    (hm : p.mutationRateRange.start.le p.mutationRateRange.stop = true) (std ref : F64) (hs : F64.zero.le std = true)
    (hr : GoodSpread ref) :
    p.mutationRateRange.start.val ≤
      genF64.prob (fun u => u.lt (adjustedRates p.crossoverRateRange p.mutationRateRange std ref).2 = true) ∧
    lowSkip p.crossoverRateRange ≤
      genF64.prob (fun u => ¬ u.lt (adjustedRates p.crossoverRateRange p.mutationRateRange std ref).1 = true) := by
  obtain ⟨-, -, c1, c2, m1, m2⟩ := hv
  have hn := F64.div_not_nan hs hr.1 hr.2
  obtain ⟨u1, u2⟩ := C57_f64 p.crossoverRateRange p.mutationRateRange std ref ⟨c1, c2⟩ ⟨m1, m2⟩ hn
  have hd := clampA_unit hn
  have hd' := one_sub_unit hd.1 hd.2
  have ho : (Arith.lit 1 : F64) = F64.one := by decide +kernel
  have hz1 : F64.zero.le F64.one = true := by decide +kernel
  have h11 : F64.one.le F64.one = true := by decide +kernel
  have hzz : F64.zero.le F64.zero = true := by decide +kernel
  constructor
  · refine (rate_le_fire m1).trans (fire_mono ?_)
    obtain ⟨e0, mono, -⟩ := C18_f64_monotone p.mutationRateRange.start p.mutationRateRange.stop F64.zero
      (F64.one.sub (diversity std ref)) (F64.unit_interval.2 m1) (F64.unit_interval.2 m2) hzz hd'.1 hd'.2
    refine F64.le_trans (F64.le_of_feq (feq_symm e0)) ?_
    have := mono hm
    show (interpolateF64 p.mutationRateRange.start p.mutationRateRange.stop F64.zero).le
      (interpolateF64 p.mutationRateRange.start p.mutationRateRange.stop ((Arith.lit 1 : F64).sub (diversity std ref))) = true
    rw [ho]; exact this
  · have htop : (interpolateF64 p.crossoverRateRange.start p.crossoverRateRange.stop F64.one).InClosedUnit :=
      F64.unit_interval.1 (C18_f64 _ _ _ (F64.unit_interval.2 c1) (F64.unit_interval.2 c2) ⟨hz1, h11⟩)
    obtain ⟨-, mono, -⟩ := C18_f64_monotone p.crossoverRateRange.start p.crossoverRateRange.stop (diversity std ref) F64.one
      (F64.unit_interval.2 c1) (F64.unit_interval.2 c2) hd.1 hd.2 h11
    refine (min_le_right _ _).trans ?_
    rw [skipChance_eq htop, fire_add_skip, fire_add_skip]
    have := fire_mono (mono hc)
    show _ ≤ 1 - genF64.prob (fun u => u.lt (interpolateF64 p.crossoverRateRange.start p.crossoverRateRange.stop
      (diversity std ref)) = true)
    linarith

theorem agaPrepare_eq (hM : SafeOps M Pr) (env : NumEnv) (b : Aga Mo U) (pop : Population I) :
    Aga.prepare M env b pop =
      pure { b.adjust pop.generation pop.stats.std with
        breeding := { (b.adjust pop.generation pop.stats.std).breeding with
          parentSelector := (b.adjust pop.generation pop.stats.std).breeding.parentSelector.prepare env M.selectors pop } } := by
  unfold Aga.prepare
  dsimp only
  rw [hM.preGeneration, bind_pure_left]

/-- After the adjustment. -/
theorem AgaOk.adjusted (hv : p.Valid) (hc : p.crossoverRateRange.start.le p.crossoverRateRange.stop = true)
    (hm : p.mutationRateRange.start.le p.mutationRateRange.stop = true) {model : Mo} {b : Aga Mo U} {pop : Population I}
    (h : AgaOk p model b pop) :
    (b.adjust pop.generation pop.stats.std).model = model ∧
    (b.adjust pop.generation pop.stats.std).adjustmentInterval = p.adjustmentInterval ∧
    (b.adjust pop.generation pop.stats.std).crossoverRateRange = p.crossoverRateRange ∧
    (b.adjust pop.generation pop.stats.std).mutationRateRange = p.mutationRateRange ∧
    (b.adjust pop.generation pop.stats.std).breeding.parentSelector = b.breeding.parentSelector ∧
    (p.adjustmentInterval = 0 ∨ GoodSpread (b.adjust pop.generation pop.stats.std).referenceStd) ∧
    p.mutationRateRange.start.val ≤
      genF64.prob (fun u => u.lt (b.adjust pop.generation pop.stats.std).breeding.mutationRate = true) ∧
    lowSkip p.crossoverRateRange ≤
      genF64.prob (fun u => ¬ u.lt (b.adjust pop.generation pop.stats.std).breeding.crossoverRate = true) := by
  unfold Aga.adjust
  by_cases hg : pop.generation = 0
  · rw [if_pos hg]
    refine ⟨h.model, h.interval, h.cross, h.mutation, rfl, h.first hg, ?_, ?_⟩
    · show _ ≤ genF64.prob (fun u => u.lt b.mutationRateRange.start = true)
      rw [h.mutation]; exact rate_le_fire hv.2.2.2.2.1
    · show _ ≤ genF64.prob (fun u => ¬ u.lt b.crossoverRateRange.stop = true)
      rw [h.cross, ← skipChance_eq hv.2.2.2.1]; exact min_le_left _ _
  · rw [if_neg hg]
    obtain ⟨l1, l2, l3⟩ := h.later hg
    by_cases ha : b.adjustmentInterval ≠ 0 ∧ pop.generation % b.adjustmentInterval = 0
    · rw [if_pos ha]
      have h0 : p.adjustmentInterval ≠ 0 := by rw [← h.interval]; exact ha.1
      have hs : F64.zero.le pop.stats.std = true := h.std.resolve_left h0
      have hr := l1.resolve_left h0
      have := adjusted_chances hv hc hm pop.stats.std b.referenceStd hs hr
      refine ⟨h.model, h.interval, h.cross, h.mutation, rfl, l1, ?_, ?_⟩
      · dsimp only; rw [h.cross, h.mutation]; exact this.1
      · dsimp only; rw [h.cross, h.mutation]; exact this.2
    · rw [if_neg ha]
      exact ⟨h.model, h.interval, h.cross, h.mutation, rfl, l1, l2, l3⟩

theorem fine_std {B : Nat} (hB : B < 2 ^ 64)
    (hb : ∀ x, Pr x → Evaluated M x → isValid x = true → (fitness x).isFinite = true ∧ |(fitness x).val| < pow2 1023)
    {pop : Population I} (h : FinePop M Pr B pop) : F64.zero.le pop.stats.std = true := by
  have hw := h.good.wf
  obtain ⟨mn, av, mx, vr, sd, -, -, -, -, e, -, -, -, h0⟩ := C06_f64_bounds (pop.individuals.map fitness)
    (by simpa using hw.ne) (fun y hy => by
      obtain ⟨x, hx, rfl⟩ := List.mem_map.1 hy
      exact hb x (h.prop x hx) (h.evaluated x hx) (h.good.valid x hx)) (by rw [List.length_map]; exact h.len.trans_lt hB)
  have : pop.stats.std = sd := by
    rw [hw.stats]
    have hc : (Stats.collect (pop.individuals.map fitness)).count ≠ 0 := by
      rw [Stats.collect_count, List.length_map]
      exact (List.length_pos_of_ne_nil hw.ne).ne'
    have hs : (Stats.collect (pop.individuals.map fitness)).snapshot = some ⟨Stats.collect (pop.individuals.map fitness)⟩ := by
      unfold Stats.snapshot; rw [if_pos hc]
    have := ((C07_snapshot (Stats.collect (pop.individuals.map fitness))).2.2 _ hs).2.2.2.2.2.2.2
    rw [e] at this
    exact (Option.some.inj this).symm
  rw [this]; exact h0

theorem aga_steady (h : AgaRun M Pr envs a p init) {B : Nat} (hB : B < 2 ^ 64) :
    Steady (aga M) (FinePop M Pr B) (AgaOk p a.model) a.model p.selectionStrategy p.mutationRateRange.start.val
      (lowSkip p.crossoverRateRange) where
  breeds env b pop b' hb hb' := by
    obtain ⟨e1, e2, e3, e4, e5, e6, e7, e8⟩ := hb.adjusted h.valid h.crossOrder h.mutOrder
    obtain ⟨sel, o4, o5⟩ := hb.selector
    have hb' : (Aga.prepare M env b pop).yields (.ok b') := hb'
    rw [agaPrepare_eq h.ops, yields_pure] at hb'
    cases hb'
    refine ⟨e1, e7, e8, sel, o4, ?_⟩
    show DynSel.prepare env M.selectors pop _ = _
    rw [e5, o5]; rfl
  next env b pop b' pop' hb _ hb' hg hf := by
    obtain ⟨e1, e2, e3, e4, e5, e6, e7, e8⟩ := hb.adjusted h.valid h.crossOrder h.mutOrder
    obtain ⟨sel, o4, o5⟩ := hb.selector
    have hb' : (Aga.prepare M env b pop).yields (.ok b') := hb'
    rw [agaPrepare_eq h.ops, yields_pure] at hb'
    cases hb'
    refine ⟨e1, e2, e3, e4, ⟨_, o4.prepare env pop, ?_⟩, ?_, fun h0 => by omega, fun _ => ⟨e6, e7, e8⟩⟩
    · show DynSel.prepare env M.selectors pop _ = _
      rw [e5, o5]; rfl
    · rcases h.spread with h0 | ⟨hb, -⟩
      · exact Or.inl h0
      · exact Or.inr (fine_std hB hb hf)

/-- The state at the first call of `progress`, with or without a first level. -/
theorem AgaRun.begin (h : AgaRun M Pr envs a p init) (lo : F64) :
    ∃ a', (aga M).configure a p = .ok a' ∧ Always (fun pop => ∀ q : Q,
      ClimbState M (aga M) Aga.eliteSize Aga.populationSize Pr (max p.populationSize init.length) (AgaOk p a.model)
        ({ algo := a', population := pop, buffer := [], q, shown := [] } : RunState I (Aga Mo U) Q) ∧
      ((∃ x ∈ init, Always (fun e => isValid e = true ∧ lo.le (fitness e) = true) (M.evaluate a.model x)) → Reached lo pop) ∧
      a'.eliteSize = eliteCount p.populationSize p.elitismRate ∧ a'.populationSize = p.populationSize)
      ((aga M).initPopulation (envs 0) a' init) := by
  obtain ⟨a', hc, hsel⟩ := (aga_safe h.ops).configure a p ⟨h.valid, h.strategy, h.linear⟩
  obtain ⟨hm, s1, s2, s3⟩ := (aga_standard M).configure _ _ _ hc (h.size.le.trans (by norm_num))
  have s1 : a'.populationSize = p.populationSize := s1
  have hmod : a'.model = a.model := hm
  have htwo := h.two
  have hsz := h.size
  have hln := h.len
  have hcfg : ∃ sel, p.selectionStrategy.createSelector = .ok sel ∧ a'.breeding.parentSelector = .builtin sel ∧
      a'.adjustmentInterval = p.adjustmentInterval ∧ a'.crossoverRateRange = p.crossoverRateRange ∧
      a'.mutationRateRange = p.mutationRateRange := by
    have hc : Aga.configure a p = .ok a' := hc
    obtain ⟨sel, hcs, _⟩ := (createSelector_spec _).1 h.strategy
    obtain ⟨k, hk⟩ : ∃ k, interpolateUsize 0 p.populationSize p.elitismRate = .ok k := by
      unfold interpolateUsize usizeSub; rw [if_pos (Nat.zero_le _)]; exact ⟨_, rfl⟩
    unfold Aga.configure at hc
    rw [(C50_aga p).1 h.valid, hk, hcs] at hc
    cases hc
    exact ⟨sel, hcs, rfl, rfl, rfl, rfl⟩
  obtain ⟨sel, c1, c2, c3, c4, c5⟩ := hcfg
  refine ⟨a', hc, ?_⟩
  have hst : ∃ x ∈ init, Always (fun e => isValid e = true) (M.evaluate a'.model x) := by rw [hmod]; exact h.start
  show Always _ (defaultInitialize M (envs 0) a'.model init)
  refine ((init_always h.ops (envs 0) (h.env 0) a'.model init h.prop hst).and (Q := fun pop => GoodPop pop ∧ pop.generation = 0 ∧
    (∀ x ∈ pop.individuals, Evaluated M x) ∧ pop.individuals.length ≤ init.length ∧
    ((∃ x ∈ init, Always (fun e => isValid e = true ∧ lo.le (fitness e) = true) (M.evaluate a.model x)) → Reached lo pop) ∧
    (p.adjustmentInterval = 0 ∨ GoodSpread pop.stats.std)) ?_).mono ?_
  · intro pop hpop
    obtain ⟨-, w0, -, hl, -, hg⟩ := init_wf (h.env 0) hpop
    have hspread : p.adjustmentInterval = 0 ∨ GoodSpread pop.stats.std := by
      rcases h.spread with h0 | ⟨-, hs⟩
      · exact Or.inl h0
      · exact Or.inr (hs pop (by rw [hmod] at hpop; exact hpop))
    unfold defaultInitialize at hpop
    rw [yields_bind_ok] at hpop
    obtain ⟨ev, e1, e2⟩ := hpop
    have e2 := (yields_lift _ _).1 e2
    obtain ⟨-, -, e3, -⟩ := Population.wf_new (h.env 0).sort e2.symm
    have hfa := (yields_mapList _ _ _).1 e1
    refine ⟨hg h.notNaN, w0, fun x hx => ?_, hl, fun hlo => ?_, hspread⟩
    · rw [e3] at hx
      have hx := (List.mem_filter.1 (mem_dedup_sort (h.env 0).sort hx)).1
      obtain ⟨u, -, hu⟩ := forall₂_mem_right hfa x hx
      exact ⟨_, u, hu⟩
    · obtain ⟨x, hx, hxb⟩ := hlo
      obtain ⟨e, he, hxe⟩ := forall₂_mem_left hfa x hx
      rw [hmod] at hxe
      obtain ⟨hv, ht⟩ := hxb.partially e hxe
      exact reached_dedup_sort h.eqFitness (h.env 0) e3 (List.mem_filter.2 ⟨he, hv⟩) ht
  · rintro pop ⟨⟨w, l, hP⟩, hg, hgen, hev, hlen, hre, hspread⟩ q
    have hfine : FinePop M Pr (max p.populationSize init.length) pop := ⟨hg, hP, hev, hlen.trans (le_max_right _ _)⟩
    refine ⟨⟨⟨w, l.trans_lt h.len, hP, hsel, by show 2 ≤ a'.populationSize; omega,
      by show a'.populationSize < _; rw [s1]; exact h.size, by show a'.eliteSize ≤ a'.populationSize; rw [s1, s2]; exact s3.le,
      by simp⟩, hfine, ⟨hmod, c3, c4, c5, ⟨sel, ⟨sel, c1, [], rfl⟩, c2⟩, ?_, fun _ => hspread, fun h0 => absurd hgen h0⟩, ?_⟩, hre, s2, s1⟩
    · rcases h.spread with h0 | ⟨hb, -⟩
      · exact Or.inl h0
      · exact Or.inr (fine_std (by omega) hb hfine)
    · show a'.populationSize ≤ _
      rw [s1]; exact le_max_left _ _

end
end RG.Props
