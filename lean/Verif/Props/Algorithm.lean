import Verif.Proofs.Algorithm
import Verif.SpecAlgorithm
import Verif.Props.Model
import Verif.Props.Interpolate

/-!
# Properties C50–C52, C57, C58, C62: the genetic algorithm and the adaptive genetic algorithm
-/

set_option linter.unusedSectionVars false

namespace RG.Props
open RG RG.Prog
variable {I : Type} [Individual I] {Mo U A P Q : Type}

/-! ### C50 -/

/-- **C50** `GeneticAlgorithmParameters::validate` panics exactly when a parameter is out of range (NaN is). -/
theorem C50_ga (p : GaParams) : (p.Valid → p.validate = .ok ()) ∧ (¬ p.Valid → p.validate = .panic) := by
  classical
  have e : p.validate = if p.Valid then .ok () else .panic := by
    unfold GaParams.validate
    simp only [assert_bind]
    have h4 : Res.assert (inClosedUnit p.mutationRate) = if inClosedUnit p.mutationRate then .ok () else .panic := rfl
    rw [h4]
    simp only [inHalfOpenUnit_iff, inClosedUnit_iff, decide_eq_true_eq]
    unfold GaParams.Valid F64.InHalfOpenUnit F64.InClosedUnit
    repeat' split
    all_goals simp_all
  rw [e]
  exact ⟨fun h => if_pos h, fun h => if_neg h⟩

/-- **C50** `AdaptiveGeneticAlgorithmParameters::validate` panics exactly when a parameter is out of range. -/
theorem C50_aga (p : AgaParams) : (p.Valid → p.validate = .ok ()) ∧ (¬ p.Valid → p.validate = .panic) := by
  classical
  have e : p.validate = if p.Valid then .ok () else .panic := by
    unfold AgaParams.validate
    simp only [assert_bind]
    have h4 : Res.assert (inClosedUnit p.mutationRateRange.stop) =
      if inClosedUnit p.mutationRateRange.stop then .ok () else .panic := rfl
    rw [h4]
    simp only [inHalfOpenUnit_iff, inClosedUnit_iff, decide_eq_true_eq]
    unfold AgaParams.Valid F64.InHalfOpenUnit F64.InClosedUnit
    repeat' split
    all_goals simp_all
  rw [e]
  exact ⟨fun h => if_pos h, fun h => if_neg h⟩

/-- The strategies whose constructor panics. -/
theorem createSelector_spec (s : SelectionStrategy) :
    (s.Valid → ∃ sel, s.createSelector = .ok sel ∧ sel.InRange) ∧ (¬ s.Valid → s.createSelector = .panic) := by
  cases s with
  | tournament size =>
    constructor
    · intro h
      refine ⟨.tournament ⟨size⟩, ?_, h⟩
      simp only [SelectionStrategy.createSelector, (C46_tournament ⟨0⟩ size).1]
      rw [if_neg h]; rfl
    · intro h
      have h : size = 0 := by simpa [SelectionStrategy.Valid] using h
      subst h; rfl
  | rouletteWheel => exact ⟨fun _ => ⟨_, rfl, trivial⟩, fun h => absurd trivial h⟩
  | rank => exact ⟨fun _ => ⟨_, rfl, trivial⟩, fun h => absurd trivial h⟩
  | linear b => exact ⟨fun _ => ⟨_, rfl, trivial⟩, fun h => absurd trivial h⟩
  | boltzmann t c =>
    have hb := (C46_boltzmann ⟨t, c, c⟩ t c).1
    constructor
    · intro h
      refine ⟨.boltzmann ⟨t, c, F64.zero⟩, ?_, ?_⟩
      · simp only [SelectionStrategy.createSelector]
        rw [hb, if_neg (by rintro (h' | h'); exacts [h.1 h', h.2 h'])]; rfl
      · show c.feq F64.zero = false
        cases hc : c.feq F64.zero
        · rfl
        · rcases (feq_zero_iff c).1 hc with h' | h'
          · exact absurd h' h.1
          · exact absurd h' h.2
    · intro h
      simp only [SelectionStrategy.createSelector]
      rw [hb, if_pos ?_]
      · rfl
      · by_contra hc
        exact h ⟨fun e => hc (Or.inl e), fun e => hc (Or.inr e)⟩
  | elitist r =>
    constructor
    · intro h
      refine ⟨.elitist ⟨r⟩, ?_, h⟩
      simp only [SelectionStrategy.createSelector, ElitistSelection.new]
      rw [inHalfOpenUnit_iff.2 h]; rfl
    · intro h
      simp only [SelectionStrategy.createSelector, ElitistSelection.new]
      have : inHalfOpenUnit r = false := by
        by_contra hc
        exact h (inHalfOpenUnit_iff.1 (by simpa using hc))
      rw [this]; rfl

/-- **C50** `configure` panics exactly when the parameters or the selection strategy are out of range (genetic
algorithm); it never diverges. -/
theorem C50_ga_configure (a : Ga Mo U) (p : GaParams) :
    (p.Valid ∧ p.selectionStrategy.Valid → ∃ a', a.configure p = .ok a') ∧
    (¬ (p.Valid ∧ p.selectionStrategy.Valid) → a.configure p = .panic) := by
  have hi : ∃ k, interpolateUsize 0 p.populationSize p.elitismRate = .ok k := by
    unfold interpolateUsize usizeSub; rw [if_pos (Nat.zero_le _)]; exact ⟨_, rfl⟩
  obtain ⟨k, hk⟩ := hi
  obtain ⟨s1, s2⟩ := createSelector_spec p.selectionStrategy
  constructor
  · rintro ⟨hv, hs⟩
    obtain ⟨sel, hsel, _⟩ := s1 hs
    unfold Ga.configure
    rw [(C50_ga p).1 hv, hk, hsel]
    exact ⟨_, rfl⟩
  · intro h
    unfold Ga.configure
    by_cases hv : p.Valid
    · rw [(C50_ga p).1 hv, hk, s2 fun hs => h ⟨hv, hs⟩]; rfl
    · rw [(C50_ga p).2 hv]; rfl

/-- **C50** The same for the adaptive genetic algorithm. -/
theorem C50_aga_configure (a : Aga Mo U) (p : AgaParams) :
    (p.Valid ∧ p.selectionStrategy.Valid → ∃ a', a.configure p = .ok a') ∧
    (¬ (p.Valid ∧ p.selectionStrategy.Valid) → a.configure p = .panic) := by
  have hi : ∃ k, interpolateUsize 0 p.populationSize p.elitismRate = .ok k := by
    unfold interpolateUsize usizeSub; rw [if_pos (Nat.zero_le _)]; exact ⟨_, rfl⟩
  obtain ⟨k, hk⟩ := hi
  obtain ⟨s1, s2⟩ := createSelector_spec p.selectionStrategy
  constructor
  · rintro ⟨hv, hs⟩
    obtain ⟨sel, hsel, _⟩ := s1 hs
    unfold Aga.configure
    rw [(C50_aga p).1 hv, hk, hsel]
    exact ⟨_, rfl⟩
  · intro h
    unfold Aga.configure
    by_cases hv : p.Valid
    · rw [(C50_aga p).1 hv, hk, s2 fun hs => h ⟨hv, hs⟩]; rfl
    · rw [(C50_aga p).2 hv]; rfl

/-- **C50** Every run with out-of-range parameters panics before it looks at the initial population. -/
theorem C50_run (M : EvoModel I Mo U) (envs : Nat → Env I) (progress : Q → Population I → Prog (Bool × Q)) (fuel : Nat)
    (init : List I) (q : Q) :
    (∀ (a : Ga Mo U) (p : GaParams), ¬ (p.Valid ∧ p.selectionStrategy.Valid) →
      evolvePopulation (ga M) envs progress fuel a init p q = Prog.done .panic) ∧
    (∀ (a : Aga Mo U) (p : AgaParams), ¬ (p.Valid ∧ p.selectionStrategy.Valid) →
      evolvePopulation (aga M) envs progress fuel a init p q = Prog.done .panic) := by
  constructor
  · intro a p h
    unfold evolvePopulation
    rw [show (ga M).configure a p = .panic from (C50_ga_configure a p).2 h]; rfl
  · intro a p h
    unfold evolvePopulation
    rw [show (aga M).configure a p = .panic from (C50_aga_configure a p).2 h]; rfl

/-- **C50** The defaults pass. -/
theorem C50_defaults : GaParams.default.Valid ∧ GaParams.default.selectionStrategy.Valid ∧ AgaParams.default.Valid ∧
    AgaParams.default.selectionStrategy.Valid := by
  refine ⟨?_, trivial, ?_, trivial⟩
  · unfold GaParams.Valid F64.InHalfOpenUnit F64.InClosedUnit
    decide +kernel
  · unfold AgaParams.Valid F64.InHalfOpenUnit F64.InClosedUnit
    decide +kernel

-- the checks do not compare the ends of a range: crossover rates 0.9..0.2 are accepted
example : ({ AgaParams.default with crossoverRateRange := ⟨F64.lit (9 / 10), F64.lit (2 / 10)⟩ } : AgaParams).Valid := by
  unfold AgaParams.Valid F64.InHalfOpenUnit F64.InClosedUnit
  decide +kernel

-- and a NaN rate is rejected
example : ({ GaParams.default with mutationRate := F64.nan } : GaParams).validate = .panic := by decide +kernel

/-! ### C51 -/

/-- **C51** After `configure` the elite count is the truncated `f64` product, less than the population size, and all other
settings are those of the parameters (genetic algorithm). -/
theorem C51_ga_configure (a a' : Ga Mo U) (p : GaParams) (hn : p.populationSize ≤ 2 ^ 53) (h : a.configure p = .ok a') :
    a'.eliteSize = ⌊rndQ (p.populationSize * p.elitismRate.val)⌋.toNat ∧ a'.eliteSize < a'.populationSize ∧
    a'.populationSize = p.populationSize ∧ a'.model = a.model ∧ a'.breeding.crossoverRate = p.crossoverRate ∧
    a'.breeding.mutationRate = p.mutationRate ∧
    ∃ sel, p.selectionStrategy.createSelector = .ok sel ∧ a'.breeding.parentSelector = .builtin sel := by
  by_cases hv : p.Valid ∧ p.selectionStrategy.Valid
  · obtain ⟨hv, hs⟩ := hv
    obtain ⟨sel, hsel, _⟩ := (createSelector_spec _).1 hs
    obtain ⟨h1, h2⟩ := elite_eq hn (inHalfOpenUnit_iff.2 hv.2.1)
    unfold Ga.configure at h
    rw [(C50_ga p).1 hv, h1, hsel] at h
    cases h
    exact ⟨rfl, h2 (Nat.pos_of_ne_zero hv.1), rfl, rfl, rfl, rfl, sel, hsel, rfl⟩
  · rw [(C50_ga_configure a p).2 hv] at h; cases h

/-- **C51** The same for the adaptive genetic algorithm; its rates keep their values. -/
theorem C51_aga_configure (a a' : Aga Mo U) (p : AgaParams) (hn : p.populationSize ≤ 2 ^ 53) (h : a.configure p = .ok a') :
    a'.eliteSize = ⌊rndQ (p.populationSize * p.elitismRate.val)⌋.toNat ∧ a'.eliteSize < a'.populationSize ∧
    a'.populationSize = p.populationSize ∧ a'.model = a.model ∧ a'.adjustmentInterval = p.adjustmentInterval ∧
    a'.crossoverRateRange = p.crossoverRateRange ∧ a'.mutationRateRange = p.mutationRateRange ∧
    a'.breeding.crossoverRate = a.breeding.crossoverRate ∧ a'.breeding.mutationRate = a.breeding.mutationRate ∧
    a'.referenceStd = a.referenceStd ∧
    ∃ sel, p.selectionStrategy.createSelector = .ok sel ∧ a'.breeding.parentSelector = .builtin sel := by
  by_cases hv : p.Valid ∧ p.selectionStrategy.Valid
  · obtain ⟨hv, hs⟩ := hv
    obtain ⟨sel, hsel, _⟩ := (createSelector_spec _).1 hs
    obtain ⟨h1, h2⟩ := elite_eq hn (inHalfOpenUnit_iff.2 hv.2.1)
    unfold Aga.configure at h
    rw [(C50_aga p).1 hv, h1, hsel] at h
    cases h
    exact ⟨rfl, h2 (Nat.pos_of_ne_zero hv.1), rfl, rfl, rfl, rfl, rfl, rfl, rfl, rfl, sel, hsel, rfl⟩
  · rw [(C50_aga_configure a p).2 hv] at h; cases h

/-- **C51** `select_elites` of both algorithms appends the last `min(elite count, length)` individuals in order; in a
population in ascending order none of those left out is fitter than one taken. -/
theorem C51_elites (M : EvoModel I Mo U) (p : Population I) (elites : List I)
    (hsorted : p.individuals.Pairwise fun a b => (fitness a).le (fitness b) = true) :
    (∀ a : Ga Mo U, ∃ left taken, p.individuals = left ++ taken ∧ taken.length = min a.eliteSize p.individuals.length ∧
      (ga M).selectElites a p elites = .ok (elites ++ taken) ∧
      ∀ x ∈ left, ∀ y ∈ taken, (fitness x).le (fitness y) = true) ∧
    (∀ a : Aga Mo U, ∃ left taken, p.individuals = left ++ taken ∧ taken.length = min a.eliteSize p.individuals.length ∧
      (aga M).selectElites a p elites = .ok (elites ++ taken) ∧
      ∀ x ∈ left, ∀ y ∈ taken, (fitness x).le (fitness y) = true) := by
  have key : ∀ e : Nat, ∃ left taken, p.individuals = left ++ taken ∧ taken.length = min e p.individuals.length ∧
      takeElites e p elites = elites ++ taken ∧ ∀ x ∈ left, ∀ y ∈ taken, (fitness x).le (fitness y) = true := by
    intro e
    refine ⟨p.individuals.take (p.len - e), p.individuals.drop (p.len - e), (List.take_append_drop _ _).symm, ?_, ?_, ?_⟩
    · rw [List.length_drop]
      show p.individuals.length - (p.individuals.length - e) = _
      omega
    · unfold takeElites
      by_cases h : e = 0
      · subst h
        simp [Population.len]
      · rw [if_pos h]
    · have := hsorted
      rw [← List.take_append_drop (p.len - e) p.individuals, List.pairwise_append] at this
      exact fun x hx y hy => this.2.2 x hx y hy
  constructor
  · intro a
    obtain ⟨l, t, h1, h2, h3, h4⟩ := key a.eliteSize
    exact ⟨l, t, h1, h2, congrArg Res.ok h3, h4⟩
  · intro a
    obtain ⟨l, t, h1, h2, h3, h4⟩ := key a.eliteSize
    exact ⟨l, t, h1, h2, congrArg Res.ok h3, h4⟩

-- 100 * 0.01 gives one elite, 100 * 0.29 gives 28
example : interpolateUsize 0 100 (F64.lit (1 / 100)) = .ok 1 ∧ interpolateUsize 0 100 (F64.lit (29 / 100)) = .ok 28 := by
  decide +kernel
example : takeElites 2 numPop [] = [num 2, num 5] := by decide +kernel
example : numPop.individuals.Pairwise fun a b => (fitness a).le (fitness b) = true := by decide +kernel

/-! ### C52 -/

/-- **C52** What `generate_new_population` leaves in the offspring vector: it is filled up to the configured size with bred
individuals, *except* when exactly one is missing: then one individual is bred and dropped. -/
theorem C52_generate (M : EvoModel I Mo U) (env : NumEnv) (model : Mo) (r : ReproParams U) (n : Nat) (p : Population I)
    (l l' : List I) :
    (defaultGenerate M env model (r, n) p l).yields (.ok l') ↔
      (n ≤ l.length ∧ l' = l) ∨
      (n = l.length + 1 ∧ l' = l ∧ ∃ c, (M.breed env model p r).yields (.ok c)) ∨
      (l.length + 2 ≤ n ∧ ∃ new, l' = l ++ new ∧ l'.length = n ∧ ∀ c ∈ new, (M.breed env model p r).yields (.ok c)) := by
  unfold defaultGenerate
  simp only
  rcases h : n - l.length with _ | _ | k
  · simp only [yields_pure, Res.ok.injEq]
    constructor
    · rintro rfl; exact Or.inl ⟨by omega, rfl⟩
    · rintro (⟨_, h⟩ | ⟨h, _⟩ | ⟨h, _⟩)
      · exact h
      · omega
      · omega
  · simp only [yields_bind_ok, yields_pure, Res.ok.injEq]
    constructor
    · rintro ⟨c, hc, rfl⟩; exact Or.inr (Or.inl ⟨by omega, rfl, c, hc⟩)
    · rintro (⟨h, _⟩ | ⟨_, rfl, c, hc⟩ | ⟨h, _⟩)
      · omega
      · exact ⟨c, hc, rfl⟩
      · omega
  · simp only [yields_bind_ok, yields_replicate, yields_pure, Res.ok.injEq]
    constructor
    · rintro ⟨new, ⟨h1, h2⟩, rfl⟩
      exact Or.inr (Or.inr ⟨by omega, new, rfl, by rw [List.length_append]; omega, h2⟩)
    · rintro (⟨h, _⟩ | ⟨h, _⟩ | ⟨_, new, rfl, h1, h2⟩)
      · omega
      · omega
      · exact ⟨new, ⟨by rw [List.length_append] at h1; omega, h2⟩, rfl⟩

/-- **C52** (partial: the intended property) The new generation has the configured size if not exactly one individual is
missing (and there are not too many elites). -/
theorem C52_size_partial (M : EvoModel I Mo U) (env : NumEnv) (model : Mo) (r : ReproParams U) (n : Nat) (p : Population I)
    (l l' : List I) (h1 : l.length ≤ n) (h2 : n ≠ l.length + 1)
    (h : (defaultGenerate M env model (r, n) p l).yields (.ok l')) : l'.length = n := by
  rcases (C52_generate M env model r n p l l').1 h with ⟨h, rfl⟩ | ⟨h, _⟩ | ⟨_, _, _, h, _⟩
  · omega
  · omega
  · exact h

/-- **C52** (the intended property is false) When exactly one individual is missing the new generation is one short. -/
theorem C52_size_counterexample (M : EvoModel I Mo U) (env : NumEnv) (model : Mo) (r : ReproParams U) (p : Population I)
    (l l' : List I) (h : (defaultGenerate M env model (r, l.length + 1) p l).yields (.ok l')) :
    l' = l ∧ l'.length ≠ l.length + 1 := by
  rcases (C52_generate M env model r _ p l l').1 h with ⟨h, _⟩ | ⟨_, rfl, _⟩ | ⟨h, _⟩
  · omega
  · exact ⟨rfl, by omega⟩
  · omega

/-- The model with the default `breed`, `extend_population` and `extend_population_with` and the example operators. -/
def numModel : EvoModel Num Unit Empty := { numOps with }

-- such a run of `generate_new_population` exists: two elites, size three
example : (defaultGenerate numModel exEnv () (numParams, 3) numPop [num 2, num 5]).yields (.ok [num 2, num 5]) := by
  refine (C52_generate _ _ _ _ _ _ _ _).2 (Or.inr (Or.inl ⟨rfl, rfl, num 12, ?_⟩))
  have hx := exec_yields (fun (s : List Nat) n => (min (s.headD 0) n, s.tail)) (fun s n => Nat.min_le_right _ _)
      (defaultBreed numOps exEnv () numPop numParams) [0, 0, 0, 2, 0, 0]
  rwa [show ((defaultBreed numOps exEnv () numPop numParams).exec
      (fun (s : List Nat) n => (min (s.headD 0) n, s.tail)) [0, 0, 0, 2, 0, 0]).1 = .ok (num 12) by decide +kernel] at hx

/-! ### C57 -/

/-- **C57** At generation 0 the crossover rate is the upper end and the mutation rate the lower end of its range; the spread
of this generation becomes the reference. -/
theorem C57_first (a : Aga Mo U) (std : F64) :
    (a.adjust 0 std).breeding.crossoverRate = a.crossoverRateRange.stop ∧
    (a.adjust 0 std).breeding.mutationRate = a.mutationRateRange.start ∧ (a.adjust 0 std).referenceStd = std :=
  ⟨rfl, rfl, rfl⟩

/-- **C57** At a later generation that is a multiple of a non-zero interval the rates are `start + (end - start) * d` and
`start + (end - start) * (1 - d)`, where `d` is `std / reference` clamped to `[0,1]`, and nothing else changes. At all other
generations nothing changes at all. -/
theorem C57_later (a : Aga Mo U) (g : Nat) (hg : g ≠ 0) (std : F64) :
    (a.adjustmentInterval ≠ 0 ∧ a.adjustmentInterval ∣ g →
      ∃ d : F64, ((std.div a.referenceStd).lt F64.zero = true → d = F64.zero) ∧
        (F64.one.lt (std.div a.referenceStd) = true → d = F64.one) ∧
        ((std.div a.referenceStd).lt F64.zero = false → F64.one.lt (std.div a.referenceStd) = false →
          d = std.div a.referenceStd) ∧
        a.adjust g std = { a with breeding := { a.breeding with
          crossoverRate := a.crossoverRateRange.start.add
            ((a.crossoverRateRange.stop.sub a.crossoverRateRange.start).mul d)
          mutationRate := a.mutationRateRange.start.add
            ((a.mutationRateRange.stop.sub a.mutationRateRange.start).mul (F64.one.sub d)) } }) ∧
    (¬ (a.adjustmentInterval ≠ 0 ∧ a.adjustmentInterval ∣ g) → a.adjust g std = a) := by
  constructor
  · rintro ⟨h1, h2⟩
    have ho : (Arith.lit 1 : F64) = F64.one := by decide +kernel
    obtain ⟨c1, c2, c3⟩ := clampA_cases (std.div a.referenceStd)
    refine ⟨diversity std a.referenceStd, c1, c2, c3, ?_⟩
    unfold Aga.adjust
    rw [if_neg hg, if_pos ⟨h1, Nat.mod_eq_zero_of_dvd h2⟩]
    unfold adjustedRates
    rw [ho]
    rfl
  · intro h
    unfold Aga.adjust
    rw [if_neg hg, if_neg]
    rwa [Nat.dvd_iff_mod_eq_zero] at h

/-- **C57** Exact arithmetic, any field: with ordered ranges the rates stay in their ranges; more spread gives at least the
crossover rate and at most the mutation rate; no spread gives the lower crossover and the upper mutation rate, and at least
the reference spread the upper crossover and the lower mutation rate. -/
theorem C57_exact {K : Type} [Field K] [LinearOrder K] [IsStrictOrderedRing K] (cr mr : FRange K) (s s' ref : K)
    (hc : cr.start ≤ cr.stop) (hm : mr.start ≤ mr.stop) (href : 0 < ref) :
    (cr.start ≤ (adjustedRates cr mr s ref).1 ∧ (adjustedRates cr mr s ref).1 ≤ cr.stop) ∧
    (mr.start ≤ (adjustedRates cr mr s ref).2 ∧ (adjustedRates cr mr s ref).2 ≤ mr.stop) ∧
    (s ≤ s' → (adjustedRates cr mr s ref).1 ≤ (adjustedRates cr mr s' ref).1 ∧
      (adjustedRates cr mr s' ref).2 ≤ (adjustedRates cr mr s ref).2) ∧
    (s ≤ 0 → adjustedRates cr mr s ref = (cr.start, mr.stop)) ∧
    (ref ≤ s → adjustedRates cr mr s ref = (cr.stop, mr.start)) ∧
    (0 ≤ s → s ≤ ref → adjustedRates cr mr s ref =
      (cr.start + (cr.stop - cr.start) * (s / ref), mr.start + (mr.stop - mr.start) * (1 - s / ref))) := by
  have hd : ∀ t : K, diversity t ref = min 1 (max 0 (t / ref)) := fun t => diversity_exact t ref
  have e : ∀ t : K, adjustedRates cr mr t ref = (cr.start + (cr.stop - cr.start) * min 1 (max 0 (t / ref)),
      mr.start + (mr.stop - mr.start) * (1 - min 1 (max 0 (t / ref)))) := fun t => by
    rw [← hd t]; exact adjustedRates_exact cr mr t ref
  have h0 : ∀ t : K, 0 ≤ min 1 (max 0 (t / ref)) := fun t => le_min zero_le_one (le_max_left _ _)
  have h1 : ∀ t : K, min 1 (max 0 (t / ref)) ≤ 1 := fun t => min_le_left _ _
  have hc' : 0 ≤ cr.stop - cr.start := sub_nonneg.2 hc
  have hm' : 0 ≤ mr.stop - mr.start := sub_nonneg.2 hm
  simp only [e]
  refine ⟨⟨?_, ?_⟩, ⟨?_, ?_⟩, fun h => ⟨?_, ?_⟩, fun h => ?_, fun h => ?_, fun h h' => ?_⟩
  · nlinarith [mul_nonneg hc' (h0 s)]
  · nlinarith [mul_le_mul_of_nonneg_left (h1 s) hc']
  · nlinarith [mul_nonneg hm' (sub_nonneg.2 (h1 s))]
  · nlinarith [mul_nonneg hm' (h0 s)]
  · have hmono : min 1 (max 0 (s / ref)) ≤ min 1 (max 0 (s' / ref)) :=
      min_le_min_left _ (max_le_max_left _ (div_le_div_of_nonneg_right h href.le))
    have := mul_le_mul_of_nonneg_left hmono hc'
    linarith
  · have hmono : min 1 (max 0 (s / ref)) ≤ min 1 (max 0 (s' / ref)) :=
      min_le_min_left _ (max_le_max_left _ (div_le_div_of_nonneg_right h href.le))
    have := mul_le_mul_of_nonneg_left hmono hm'
    linarith
  · rw [max_eq_left (div_nonpos_of_nonpos_of_nonneg h href.le), min_eq_right zero_le_one]
    exact Prod.ext (by ring) (by ring)
  · have : 1 ≤ s / ref := (one_le_div href).2 h
    rw [max_eq_right (zero_le_one.trans this), min_eq_left this]
    exact Prod.ext (by ring) (by ring)
  · rw [max_eq_right (div_nonneg h href.le), min_eq_right ((div_le_one href).2 h')]

/-- **C57** In `f64`: if the range ends are in `[0,1]` and `std / reference` is not NaN, both rates are in `[0,1]`. -/
theorem C57_f64 (cr mr : FRange F64) (std ref : F64)
    (hc : cr.start.InClosedUnit ∧ cr.stop.InClosedUnit) (hm : mr.start.InClosedUnit ∧ mr.stop.InClosedUnit)
    (hn : (std.div ref).isNaN = false) :
    (adjustedRates cr mr std ref).1.InClosedUnit ∧ (adjustedRates cr mr std ref).2.InClosedUnit := by
  have ho : (Arith.lit 1 : F64) = F64.one := by decide +kernel
  have hd := clampA_unit hn
  have hd' := one_sub_unit hd.1 hd.2
  constructor
  · exact F64.unit_interval.1 (C18_f64 _ _ _ (F64.unit_interval.2 hc.1) (F64.unit_interval.2 hc.2) hd)
  · refine F64.unit_interval.1 (C18_f64 _ _ _ (F64.unit_interval.2 hm.1) (F64.unit_interval.2 hm.2) ?_)
    rw [ho]; exact hd'

/-- **C57** What `prepare_for_next_population` hands to `pre_generation`; with the default `pre_generation`, which does
nothing, these are the rates used for breeding. -/
theorem C57_prepare (M : EvoModel I Mo U) (env : NumEnv) (a a' : Aga Mo U) (p : Population I) :
    ((Aga.prepare M env a p).yields (.ok a') ↔
      ∃ m b, (M.preGeneration a.model p (a.adjust p.generation p.stats.std).breeding).yields (.ok (m, b)) ∧
        a' = { a.adjust p.generation p.stats.std with
          model := m, breeding := { b with parentSelector := b.parentSelector.prepare env M.selectors p } }) ∧
    ((∀ m p b, M.preGeneration m p b = pure (m, b)) → (Aga.prepare M env a p).yields (.ok a') →
      a'.breeding.crossoverRate = (a.adjust p.generation p.stats.std).breeding.crossoverRate ∧
      a'.breeding.mutationRate = (a.adjust p.generation p.stats.std).breeding.mutationRate ∧
      a'.referenceStd = (a.adjust p.generation p.stats.std).referenceStd) := by
  have hm : (a.adjust p.generation p.stats.std).model = a.model := by
    unfold Aga.adjust; split
    · rfl
    · split <;> rfl
  have key : (Aga.prepare M env a p).yields (.ok a') ↔
      ∃ m b, (M.preGeneration a.model p (a.adjust p.generation p.stats.std).breeding).yields (.ok (m, b)) ∧
        a' = { a.adjust p.generation p.stats.std with
          model := m, breeding := { b with parentSelector := b.parentSelector.prepare env M.selectors p } } := by
    unfold Aga.prepare
    simp only [yields_bind_ok, hm]
    constructor
    · rintro ⟨⟨m, b⟩, h1, h2⟩
      simp only [yields_pure, Res.ok.injEq] at h2
      exact ⟨m, b, h1, h2⟩
    · rintro ⟨m, b, h1, h2⟩
      exact ⟨(m, b), h1, by simp only [yields_pure, Res.ok.injEq]; exact h2⟩
  refine ⟨key, fun hp h => ?_⟩
  obtain ⟨m, b, h1, rfl⟩ := key.1 h
  rw [hp] at h1
  simp only [yields_pure, Res.ok.injEq, Prod.mk.injEq] at h1
  obtain ⟨rfl, rfl⟩ := h1
  exact ⟨rfl, rfl, rfl⟩

-- half of the reference spread gives the middle of both ranges
example : adjustedRates ⟨F64.lit (1 / 4), F64.lit (3 / 4)⟩ ⟨F64.lit 0, F64.lit (1 / 2)⟩ (F64.lit 1) (F64.lit 2) =
    (F64.lit (1 / 2), F64.lit (1 / 4)) := by decide +kernel

/-! ### C58 -/

/-- **C58** With reference spread 0 and spread 0 at an adjustment generation both rates become NaN, whatever the ranges. -/
theorem C58_nan (a : Aga Mo U) (g : Nat) (hg : g ≠ 0) (hi : a.adjustmentInterval ≠ 0 ∧ a.adjustmentInterval ∣ g)
    (href : a.referenceStd = F64.zero) :
    (a.adjust g F64.zero).breeding.crossoverRate.isNaN = true ∧
    (a.adjust g F64.zero).breeding.mutationRate.isNaN = true := by
  obtain ⟨d, -, -, h3, h4⟩ := (C57_later a g hg F64.zero).1 hi
  have hz : F64.zero.div F64.zero = F64.nan := by decide +kernel
  rw [href, hz] at h3
  have hd : d = F64.nan := h3 rfl rfl
  rw [h4, hd]
  constructor
  · show (F64.add _ (F64.mul _ F64.nan)).isNaN = true
    rw [F64.mul_nan_right, F64.add_nan_right]; rfl
  · show (F64.add _ (F64.mul _ (F64.one.sub F64.nan))).isNaN = true
    rw [show F64.one.sub F64.nan = F64.nan by decide +kernel, F64.mul_nan_right, F64.add_nan_right]; rfl

/-- **C58** With NaN rates the default `breed` calls neither `crossover` nor `mutate`. -/
theorem C58_no_operators (M : EvoOps I Mo U) (c : Mo → I → I → Prog I) (m : Mo → I → Prog I) (env : NumEnv) (model : Mo)
    (p : Population I) (r : ReproParams U) (h1 : r.crossoverRate.isNaN = true) (h2 : r.mutationRate.isNaN = true) :
    (defaultBreed ((M.withCrossover c).withMutate m) env model p r).Same (defaultBreed M env model p r) := by
  have nan_lt : ∀ x : F64, x.isNaN = true → F64.zero.lt x = false := fun x hx => by
    cases x <;> first | rfl | cases hx
  exact (C48_no_mutation (M.withCrossover c) m env model p r (nan_lt _ h2)).trans
    (C48_no_crossover M c env model p r (Or.inl (nan_lt _ h1)))

-- an algorithm in that situation
example : (({ (Aga.ofModel () : Aga Unit Empty) with
      adjustmentInterval := 5
      crossoverRateRange := ⟨F64.lit (1 / 2), F64.lit (9 / 10)⟩
      mutationRateRange := ⟨F64.lit (1 / 100), F64.lit (1 / 2)⟩ }).adjust 10 F64.zero).breeding.mutationRate = F64.nan := by
  decide +kernel

/-! ### C62 -/

/-- **C62** `initialize_population` with a lawful sort: the result comes from one outcome of evaluating every individual in
turn; it is a generation-0 population made of valid evaluated individuals, with every valid one represented (by itself or
by one that compares equal). -/
theorem C62_initialize (M : EvoModel I Mo U) (env : Env I) (henv : env.Lawful) (model : Mo) (l : List I) (p : Population I)
    (h : (defaultInitialize M env model l).yields (.ok p)) :
    ∃ ev, List.Forall₂ (fun i e => (M.evaluate model i).yields (.ok e)) l ev ∧ p.generation = 0 ∧ p.stagnation = 0 ∧
      (∃ w, w.Perm (ev.filter isValid) ∧ p.individuals.Sublist w) ∧
      (∀ x ∈ p.individuals, x ∈ ev ∧ isValid x = true) ∧
      (∀ x ∈ ev, isValid x = true → x ∈ p.individuals ∨ ∃ y ∈ p.individuals, Individual.eq x y = true) := by
  unfold defaultInitialize at h
  simp only [yields_bind_ok, yields_mapList, yields_lift] at h
  obtain ⟨ev, h1, h2⟩ := h
  have hs := henv.1
  obtain ⟨-, -, h3, h4, h5⟩ := Population.wf_new hs h2.symm
  refine ⟨ev, h1, h4, h5, ⟨_, hs.perm _, h3 ▸ dedup_sublist _⟩, fun x hx => ?_, fun x hx hv => ?_⟩
  · rw [h3] at hx
    exact List.mem_filter.1 ((hs.perm _).mem_iff.1 ((dedup_sublist _).subset hx))
  · rw [h3]
    exact dedup_covers _ x ((hs.perm _).mem_iff.2 (List.mem_filter.2 ⟨hx, hv⟩))

/-- **C62** Unless an evaluation itself fails, it panics exactly when the evaluations can come out without a valid
individual, and it returns exactly when they can come out with one; it does not diverge. -/
theorem C62_panics (M : EvoModel I Mo U) (env : Env I) (henv : env.Lawful) (model : Mo) (l : List I)
    (hev : ∀ i ∈ l, Always (fun _ => True) (M.evaluate model i)) :
    ((defaultInitialize M env model l).yields .panic ↔
      ∃ ev, List.Forall₂ (fun i e => (M.evaluate model i).yields (.ok e)) l ev ∧ ∀ x ∈ ev, isValid x = false) ∧
    ((∃ p, (defaultInitialize M env model l).yields (.ok p)) ↔
      ∃ ev, List.Forall₂ (fun i e => (M.evaluate model i).yields (.ok e)) l ev ∧ ∃ x ∈ ev, isValid x = true) ∧
    ¬ (defaultInitialize M env model l).yields .diverge := by
  have hs := henv.1
  have hok : ∀ r, (Prog.mapList (M.evaluate model) l).yields r → ∃ ev, r = .ok ev := fun r hr => by
    obtain ⟨a, h, _⟩ := always_mapList (· ∈ l) (fun _ => True) (M.evaluate model) hev l (fun _ h => h) r hr
    exact ⟨a, h⟩
  have key : ∀ r, (defaultInitialize M env model l).yields r ↔
      ∃ ev, List.Forall₂ (fun i e => (M.evaluate model i).yields (.ok e)) l ev ∧
        r = if ev.filter isValid = [] then .panic else .ok ⟨dedup (env.sort (ev.filter isValid)), 0, 0,
          ⟨Stats.collect ((dedup (env.sort (ev.filter isValid))).map fitness)⟩⟩ := by
    intro r
    unfold defaultInitialize
    simp only [← Population.new_eq hs, ← yields_mapList]
    rw [yields_bind]
    constructor
    · rintro (⟨e, h1, h2⟩ | ⟨h1, rfl⟩ | ⟨h1, rfl⟩)
      · exact ⟨e, h1, (yields_lift _ _).1 h2⟩
      · obtain ⟨_, h⟩ := hok _ h1; cases h
      · obtain ⟨_, h⟩ := hok _ h1; cases h
    · rintro ⟨ev, h1, rfl⟩
      exact Or.inl ⟨ev, h1, (yields_lift _ _).2 rfl⟩
  have hnil : ∀ ev : List I, ev.filter isValid = [] ↔ ∀ x ∈ ev, isValid x = false := fun ev => by
    simp [List.filter_eq_nil_iff]
  simp only [key]
  refine ⟨exists_congr fun ev => and_congr_right fun _ => ?_, ?_, ?_⟩
  · rw [← hnil]; split <;> simp_all
  · rw [exists_comm]
    refine exists_congr fun ev => ?_
    rw [exists_and_left]
    refine and_congr_right fun _ => ?_
    have : (∃ x ∈ ev, isValid x = true) ↔ ev.filter isValid ≠ [] := by
      rw [Ne, hnil]; push Not; simp
    rw [this]
    split <;> simp_all
  · rintro ⟨ev, _, h⟩
    split at h <;> cases h

/-- Evaluation gives negative numbers the fitness NaN, which is invalid. -/
def numSignModel : EvoModel Num Unit Empty := { numModel with
  evaluate := fun _ i => pure ⟨if i.v.lt F64.zero then F64.nan else i.v⟩ }

/-- Reference sort and sequential sums. -/
def exFullEnv : Env Num := ⟨refSort, exEnv⟩

-- of 3, -1, 2, 3 the individuals 2 and 3 remain; -1 alone makes it panic
example : ((defaultInitialize numSignModel exFullEnv () [num 3, num (-1), num 2, num 3]).exec
    (fun (s : List Nat) n => (min (s.headD 0) n, s.tail)) []).1.okAnd
      (fun p => p.individuals = [num 2, num 3] ∧ p.generation = 0) = true := by decide +kernel
example : ((defaultInitialize numSignModel exFullEnv () [num (-1)]).exec
    (fun (s : List Nat) n => (min (s.headD 0) n, s.tail)) []).1 = .panic := by decide +kernel

end RG.Props
