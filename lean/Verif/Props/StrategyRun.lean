import Verif.Props.StrategyEq
import Verif.Coupling

/-!
# C137 — Runs with equal selection strategies
-/

namespace RG.Props
open RG RG.Prog Arith
variable {I : Type} [Individual I] {Mo U A P Q : Type}

/-- Selectors that select alike: the same, or linear or elitist ones whose parameters are zeros of either sign. -/
inductive SelAlike : DynSel U → DynSel U → Prop
  | same (s : DynSel U) : SelAlike s s
  | linear {b b' : F64} : Twin b b' → SelAlike (.builtin (.linear ⟨b⟩)) (.builtin (.linear ⟨b'⟩))
  | elitist {r r' : F64} : Twin r r' → SelAlike (.builtin (.elitist ⟨r⟩)) (.builtin (.elitist ⟨r'⟩))

/-- The same rates, and selectors that select alike. -/
def ReproAlike (r r' : ReproParams U) : Prop :=
  r'.crossoverRate = r.crossoverRate ∧ r'.mutationRate = r.mutationRate ∧ SelAlike r.parentSelector r'.parentSelector

/-- The methods of the model that are given the selector use it only to select. -/
structure OnlySelects (M : EvoModel I Mo U) : Prop where
  preGeneration : ∀ m p r r', ReproAlike r r' →
    Coupled (fun x y => y.1 = x.1 ∧ ReproAlike x.2 y.2) (M.preGeneration m p r) (M.preGeneration m p r')
  breed : ∀ env m p r r', ReproAlike r r' → M.breed env m p r' = M.breed env m p r

theorem SelAlike.prepare {s s' : DynSel U} (h : SelAlike s s') (env : NumEnv) (cs : CustomSelector I U) (p : Population I) :
    SelAlike (s.prepare env cs p) (s'.prepare env cs p) := by
  cases h with
  | same => exact .same _
  | linear h => exact .linear h
  | elitist h => exact .elitist h

theorem SelAlike.select {s s' : DynSel U} (h : SelAlike s s') (env : NumEnv) (cs : CustomSelector I U) (p : Population I) :
    s'.select env cs p = s.select env cs p ∧ ∀ n x, s'.selectDistinct env cs p n x = s.selectDistinct env cs p n x := by
  have key : ∀ t t' : Selector, t'.select env p = t.select env p → (DynSel.builtin t' : DynSel U).select env cs p = (DynSel.builtin t).select env cs p ∧
      ∀ n x, (DynSel.builtin t' : DynSel U).selectDistinct env cs p n x = (DynSel.builtin t).selectDistinct env cs p n x := fun t t' e =>
    ⟨e, fun n x => congrArg (fun z => RG.selectDistinct z x n) e⟩
  cases h with
  | same => exact ⟨rfl, fun _ _ => rfl⟩
  | linear h => exact key _ _ (linear_twin h p).symm
  | elitist h => exact key _ _ (elitist_twin h p).symm

/-- The default methods only select. -/
theorem C137_default (M : EvoModel I Mo U) (hpre : ∀ m p r, M.preGeneration m p r = pure (m, r)) (hbreed : M.breed = defaultBreed M.toEvoOps) :
    OnlySelects M where
  preGeneration m p r r' h := by
    rw [hpre, hpre]
    exact coupled_pure ⟨rfl, h⟩
  breed env m p r r' h := by
    obtain ⟨h1, h2, h3⟩ := h
    obtain ⟨e1, e2⟩ := h3.select env M.selectors p
    rw [hbreed]
    unfold defaultBreed
    simp only [h1, h2, e1, e2]

/-- Results of runs that show the same: whether they have ended, the populations, the state of the closure. -/
def ShowsSame (R : A → A → Prop) (s s' : RunState I A Q) : Prop :=
  R s.algo s'.algo ∧ s'.population = s.population ∧ s'.buffer = s.buffer ∧ s'.q = s.q ∧ s'.shown = s.shown

theorem twin_loop {alg : EvoAlgo I Mo U A P} {R : A → A → Prop}
    (hprep : ∀ env a a' p, R a a' → Coupled R (alg.prepare env a p) (alg.prepare env a' p))
    (helite : ∀ a a' p l, R a a' → alg.selectElites a' p l = alg.selectElites a p l)
    (hgen : ∀ env a a' p l, R a a' → alg.generate env a' p l = alg.generate env a p l)
    (hrep : ∀ env a a' p l, R a a' → alg.replace env a' p l = alg.replace env a p l) (envs : Nat → Env I)
    (progress : Q → Population I → Prog (Bool × Q)) (fuel : Nat) : ∀ (t : Nat) (s s' : RunState I A Q), ShowsSame R s s' →
    Coupled (fun r r' => r'.1 = r.1 ∧ ShowsSame R r.2 r'.2) (evolveLoop alg envs progress fuel t s) (evolveLoop alg envs progress fuel t s') := by
  induction fuel with
  | zero => exact fun t s s' h => coupled_pure ⟨rfl, h⟩
  | succ fuel ih =>
    rintro t ⟨a, p, l, q, sh⟩ ⟨a', p', l', q', sh'⟩ ⟨hR, h1, h2, h3, h4⟩
    dsimp only at hR h1 h2 h3 h4
    subst h1 h2 h3 h4
    refine Coupled.bind_right _ fun ⟨c, q⟩ => ?_
    cases c with
    | false => exact coupled_pure ⟨rfl, hR, rfl, rfl, rfl, rfl⟩
    | true =>
      refine Coupled.bind (R := ShowsSame R) ?_ fun s s' h => ih (t + 1) s s' h
      refine Coupled.bind (hprep _ a a' _ hR) fun b b' hb => ?_
      dsimp only
      rw [helite b b' _ _ hb]
      refine Coupled.bind_right _ fun l1 => ?_
      rw [hgen _ b b' _ _ hb]
      refine Coupled.bind_right _ fun l2 => ?_
      rw [hrep _ b b' _ _ hb]
      exact Coupled.bind_right _ fun x => coupled_pure ⟨hb, rfl, rfl, rfl, rfl⟩

omit [Individual I] in
theorem twin_take {R : A → A → Prop} (r r' : Bool × RunState I A Q) (h : r'.1 = r.1 ∧ ShowsSame R r.2 r'.2) :
    Coupled (fun x x' => x'.1 = x.1 ∧ ShowsSame R x.2 x'.2) (takeResult r) (takeResult r') := by
  unfold takeResult
  rw [h.1, h.2.2.1]
  split
  · exact Coupled.bind_right _ fun x => coupled_pure ⟨rfl, h.2⟩
  · exact coupled_pure ⟨rfl, h.2⟩

/-- States of the genetic algorithm that differ at most in the signs of zeros in the selector. -/
def Ga.Twins (a a' : Ga Mo U) : Prop :=
  a'.model = a.model ∧ a'.populationSize = a.populationSize ∧ a'.eliteSize = a.eliteSize ∧ ReproAlike a.breeding a'.breeding

/-- States of the adaptive algorithm that differ at most in the signs of zeros in the selector. -/
def Aga.Twins (a a' : Aga Mo U) : Prop :=
  a'.model = a.model ∧ a'.populationSize = a.populationSize ∧ a'.eliteSize = a.eliteSize ∧ a'.adjustmentInterval = a.adjustmentInterval ∧
    a'.crossoverRateRange = a.crossoverRateRange ∧ a'.mutationRateRange = a.mutationRateRange ∧ a'.referenceStd = a.referenceStd ∧
    ReproAlike a.breeding a'.breeding

/-- The selectors of equal strategies. -/
theorem created_alike {s t : SelectionStrategy} (h : s.equals t = true) (h0 : ∀ T c, s = .boltzmann T c → T.feq F64.zero = false) :
    Res.Alike (fun x y => SelAlike (U := U) (.builtin x) (.builtin y)) s.createSelector t.createSelector := by
  have hal := ((C137_equal s t).1 h).1
  clear h
  have hself : ∀ r : Res Selector, Res.Alike (fun x y => SelAlike (U := U) (.builtin x) (.builtin y)) r r := fun r => by
    cases r
    · exact .same _
    · trivial
    · trivial
  cases hal with
  | same => exact hself _
  | @boltzmann T T' c c' h1 h2 =>
    have hT := h0 T c rfl
    have e1 : T = T' := by
      rcases h1 with e | ⟨e, -⟩
      · exact e
      · rw [(feq_zero_iff T).2 e] at hT; cases hT
    subst e1
    rcases h2 with rfl | ⟨h2, h3⟩
    · exact hself _
    · have key : ∀ d : F64, d.feq F64.zero = true → (SelectionStrategy.boltzmann T d).createSelector = Res.panic := fun d hd => by
        simp only [SelectionStrategy.createSelector, BoltzmannSelection.new, hd]
        rfl
      rw [key c ((feq_zero_iff c).2 h2), key c' ((feq_zero_iff c').2 h3)]
      trivial
  | @linear b b' h => exact .linear h
  | @elitist r r' h =>
    have e : inHalfOpenUnit r = inHalfOpenUnit r' := by
      rcases h with rfl | ⟨rfl | rfl, rfl | rfl⟩ <;> rfl
    simp only [SelectionStrategy.createSelector, ElitistSelection.new, ← e]
    cases inHalfOpenUnit r
    · trivial
    · exact SelAlike.elitist h

theorem twin_bind {α β γ δ : Type} {R : α → β → Prop} {S : γ → δ → Prop} {x : Res α} {y : Res β} (h : Res.Alike R x y) {f : α → Res γ}
    {g : β → Res δ} (hfg : ∀ a b, R a b → Res.Alike S (f a) (g b)) : Res.Alike S (x >>= f) (y >>= g) := by
  cases x <;> cases y <;> first | exact h.elim | trivial | exact hfg _ _ h

theorem twin_bind_same {α γ δ : Type} {S : γ → δ → Prop} (x : Res α) {f : α → Res γ} {g : α → Res δ} (hfg : ∀ a, Res.Alike S (f a) (g a)) :
    Res.Alike S (x >>= f) (x >>= g) := by
  cases x
  · exact hfg _
  · trivial
  · trivial

section
variable (M : EvoModel I Mo U) (hM : OnlySelects M)
include hM

omit hM in
theorem twin_generate (hb : ∀ env m p r r', ReproAlike r r' → M.breed env m p r' = M.breed env m p r) (env : NumEnv) (m : Mo) (n : Nat)
    {r r' : ReproParams U} (h : ReproAlike r r') (p : Population I) (l : List I) :
    defaultGenerate M env m (r', n) p l = defaultGenerate M env m (r, n) p l := by
  unfold defaultGenerate
  simp only [hb env m p r r' h]

/-- **C137** Runs of the genetic algorithm with equal selection strategies are the same, whatever the model does with individuals: they draw the
same numbers, show the same populations to the closure, and end or panic at the same places. -/
theorem C137_ga (envs : Nat → Env I) (progress : Q → Population I → Prog (Bool × Q)) (fuel : Nat) (a : Ga Mo U) (l : List I) (p : GaParams)
    (t : SelectionStrategy) (h : p.selectionStrategy.equals t = true) (h0 : ∀ T c, p.selectionStrategy = .boltzmann T c → T.feq F64.zero = false)
    (q : Q) :
    Coupled (fun r r' => r'.1 = r.1 ∧ ShowsSame Ga.Twins r.2 r'.2) (evolvePopulation (ga M) envs progress fuel a l p q)
      (evolvePopulation (ga M) envs progress fuel a l { p with selectionStrategy := t } q) := by
  refine Coupled.bind (R := Ga.Twins) (coupled_lift ?_) fun a a' ha => ?_
  · refine twin_bind_same _ fun _ => twin_bind_same _ fun _ => twin_bind (created_alike (U := U) h h0) fun x y hxy => ?_
    exact ⟨rfl, rfl, rfl, rfl, rfl, hxy⟩
  · show Coupled _ (defaultInitialize M (envs 0) a.model l >>= _) (defaultInitialize M (envs 0) a'.model l >>= _)
    rw [ha.1]
    refine Coupled.bind_right _ fun pop => ?_
    refine twin_loop ?_ ?_ ?_ (fun _ _ _ _ _ _ => rfl) envs progress fuel 1 _ _ ⟨ha, rfl, rfl, rfl, rfl⟩
    · rintro env b b' pop ⟨h1, h2, h3, h4⟩
      show Coupled _ (M.preGeneration b.model pop b.breeding >>= _) (M.preGeneration b'.model pop b'.breeding >>= _)
      rw [h1]
      refine Coupled.bind (hM.preGeneration _ pop _ _ h4) fun x y hxy => coupled_pure ?_
      exact ⟨hxy.1, h2, h3, hxy.2.1, hxy.2.2.1, hxy.2.2.2.prepare env M.selectors pop⟩
    · rintro b b' pop l ⟨-, -, h3, -⟩
      show Res.ok (takeElites b'.eliteSize pop l) = Res.ok (takeElites b.eliteSize pop l)
      rw [h3]
    · rintro env b b' pop l ⟨h1, h2, -, h4⟩
      show defaultGenerate M env b'.model (b'.breeding, b'.populationSize) pop l = defaultGenerate M env b.model (b.breeding, b.populationSize) pop l
      rw [h1, h2]
      exact twin_generate M hM.breed env _ _ h4 pop l

/-- **C137** The same of the adaptive genetic algorithm. -/
theorem C137_aga (envs : Nat → Env I) (progress : Q → Population I → Prog (Bool × Q)) (fuel : Nat) (a : Aga Mo U) (l : List I) (p : AgaParams)
    (t : SelectionStrategy) (h : p.selectionStrategy.equals t = true) (h0 : ∀ T c, p.selectionStrategy = .boltzmann T c → T.feq F64.zero = false)
    (q : Q) :
    Coupled (fun r r' => r'.1 = r.1 ∧ ShowsSame Aga.Twins r.2 r'.2) (evolvePopulation (aga M) envs progress fuel a l p q)
      (evolvePopulation (aga M) envs progress fuel a l { p with selectionStrategy := t } q) := by
  refine Coupled.bind (R := Aga.Twins) (coupled_lift ?_) fun a a' ha => ?_
  · refine twin_bind_same _ fun _ => twin_bind_same _ fun _ => twin_bind (created_alike (U := U) h h0) fun x y hxy => ?_
    exact ⟨rfl, rfl, rfl, rfl, rfl, rfl, rfl, rfl, rfl, hxy⟩
  · show Coupled _ (defaultInitialize M (envs 0) a.model l >>= _) (defaultInitialize M (envs 0) a'.model l >>= _)
    rw [ha.1]
    refine Coupled.bind_right _ fun pop => ?_
    refine twin_loop ?_ ?_ ?_ (fun _ _ _ _ _ _ => rfl) envs progress fuel 1 _ _ ⟨ha, rfl, rfl, rfl, rfl⟩
    · intro env b b' pop hb
      have hadj : Aga.Twins (b.adjust pop.generation pop.stats.std) (b'.adjust pop.generation pop.stats.std) := by
        obtain ⟨h1, h2, h3, h4, h5, h6, h7, h8, h9, h10⟩ := hb
        unfold Aga.adjust
        rw [h4]
        split
        · exact ⟨h1, h2, h3, rfl, h5, h6, rfl, congrArg FRange.stop h5, congrArg FRange.start h6, h10⟩
        · split
          · refine ⟨h1, h2, h3, rfl, h5, h6, h7, ?_, ?_, h10⟩
            · show (adjustedRates b'.crossoverRateRange b'.mutationRateRange pop.stats.std b'.referenceStd).1 =
                (adjustedRates b.crossoverRateRange b.mutationRateRange pop.stats.std b.referenceStd).1
              rw [h5, h6, h7]
            · show (adjustedRates b'.crossoverRateRange b'.mutationRateRange pop.stats.std b'.referenceStd).2 =
                (adjustedRates b.crossoverRateRange b.mutationRateRange pop.stats.std b.referenceStd).2
              rw [h5, h6, h7]
          · exact ⟨h1, h2, h3, h4, h5, h6, h7, h8, h9, h10⟩
      obtain ⟨h1, h2, h3, h4, h5, h6, h7, h8⟩ := hadj
      show Coupled _ (M.preGeneration (b.adjust pop.generation pop.stats.std).model pop _ >>= _)
        (M.preGeneration (b'.adjust pop.generation pop.stats.std).model pop _ >>= _)
      rw [h1]
      refine Coupled.bind (hM.preGeneration _ pop _ _ h8) fun x y hxy => coupled_pure ?_
      exact ⟨hxy.1, h2, h3, h4, h5, h6, h7, hxy.2.1, hxy.2.2.1, hxy.2.2.2.prepare env M.selectors pop⟩
    · rintro b b' pop l ⟨-, -, h3, -⟩
      show Res.ok (takeElites b'.eliteSize pop l) = Res.ok (takeElites b.eliteSize pop l)
      rw [h3]
    · rintro env b b' pop l ⟨h1, h2, -, -, -, -, -, h4⟩
      show defaultGenerate M env b'.model (b'.breeding, b'.populationSize) pop l = defaultGenerate M env b.model (b.breeding, b.populationSize) pop l
      rw [h1, h2]
      exact twin_generate M hM.breed env _ _ h4 pop l

/-- **C137** The same of `run` and `evolve_individual`, which also return the same individual. -/
theorem C137_run (envs : Nat → Env I) (progress : Q → Population I → Prog (Bool × Q)) (fuel : Nat) (newRandom : Prog I) (x : I) (q : Q)
    (t : SelectionStrategy) :
    (∀ (a : Ga Mo U) (p : GaParams), p.selectionStrategy.equals t = true →
      (∀ T c, p.selectionStrategy = .boltzmann T c → T.feq F64.zero = false) →
      Coupled (fun r r' => r'.1 = r.1 ∧ ShowsSame Ga.Twins r.2 r'.2) (runRandom M (ga M) envs progress fuel a newRandom p q)
        (runRandom M (ga M) envs progress fuel a newRandom { p with selectionStrategy := t } q) ∧
      Coupled (fun r r' => r'.1 = r.1 ∧ ShowsSame Ga.Twins r.2 r'.2) (evolveIndividual M (ga M) envs progress fuel a x p q)
        (evolveIndividual M (ga M) envs progress fuel a x { p with selectionStrategy := t } q)) ∧
    ∀ (a : Aga Mo U) (p : AgaParams), p.selectionStrategy.equals t = true →
      (∀ T c, p.selectionStrategy = .boltzmann T c → T.feq F64.zero = false) →
      Coupled (fun r r' => r'.1 = r.1 ∧ ShowsSame Aga.Twins r.2 r'.2) (runRandom M (aga M) envs progress fuel a newRandom p q)
        (runRandom M (aga M) envs progress fuel a newRandom { p with selectionStrategy := t } q) ∧
      Coupled (fun r r' => r'.1 = r.1 ∧ ShowsSame Aga.Twins r.2 r'.2) (evolveIndividual M (aga M) envs progress fuel a x p q)
        (evolveIndividual M (aga M) envs progress fuel a x { p with selectionStrategy := t } q) :=
  ⟨fun a p h h0 =>
    ⟨Coupled.bind_right _ fun l => (C137_ga M hM envs progress fuel a l p t h h0 q).bind twin_take,
      Coupled.bind_right _ fun l => (C137_ga M hM envs progress fuel a l p t h h0 q).bind twin_take⟩,
    fun a p h h0 =>
    ⟨Coupled.bind_right _ fun l => (C137_aga M hM envs progress fuel a l p t h h0 q).bind twin_take,
      Coupled.bind_right _ fun l => (C137_aga M hM envs progress fuel a l p t h h0 q).bind twin_take⟩⟩

end

/-! ### Example -/

/-- A run of the example model with linear selection. -/
example (envs : Nat → Env Num) (progress : Q → Population Num → Prog (Bool × Q)) (fuel : Nat) (a : Ga Unit Empty) (l : List Num) (q : Q) :
    Coupled (fun r r' => r'.1 = r.1 ∧ ShowsSame Ga.Twins r.2 r'.2)
      (evolvePopulation (ga numModel) envs progress fuel a l { GaParams.default with selectionStrategy := .linear F64.zero } q)
      (evolvePopulation (ga numModel) envs progress fuel a l { GaParams.default with selectionStrategy := .linear F64.nzero } q) :=
  C137_ga numModel (C137_default numModel (fun _ _ _ => rfl) rfl) envs progress fuel a l
    { GaParams.default with selectionStrategy := .linear F64.zero } (.linear F64.nzero) (by decide +kernel) (fun _ _ h => by cases h) q

end RG.Props
