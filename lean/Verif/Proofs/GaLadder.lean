import Verif.Proofs.GaConvergence
import Verif.Proofs.Ladder

/-!
# Hypotheses and helper lemmas for C69: climbing a ladder of fitness levels
-/

set_option linter.unusedSectionVars false

namespace RG.Props
open RG RG.Prog
variable {I : Type} [Individual I] {Mo U A P Q : Type}

/-- `x` was returned by a call of `evaluate`. -/
def Evaluated (M : EvoModel I Mo U) (x : I) : Prop := ∃ m y, (M.evaluate m y).yields (.ok x)

/-- The populations of a run: sorted, of valid and evaluated individuals with `Pr`, at most `B` of them. -/
structure FinePop (M : EvoModel I Mo U) (Pr : I → Prop) (B : Nat) (pop : Population I) : Prop where
  good : GoodPop pop
  prop : ∀ x ∈ pop.individuals, Pr x
  evaluated : ∀ x ∈ pop.individuals, Evaluated M x
  len : pop.individuals.length ≤ B

/-- A selector created for the strategy `s` and prepared any number of times. -/
def OfStrategy (s : SelectionStrategy) (sel : Selector) : Prop :=
  ∃ s0 : Selector, s.createSelector = .ok s0 ∧ ∃ l : List (NumEnv × Population I),
    sel = l.foldl (fun s ep => s.prepare ep.1 ep.2) s0

theorem OfStrategy.prepare {s : SelectionStrategy} {sel : Selector} (h : OfStrategy (I := I) s sel) (env : NumEnv)
    (pop : Population I) : OfStrategy (I := I) s (sel.prepare env pop) := by
  obtain ⟨s0, h0, l, rfl⟩ := h
  exact ⟨s0, h0, l ++ [(env, pop)], by simp⟩

/-- With probability at least `σ`, a selector of the strategy, prepared for the population, selects an individual at the level
`target`, if there is one. -/
def SelectsFit (s : SelectionStrategy) (env : NumEnv) (ok : Population I → Prop) (target : F64) (σ : ℚ) : Prop :=
  ∀ sel, OfStrategy (I := I) s sel → ∀ pop, ok pop → Reached target pop →
    σ ≤ ((sel.prepare env pop).select env pop).prob (fun r => target.le (fitness r.2) = true)

/-- Mutated, improved and evaluated, an evaluated individual at the level `lo`, but not at the level `hi`, becomes a valid one at the
level `hi` with probability at least `δ`. -/
def MutationClimbs (M : EvoModel I Mo U) (model : Mo) (Pr : I → Prop) (lo hi : F64) (δ : ℚ) : Prop :=
  ∀ o, Pr o → Evaluated M o → isValid o = true → lo.le (fitness o) = true → hi.le (fitness o) = false →
    δ ≤ (M.mutate model o >>= fun o => M.improve model o >>= fun o => M.evaluate model o).prob
      (fun c => isValid c = true ∧ hi.le (fitness c) = true)

/-- What an algorithm breeds with in a generation: rates with probability at least `ρ` of a mutation and at least `κ` of no
crossover, and a freshly prepared selector of the strategy. -/
structure BreedsWith (alg : EvoAlgo I Mo U A P) (model : Mo) (s : SelectionStrategy) (ρ κ : ℚ) (env : NumEnv)
    (pop : Population I) (a : A) : Prop where
  model : alg.model a = model
  mutation : ρ ≤ genF64.prob (fun u => u.lt (alg.repro a).1.mutationRate = true)
  crossover : κ ≤ genF64.prob (fun u => ¬ u.lt (alg.repro a).1.crossoverRate = true)
  selector : ∃ sel, OfStrategy (I := I) s sel ∧ (alg.repro a).1.parentSelector = .builtin (sel.prepare env pop)

/-- An invariant `ok` of the algorithm and its population that guarantees `BreedsWith` in all generations. -/
structure Steady (alg : EvoAlgo I Mo U A P) (popOk : Population I → Prop) (ok : A → Population I → Prop) (model : Mo)
    (s : SelectionStrategy) (ρ κ : ℚ) : Prop where
  breeds : ∀ env a pop a', ok a pop → (alg.prepare env a pop).yields (.ok a') → BreedsWith alg model s ρ κ env pop a'
  next : ∀ env a pop a' pop', ok a pop → popOk pop → (alg.prepare env a pop).yields (.ok a') →
    pop'.generation = pop.generation + 1 → popOk pop' → ok a' pop'

section
variable {M : EvoModel I Mo U} {alg : EvoAlgo I Mo U A P} {elite size : A → Nat} {eliteOf : P → Nat} {okP : P → Prop}
  {Pr : I → Prop} {B : Nat} {ok : A → Population I → Prop} {model : Mo} {s : SelectionStrategy} {ρ κ : ℚ}

/-- The states of such a run. -/
structure ClimbState (M : EvoModel I Mo U) (alg : EvoAlgo I Mo U A P) (elite size : A → Nat) (Pr : I → Prop) (B : Nat)
    (ok : A → Population I → Prop) (st : RunState I A Q) : Prop where
  safe : Safe alg elite size Pr st
  fine : FinePop M Pr B st.population
  ok : ok st.algo st.population
  size : size st.algo ≤ B

theorem ClimbState.show (st : RunState I A Q) (q' : Q) (hs : ClimbState M alg elite size Pr B ok st) :
    ClimbState M alg elite size Pr B ok { st with q := q', shown := st.shown ++ [st.population] } :=
  ⟨⟨hs.safe.wf, hs.safe.len, hs.safe.prop, hs.safe.sel, hs.safe.two, hs.safe.sizeLt, hs.safe.eliteLe, fun pop hp => by
    rcases List.mem_append.1 hp with hp | hp
    · exact hs.safe.shown pop hp
    · rw [List.mem_singleton.1 hp]; exact hs.safe.prop⟩, hs.fine, hs.ok, hs.size⟩

/-- Bred individuals are evaluated. -/
theorem bred_evaluated (hb : M.breed = defaultBreed M.toEvoOps) (hs : M.selectors.ReturnsMembers)
    (hd : M.selectors.DistinctMembers) (env : NumEnv) (m : Mo) (pop : Population I) (r : ReproParams U)
    (hev : ∀ x ∈ pop.individuals, Evaluated M x) : Partially (Evaluated M) (M.breed env m pop r) := by
  intro c hc
  rw [hb] at hc
  obtain ⟨p1, p2, f, o, h1, h2, h3, h4⟩ := (yields_defaultBreed M.toEvoOps _ _ _ _ _).1 hc
  obtain ⟨m1, m2⟩ := h1.mem hs hd
  rcases h4 with ⟨-, -, rfl⟩ | ⟨-, rfl⟩
  · obtain ⟨o1, o2, o3, -, -, -, h⟩ := h3
    exact ⟨_, _, h⟩
  · exact hev _ (h2.mem m1 fun b hb => (m2 b hb).1)

theorem ClimbState.step (hstd : Standard M alg elite size eliteOf) (halg : SafeAlgo alg okP) (hM : SafeOps M Pr)
    (hmem : M.selectors.ReturnsMembers) (hdis : M.selectors.DistinctMembers) (hv : ValidNotNaN I)
    (hst : Steady alg (FinePop M Pr B) ok model s ρ κ) {env : Env I} (henv : env.Lawful) (st st' : RunState I A Q)
    (hs : ClimbState M alg elite size Pr B ok st) (h : (generationStep alg env st).yields (.ok st')) :
    ClimbState M alg elite size Pr B ok st' := by
  have h1 := (step_always hstd halg hM env henv st hs.safe).partially st' h
  have hf := hstd.step henv h
  have hfine : FinePop M Pr B st'.population := by
    obtain ⟨new, m1, m2, m3⟩ := hf.made
    refine ⟨hf.good henv (breedsValid_default M hM.breed hmem hdis) hv hs.fine.good, h1.prop, fun x hx => ?_, ?_⟩
    · rw [m1] at hx
      rcases List.mem_append.1 (mem_dedup_sort henv.sort hx) with hx | hx
      · exact hs.fine.evaluated x (List.mem_of_mem_drop hx)
      · exact bred_evaluated hM.breed hmem hdis _ _ _ _ hs.fine.evaluated x (m2 x hx)
    · rw [m1]
      exact (length_dedup_sort henv.sort _).trans ((m3 hs.safe.eliteLe).trans hs.size)
  obtain ⟨b, el, buf, pop, old, g1, -, -, -, e⟩ := (yields_generationStep _ _ _ _).1 h
  refine ⟨h1, hfine, ?_, by rw [hf.sizeEq]; exact hs.size⟩
  have hb : st'.algo = b := by rw [e]
  rw [hb]
  exact hst.next _ _ _ _ _ hs.ok hs.fine g1 hf.generation hfine

/-- Mutating, improving and evaluating neither panic nor hang. -/
theorem SafeOps.develops {M : EvoModel I Mo U} {Pr : I → Prop} (hM : SafeOps M Pr) (model : Mo) (o : I) (ho : Pr o) :
    Always (fun _ => True) (M.mutate model o >>= fun o => M.improve model o >>= fun o => M.evaluate model o) := by
  rw [always_bind]
  refine (hM.mutate model o ho).mono fun o ho => ?_
  rw [always_bind]
  refine (hM.improve model o ho).mono fun o ho => ?_
  exact (hM.evaluate model o ho).mono fun _ _ => trivial

/-- Breeding misses the next level with probability at most `1 - σ κ ρ δ`. -/
theorem ClimbState.breed (hM : SafeOps M Pr)
    (hcs : M.canSurvive = fun _ offspring parent _ => pure ((fitness parent).le (fitness offspring)))
    (hv : ValidNotNaN I) (hst : Steady alg (FinePop M Pr B) ok model s ρ κ) (env : NumEnv) (lo hi : F64) (σ δ : ℚ)
    (hκ0 : 0 ≤ κ) (hκ1 : κ ≤ 1) (hρ0 : 0 ≤ ρ) (hδ : 0 ≤ δ ∧ δ ≤ 1)
    (hsel : SelectsFit s env (FinePop M Pr B) lo σ) (hmut : MutationClimbs M model Pr lo hi δ)
    (st : RunState I A Q) (a : A) (hs : ClimbState M alg elite size Pr B ok st) (hlo : Reached lo st.population)
    (ha : (alg.prepare env st.algo st.population).yields (.ok a)) :
    (M.breed env (alg.model a) st.population (alg.repro a).1).prob (fun c => ¬ hi.le (fitness c) = true) ≤ 1 - σ * κ * ρ * δ := by
  classical
  obtain ⟨b1, b2, b3, sel, b4, b5⟩ := hst.breeds _ _ _ _ hs.ok ha
  rw [hM.breed, b1]
  refine prob_breed_improves M.toEvoOps hcs env model st.population (alg.repro a).1
    (fun x => x ∈ st.population.individuals ∧ lo.le (fitness x) = true) (fun x hx => hv x (hs.fine.good.valid x hx.1)) hi σ κ ρ δ
    hκ0 hκ1 hρ0 hδ.1 hδ.2 ?_ b3 b2 (fun o ho => hM.develops model o (hs.fine.prop o ho.1)) (fun o ho => hmut o (hs.fine.prop o ho.1) (hs.fine.evaluated o ho.1) (hs.fine.good.valid o ho.1) ho.2)
  rw [b5]
  refine (hsel sel b4 _ hs.fine hlo).trans (prob_mono _ _ _ fun r hr hlo => ⟨?_, hlo⟩)
  exact ((sel.prepare env st.population).select_isMember env st.population r hr).mem

end

/-! ### The genetic algorithm -/

/-- The probability that no crossover takes place at the crossover rate `r`. -/
def skipChance (r : F64) : ℚ := 1 - (⌈r.val * 2 ^ 53⌉ : ℤ) / 2 ^ 53

/-- A lower bound for the probability that a bred individual climbs, if the selection finds a parent at the present level with
probability `σ` and the mutation climbs with probability `δ`. -/
def climbChance (p : GaParams) (σ δ : ℚ) : ℚ := σ * skipChance p.crossoverRate * p.mutationRate.val * δ

/-- The hypotheses of C69 on the model, the environment, the parameters and the levels `level 0` to `level L`. -/
structure Climbs (M : EvoModel I Mo U) (Pr : I → Prop) (envs : Nat → Env I) (a : Ga Mo U) (p : GaParams) (init : List I)
    (level : Nat → F64) (L : Nat) (σ : ℚ) (δ : Nat → ℚ) : Prop extends GaRun M Pr envs a p init where
  elites : 1 ≤ eliteCount p.populationSize p.elitismRate
  bottom : ∃ x ∈ init, Always (fun e => isValid e = true ∧ (level 0).le (fitness e) = true) (M.evaluate a.model x)
  bounds : (0 ≤ σ ∧ σ ≤ 1) ∧ ∀ i, 0 ≤ δ i ∧ δ i ≤ 1
  select : ∀ t i, i < L →
    SelectsFit p.selectionStrategy (envs t).num (FinePop M Pr (max p.populationSize init.length)) (level i) σ
  climbs : ∀ i, i < L → MutationClimbs M a.model Pr (level i) (level (i + 1)) (δ i)

/-- The genetic algorithm keeps its rates and the kind of its selector. -/
def GaOk (p : GaParams) (model : Mo) (b : Ga Mo U) (_pop : Population I) : Prop :=
  b.model = model ∧ b.breeding.mutationRate = p.mutationRate ∧ b.breeding.crossoverRate = p.crossoverRate ∧
    ∃ sel, OfStrategy (I := I) p.selectionStrategy sel ∧ b.breeding.parentSelector = .builtin sel

theorem forall₂_mem_left {α β : Type} {R : α → β → Prop} {l : List α} {l' : List β} (h : List.Forall₂ R l l') :
    ∀ x ∈ l, ∃ y ∈ l', R x y := by
  induction h with
  | nil => simp
  | cons h1 _ ih =>
    intro x hx
    rcases List.mem_cons.1 hx with rfl | hx
    · exact ⟨_, by simp, h1⟩
    · obtain ⟨y, hy, hr⟩ := ih x hx
      exact ⟨y, by simp [hy], hr⟩

section
variable {M : EvoModel I Mo U} {Pr : I → Prop} {envs : Nat → Env I} {a : Ga Mo U} {p : GaParams} {init : List I}
  {level : Nat → F64} {L : Nat} {σ : ℚ} {δ : Nat → ℚ}

theorem GaRun.skip (h : GaRun M Pr envs a p init) :
    0 ≤ skipChance p.crossoverRate ∧ skipChance p.crossoverRate ≤ 1 ∧
    skipChance p.crossoverRate = genF64.prob (fun u => ¬ u.lt p.crossoverRate = true) := by
  obtain ⟨h1, h2, h3⟩ : p.crossoverRate.isFinite = true ∧ 0 ≤ p.crossoverRate.val ∧ p.crossoverRate.val ≤ 1 := h.valid.2.2.1
  have hsum := prob_add_not_of_always (S := fun _ => True) genF64 (fun u => u.lt p.crossoverRate = true) (by
    unfold genF64
    rw [always_bind, always_uniform]
    exact ⟨by norm_num, fun i _ => by simp⟩)
  rw [prob_fire h1 h2 h3] at hsum
  have hn := prob_nonneg genF64 (fun u => ¬ u.lt p.crossoverRate = true)
  have hl := prob_le_one genF64 (fun u => ¬ u.lt p.crossoverRate = true)
  have e : skipChance p.crossoverRate = genF64.prob (fun u => ¬ u.lt p.crossoverRate = true) := by
    unfold skipChance; linarith
  exact ⟨e ▸ hn, e ▸ hl, e⟩

theorem ga_steady (h : GaRun M Pr envs a p init) (popOk : Population I → Prop) :
    Steady (ga M) popOk (GaOk p a.model) a.model p.selectionStrategy p.mutationRate.val (skipChance p.crossoverRate) where
  breeds env b pop b' hb hb' := by
    obtain ⟨o1, o2, o3, sel, o4, o5⟩ := hb
    have hb' : (Ga.prepare M env b pop).yields (.ok b') := hb'
    rw [gaPrepare_eq h.ops, yields_pure] at hb'
    cases hb'
    refine ⟨o1, ?_, ?_, sel, o4, ?_⟩
    · show _ ≤ genF64.prob (fun u => u.lt b.breeding.mutationRate = true)
      rw [o2]; exact h.rate_le
    · show _ ≤ genF64.prob (fun u => ¬ u.lt b.breeding.crossoverRate = true)
      rw [o3]; exact h.skip.2.2.le
    · show b.breeding.parentSelector.prepare env M.selectors pop = _
      rw [o5]; rfl
  next env b pop b' pop' hb _ hb' _ _ := by
    obtain ⟨o1, o2, o3, sel, o4, o5⟩ := hb
    have hb' : (Ga.prepare M env b pop).yields (.ok b') := hb'
    rw [gaPrepare_eq h.ops, yields_pure] at hb'
    cases hb'
    refine ⟨o1, o2, o3, _, o4.prepare env pop, ?_⟩
    show b.breeding.parentSelector.prepare env M.selectors pop = _
    rw [o5]; rfl

/-- The state at the first call of `progress`. -/
theorem Climbs.begin (h : Climbs M Pr envs a p init level L σ δ) :
    ∃ a', (ga M).configure a p = .ok a' ∧ Always (fun pop => ∀ q : Q,
      ClimbState M (ga M) Ga.eliteSize Ga.populationSize Pr (max p.populationSize init.length) (GaOk p a.model)
        ({ algo := a', population := pop, buffer := [], q, shown := [] } : RunState I (Ga Mo U) Q) ∧
      Reached (level 0) pop ∧ a'.eliteSize = eliteCount p.populationSize p.elitismRate ∧ a'.populationSize = p.populationSize)
      ((ga M).initPopulation (envs 0) a' init) := by
  obtain ⟨a', hc, hf⟩ := h.first (Q := Q)
  refine ⟨a', hc, ?_⟩
  have hcfg : ∃ sel, p.selectionStrategy.createSelector = .ok sel ∧ a'.breeding.parentSelector = .builtin sel ∧
      a'.breeding.crossoverRate = p.crossoverRate := by
    have hc : Ga.configure a p = .ok a' := hc
    obtain ⟨sel, hsel, _⟩ := (createSelector_spec _).1 h.strategy
    obtain ⟨k, hk⟩ : ∃ k, interpolateUsize 0 p.populationSize p.elitismRate = .ok k := by
      unfold interpolateUsize usizeSub; rw [if_pos (Nat.zero_le _)]; exact ⟨_, rfl⟩
    unfold Ga.configure at hc
    rw [(C50_ga p).1 h.valid, hk, hsel] at hc
    cases hc
    exact ⟨sel, hsel, rfl, rfl⟩
  obtain ⟨sel, c1, c2, c3⟩ := hcfg
  refine (hf.and (Q := fun pop => (∀ x ∈ pop.individuals, Evaluated M x) ∧ pop.individuals.length ≤ init.length ∧
    (a'.model = a.model → Reached (level 0) pop)) ?_).mono ?_
  · intro pop hpop
    have hpop : (defaultInitialize M (envs 0) a'.model init).yields (.ok pop) := hpop
    obtain ⟨-, -, -, hl, -⟩ := init_wf (h.env 0) hpop
    unfold defaultInitialize at hpop
    rw [yields_bind_ok] at hpop
    obtain ⟨ev, e1, e2⟩ := hpop
    have e2 := (yields_lift _ _).1 e2
    obtain ⟨-, -, e3, -⟩ := Population.wf_new (h.env 0).sort e2.symm
    have hfa := (yields_mapList _ _ _).1 e1
    refine ⟨fun x hx => ?_, hl, fun hm => ?_⟩
    · rw [e3] at hx
      have hx := (List.mem_filter.1 (mem_dedup_sort (h.env 0).sort hx)).1
      obtain ⟨u, -, hu⟩ := forall₂_mem_right hfa x hx
      exact ⟨_, u, hu⟩
    · obtain ⟨x, hx, hxb⟩ := h.bottom
      obtain ⟨e, he, hxe⟩ := forall₂_mem_left hfa x hx
      rw [hm] at hxe
      obtain ⟨hv, ht⟩ := hxb.partially e hxe
      exact reached_dedup_sort h.eqFitness (h.env 0) e3 (List.mem_filter.2 ⟨he, hv⟩) ht
  · rintro pop ⟨hpop, hev, hlen, hre⟩ q
    obtain ⟨f1, f2, f3, f4⟩ := hpop q
    have hm : a'.model = a.model := f1.model
    refine ⟨⟨f1.safe, ⟨f2, f1.safe.prop, hev, hlen.trans (le_max_right _ _)⟩, ⟨hm, f1.rate, c3, sel, ⟨sel, c1, [], rfl⟩, c2⟩, ?_⟩,
      hre hm, f3, f4⟩
    show a'.populationSize ≤ _
    rw [f4]; exact le_max_left _ _

end
end RG.Props
