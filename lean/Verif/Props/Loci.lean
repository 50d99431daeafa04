import Verif.Proofs.Loci
import Verif.Props.Generation
import Mathlib.Data.List.Destutter

/-!
# Property C106: runs without mutation

A crossover that takes each gene from one of the parents, at the same position, brings no gene to a position where no individual had it. Without
mutation, a gene that is missing at a position of the initial population is missing for ever, and a gene that is lost does not return.
-/

set_option linter.unusedSectionVars false

namespace RG.Props
open RG RG.Prog
variable {I Mo U : Type} [Individual I] {G Q : Type}

/-- Every gene of `x` occurs at the same position of an individual of the list. -/
def FromLoci (gen : I → List G) (l : List I) (x : I) : Prop := ∀ i : Nat, ∃ y ∈ l, (gen x)[i]? = (gen y)[i]?

/-- Each gene of an offspring is the gene of one of its parents at that position, and `improve` and `evaluate` leave the genes alone. -/
structure Locuswise (M : EvoModel I Mo U) (gen : I → List G) : Prop where
  crossover : ∀ m a b c, (M.crossover m a b).yields (.ok c) → ∀ i : Nat, (gen c)[i]? = (gen a)[i]? ∨ (gen c)[i]? = (gen b)[i]?
  improve : ∀ m a c, (M.improve m a).yields (.ok c) → gen c = gen a
  evaluate : ∀ m a c, (M.evaluate m a).yields (.ok c) → gen c = gen a
  preGeneration : ∀ m p b, M.preGeneration m p b = pure (m, b)
  breed : M.breed = defaultBreed M.toEvoOps
  members : M.selectors.ReturnsMembers
  distinct : M.selectors.DistinctMembers

theorem FromLoci.self {gen : I → List G} {l : List I} {x : I} (h : x ∈ l) : FromLoci gen l x := fun _ => ⟨x, h, rfl⟩

theorem FromLoci.trans {gen : I → List G} {l l' : List I} {x : I} (h : FromLoci gen l' x) (h' : ∀ y ∈ l', FromLoci gen l y) :
    FromLoci gen l x := fun i => by
  obtain ⟨y, hy, e⟩ := h i
  obtain ⟨z, hz, e'⟩ := h' y hy i
  exact ⟨z, hz, e.trans e'⟩

/-- **C106** Breeding without mutation: every gene of the offspring occurs in the population at the same position. -/
theorem C106_breed (M : EvoModel I Mo U) (gen : I → List G) (hM : Locuswise M gen) (env : NumEnv) (model : Mo) (p : Population I)
    (r : ReproParams U) (hr : F64.zero.lt r.mutationRate = false) (c : I) (h : (M.breed env model p r).yields (.ok c)) :
    FromLoci gen p.individuals c := by
  rw [hM.breed] at h
  obtain ⟨p1, p2, f, o, hm, hf, ⟨o0, o1, o2, h0, h1, h2, h3⟩, h⟩ := (yields_defaultBreed _ env model p r c).1 h
  obtain ⟨m1, m2⟩ := hm.mem hM.members hM.distinct
  rcases h with ⟨-, -, rfl⟩ | ⟨-, rfl⟩
  · have e1 : o1 = o0 := by
      rcases h1 with ⟨-, h1⟩ | ⟨h1, -⟩
      · exact h1
      · rw [canFire_iff_pos, hr] at h1; cases h1
    have e2 : gen c = gen o0 := by rw [hM.evaluate _ _ _ h3, hM.improve _ _ _ h2, e1]
    intro i
    rw [e2]
    rcases h0 with ⟨-, rfl⟩ | ⟨b, hb, h0⟩
    · exact ⟨o0, m1, rfl⟩
    · rcases hM.crossover _ _ _ _ h0 i with e | e
      · exact ⟨p1, m1, e⟩
      · exact ⟨b, (m2 b hb).1, e⟩
  · exact .self (hf.mem m1 fun b hb => (m2 b hb).1)

theorem made_mem {sort : List I → List I} (hs : LawfulSort sort) {members : List I} {pop : Population I} (h : MadeOf sort members pop) :
    ∀ x ∈ pop.individuals, x ∈ members := fun x hx => by
  rw [h.individuals] at hx
  exact (hs.perm _).subset ((List.destutter_sublist _ _).subset hx)

/-- Where the individuals of a run come from: those of all populations from the initial ones, and those of each population from the one
before it. -/
structure ComesFrom (T : List I → I → Prop) (l : List I) (pops : List (Population I)) : Prop where
  initial : ∀ pop ∈ pops, ∀ x ∈ pop.individuals, T l x
  chain : pops.IsChain fun p p' => ∀ x ∈ p'.individuals, T p.individuals x

/-- What is needed of the relation: it holds for members, is transitive, and holds for what `evaluate` and, at these rates, `breed` return. -/
structure Descends (M : EvoModel I Mo U) (T : List I → I → Prop) (rates : F64 → F64 → Prop) : Prop where
  self : ∀ l x, x ∈ l → T l x
  trans : ∀ l l' x, T l' x → (∀ y ∈ l', T l y) → T l x
  evaluate : ∀ m l a c, a ∈ l → (M.evaluate m a).yields (.ok c) → T l c
  breed : ∀ env m p (r : ReproParams U) c, rates r.crossoverRate r.mutationRate → (M.breed env m p r).yields (.ok c) → T p.individuals c
  preGeneration : ∀ m p b, M.preGeneration m p b = pure (m, b)

theorem next_from {M : EvoModel I Mo U} {T : List I → I → Prop} {rates : F64 → F64 → Prop} (hM : Descends M T rates) {env : Env I}
    (henv : env.Lawful) {model : Mo} {r : ReproParams U} (hr : rates r.crossoverRate r.mutationRate) {e n : Nat} {pop pop' : Population I}
    {members : List I} (h : NextMembers M env.num model r e n pop members) (h' : MadeOf env.sort members pop') :
    ∀ x ∈ pop'.individuals, T pop.individuals x := by
  intro x hx
  obtain ⟨el, new, bred, s1, -, rfl, -, s4, s5⟩ := h
  rcases List.mem_append.1 (made_mem henv.sort h' x hx) with hx | hx
  · exact hM.self _ _ (s1.subset hx)
  · have hx : x ∈ bred := by
      rw [s5] at hx
      split at hx
      · cases hx
      · exact hx
    exact hM.breed env.num model pop r x hr (s4 x hx)

theorem start_from {M : EvoModel I Mo U} {T : List I → I → Prop} {rates : F64 → F64 → Prop} (hM : Descends M T rates) {env : Env I}
    (henv : env.Lawful) {model : Mo} {l : List I} {pop : Population I} (h : (defaultInitialize M env model l).yields (.ok pop)) :
    ∀ x ∈ pop.individuals, T l x := by
  obtain ⟨ev, h1, h2⟩ := (init_iff M env henv model l pop).1 h
  intro x hx
  obtain ⟨y, hy, e⟩ := forall₂_mem_right h1 x (List.mem_of_mem_filter (made_mem henv.sort h2.toMadeOf x hx))
  exact hM.evaluate model l y x hy e

theorem comesFrom_of {T : List I → I → Prop} (hself : ∀ l x, x ∈ l → T l x) {l : List I} {new : List (Population I)} {pop : Population I}
    (h1 : (new ++ [pop]).IsChain fun p p' => (∀ x ∈ p'.individuals, T p.individuals x) ∨ p = p')
    (h2 : ∀ p ∈ new, ∀ x ∈ p.individuals, T l x) (h3 : ∀ x ∈ pop.individuals, T l x) : ComesFrom T l (new ++ [pop]) := by
  refine ⟨fun p hp => ?_, h1.imp fun p p' h => ?_⟩
  · rcases List.mem_append.1 hp with hp | hp
    · exact h2 p hp
    · cases List.mem_singleton.1 hp
      exact h3
  · rcases h with h | rfl
    · exact h
    · exact fun x hx => hself _ _ hx

/-- **C106** Runs of the genetic algorithm: a relation that holds for everything bred at the rates of the run holds throughout. -/
theorem C106_ga_run (M : EvoModel I Mo U) (T : List I → I → Prop) (rates : F64 → F64 → Prop) (hM : Descends M T rates) (envs : Nat → Env I)
    (henv : ∀ t, (envs t).Lawful) (progress : Q → Population I → Prog (Bool × Q)) (fuel : Nat) (a : Ga Mo U) (l : List I) (p : GaParams)
    (hp : rates p.crossoverRate p.mutationRate) (q : Q) (fin : Bool) (st : RunState I (Ga Mo U) Q)
    (h : (evolvePopulation (ga M) envs progress fuel a l p q).yields (.ok (fin, st))) :
    ComesFrom T l (st.shown ++ [st.population]) := by
  rw [yields_evolvePopulation] at h
  obtain ⟨b, pop, h1, h2, h3⟩ := h
  obtain ⟨new, k1, k2, -, k4, k5, -⟩ := evolveLoop_invariant (ga M) envs progress
    (fun a p => rates a.breeding.crossoverRate a.breeding.mutationRate ∧ ∀ x ∈ p.individuals, T l x)
    (fun p p' => ∀ x ∈ p'.individuals, T p.individuals x) (fun t st st' _ hst hs => by
      obtain ⟨⟨r, g1, g2, -, -, mem, g5, g6⟩, -, g8, g9⟩ := (C73_ga_generation M (envs t) (henv t) st st').1 hs
      rw [hM.preGeneration] at g1
      have g1 := (yields_pure _ _).1 g1
      obtain ⟨-, e⟩ := Prod.mk.inj (Res.ok.inj g1)
      have hr : rates st'.algo.breeding.crossoverRate st'.algo.breeding.mutationRate := by rw [g2, e]; exact hst.1
      have hn := next_from hM (henv t) hr g5 g6.toMadeOf
      exact ⟨⟨hr, fun x hx => hM.trans _ _ _ (hn x hx) hst.2⟩, hn, g8, g9⟩) fuel 1 (le_refl _) _ (by
      refine ⟨?_, start_from hM (henv 0) h2⟩
      show rates b.breeding.crossoverRate b.breeding.mutationRate
      have h1 : a.configure p = .ok b := h1
      unfold Ga.configure at h1
      obtain ⟨-, -, h1⟩ := res_bind_ok h1
      obtain ⟨k, -, h1⟩ := res_bind_ok h1
      obtain ⟨sel, hsel, h1⟩ := res_bind_ok h1
      cases h1
      exact hp) fin st h3
  have k1 : st.shown = new := k1
  rw [k1]
  exact comesFrom_of hM.self k2 (fun p hp => (k4 p hp).choose_spec.2) k5.2

/-- Both ends of the range are zeros. -/
def ZeroRange (r : FRange F64) : Prop := (r.start.isFinite = true ∧ r.start.val = 0) ∧ r.stop.isFinite = true ∧ r.stop.val = 0

theorem zero_not_pos {x : F64} (h : x.isFinite = true ∧ x.val = 0) : F64.zero.lt x = false := by
  rw [← Bool.not_eq_true, F64.lt_finite rfl h.1, h.2]
  exact lt_irrefl _

theorem adjust_zero {a : Aga Mo U} {n : Nat} {std : F64} :
    (a.adjust n std).mutationRateRange = a.mutationRateRange ∧ (a.adjust n std).crossoverRateRange = a.crossoverRateRange ∧
    (ZeroRange a.mutationRateRange → (n = 0 ∨ F64.zero.lt a.breeding.mutationRate = false) →
      F64.zero.lt (a.adjust n std).breeding.mutationRate = false) ∧
    (ZeroRange a.crossoverRateRange → (n = 0 ∨ F64.zero.lt a.breeding.crossoverRate = false) →
      F64.zero.lt (a.adjust n std).breeding.crossoverRate = false) := by
  unfold Aga.adjust
  split
  · exact ⟨rfl, rfl, fun h _ => zero_not_pos h.1, fun h _ => zero_not_pos h.2⟩
  · rename_i hn
    split
    · exact ⟨rfl, rfl, fun h _ => interpolate_zeros h.1 h.2 _, fun h _ => interpolate_zeros h.1 h.2 _⟩
    · exact ⟨rfl, rfl, fun _ h => h.resolve_left hn, fun _ h => h.resolve_left hn⟩

/-- **C106** The same for the adaptive genetic algorithm, if the range of the mutation rate is zero, and perhaps that of the crossover rate. -/
theorem C106_aga_run (M : EvoModel I Mo U) (T : List I → I → Prop) (rates : F64 → F64 → Prop) (hM : Descends M T rates) (envs : Nat → Env I)
    (henv : ∀ t, (envs t).Lawful) (progress : Q → Population I → Prog (Bool × Q)) (fuel : Nat) (a : Aga Mo U) (l : List I) (p : AgaParams)
    (hp : ZeroRange p.mutationRateRange)
    (hr : (∀ c m, F64.zero.lt m = false → rates c m) ∨
      ZeroRange p.crossoverRateRange ∧ ∀ c m, F64.zero.lt c = false → F64.zero.lt m = false → rates c m) (q : Q) (fin : Bool)
    (st : RunState I (Aga Mo U) Q) (h : (evolvePopulation (aga M) envs progress fuel a l p q).yields (.ok (fin, st))) :
    ComesFrom T l (st.shown ++ [st.population]) := by
  rw [yields_evolvePopulation] at h
  obtain ⟨b, pop, h1, h2, h3⟩ := h
  obtain ⟨new, k1, k2, -, k4, k5, -⟩ := evolveLoop_invariant (aga M) envs progress
    (fun a p' => (p'.generation = 0 ∨ F64.zero.lt a.breeding.mutationRate = false) ∧
      (ZeroRange p.crossoverRateRange → p'.generation = 0 ∨ F64.zero.lt a.breeding.crossoverRate = false) ∧
      a.mutationRateRange = p.mutationRateRange ∧ a.crossoverRateRange = p.crossoverRateRange ∧ ∀ x ∈ p'.individuals, T l x)
    (fun p p' => ∀ x ∈ p'.individuals, T p.individuals x) (fun t st st' _ hst hs => by
      obtain ⟨⟨b, hb, r, g1, g2, mem, g5, g6⟩, -, g8, g9⟩ := (C73_aga_generation M (envs t) (henv t) st st').1 hs
      obtain ⟨s1, s2, s3, s4, s5⟩ := hst
      rw [hM.preGeneration] at g1
      have g1 := (yields_pure _ _).1 g1
      obtain ⟨-, e⟩ := Prod.mk.inj (Res.ok.inj g1)
      obtain ⟨i1, i2, i3, i4⟩ := adjust_zero (a := st.algo) (n := st.population.generation) (std := st.population.stats.std)
      have hm : F64.zero.lt st'.algo.breeding.mutationRate = false := by
        rw [g2, e, hb]; exact i3 (s3 ▸ hp) s1
      have hc : ZeroRange p.crossoverRateRange → F64.zero.lt st'.algo.breeding.crossoverRate = false := fun h => by
        rw [g2, e, hb]; exact i4 (s4 ▸ h) (s2 h)
      have hr : rates st'.algo.breeding.crossoverRate st'.algo.breeding.mutationRate := by
        rcases hr with hr | ⟨h, hr⟩
        · exact hr _ _ hm
        · exact hr _ _ (hc h) hm
      have hn := next_from hM (henv t) hr g5 g6.toMadeOf
      refine ⟨⟨Or.inr hm, fun h => Or.inr (hc h), ?_, ?_, fun x hx => hM.trans _ _ _ (hn x hx) s5⟩, hn, g8, g9⟩
      · rw [g2, hb]; exact i1.trans s3
      · rw [g2, hb]; exact i2.trans s4) fuel 1 (le_refl _) _ (by
      refine ⟨Or.inl (init_wf (henv 0) h2).2.1, fun _ => Or.inl (init_wf (henv 0) h2).2.1, ?_⟩
      show b.mutationRateRange = _ ∧ b.crossoverRateRange = _ ∧ _
      have h1 : a.configure p = .ok b := h1
      unfold Aga.configure at h1
      obtain ⟨-, -, h1⟩ := res_bind_ok h1
      obtain ⟨k, -, h1⟩ := res_bind_ok h1
      obtain ⟨sel, hsel, h1⟩ := res_bind_ok h1
      cases h1
      exact ⟨rfl, rfl, start_from hM (henv 0) h2⟩) fin st h3
  have k1 : st.shown = new := k1
  rw [k1]
  exact comesFrom_of hM.self k2 (fun p hp => (k4 p hp).choose_spec.2.2.2.2) k5.2.2.2.2

theorem Locuswise.descends {M : EvoModel I Mo U} {gen : I → List G} (hM : Locuswise M gen) :
    Descends M (FromLoci gen) fun _ m => F64.zero.lt m = false where
  self _ _ h := .self h
  trans _ _ _ h h' := h.trans h'
  evaluate m l a c ha h i := ⟨a, ha, by rw [hM.evaluate _ _ _ h]⟩
  breed env m p r c hr h := C106_breed M gen hM env m p r hr c h
  preGeneration := hM.preGeneration

/-- **C106** The genetic algorithm with mutation rate zero. -/
theorem C106_ga (M : EvoModel I Mo U) (gen : I → List G) (hM : Locuswise M gen) (envs : Nat → Env I) (henv : ∀ t, (envs t).Lawful)
    (progress : Q → Population I → Prog (Bool × Q)) (fuel : Nat) (a : Ga Mo U) (l : List I) (p : GaParams)
    (hp : F64.zero.lt p.mutationRate = false) (q : Q) (fin : Bool) (st : RunState I (Ga Mo U) Q)
    (h : (evolvePopulation (ga M) envs progress fuel a l p q).yields (.ok (fin, st))) :
    ComesFrom (FromLoci gen) l (st.shown ++ [st.population]) :=
  C106_ga_run M _ _ hM.descends envs henv progress fuel a l p hp q fin st h

/-- **C106** The adaptive genetic algorithm with mutation rates from zero to zero. -/
theorem C106_aga (M : EvoModel I Mo U) (gen : I → List G) (hM : Locuswise M gen) (envs : Nat → Env I) (henv : ∀ t, (envs t).Lawful)
    (progress : Q → Population I → Prog (Bool × Q)) (fuel : Nat) (a : Aga Mo U) (l : List I) (p : AgaParams)
    (hp : ZeroRange p.mutationRateRange) (q : Q) (fin : Bool) (st : RunState I (Aga Mo U) Q)
    (h : (evolvePopulation (aga M) envs progress fuel a l p q).yields (.ok (fin, st))) :
    ComesFrom (FromLoci gen) l (st.shown ++ [st.population]) :=
  C106_aga_run M _ _ hM.descends envs henv progress fuel a l p hp (Or.inl fun _ _ h => h) q fin st h

/-! ### Without crossover either -/

/-- `improve` and `evaluate` leave the genes alone; the rest of the model is the default. -/
structure KeepsGenes {B : Type} (M : EvoModel I Mo U) (gen : I → B) : Prop where
  improve : ∀ m a c, (M.improve m a).yields (.ok c) → gen c = gen a
  evaluate : ∀ m a c, (M.evaluate m a).yields (.ok c) → gen c = gen a
  preGeneration : ∀ m p b, M.preGeneration m p b = pure (m, b)
  breed : M.breed = defaultBreed M.toEvoOps
  members : M.selectors.ReturnsMembers
  distinct : M.selectors.DistinctMembers

/-- An individual of the list has these genes. -/
def Copies {B : Type} (gen : I → B) (l : List I) (x : I) : Prop := ∃ y ∈ l, gen x = gen y

theorem KeepsGenes.descends {B : Type} {M : EvoModel I Mo U} {gen : I → B} (hM : KeepsGenes M gen) :
    Descends M (Copies gen) fun c m => F64.zero.lt c = false ∧ F64.zero.lt m = false where
  self l x h := ⟨x, h, rfl⟩
  trans l l' x h h' := by
    obtain ⟨y, hy, e⟩ := h
    obtain ⟨z, hz, e'⟩ := h' y hy
    exact ⟨z, hz, e.trans e'⟩
  evaluate m l a c ha h := ⟨a, ha, hM.evaluate _ _ _ h⟩
  breed env m p r c hr h := by
    rw [hM.breed] at h
    obtain ⟨p1, p2, f, o, hm, hf, ⟨o0, o1, o2, h0, h1, h2, h3⟩, h⟩ := (yields_defaultBreed _ env m p r c).1 h
    obtain ⟨m1, m2⟩ := hm.mem hM.members hM.distinct
    have hp2 : p2 = none := by
      cases hm with
      | alone => rfl
      | gaveUp => rfl
      | pair _ _ h => rw [canFire_iff_pos, hr.1] at h; cases h
    subst hp2
    rcases h with ⟨-, -, rfl⟩ | ⟨-, rfl⟩
    · refine ⟨p1, m1, ?_⟩
      have e1 : o1 = o0 := by
        rcases h1 with ⟨-, h1⟩ | ⟨h1, -⟩
        · exact h1
        · rw [canFire_iff_pos, hr.2] at h1; cases h1
      rcases h0 with ⟨-, rfl⟩ | ⟨b, hb, -⟩
      · rw [hM.evaluate _ _ _ h3, hM.improve _ _ _ h2, e1]
      · cases hb
    · exact ⟨c, hf.mem m1 fun b hb => (m2 b hb).1, rfl⟩
  preGeneration := hM.preGeneration

/-- **C106** The genetic algorithm with both rates zero: every individual of a run has the genes of an initial one, and those of each generation
have the genes of individuals of the generation before. -/
theorem C106_copies {B : Type} (M : EvoModel I Mo U) (gen : I → B) (hM : KeepsGenes M gen) (envs : Nat → Env I)
    (henv : ∀ t, (envs t).Lawful) (progress : Q → Population I → Prog (Bool × Q)) (fuel : Nat) (a : Ga Mo U) (l : List I) (p : GaParams)
    (hc : F64.zero.lt p.crossoverRate = false) (hm : F64.zero.lt p.mutationRate = false) (q : Q) (fin : Bool)
    (st : RunState I (Ga Mo U) Q) (h : (evolvePopulation (ga M) envs progress fuel a l p q).yields (.ok (fin, st))) :
    ComesFrom (Copies gen) l (st.shown ++ [st.population]) :=
  C106_ga_run M _ _ hM.descends envs henv progress fuel a l p ⟨hc, hm⟩ q fin st h

/-- **C106** The adaptive genetic algorithm with both ranges zero. -/
theorem C106_aga_copies {B : Type} (M : EvoModel I Mo U) (gen : I → B) (hM : KeepsGenes M gen) (envs : Nat → Env I)
    (henv : ∀ t, (envs t).Lawful) (progress : Q → Population I → Prog (Bool × Q)) (fuel : Nat) (a : Aga Mo U) (l : List I) (p : AgaParams)
    (hc : ZeroRange p.crossoverRateRange) (hm : ZeroRange p.mutationRateRange) (q : Q) (fin : Bool)
    (st : RunState I (Aga Mo U) Q) (h : (evolvePopulation (aga M) envs progress fuel a l p q).yields (.ok (fin, st))) :
    ComesFrom (Copies gen) l (st.shown ++ [st.population]) :=
  C106_aga_run M _ _ hM.descends envs henv progress fuel a l p hm (Or.inr ⟨hc, fun _ _ h h' => ⟨h, h'⟩⟩) q fin st h

/-! ### OneMax -/

/-- **C106** Single-point crossover takes each gene from one of the parents, at the same position. -/
theorem C106_single_point [DecidableEq G] (lt : G → G → Bool) (ord : Nat → List G → List G) (fuel : Nat) (p₁ p₂ c : List G)
    (h : (CrossoverStrategy.singlePoint.crossover lt ord fuel p₁ p₂).yields (.ok c)) (i : Nat) : c[i]? = p₁[i]? ∨ c[i]? = p₂[i]? := by
  unfold CrossoverStrategy.crossover at h
  obtain ⟨k, -, h⟩ := (yields_bind_ok _ _ _).1 h
  have h := (yields_lift _ _).1 h
  by_cases hl : p₁.length = p₂.length
  · obtain ⟨off, e, -, hoff⟩ := C28_positions p₁ p₂ hl k
    rw [e] at h
    cases h
    rw [hoff]
    split
    · exact Or.inl rfl
    · exact Or.inr rfl
  · unfold spx at h
    rw [decide_eq_false hl] at h
    cases h

theorem oneMax_locuswise : Locuswise OneMax.model (fun x => x.genome) where
  crossover m a b c h i := by
    have h : (OneMax.crossover a b).yields (.ok c) := h
    unfold OneMax.crossover at h
    obtain ⟨g, h1, h2⟩ := (yields_bind_ok _ _ _).1 h
    cases (yields_pure _ _).1 h2
    exact C106_single_point _ _ _ _ _ _ h1 i
  improve m a c h := by cases (yields_pure _ _).1 h; rfl
  evaluate m a c h := by cases (yields_pure _ _).1 h; rfl
  preGeneration m p b := rfl
  breed := rfl
  members := oneMax_members
  distinct := fun u => u.elim

/-- **C106** Without mutation, OneMax is solved only if every position is `true` in some initial individual. -/
theorem C106_onemax (l : List OneMax) (pops : List (Population OneMax)) (h : ComesFrom (FromLoci fun x => x.genome) l pops) (n : Nat)
    (pop : Population OneMax) (hpop : pop ∈ pops) (x : OneMax) (hx : x ∈ pop.individuals) (hxt : x.genome = List.replicate n true) :
    ∀ i < n, ∃ y ∈ l, y.genome[i]? = some true := by
  intro i hi
  obtain ⟨y, hy, e⟩ := h.initial pop hpop x hx i
  refine ⟨y, hy, ?_⟩
  have e : x.genome[i]? = y.genome[i]? := e
  rw [← e, hxt, List.getElem?_replicate, if_pos hi]

/-- **C106** In a random population of `N` individuals of `n` bits, every position has a `true` bit with probability `(1 - 2 ^ -N) ^ n`. -/
theorem C106_random (N n : Nat) : (defaultExtend (OneMax.newRandom n) [] N).prob (fun l => ∀ i < n, ∃ y ∈ l, y.genome[i]? = some true) =
    (1 - 1 / 2 ^ N) ^ n := by
  have e : defaultExtend (OneMax.newRandom n) [] N = Prog.replicate N (OneMax.newRandom n) := by
    unfold defaultExtend
    split
    · rename_i h; rw [h]; rfl
    · simp
  have := prob_covered N (List.replicate n false)
  rw [List.length_replicate, List.count_replicate_self] at this
  rw [e, ← this]
  refine prob_congr _ _ _ fun l _ => ?_
  unfold Covered
  rw [List.length_replicate]
  refine forall₂_congr fun i hi => ?_
  rw [List.getElem?_replicate, if_pos hi]
  simp

theorem solved_at_most {A P : Type} (alg : EvoAlgo OneMax Unit Empty A P) (envs : Nat → Env OneMax)
    (progress : Q → Population OneMax → Prog (Bool × Q)) (k : Nat) (a : A) (p : P) (n : Nat) (q : Q)
    (h : ∀ l fin st, (evolvePopulation alg envs progress k a l p q).yields (.ok (fin, st)) →
      ComesFrom (FromLoci fun x => x.genome) l (st.shown ++ [st.population])) :
    (runRandom OneMax.model alg envs progress k a (OneMax.newRandom n) p q).prob (Solved n) ≤ (1 - 1 / 2 ^ alg.initialSize p) ^ n := by
  rw [← C106_random, ← one_mul (Prog.prob (defaultExtend _ _ _) _)]
  refine prob_bind_le _ _ _ _ _ (fun _ _ _ => prob_le_one _ _) fun init hi hall => ?_
  refine prob_eq_zero _ _ fun r hr hs => ?_
  obtain ⟨⟨fin, st1⟩, g2, g3⟩ := (yields_bind_ok _ _ _).1 hr
  obtain ⟨o, st⟩ := r
  cases o with
  | none => cases hs
  | some x =>
    obtain ⟨rfl, g3⟩ := (yields_takeResult _ _ _).1 g3
    rcases g3 with ⟨-, y, hy, hxy⟩ | ⟨-, hxy⟩
    · cases hxy
      exact hall (C106_onemax init _ (h init fin _ g2) n _ (by simp) x (takeFittest_mem hy) (by
        have : some x.genome = some (List.replicate n true) := hs
        exact Option.some.inj this))
    · cases hxy

/-- **C106** So `run` without mutation solves OneMax at most with that probability, however long it runs. -/
theorem C106_at_most (envs : Nat → Env OneMax) (henv : ∀ t, (envs t).Lawful) (progress : Q → Population OneMax → Prog (Bool × Q)) (k : Nat)
    (a : Ga Unit Empty) (p : GaParams) (hp : F64.zero.lt p.mutationRate = false) (n : Nat) (q : Q) :
    (runRandom OneMax.model (ga OneMax.model) envs progress k a (OneMax.newRandom n) p q).prob (Solved n) ≤
      (1 - 1 / 2 ^ p.populationSize) ^ n :=
  solved_at_most (ga OneMax.model) envs progress k a p n q fun l fin st h =>
    C106_ga OneMax.model _ oneMax_locuswise envs henv progress k a l p hp q fin st h

/-- **C106** The same for the adaptive genetic algorithm. -/
theorem C106_aga_at_most (envs : Nat → Env OneMax) (henv : ∀ t, (envs t).Lawful) (progress : Q → Population OneMax → Prog (Bool × Q)) (k : Nat)
    (a : Aga Unit Empty) (p : AgaParams) (hp : ZeroRange p.mutationRateRange) (n : Nat) (q : Q) :
    (runRandom OneMax.model (aga OneMax.model) envs progress k a (OneMax.newRandom n) p q).prob (Solved n) ≤
      (1 - 1 / 2 ^ p.populationSize) ^ n :=
  solved_at_most (aga OneMax.model) envs progress k a p n q fun l fin st h =>
    C106_aga OneMax.model _ oneMax_locuswise envs henv progress k a l p hp q fin st h

/-- The documented parameters without mutation, with few individuals. -/
def fewParams : GaParams := { docParams with populationSize := 4, mutationRate := F64.zero }

/-- Four individuals of 100 bits: at most one run in 600 solves OneMax, whatever the number of generations. With mutation almost all do (C71). -/
example (k : Nat) : (runRandom OneMax.model (ga OneMax.model) (fun _ => oneEnv) untilSolved k (Ga.ofModel ()) (OneMax.newRandom 100)
    fewParams ()).prob (Solved 100) ≤ 1 / 600 :=
  (C106_at_most (fun _ => oneEnv) (fun _ => oneEnv_lawful) untilSolved k (Ga.ofModel ()) fewParams (by decide +kernel) 100 ()).trans (by
    show (1 - 1 / 2 ^ 4 : ℚ) ^ 100 ≤ 1 / 600
    norm_num)

/-- Two individuals that lack a `true` bit at the third position: it never appears, although crossover joins the others. -/
example : (OneMax.crossover (OneMax.ofGenome [true, false, false]) (OneMax.ofGenome [false, true, false])).yields
      (.ok (OneMax.ofGenome [true, true, false])) ∧
    ¬ ∃ y ∈ [OneMax.ofGenome [true, false, false], OneMax.ofGenome [false, true, false]], y.genome[2]? = some true := by
  refine ⟨?_, by decide⟩
  unfold OneMax.crossover
  rw [yields_bind_ok]
  exact ⟨_, (C30_single_point _ _ _ _ _ (by rfl) (by decide) _).2 ⟨1, by decide, rfl⟩, (yields_pure _ _).2 rfl⟩

example : KeepsGenes OneMax.model (fun x => x.genome) :=
  ⟨oneMax_locuswise.improve, oneMax_locuswise.evaluate, oneMax_locuswise.preGeneration, rfl, oneMax_members, fun u => u.elim⟩

end RG.Props
