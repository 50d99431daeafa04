import Verif.Proofs.Homomorphism
import Verif.Props.OneMax

/-!
# Property C103: runs that select by rank see only the order of fitness

Two models correspond (`Homomorphism`, `SpecHomomorphism.lean`) if their individuals are ordered, valid and equal alike. Then a run of one and a
run of the other go in step, draw for draw, if parents are selected by a strategy that does not look at the fitness (tournament, rank, linear,
elitist) and the rates are not adjusted: they draw from the same ranges, call `progress` equally often on corresponding populations, stagnate
alike, and panic or end alike.
-/

set_option linter.unusedSectionVars false

namespace RG.Props
open RG RG.Prog
variable {I J : Type} [Individual I] [Individual J] {Mo U : Type} {M : EvoModel I Mo U} {M' : EvoModel J Mo U} {h : I → J} {Ok : I → Prop}
  {E : I → J → Prop} {A A' P Q : Type} {alg : EvoAlgo I Mo U A P} {alg' : EvoAlgo J Mo U A' P} {R0 RA : A → A' → Prop} {PP : P → Prop}
  {elite : A → Nat} {elite' : A' → Nat} {size : A → Nat} {size' : A' → Nat} {eliteOf eliteOf' : P → Nat}

/-- **C103** `evolve_population` of corresponding models, from corresponding individuals. -/
theorem C103_population (H : Homomorphism M M' h E Ok) (hstd : Standard M alg elite size eliteOf)
    (hstd' : Standard M' alg' elite' size' eliteOf') (HA : AlgoLike h Ok alg alg' R0 RA PP elite elite') (envs : Nat → Env I)
    (envs' : Nat → Env J) (henv : ∀ t, (envs t).Lawful) (henv' : ∀ t, (envs' t).Lawful)
    (hs : ∀ t, SortsAlike h Ok (envs t) (envs' t)) (progress : Q → Population I → Prog (Bool × Q))
    (progress' : Q → Population J → Prog (Bool × Q))
    (hpr : ∀ q p p', Population.Like h Ok p p' → Coupled Eq (progress q p) (progress' q p')) (fuel : Nat) (a : A) (a' : A')
    (ha : R0 a a') (l : List I) (l' : List J) (hl : List.Forall₂ E l l') (p : P) (hp : PP p) (q : Q) :
    Coupled (fun r r' => r'.1 = r.1 ∧ RunState.Like h Ok RA r.2 r'.2) (evolvePopulation alg envs progress fuel a l p q)
      (evolvePopulation alg' envs' progress' fuel a' l' p q) :=
  evolvePopulation_coupled H hstd hstd' HA henv henv' hs hpr fuel ha hl p hp q

/-- **C103** `run` of corresponding models: the returned individuals correspond. -/
theorem C103_run (H : Homomorphism M M' h E Ok) (hstd : Standard M alg elite size eliteOf)
    (hstd' : Standard M' alg' elite' size' eliteOf') (HA : AlgoLike h Ok alg alg' R0 RA PP elite elite') (envs : Nat → Env I)
    (envs' : Nat → Env J) (henv : ∀ t, (envs t).Lawful) (henv' : ∀ t, (envs' t).Lawful)
    (hs : ∀ t, SortsAlike h Ok (envs t) (envs' t)) (progress : Q → Population I → Prog (Bool × Q))
    (progress' : Q → Population J → Prog (Bool × Q))
    (hpr : ∀ q p p', Population.Like h Ok p p' → Coupled Eq (progress q p) (progress' q p')) (fuel : Nat) (a : A) (a' : A')
    (ha : R0 a a') (newRandom : Prog I) (newRandom' : Prog J) (hn : Coupled E newRandom newRandom') (p : P) (hp : PP p) (q : Q) :
    Coupled (fun r r' => r'.1 = r.1.map h ∧ RunState.Like h Ok RA r.2 r'.2) (runRandom M alg envs progress fuel a newRandom p q)
      (runRandom M' alg' envs' progress' fuel a' newRandom' p q) := by
  unfold runRandom
  rw [HA.modelBefore a a' ha, HA.size]
  exact (extend_coupled H _ hn _).bind fun l l' hl =>
    (evolvePopulation_coupled H hstd hstd' HA henv henv' hs hpr fuel ha hl p hp q).bind fun r r' hr => takeResult_coupled H hr

/-- **C103** `evolve_individual` of corresponding models, from corresponding individuals. -/
theorem C103_individual (H : Homomorphism M M' h E Ok) (hstd : Standard M alg elite size eliteOf)
    (hstd' : Standard M' alg' elite' size' eliteOf') (HA : AlgoLike h Ok alg alg' R0 RA PP elite elite') (envs : Nat → Env I)
    (envs' : Nat → Env J) (henv : ∀ t, (envs t).Lawful) (henv' : ∀ t, (envs' t).Lawful)
    (hs : ∀ t, SortsAlike h Ok (envs t) (envs' t)) (progress : Q → Population I → Prog (Bool × Q))
    (progress' : Q → Population J → Prog (Bool × Q))
    (hpr : ∀ q p p', Population.Like h Ok p p' → Coupled Eq (progress q p) (progress' q p')) (fuel : Nat) (a : A) (a' : A')
    (ha : R0 a a') (x : I) (x' : J) (hx : E x x') (p : P) (hp : PP p) (q : Q) :
    Coupled (fun r r' => r'.1 = r.1.map h ∧ RunState.Like h Ok RA r.2 r'.2) (evolveIndividual M alg envs progress fuel a x p q)
      (evolveIndividual M' alg' envs' progress' fuel a' x' p q) := by
  unfold evolveIndividual
  rw [HA.modelBefore a a' ha, HA.size]
  exact (extendWith_coupled H _ x x' hx _).bind fun l l' hl =>
    (evolvePopulation_coupled H hstd hstd' HA henv henv' hs hpr fuel ha hl p hp q).bind fun r r' hr => takeResult_coupled H hr

/-- **C103** The genetic algorithm is one of the algorithms above, with tournament, rank, linear or elitist selection. -/
theorem C103_ga (H : Homomorphism M M' h E Ok) :
    AlgoLike h Ok (ga M) (ga M') Eq Ga.Same (fun p => p.selectionStrategy.Ordinal) Ga.eliteSize Ga.eliteSize := ga_like H

/-- **C103** So is the adaptive one with an adjustment interval of 0. -/
theorem C103_aga (H : Homomorphism M M' h E Ok) :
    AlgoLike h Ok (aga M) (aga M') Aga.Like Aga.Same (fun p => p.selectionStrategy.Ordinal ∧ p.adjustmentInterval = 0) Aga.eliteSize
      Aga.eliteSize := aga_like H

/-- **C103** What running in step means. Any source of draws leads both programs to corresponding results, or both to a panic, and is left in
the same state. Corresponding events have the same probability. -/
theorem C103_step {α β σ : Type} {R : α → β → Prop} {p : Prog α} {q : Prog β} (hc : Coupled R p q) :
    (∀ (draw : σ → Nat → Nat × σ), (∀ s n, (draw s n).1 ≤ n) → ∀ s, (p.exec draw s).2 = (q.exec draw s).2 ∧
      ((∃ a b, (p.exec draw s).1 = .ok a ∧ (q.exec draw s).1 = .ok b ∧ R a b) ∨
        ((p.exec draw s).1 = .panic ∧ (q.exec draw s).1 = .panic) ∨
        ((p.exec draw s).1 = .diverge ∧ (q.exec draw s).1 = .diverge))) ∧
    ∀ (X : α → Prop) (Y : β → Prop) [DecidablePred X] [DecidablePred Y], (∀ a b, R a b → (X a ↔ Y b)) → p.prob X = q.prob Y := by
  refine ⟨fun draw hd s => ?_, fun X Y _ _ hXY => hc.prob X Y hXY⟩
  obtain ⟨h1, h2⟩ := hc.exec draw hd s
  refine ⟨h2, ?_⟩
  generalize (p.exec draw s).1 = x at h1 ⊢
  generalize (q.exec draw s).1 = y at h1 ⊢
  cases x <;> cases y <;> first | exact h1.elim | simp_all [Res.Alike]

/-! ### Another fitness in the same order -/

theorem unfit_like {φ : F64 → F64} {p : Population I} {p' : Population (Refit φ I)} (hp : Population.Like Refit.mk Ok p p') :
    p'.unfit = p := by
  obtain ⟨i, g, s, st⟩ := p
  unfold Population.unfit
  have e : p'.individuals.map Refit.of = i := by
    rw [hp.individuals, List.map_map]; exact List.map_id _
  rw [e, hp.generation, hp.stagnation]
  congr 1
  exact hp.wf.stats.symm

theorem coupled_map {R : I → Prop} {φ : F64 → F64} {p : Prog I} (hp : Partially R p) :
    Coupled (fun o o' => R o ∧ o' = (⟨o⟩ : Refit φ I)) p (Refit.mk <$> p) := by
  rw [map_eq_pure_bind]
  conv => arg 2; rw [← bind_pure p]
  exact (Coupled.refl_of hp).bind fun a b h => coupled_pure ⟨h.2, by rw [h.1]⟩

/-- **C103** A model and the same model with its fitness read through `φ` correspond, if `φ` keeps the order of the fitness values that
occur. -/
theorem C103_refit {Pr : I → Prop} (hM : M.Keeps Pr Ok) (φ : F64 → F64)
    (hφ : ∀ x y, Ok x → Ok y → (φ (fitness x)).partialCmp (φ (fitness y)) = (fitness x).partialCmp (fitness y)) :
    Homomorphism M (M.refit φ) (Refit.mk : I → Refit φ I) (fun x x' => Pr x ∧ x' = ⟨x⟩) Ok where
  embed x hx := ⟨hM.pr x hx, rfl⟩
  cmp := hφ
  valid _ _ := rfl
  eq _ _ _ _ := rfl
  crossover m x y hx hy := coupled_map (hM.crossover m x y hx hy)
  mutate m x x' hx := by obtain ⟨hx, rfl⟩ := hx; exact coupled_map (hM.mutate m x hx)
  improve m x x' hx := by obtain ⟨hx, rfl⟩ := hx; exact coupled_map (hM.improve m x hx)
  evaluate m x x' hx := by obtain ⟨hx, rfl⟩ := hx; exact coupled_map (hM.evaluate m x hx)
  canSurvive m o f p p' _ _ hp := by
    show Coupled Eq _ (M.canSurvive m o f p'.unfit)
    rw [unfit_like hp]; exact .refl _
  preGeneration m p p' r hp hr := by
    show Coupled _ _ (M.preGeneration m p'.unfit r)
    rw [unfit_like hp]
    exact (Coupled.refl_of (hM.preGeneration m p r hr)).mono fun a b h => ⟨h.1.symm, h.2⟩
  breed := hM.breed
  breed' := rfl
  extend := hM.extend
  extend' := rfl
  extendWith := hM.extendWith
  extendWith' := rfl

/-! ### OneMax with another score -/

/-- The OneMax model with `f` of the genome for the fitness. -/
def scored (f : List Bool → F64) : EvoModel OneMax Unit Empty :=
  { ({ OneMax.ops with evaluate := fun _ i => pure { i with fit := f i.genome } } : EvoOps OneMax Unit Empty) with }

/-- The score ranks genomes of length `n` by their number of ones. -/
structure CountsOnes (n : Nat) (f : List Bool → F64) : Prop where
  finite : ∀ g, g.length = n → (f g).isFinite = true
  lt : ∀ g g', g.length = n → g'.length = n → ((f g).lt (f g') = true ↔ ones g < ones g')

theorem partialCmp_counts {n : Nat} {f : List Bool → F64} (hf : CountsOnes n f) {g g' : List Bool} (hg : g.length = n)
    (hg' : g'.length = n) : (f g).partialCmp (f g') = some (compare (ones g) (ones g')) := by
  have h1 := hf.lt g g' hg hg'
  have h2 := hf.lt g' g hg' hg
  have n1 := F64.isNaN_of_finite (hf.finite g hg)
  have n2 := F64.isNaN_of_finite (hf.finite g' hg')
  rw [F64.lt_iff] at h1 h2
  simp only [n1, n2, true_and] at h1 h2
  unfold F64.partialCmp
  simp only [n1, n2, Bool.or_self, Bool.false_eq_true, if_false, h1, h2]
  rcases lt_trichotomy (ones g) (ones g') with h | h | h
  · rw [if_pos h, compare_lt_iff_lt.2 h]
  · rw [if_neg (by omega), if_neg (by omega), compare_eq_iff_eq.2 h]
  · rw [if_neg (by omega), if_pos h, compare_gt_iff_gt.2 h]

theorem countsOnes_ratio {n : Nat} (h0 : n ≠ 0) (hn : n < 2 ^ 53) : CountsOnes n fun g => fitness (OneMax.evaluate (OneMax.ofGenome g)) where
  finite g hg := (C63_ratio (OneMax.ofGenome g) (by intro h; simp only [OneMax.ofGenome] at h; subst h; exact h0 hg.symm)
    (by show g.length ≤ _; omega)).2.1
  lt g g' hg hg' := C63_strict (OneMax.ofGenome g) (OneMax.ofGenome g')
    (by intro h; simp only [OneMax.ofGenome] at h; subst h; exact h0 hg.symm) (by show g.length < _; omega) (hg'.trans hg.symm)

theorem scored_eq {n : Nat} {f f' : List Bool → F64} (hf : CountsOnes n f) (hf' : CountsOnes n f') (x y : OneMax)
    (hx : x.genome.length = n ∧ x.fit = f x.genome) (hy : y.genome.length = n ∧ y.fit = f y.genome) :
    Individual.eq (⟨x.genome, f' x.genome⟩ : OneMax) ⟨y.genome, f' y.genome⟩ = Individual.eq x y := by
  show (x.genome == y.genome && (f' x.genome).feq (f' y.genome)) = (x.genome == y.genome && x.fit.feq y.fit)
  rcases hb : x.genome == y.genome
  · rfl
  · have e := eq_of_beq hb
    have e1 : (f' y.genome).feq (f' y.genome) = true :=
      F64.feq_iff.2 ⟨F64.isNaN_of_finite (hf'.finite _ hy.1), F64.isNaN_of_finite (hf'.finite _ hy.1), rfl⟩
    have e2 : (f y.genome).feq (f y.genome) = true :=
      F64.feq_iff.2 ⟨F64.isNaN_of_finite (hf.finite _ hy.1), F64.isNaN_of_finite (hf.finite _ hy.1), rfl⟩
    rw [hx.2, hy.2, e, e1, e2]

theorem scored_crossover {n : Nat} (h0 : n ≠ 0) (x y x' y' : OneMax) (hx : x.genome.length = n) (hy : y.genome.length = n)
    (ex : x'.genome = x.genome) (ey : y'.genome = y.genome) :
    Coupled (fun o o' : OneMax => o'.genome = o.genome ∧ o.genome.length = n) (OneMax.crossover x y) (OneMax.crossover x' y') := by
  have e : OneMax.crossover x' y' = OneMax.crossover x y := by unfold OneMax.crossover; rw [ex, ey]
  rw [e]
  have hP : Always (fun o : OneMax => o.genome.length = n ∧ ∀ b ∈ o.genome, True) (OneMax.crossover x y) :=
    (C63_operators (fun _ => True) n h0).crossover () x y ⟨hx, by simp⟩ ⟨hy, by simp⟩
  exact (Coupled.refl_of hP.partially).mono fun a b h => ⟨by rw [h.1], h.2.1⟩

theorem scored_mutate {n : Nat} (x x' : OneMax) (hx : x'.genome = x.genome ∧ x.genome.length = n) :
    Coupled (fun o o' : OneMax => o'.genome = o.genome ∧ o.genome.length = n) (OneMax.mutate x) (OneMax.mutate x') := by
  unfold OneMax.mutate
  rw [hx.1]
  exact (Coupled.refl_of (C37_length .duplicate x.genome).partially).bind fun a b h => coupled_pure ⟨by rw [h.1], h.2.trans hx.2⟩

theorem scored_survives {n : Nat} {f f' : List Bool → F64} (hf : CountsOnes n f) (hf' : CountsOnes n f') (x y : OneMax)
    (hx : x.genome.length = n ∧ x.fit = f x.genome) (hy : y.genome.length = n ∧ y.fit = f y.genome) :
    defaultCanSurvive x y = defaultCanSurvive (⟨x.genome, f' x.genome⟩ : OneMax) ⟨y.genome, f' y.genome⟩ := by
  show y.fit.le x.fit = (f' y.genome).le (f' x.genome)
  rw [Bool.eq_iff_iff, partialCmp_le, partialCmp_le, hx.2, hy.2, partialCmp_counts hf hy.1 hx.1, partialCmp_counts hf' hy.1 hx.1]

theorem scored_homomorphism {n : Nat} (h0 : n ≠ 0) {f f' : List Bool → F64} (hf : CountsOnes n f) (hf' : CountsOnes n f') :
    Homomorphism (scored f) (scored f') (fun x => ⟨x.genome, f' x.genome⟩)
      (fun x x' => x'.genome = x.genome ∧ x.genome.length = n) (fun x => x.genome.length = n ∧ x.fit = f x.genome) := by
  refine ⟨?_, ?_, ?_, ?_, ?_, ?_, ?_, ?_, ?_, ?_, ?_, ?_, ?_, ?_, ?_, ?_⟩
  · exact fun x hx => ⟨rfl, hx.1⟩
  · intro x y hx hy
    show (f' x.genome).partialCmp (f' y.genome) = x.fit.partialCmp y.fit
    rw [hx.2, hy.2, partialCmp_counts hf hx.1 hy.1, partialCmp_counts hf' hx.1 hy.1]
  · intro x hx
    show (f' x.genome).isFinite = x.fit.isFinite
    rw [hx.2, hf.finite _ hx.1, hf'.finite _ hx.1]
  · exact scored_eq hf hf'
  · intro _ x y hx hy
    exact scored_crossover h0 x y _ _ hx.1 hy.1 rfl rfl
  · intro _ x x' hx
    exact scored_mutate x x' hx
  · intro _ x x' hx
    exact coupled_pure hx
  · intro _ x x' hx
    exact coupled_pure ⟨⟨hx.2, rfl⟩, by rw [hx.1]⟩
  · intro _ x y p p' hx hy _
    exact coupled_pure (scored_survives hf hf' x y hx hy)
  · intro _ p p' r _ hr
    exact coupled_pure ⟨rfl, hr⟩
  all_goals rfl

/-- The score of `lib.rs:162-166`. -/
def ratio (g : List Bool) : F64 := (F64.ofNat (g.filter fun one => one).length).div (F64.ofNat g.length)

theorem oneMax_scored : OneMax.model = scored ratio := rfl

/-- The populations have the same genomes in the same places, the same generation and the same stagnation. -/
def SameGenomes (p p' : Population OneMax) : Prop :=
  p'.individuals.map OneMax.genome = p.individuals.map OneMax.genome ∧ p'.generation = p.generation ∧ p'.stagnation = p.stagnation

theorem like_genomes {f' : List Bool → F64} {Ok : OneMax → Prop} {p p' : Population OneMax}
    (hp : Population.Like (fun x : OneMax => (⟨x.genome, f' x.genome⟩ : OneMax)) Ok p p') : SameGenomes p p' :=
  ⟨by rw [hp.individuals, List.map_map]; rfl, hp.generation, hp.stagnation⟩

theorem newRandom_coupled (n : Nat) :
    Coupled (fun x x' : OneMax => x'.genome = x.genome ∧ x.genome.length = n) (OneMax.newRandom n) (OneMax.newRandom n) :=
  (Coupled.refl_of (newRandom_length n).partially).mono fun a b h => ⟨by rw [h.1], h.2⟩

/-- **C103** OneMax with any score that ranks genomes by their number of ones makes the same runs as OneMax: with the same draws the genomes of
all populations shown, of the last one and of the returned individual are the same. -/
theorem C103_oneMax (n : Nat) (h0 : n ≠ 0) (hn : n < 2 ^ 53) (f : List Bool → F64) (hf : CountsOnes n f) (envs envs' : Nat → Env OneMax)
    (henv : ∀ t, (envs t).Lawful) (henv' : ∀ t, (envs' t).Lawful)
    (hs : ∀ t, SortsAlike (fun x => ⟨x.genome, f x.genome⟩) (fun x => x.genome.length = n ∧ x.fit = ratio x.genome) (envs t) (envs' t))
    (progress : Q → Population OneMax → Prog (Bool × Q)) (hpr : ∀ q p p', SameGenomes p p' → Coupled Eq (progress q p) (progress q p'))
    (fuel : Nat) (p : GaParams) (hp : p.selectionStrategy.Ordinal) (q : Q) :
    Coupled (fun r r' => r'.1.map OneMax.genome = r.1.map OneMax.genome ∧ SameGenomes r.2.population r'.2.population ∧ r'.2.q = r.2.q ∧
        List.Forall₂ SameGenomes r.2.shown r'.2.shown)
      (runRandom OneMax.model (ga OneMax.model) envs progress fuel (Ga.ofModel ()) (OneMax.newRandom n) p q)
      (runRandom (scored f) (ga (scored f)) envs' progress fuel (Ga.ofModel ()) (OneMax.newRandom n) p q) := by
  have H := scored_homomorphism h0 (countsOnes_ratio h0 hn) hf
  have hr := C103_run H (ga_standard _) (ga_standard _) (C103_ga H) envs envs' henv henv' hs progress progress
    (fun q p p' h => hpr q p p' (like_genomes h)) fuel (Ga.ofModel ()) (Ga.ofModel ()) rfl _ _ (newRandom_coupled n) p hp q
  refine Coupled.mono hr fun r r' h => ⟨?_, like_genomes h.2.population, h.2.q, h.2.shown.imp fun _ _ h => like_genomes h⟩
  rw [h.1, Option.map_map]
  rfl

/-! ### Examples -/

/-- Sorts that only compare do the same. -/
theorem refSort_alike (hc : ∀ x y, Ok x → Ok y → (fitness (h x)).partialCmp (fitness (h y)) = (fitness x).partialCmp (fitness y))
    (num num' : NumEnv) : SortsAlike h Ok ⟨refSort, num⟩ ⟨refSort, num'⟩ := by
  have hi : ∀ (l : List I) (x : I), Ok x → (∀ y ∈ l, Ok y) → insertFit (h x) (l.map h) = (insertFit x l).map h := by
    intro l x hx
    induction l with
    | nil => intro _; rfl
    | cons y l ih =>
      intro hl
      have e : compareFitness (h x) (h y) = compareFitness x y := by
        unfold compareFitness; rw [hc x y hx (hl y (by simp))]
      simp only [List.map_cons, insertFit, e]
      by_cases hg : compareFitness x y = .gt
      · rw [if_pos hg, if_pos hg, List.map_cons, ih fun z hz => hl z (List.mem_cons_of_mem _ hz)]
      · rw [if_neg hg, if_neg hg]; rfl
  intro l hl
  show refSort (l.map h) = (refSort l).map h
  induction l with
  | nil => rfl
  | cons x l ih =>
    have hl' := fun y hy => hl y (List.mem_cons_of_mem _ hy)
    rw [List.map_cons, refSort, refSort, ih hl']
    exact hi _ x (hl x (by simp)) fun y hy => hl' y ((refSort_perm l).mem_iff.1 hy)

/-- The square of the number of ones. -/
def squareScore (g : List Bool) : F64 := F64.ofNat (ones g ^ 2)

theorem squareScore_counts {n : Nat} (hn : n ≤ 2 ^ 26) : CountsOnes n squareScore where
  finite g hg := (F64.ofNat_exact (n := ones g ^ 2) (by
    have : ones g ≤ 2 ^ 26 := (List.count_le_length (a := true) (l := g)).trans (hg.le.trans hn)
    nlinarith)).1
  lt g g' hg hg' := by
    have hb : ∀ g : List Bool, g.length = n → ones g ^ 2 ≤ 2 ^ 53 := fun g hg => by
      have : ones g ≤ 2 ^ 26 := (List.count_le_length (a := true) (l := g)).trans (hg.le.trans hn)
      nlinarith
    obtain ⟨f1, v1⟩ := F64.ofNat_exact (hb g hg)
    obtain ⟨f2, v2⟩ := F64.ofNat_exact (hb g' hg')
    unfold squareScore
    rw [F64.lt_finite f1 f2, v1, v2, Nat.cast_lt]
    exact Nat.pow_lt_pow_iff_left (by norm_num)

-- runs with the number of ones squared for the fitness are those of OneMax: here with the default parameters but tournaments
example (fuel n : Nat) (h0 : n ≠ 0) (hn : n ≤ 2 ^ 26) :
    Coupled (fun r r' => r'.1.map OneMax.genome = r.1.map OneMax.genome ∧ SameGenomes r.2.population r'.2.population ∧ r'.2.q = r.2.q ∧
        List.Forall₂ SameGenomes r.2.shown r'.2.shown)
      (runRandom OneMax.model (ga OneMax.model) (fun _ => oneEnv) (fun (_ : Unit) p => pure (decide (p.stagnation < 10), ())) fuel
        (Ga.ofModel ()) (OneMax.newRandom n) { GaParams.default with selectionStrategy := .tournament 3 } ())
      (runRandom (scored squareScore) (ga (scored squareScore)) (fun _ => oneEnv)
        (fun (_ : Unit) p => pure (decide (p.stagnation < 10), ())) fuel (Ga.ofModel ()) (OneMax.newRandom n)
        { GaParams.default with selectionStrategy := .tournament 3 } ()) :=
  C103_oneMax n h0 (by omega) squareScore (squareScore_counts hn) _ _ (fun _ => oneEnv_lawful) (fun _ => oneEnv_lawful)
    (fun _ => refSort_alike (scored_homomorphism h0 (countsOnes_ratio h0 (by omega)) (squareScore_counts hn)).cmp _ _) _
    (fun q p p' h => by rw [h.2.2]; exact .refl _) fuel { GaParams.default with selectionStrategy := .tournament 3 } trivial ()

/-- Two individuals, no elites, no crossover and no mutation. -/
def copyParams (s : SelectionStrategy) : GaParams :=
  { populationSize := 2, elitismRate := F64.zero, crossoverRate := F64.zero, mutationRate := F64.zero, selectionStrategy := s }

/-- **C103** Roulette wheel selection sees more than the order: with the same draws one run keeps the worse of two genomes and the other one the
better. -/
theorem C103_wheel : CountsOnes 2 squareScore ∧
    ((evolvePopulation (ga OneMax.model) (fun _ => oneEnv) (fun q p => pure (decide (p.generation < 1), q)) 2 (Ga.ofModel ())
      [OneMax.ofGenome [true, false], OneMax.ofGenome [true, true]] (copyParams .rouletteWheel) ()).exec drawList
        [2 ^ 51, 2 ^ 51, 2 ^ 51, 2 ^ 51, 2 ^ 51, 2 ^ 51]).1.okAnd
      (fun r => r.2.population.individuals.map OneMax.genome = [[true, false]]) = true ∧
    ((evolvePopulation (ga (scored squareScore)) (fun _ => oneEnv) (fun q p => pure (decide (p.generation < 1), q)) 2 (Ga.ofModel ())
      [OneMax.ofGenome [true, false], OneMax.ofGenome [true, true]] (copyParams .rouletteWheel) ()).exec drawList
        [2 ^ 51, 2 ^ 51, 2 ^ 51, 2 ^ 51, 2 ^ 51, 2 ^ 51]).1.okAnd
      (fun r => r.2.population.individuals.map OneMax.genome = [[true, true]]) = true :=
  ⟨squareScore_counts (by norm_num), by decide +kernel, by decide +kernel⟩

/-- Three individuals, no elites, tournaments of one; rates in `[0, 1/2]`, adjusted in every generation. -/
def adaptParams : AgaParams :=
  { populationSize := 3, elitismRate := F64.zero, crossoverRateRange := ⟨F64.zero, F64.lit (1 / 2)⟩,
    mutationRateRange := ⟨F64.zero, F64.lit (1 / 2)⟩, selectionStrategy := .tournament 1, adjustmentInterval := 1 }

/-- Two generations from three individuals; in the first one the worst is drawn once and the middle one twice. -/
def adaptRun (f : List Bool → F64) : Res (Bool × RunState OneMax (Aga Unit Empty) Unit) :=
  ((evolvePopulation (aga (scored f)) (fun _ => oneEnv) (fun q p => pure (decide (p.generation < 2), q)) 3 (Aga.ofModel ())
    [OneMax.ofGenome [false, false], OneMax.ofGenome [true, false], OneMax.ofGenome [true, true]] adaptParams ()).exec drawList
      [0, 2 ^ 52, 0, 1, 2 ^ 52, 0, 1, 2 ^ 52, 0]).1

/-- **C103** Adjusting the rates sees more than the order: with the same draws both runs have the same genomes in generation 1, but use
different rates for the next one. -/
theorem C103_adaptive : CountsOnes 2 squareScore ∧ OneMax.model = scored ratio ∧ ∃ r r', adaptRun ratio = .ok r ∧ adaptRun squareScore = .ok r' ∧
    (r.2.shown.map (fun p => p.individuals.map OneMax.genome)).take 2 =
      [[[false, false], [true, false], [true, true]], [[false, false], [true, false]]] ∧
    (r'.2.shown.map (fun p => p.individuals.map OneMax.genome)).take 2 =
      (r.2.shown.map (fun p => p.individuals.map OneMax.genome)).take 2 ∧
    r.2.algo.breeding.mutationRate.lt r'.2.algo.breeding.mutationRate = true := by
  have hk : (adaptRun ratio).okAnd (fun r => (adaptRun squareScore).okAnd (fun r' =>
      (r.2.shown.map (fun p => p.individuals.map OneMax.genome)).take 2 =
        [[[false, false], [true, false], [true, true]], [[false, false], [true, false]]] ∧
      (r'.2.shown.map (fun p => p.individuals.map OneMax.genome)).take 2 =
        (r.2.shown.map (fun p => p.individuals.map OneMax.genome)).take 2 ∧
      r.2.algo.breeding.mutationRate.lt r'.2.algo.breeding.mutationRate = true) = true) = true := by decide +kernel
  obtain ⟨r, h1, h2⟩ := Res.of_okAnd hk
  obtain ⟨r', h3, h4⟩ := Res.of_okAnd (of_decide_eq_true h2)
  exact ⟨squareScore_counts (by norm_num), rfl, r, r', h1, h3, of_decide_eq_true h4⟩

-- OneMax meets the conditions of `C103_refit`, and squaring the ratio of ones keeps the order for two bits
example : OneMax.model.Keeps (fun x => x.genome.length = 2) (fun x => x.genome.length = 2 ∧ x.fit = ratio x.genome) ∧
    ∀ x y : OneMax, x.genome.length = 2 ∧ x.fit = ratio x.genome → y.genome.length = 2 ∧ y.fit = ratio y.genome →
      ((fitness x).mul (fitness x)).partialCmp ((fitness y).mul (fitness y)) = (fitness x).partialCmp (fitness y) := by
  refine ⟨⟨fun _ h => h.1, fun _ x y hx hy r hr => ?_, fun _ x hx => ?_, fun _ x hx => (show Partially _ (pure x) from Always.partially (by rw [always_pure]; exact hx)),
    fun _ x hx => (show Partially _ (pure (OneMax.evaluate x)) from ((always_pure _ _).2 ⟨hx, rfl⟩).partially),
    fun _ p r hr => (show Partially _ (pure ((), r)) from Always.partially (by rw [always_pure]; exact hr)), rfl, rfl, rfl⟩, ?_⟩
  · exact (((C63_operators (fun _ => True) 2 (by norm_num)).crossover () x y ⟨hx.1, by simp⟩ ⟨hy.1, by simp⟩).partially r hr).1
  · exact fun r hr => (((C63_operators (fun _ => True) 2 (by norm_num)).mutate () x ⟨hx, by simp⟩).partially r hr).1
  · rintro ⟨g, f⟩ ⟨g', f'⟩ ⟨h1, h2⟩ ⟨h3, h4⟩
    obtain ⟨a, b, rfl⟩ := List.length_eq_two.1 h1
    obtain ⟨c, d, rfl⟩ := List.length_eq_two.1 h3
    simp only at h2 h4
    subst h2
    subst h4
    clear h1 h3
    revert a b c d
    decide +kernel

end RG.Props
