import Verif.Props.Homomorphism

/-!
# Property C104: what the unstable sort can change

`par_sort_unstable_by` may order individuals of equal fitness in any way, and a parallel sum may be bracketed in any way. If different
individuals have different fitness, no run that selects by rank depends on that. With ties, populations do; and with roulette wheel selection
runs depend on how the sum is bracketed.
-/

set_option linter.unusedSectionVars false

namespace RG.Props
open RG RG.Prog
variable {I : Type} [Individual I] {Mo U A P Q : Type} {M : EvoModel I Mo U} {Pr Ok : I → Prop}

/-- Individuals with `Ok` have a fitness that is not NaN, and different ones have different fitness. -/
structure ToldApart (Ok : I → Prop) : Prop where
  number : ∀ x, Ok x → (fitness x).isNaN = false
  apart : ∀ x y, Ok x → Ok y → (fitness x).feq (fitness y) = true → x = y

/-- **C104** All sorts that meet the contract give the same order. -/
theorem C104_sort (hsep : ToldApart Ok) {s s' : List I → List I} (hs : LawfulSort s) (hs' : LawfulSort s') (l : List I)
    (hl : ∀ x ∈ l, Ok x) : s l = s' l := by
  have h1 := hs.sorted l fun i hi => hsep.number i (hl i hi)
  have h2 := hs'.sorted l fun i hi => hsep.number i (hl i hi)
  have m1 : ∀ x ∈ s l, Ok x := fun x hx => hl x ((hs.perm l).mem_iff.1 hx)
  have m2 : ∀ x ∈ s' l, Ok x := fun x hx => hl x ((hs'.perm l).mem_iff.1 hx)
  refine List.Perm.eq_of_pairwise ?_ h1 h2 ((hs.perm l).trans (hs'.perm l).symm)
  intro a b ha hb hab hba
  have na := hsep.number a (m1 a ha)
  have nb := hsep.number b (m2 b hb)
  rw [compareFitness_ne_gt na nb, F64.le_iff] at hab
  rw [compareFitness_ne_gt nb na, F64.le_iff] at hba
  exact hsep.apart a b (m1 a ha) (m2 b hb) (F64.feq_iff.2 ⟨na, nb, le_antisymm hab.2.2 hba.2.2⟩)

/-- **C104** So the population made from given individuals, and the next one, are determined. -/
theorem C104_population (hsep : ToldApart Ok) {s s' : List I → List I} (hs : LawfulSort s) (hs' : LawfulSort s') (l : List I)
    (hl : ∀ x ∈ l, Ok x) (p : Population I) :
    Population.new s l = Population.new s' l ∧ p.replace s l = p.replace s' l := by
  have e := C104_sort hsep hs hs' l hl
  rw [Population.new_eq hs, Population.new_eq hs', Population.replace_eq hs, Population.replace_eq hs', e]
  exact ⟨rfl, rfl⟩

theorem like_id {p p' : Population I} (hp : Population.Like id Ok p p') : p' = p := by
  obtain ⟨i, g, s, st⟩ := p
  obtain ⟨i', g', s', st'⟩ := p'
  obtain ⟨w, w', e1, e2, e3, -⟩ := hp
  simp only [List.map_id] at e1 e2 e3
  subst e1 e2 e3
  congr 1
  exact w'.stats.trans w.stats.symm

theorem keeps_id (hM : M.Keeps Pr Ok) : Homomorphism M M id (fun x x' => Pr x ∧ x' = x) Ok where
  embed x hx := ⟨hM.pr x hx, rfl⟩
  cmp _ _ _ _ := rfl
  valid _ _ := rfl
  eq _ _ _ _ := rfl
  crossover m x y hx hy := (Coupled.refl_of (hM.crossover m x y hx hy)).mono fun a b h => ⟨h.2, h.1.symm⟩
  mutate m x x' hx := by
    obtain ⟨hx, rfl⟩ := hx
    exact (Coupled.refl_of (hM.mutate m _ hx)).mono fun a b h => ⟨h.2, h.1.symm⟩
  improve m x x' hx := by
    obtain ⟨hx, rfl⟩ := hx
    exact (Coupled.refl_of (hM.improve m _ hx)).mono fun a b h => ⟨h.2, h.1.symm⟩
  evaluate m x x' hx := by
    obtain ⟨hx, rfl⟩ := hx
    exact (Coupled.refl_of (hM.evaluate m _ hx)).mono fun a b h => ⟨h.2, h.1.symm⟩
  canSurvive m o f p p' _ _ hp := by rw [like_id hp]; exact .refl _
  preGeneration m p p' r hp hr := by
    rw [like_id hp]
    exact (Coupled.refl_of (hM.preGeneration m p r hr)).mono fun a b h => ⟨h.1.symm, h.2⟩
  breed := hM.breed
  breed' := hM.breed
  extend := hM.extend
  extend' := hM.extend
  extendWith := hM.extendWith
  extendWith' := hM.extendWith

/-- States of the adaptive algorithm during runs that select by rank. -/
def AgaEq (a a' : Aga Mo U) : Prop := a' = a ∧ a.breeding.parentSelector.Ordinal

theorem aga_id (hM : M.Keeps Pr Ok) :
    AlgoLike id Ok (aga M) (aga M) Eq AgaEq (fun p => p.selectionStrategy.Ordinal) Aga.eliteSize Aga.eliteSize where
  size _ := rfl
  modelBefore _ _ e := by rw [e]
  configure a a' p e hp := by
    subst e
    show Res.Alike AgaEq (Aga.configure a p) (Aga.configure a p)
    unfold Aga.configure
    rcases p.validate with u | _ | _ <;> try exact trivial
    rcases interpolateUsize 0 p.populationSize p.elitismRate with n | _ | _ <;> try exact trivial
    rcases he : p.selectionStrategy.createSelector with sel | _ | _ <;> try exact trivial
    exact ⟨rfl, createSelector_ordinal _ hp sel he⟩
  prepare env env' a a' p p' e hp := by
    obtain ⟨rfl, ho⟩ := e
    rw [like_id hp]
    show Coupled _ (Aga.prepare M env a' p) (Aga.prepare M env' a' p)
    have hadj : (a'.adjust p.generation p.stats.std).breeding.parentSelector.Ordinal := by
      unfold Aga.adjust
      split
      · exact ho
      · split <;> exact ho
    unfold Aga.prepare
    generalize a'.adjust p.generation p.stats.std = b at hadj ⊢
    refine (Coupled.refl_of (hM.preGeneration b.model p b.breeding hadj)).bind fun s s' hs => ?_
    obtain ⟨rfl, hso⟩ := hs
    refine coupled_pure ?_
    simp only [prepare_ordinal hso]
    exact ⟨rfl, hso⟩
  model a a' e := by rw [e.1]
  repro a a' e := by rw [e.1]; exact ⟨rfl, e.2⟩
  elite a a' e := by rw [e.1]

theorem runState_eq {RA : A → A → Prop} (hRA : ∀ a a', RA a a' → a' = a) {st st' : RunState I A Q} (hs : RunState.Like id Ok RA st st') :
    st' = st := by
  obtain ⟨a, p, b, q, sh⟩ := st
  obtain ⟨a', p', b', q', sh'⟩ := st'
  obtain ⟨h1, h2, h3, h4, h5⟩ := hs
  simp only at h1 h2 h3 h4 h5
  rw [List.map_id] at h3
  have e5 : sh' = sh := by
    induction h5 with
    | nil => rfl
    | cons h _ ih => rw [like_id h, ih]
  rw [hRA _ _ h1, like_id h2, h3, h4, e5]

theorem sorts_id (hsep : ToldApart Ok) {env env' : Env I} (henv : env.Lawful) (henv' : env'.Lawful) : SortsAlike id Ok env env' :=
  fun l hl => by rw [List.map_id, List.map_id, C104_sort hsep henv.sort henv'.sort l hl]

variable {alg : EvoAlgo I Mo U A P} {R0 RA : A → A → Prop} {PP : P → Prop} {elite size : A → Nat} {eliteOf : P → Nat}

/-- **C104** `evolve_population`: the run is the same whatever the sort does with ties and however the sums are bracketed. -/
theorem C104_evolve (hM : M.Keeps Pr Ok) (hsep : ToldApart Ok) (hstd : Standard M alg elite size eliteOf)
    (HA : AlgoLike id Ok alg alg Eq RA PP elite elite) (hRA : ∀ a a', RA a a' → a' = a) (envs envs' : Nat → Env I)
    (henv : ∀ t, (envs t).Lawful) (henv' : ∀ t, (envs' t).Lawful) (progress : Q → Population I → Prog (Bool × Q)) (fuel : Nat) (a : A)
    (l : List I) (hl : ∀ x ∈ l, Pr x) (p : P) (hp : PP p) (q : Q) :
    Coupled Eq (evolvePopulation alg envs progress fuel a l p q) (evolvePopulation alg envs' progress fuel a l p q) := by
  have hl' : List.Forall₂ (fun x x' => Pr x ∧ x' = x) l l := List.forall₂_same.2 fun x hx => ⟨hl x hx, rfl⟩
  refine (C103_population (keeps_id hM) hstd hstd HA envs envs' henv henv' (fun t => sorts_id hsep (henv t) (henv' t)) progress progress
    (fun q p p' h => by rw [like_id h]; exact .refl _) fuel a a rfl l l hl' p hp q).mono fun r r' h => ?_
  exact Prod.ext h.1.symm (runState_eq hRA h.2).symm

/-- **C104** `run` likewise: the same individual is returned, after the same populations. -/
theorem C104_run (hM : M.Keeps Pr Ok) (hsep : ToldApart Ok) (hstd : Standard M alg elite size eliteOf)
    (HA : AlgoLike id Ok alg alg Eq RA PP elite elite) (hRA : ∀ a a', RA a a' → a' = a) (envs envs' : Nat → Env I)
    (henv : ∀ t, (envs t).Lawful) (henv' : ∀ t, (envs' t).Lawful) (progress : Q → Population I → Prog (Bool × Q)) (fuel : Nat) (a : A)
    (newRandom : Prog I) (hn : Partially Pr newRandom) (p : P) (hp : PP p) (q : Q) :
    Coupled Eq (runRandom M alg envs progress fuel a newRandom p q) (runRandom M alg envs' progress fuel a newRandom p q) := by
  refine (C103_run (keeps_id hM) hstd hstd HA envs envs' henv henv' (fun t => sorts_id hsep (henv t) (henv' t)) progress progress
    (fun q p p' h => by rw [like_id h]; exact .refl _) fuel a a rfl newRandom newRandom
    ((Coupled.refl_of hn).mono fun a b h => ⟨h.2, h.1.symm⟩) p hp q).mono fun r r' h => ?_
  refine Prod.ext ?_ (runState_eq hRA h.2).symm
  rw [h.1, Option.map_id]
  rfl

/-- **C104** `evolve_individual` likewise. -/
theorem C104_individual (hM : M.Keeps Pr Ok) (hsep : ToldApart Ok) (hstd : Standard M alg elite size eliteOf)
    (HA : AlgoLike id Ok alg alg Eq RA PP elite elite) (hRA : ∀ a a', RA a a' → a' = a) (envs envs' : Nat → Env I)
    (henv : ∀ t, (envs t).Lawful) (henv' : ∀ t, (envs' t).Lawful) (progress : Q → Population I → Prog (Bool × Q)) (fuel : Nat) (a : A)
    (x : I) (hx : Pr x) (p : P) (hp : PP p) (q : Q) :
    Coupled Eq (evolveIndividual M alg envs progress fuel a x p q) (evolveIndividual M alg envs' progress fuel a x p q) := by
  refine (C103_individual (keeps_id hM) hstd hstd HA envs envs' henv henv' (fun t => sorts_id hsep (henv t) (henv' t)) progress progress
    (fun q p p' h => by rw [like_id h]; exact .refl _) fuel a a rfl x x ⟨hx, rfl⟩ p hp q).mono fun r r' h => ?_
  refine Prod.ext ?_ (runState_eq hRA h.2).symm
  rw [h.1, Option.map_id]
  rfl

/-- **C104** The genetic algorithm: `evolve_population` with selection by rank. -/
theorem C104_ga (hM : M.Keeps Pr Ok) (hsep : ToldApart Ok) (envs envs' : Nat → Env I) (henv : ∀ t, (envs t).Lawful)
    (henv' : ∀ t, (envs' t).Lawful) (progress : Q → Population I → Prog (Bool × Q)) (fuel : Nat) (a : Ga Mo U) (l : List I)
    (hl : ∀ x ∈ l, Pr x) (p : GaParams) (hp : p.selectionStrategy.Ordinal) (q : Q) :
    Coupled Eq (evolvePopulation (ga M) envs progress fuel a l p q) (evolvePopulation (ga M) envs' progress fuel a l p q) :=
  C104_evolve hM hsep (ga_standard M) (C103_ga (keeps_id hM)) (fun _ _ h => h.1) envs envs' henv henv' progress fuel a l hl p hp q

/-- **C104** The adaptive genetic algorithm, also while it adjusts the rates. -/
theorem C104_aga (hM : M.Keeps Pr Ok) (hsep : ToldApart Ok) (envs envs' : Nat → Env I) (henv : ∀ t, (envs t).Lawful)
    (henv' : ∀ t, (envs' t).Lawful) (progress : Q → Population I → Prog (Bool × Q)) (fuel : Nat) (a : Aga Mo U) (l : List I)
    (hl : ∀ x ∈ l, Pr x) (p : AgaParams) (hp : p.selectionStrategy.Ordinal) (q : Q) :
    Coupled Eq (evolvePopulation (aga M) envs progress fuel a l p q) (evolvePopulation (aga M) envs' progress fuel a l p q) :=
  C104_evolve hM hsep (aga_standard M) (aga_id hM) (fun _ _ h => h.1) envs envs' henv henv' progress fuel a l hl p hp q

/-! ### Bits scored apart -/

theorem scored_keeps {n : Nat} (h0 : n ≠ 0) (f : List Bool → F64) :
    (scored f).Keeps (fun x => x.genome.length = n) (fun x => x.genome.length = n ∧ x.fit = f x.genome) := by
  refine ⟨fun _ h => h.1, fun _ x y hx hy r hr => ?_, fun _ x hx => ?_,
    fun _ x hx => (show Partially _ (pure x) from Always.partially (by rw [always_pure]; exact hx)),
    fun _ x hx => (show Partially _ (pure (⟨x.genome, f x.genome⟩ : OneMax)) from ((always_pure _ _).2 ⟨hx, rfl⟩).partially),
    fun _ p r hr => (show Partially _ (pure ((), r)) from Always.partially (by rw [always_pure]; exact hr)), rfl, rfl, rfl⟩
  · exact (((C63_operators (fun _ => True) n h0).crossover () x y ⟨hx.1, by simp⟩ ⟨hy.1, by simp⟩).partially r hr).1
  · exact fun r hr => (((C63_operators (fun _ => True) n h0).mutate () x ⟨hx, by simp⟩).partially r hr).1

theorem scored_apart {n : Nat} {f : List Bool → F64} (hnum : ∀ g, g.length = n → (f g).isNaN = false)
    (hinj : ∀ g g', g.length = n → g'.length = n → (f g).feq (f g') = true → g = g') :
    ToldApart fun x : OneMax => x.genome.length = n ∧ x.fit = f x.genome where
  number x hx := by
    show x.fit.isNaN = false
    rw [hx.2]; exact hnum _ hx.1
  apart x y hx hy h := by
    obtain ⟨g, v⟩ := x
    obtain ⟨g', v'⟩ := y
    obtain ⟨h1, e1⟩ := hx
    obtain ⟨h2, e2⟩ := hy
    simp only at h1 e1 h2 e2
    subst e1 e2
    rw [hinj g g' h1 h2 h]

/-- **C104** OneMax with a score that tells all genomes apart: `run` does not depend on the sort or on how sums are bracketed. -/
theorem C104_scored (n : Nat) (h0 : n ≠ 0) (f : List Bool → F64) (hnum : ∀ g, g.length = n → (f g).isNaN = false)
    (hinj : ∀ g g', g.length = n → g'.length = n → (f g).feq (f g') = true → g = g') (envs envs' : Nat → Env OneMax)
    (henv : ∀ t, (envs t).Lawful) (henv' : ∀ t, (envs' t).Lawful) (progress : Q → Population OneMax → Prog (Bool × Q)) (fuel : Nat)
    (p : GaParams) (hp : p.selectionStrategy.Ordinal) (q : Q) :
    Coupled Eq (runRandom (scored f) (ga (scored f)) envs progress fuel (Ga.ofModel ()) (OneMax.newRandom n) p q)
      (runRandom (scored f) (ga (scored f)) envs' progress fuel (Ga.ofModel ()) (OneMax.newRandom n) p q) :=
  C104_run (scored_keeps h0 f) (scored_apart hnum hinj) (ga_standard _) (C103_ga (keeps_id (scored_keeps h0 f))) (fun _ _ h => h.1) envs
    envs' henv henv' progress fuel _ _ (newRandom_length n).partially p hp q

/-! ### Ties -/

/-- A sort that first exchanges the second and the third of three. -/
def swapSort {I : Type} [Individual I] : List I → List I
  | [x, y, z] => refSort [x, z, y]
  | l => refSort l

theorem swapSort_lawful : LawfulSort (swapSort : List I → List I) := by
  have hp : ∀ l : List I, ∃ l', l'.Perm l ∧ swapSort l = refSort l' := by
    intro l
    match l with
    | [] => exact ⟨_, .refl _, rfl⟩
    | [_] => exact ⟨_, .refl _, rfl⟩
    | [_, _] => exact ⟨_, .refl _, rfl⟩
    | [x, y, z] => exact ⟨[x, z, y], .cons _ (.swap _ _ _), rfl⟩
    | _ :: _ :: _ :: _ :: _ => exact ⟨_, .refl _, rfl⟩
  refine ⟨fun l => ?_, fun l hl => ?_⟩
  · obtain ⟨l', h1, h2⟩ := hp l
    rw [h2]
    exact (refSort_lawful.perm l').trans h1
  · obtain ⟨l', h1, h2⟩ := hp l
    rw [h2]
    exact refSort_lawful.sorted l' fun i hi => hl i (h1.mem_iff.1 hi)

/-- The environment of the examples with the other sort. -/
def swapEnv : Env OneMax := ⟨swapSort, exEnv⟩

theorem swapEnv_lawful : swapEnv.Lawful := ⟨swapSort_lawful, exEnv_lawful⟩

/-- **C104** With ties the sort matters: the duplicates of the same initial individuals are removed or not, according to the sort, and
`evolve_population` without a generation ends with two or with three individuals. -/
theorem C104_ties : oneEnv.Lawful ∧ swapEnv.Lawful ∧
    ((evolvePopulation (ga OneMax.model) (fun _ => oneEnv) (fun q _ => pure (false, q)) 1 (Ga.ofModel ())
      [OneMax.ofGenome [true, false], OneMax.ofGenome [false, true], OneMax.ofGenome [true, false]] (copyParams (.tournament 1)) ()).exec
        drawList []).1.okAnd (fun r => r.2.population.individuals.map OneMax.genome = [[true, false], [false, true], [true, false]]) = true ∧
    ((evolvePopulation (ga OneMax.model) (fun _ => swapEnv) (fun q _ => pure (false, q)) 1 (Ga.ofModel ())
      [OneMax.ofGenome [true, false], OneMax.ofGenome [false, true], OneMax.ofGenome [true, false]] (copyParams (.tournament 1)) ()).exec
        drawList []).1.okAnd (fun r => r.2.population.individuals.map OneMax.genome = [[true, false], [false, true]]) = true :=
  ⟨oneEnv_lawful, swapEnv_lawful, by decide +kernel, by decide +kernel⟩

/-! ### Sums -/

/-- A sum bracketed to the right. -/
def rightSum : List F64 → F64
  | [] => F64.zero
  | x :: l => (F64.zero.add (F64.zero.add x)).add (rightSum l)

theorem rightSum_lawful (l : List F64) : TreeSum l (rightSum l) := by
  induction l with
  | nil => exact .leaf F64.zero (Or.inl rfl) []
  | cons x l ih => exact .node F64.zero (Or.inl rfl) (l1 := [x]) (.leaf F64.zero (Or.inl rfl) [x]) ih

/-- The environment of the examples with the other sum. -/
def rightEnv : Env OneMax := ⟨refSort, ⟨id, rightSum⟩⟩

theorem rightEnv_lawful : rightEnv.Lawful := ⟨refSort_lawful, rightSum_lawful⟩

/-- A score of two bits with values of very different size. -/
def steepScore : List Bool → F64
  | [false, false] => F64.lit (1 / 2 ^ 55)
  | [false, true] => F64.lit (3 / 2 ^ 55)
  | [true, false] => F64.lit (1 / 2 ^ 53)
  | _ => F64.lit 1

theorem steepScore_number (g : List Bool) (_ : g.length = 2) : (steepScore g).isNaN = false := by
  unfold steepScore
  split <;> decide +kernel

theorem steepScore_apart (g g' : List Bool) (hg : g.length = 2) (hg' : g'.length = 2) (h : (steepScore g).feq (steepScore g') = true) :
    g = g' := by
  obtain ⟨a, b, rfl⟩ := List.length_eq_two.1 hg
  obtain ⟨c, d, rfl⟩ := List.length_eq_two.1 hg'
  clear hg hg'
  revert a b c d
  decide +kernel

/-- One generation of two from all genomes of two bits, without operators. -/
def steepRun (env : Env OneMax) (s : SelectionStrategy) (draws : List Nat) : Res (Bool × RunState OneMax (Ga Unit Empty) Unit) :=
  ((evolvePopulation (ga (scored steepScore)) (fun _ => env) (fun q p => pure (decide (p.generation < 1), q)) 2 (Ga.ofModel ())
    [OneMax.ofGenome [false, false], OneMax.ofGenome [false, true], OneMax.ofGenome [true, false], OneMax.ofGenome [true, true]]
    (copyParams s) ()).exec drawList draws).1

/-- **C104** With roulette wheel selection the bracketing matters, although no two genomes have the same fitness: with the same draws one run
keeps the third and the other one the second of four. -/
theorem C104_wheel : oneEnv.Lawful ∧ rightEnv.Lawful ∧
    ToldApart (fun x : OneMax => x.genome.length = 2 ∧ x.fit = steepScore x.genome) ∧
    (steepRun oneEnv .rouletteWheel [1, 1, 1, 1, 1, 1]).okAnd
      (fun r => r.2.population.individuals.map OneMax.genome = [[true, false]]) = true ∧
    (steepRun rightEnv .rouletteWheel [1, 1, 1, 1, 1, 1]).okAnd
      (fun r => r.2.population.individuals.map OneMax.genome = [[false, true]]) = true :=
  ⟨oneEnv_lawful, rightEnv_lawful, scored_apart steepScore_number steepScore_apart, by decide +kernel, by decide +kernel⟩

/-! ### Examples -/

-- the same score with tournaments: no sort and no bracketing changes a run
example (envs envs' : Nat → Env OneMax) (henv : ∀ t, (envs t).Lawful) (henv' : ∀ t, (envs' t).Lawful) (fuel : Nat) :
    Coupled Eq
      (runRandom (scored steepScore) (ga (scored steepScore)) envs (fun (_ : Unit) p => pure (decide (p.stagnation < 10), ())) fuel
        (Ga.ofModel ()) (OneMax.newRandom 2) { GaParams.default with selectionStrategy := .tournament 3 } ())
      (runRandom (scored steepScore) (ga (scored steepScore)) envs' (fun (_ : Unit) p => pure (decide (p.stagnation < 10), ())) fuel
        (Ga.ofModel ()) (OneMax.newRandom 2) { GaParams.default with selectionStrategy := .tournament 3 } ()) :=
  C104_scored 2 (by norm_num) steepScore steepScore_number steepScore_apart envs envs' henv henv' _ fuel
    { GaParams.default with selectionStrategy := .tournament 3 } trivial ()

-- such runs exist, and the two environments with different sums give the same one
example : (steepRun oneEnv (.tournament 1) [1, 0, 0, 2, 0, 0]).okAnd
      (fun r => r.2.population.individuals.map OneMax.genome = [[false, true], [true, false]]) = true ∧
    (steepRun rightEnv (.tournament 1) [1, 0, 0, 2, 0, 0]).okAnd
      (fun r => r.2.population.individuals.map OneMax.genome = [[false, true], [true, false]]) = true := by
  constructor <;> decide +kernel

-- adaptive runs of that model, with rates adjusted in every generation
example (envs envs' : Nat → Env OneMax) (henv : ∀ t, (envs t).Lawful) (henv' : ∀ t, (envs' t).Lawful) (fuel : Nat) :
    Coupled Eq
      (evolvePopulation (aga (scored steepScore)) envs (fun (_ : Unit) p => pure (decide (p.generation < 50), ())) fuel (Aga.ofModel ())
        [OneMax.ofGenome [false, false], OneMax.ofGenome [true, true]] adaptParams ())
      (evolvePopulation (aga (scored steepScore)) envs' (fun (_ : Unit) p => pure (decide (p.generation < 50), ())) fuel (Aga.ofModel ())
        [OneMax.ofGenome [false, false], OneMax.ofGenome [true, true]] adaptParams ()) :=
  C104_aga (scored_keeps (by norm_num) _) (scored_apart steepScore_number steepScore_apart) envs envs' henv henv' _ fuel _ _
    (by simp [OneMax.ofGenome]) adaptParams trivial ()

end RG.Props
