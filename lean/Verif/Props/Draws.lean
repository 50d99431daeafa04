import Verif.Proofs.Draws
import Verif.Props.Neighbors
import Verif.Props.OneMax
import Verif.Props.Calls
import Verif.Proofs.Mutation

/-!
# C127: how many random numbers are drawn

`p.draws r c` says that some sequence of `c` random numbers makes `p` end with outcome `r` (`SpecDraws.lean`). A number is what one call of
a method of the generator returns to the library; how many machine words `SmallRng` spends on it is another question (rand rejects some
words).
-/

set_option linter.unusedSectionVars false

namespace RG.Props
open RG RG.Prog
variable {G I : Type} [Individual I] {Mo U A P Q : Type}

/-- **C127** (every outcome is counted) A program has an outcome exactly if it has it after some number of draws. -/
theorem C127_counted {α : Type} (p : Prog α) (r : Res α) : p.yields r ↔ ∃ c, p.draws r c :=
  ⟨draws_of_yields, fun ⟨_, h⟩ => yields_of_drawing h⟩

/-- **C127** (positions) `random_pair`, `random_range` and `bounded_random_range` draw two numbers. -/
theorem C127_positions (n lo hi : Nat) : (randomPair n).DrawsExactly 2 ∧ (randomRange n).DrawsExactly 2 ∧
    (boundedRandomRange n lo hi).DrawsExactly 2 :=
  ⟨drawn_randomPair fun _ => rfl, drawn_bind (drawn_lift fun _ _ => drawn_bounded fun _ _ _ _ _ => rfl), drawn_bounded fun _ _ _ _ _ => rfl⟩

/-- **C127** (mutation of a short genome) With fewer than two genes a mutation draws nothing. -/
theorem C127_short (s : MutationStrategy) (g : List G) (h : g.length < 2) : (s.mutate g).DrawsExactly 0 := by
  have : s.mutate g = pure g := by
    cases s <;> simp [MutationStrategy.mutate, swapMutation, scrambleMutation, inversionMutation, insertionMutation, duplicateMutation, h]
  rw [this]
  exact drawn_pure rfl

/-- **C127** (mutation) With at least two genes, scramble draws between 3 and one more than there are genes, every other mutation
exactly 2. -/
theorem C127_mutate (s : MutationStrategy) (g : List G) (h : 2 ≤ g.length) :
    (s.mutate g).DrawsBetween s.leastDraws (s.mostDraws g.length) := by
  have h' : ¬ g.length < 2 := by omega
  cases s <;> simp only [MutationStrategy.mutate, swapMutation, scrambleMutation, inversionMutation, insertionMutation, duplicateMutation, h', if_false]
  · exact drawn_bind (drawn_randomPair fun _ => drawn_lift fun _ _ => ⟨le_rfl, le_rfl⟩)
  · refine drawn_bind (drawn_bounded fun start len h1 h2 h3 => drawn_onSlice fun _ _ => (drawn_shuffleLoop _ _).mono fun _ c hc => ?_)
    simp only [List.length_take, List.length_drop] at hc
    show 3 ≤ _ ∧ _ ≤ g.length + 1
    omega
  · exact drawn_bind (drawn_bounded fun _ _ _ _ _ => drawn_onSlice fun _ _ => drawn_pure ⟨le_rfl, le_rfl⟩)
  · exact drawn_bind (drawn_randomPair fun _ => drawn_onSlice fun _ _ => drawn_lift fun _ _ => ⟨le_rfl, le_rfl⟩)
  · exact drawn_bind (drawn_randomPair fun _ => drawn_bind (drawn_lift fun _ _ =>
      drawn_ite _ (fun _ => drawn_pure ⟨le_rfl, le_rfl⟩) fun _ => drawn_panic))

/-- **C127** (scramble) Every number from 3 to one more than there are genes is attained. -/
theorem C127_scramble (g : List G) (c : Nat) (h3 : 3 ≤ c) (hc : c ≤ g.length + 1) :
    ∃ g', (MutationStrategy.scramble.mutate g).draws (.ok g') c := by
  have h' : ¬ g.length < 2 := by omega
  simp only [MutationStrategy.mutate, scrambleMutation, h', if_false]
  have hr : (boundedRandomRange g.length 2 g.length).draws (.ok ⟨0, c - 1⟩) 2 := by
    unfold boundedRandomRange
    refine draws_bind_of (a := c - 1) (c1 := 1) (c2 := 1) ?_ ?_
    · unfold rangeIncl
      rw [if_pos (by omega)]
      exact ⟨c - 3, by omega, 0, ⟨by show Res.ok _ = Res.ok _; congr 1; omega, rfl⟩, rfl⟩
    · refine draws_bind_of (a := g.length - (c - 1)) (c1 := 0) (c2 := 1) ⟨by unfold usizeSub; rw [if_pos (by omega)], rfl⟩ ?_
      refine draws_bind_of (a := 0) (c1 := 1) (c2 := 0) ?_ ⟨by show Res.ok _ = Res.ok _; simp, rfl⟩
      unfold rangeIncl
      rw [if_pos (by omega)]
      exact ⟨0, by omega, 0, ⟨rfl, rfl⟩, rfl⟩
  obtain ⟨k, hk⟩ := draws_of_yields ((yields_shuffle (g.take (c - 1)) (.ok (g.take (c - 1)))).2 ⟨_, rfl, List.Perm.refl _⟩)
  have hk' := drawn_shuffleLoop _ _ _ _ hk
  simp only [List.length_take] at hk'
  refine ⟨[] ++ g.take (c - 1) ++ g.drop (c - 1), ?_⟩
  have := draws_bind_of (f := fun range => onSlice g range.start range.stop shuffle) (c2 := k)
    (r := .ok ([] ++ g.take (c - 1) ++ g.drop (c - 1))) hr ?_
  · have he : 2 + k = c := by omega
    rwa [he] at this
  · unfold onSlice
    rw [if_pos ⟨by simp, by show c - 1 ≤ _; omega⟩]
    have := draws_bind_of (c2 := 0) (f := fun seg => (pure ([] ++ seg ++ g.drop (c - 1)) : Prog (List G))) hk ⟨rfl, rfl⟩
    simpa using this

/-- **C127** (crossover) Cycle crossover draws nothing; sequential constructive, edge recombination and single-point crossover draw one
number, partially mapped and order crossover two; generalized partition crossover as many as there are common partitions. -/
theorem C127_crossover [DecidableEq G] (lt : G → G → Bool) (ord : Nat → List G → List G) (fuel : Nat) (s : CrossoverStrategy)
    (a b : List G) (parts : List (List G)) (hp : commonPartitions lt a b = .ok parts) :
    (s.crossover lt ord fuel a b).DrawsExactly (s.draws parts.length) := by
  have hchoose : Drawn (fun o c => (∃ x, o = some x) → c = 1) (choose a) := by
    unfold choose
    exact drawn_ite _ (fun _ => drawn_pure (by simp)) fun _ => drawn_bind (drawn_rangeExcl fun _ _ _ => drawn_pure fun _ => rfl)
  have hone : ∀ f : G → Res (List G), Drawn (fun _ c => c = 1) (do
      let pivot ← choose a
      let pivot ← Prog.lift (Res.ofOption pivot)
      Prog.lift (f pivot)) := fun f => by
    refine drawn_bind (hchoose.mono fun o c hc => drawn_bind (drawn_lift fun x hx => drawn_lift fun _ _ => ?_))
    cases o with
    | none => cases hx
    | some y => simpa using hc ⟨y, rfl⟩
  cases s with
  | generalizedPartition2 =>
    obtain ⟨parts', e, h1, h2, -, -, -⟩ := commonPartitions_spec lt a b
    rw [hp] at e
    cases e
    simp only [CrossoverStrategy.crossover, gpx2]
    refine drawn_bind (drawn_lift fun ps hps => ?_)
    rw [hp] at hps
    cases hps
    exact (drawn_gpx2Loop _ _ _ h2 h1).mono fun _ c hc => by simpa [CrossoverStrategy.draws] using hc
  | sequentialConstructive => exact hone _
  | edgeRecombination => exact hone _
  | partiallyMapped => exact drawn_bind (drawn_bind (drawn_lift fun _ _ => drawn_bounded fun _ _ _ _ _ => drawn_lift fun _ _ => rfl))
  | order => exact drawn_bind (drawn_bind (drawn_lift fun _ _ => drawn_bounded fun _ _ _ _ _ => drawn_lift fun _ _ => rfl))
  | cycle => exact drawn_lift fun _ _ => rfl
  | singlePoint => exact drawn_bind (drawn_rangeExcl fun _ _ _ => drawn_lift fun _ _ => rfl)

/-- **C127** (partitions) Two genomes always have common partitions, at most as many as the first has genes. -/
theorem C127_partitions [DecidableEq G] (lt : G → G → Bool) (a b : List G) :
    ∃ parts, commonPartitions lt a b = .ok parts ∧ parts.length ≤ a.length ∧ (a ≠ [] → 1 ≤ parts.length) := by
  obtain ⟨parts, e, h1, h2, h3, -⟩ := C21_partitions lt a b
  refine ⟨parts, e, ?_, fun ha => ?_⟩
  · have hl : parts.flatten.length ≤ a.length := ((List.subperm_of_subset h2 fun x hx => (h3 x).1 hx)).length_le
    refine le_trans ?_ hl
    clear e h2 h3 hl
    induction parts with
    | nil => simp
    | cons p ps ih =>
      have hp := List.length_pos_of_ne_nil (h1 p (List.mem_cons_self))
      have := ih fun q hq => h1 q (List.mem_cons_of_mem _ hq)
      simp only [List.flatten_cons, List.length_append, List.length_cons]
      omega
  · cases a with
    | nil => exact absurd rfl ha
    | cons x a =>
      obtain ⟨q, hq, -⟩ := List.mem_flatten.1 ((h3 x).2 (List.mem_cons_self))
      exact List.length_pos_of_mem hq

/-- **C127** (selection) Tournament selection draws as many numbers as its size, every other built-in selection one. -/
theorem C127_select (env : NumEnv) (p : Population I) (s : Selector) : (s.select env p).DrawsExactly s.draws := drawn_select env p s

/-- **C127** (`select_distinct`) Seeking a second parent in `tries` tries takes a positive number of selections, at most `tries` and exactly
that many if none was found. -/
theorem C127_distinct (env : NumEnv) (p : Population I) (s : Selector) (x : I) (tries : Nat) (ht : 0 < tries) {o : Option (Nat × I)} {c : Nat}
    (h : (selectDistinct (s.select env p) x tries).draws (.ok o) c) :
    (o = none → c = tries * s.draws) ∧ ∃ k, 1 ≤ k ∧ k ≤ tries ∧ c = k * s.draws := by
  obtain ⟨h1, k, h2, h3, h4⟩ := drawn_distinct (drawn_select env p s) x tries o c h
  exact ⟨h1, k, h4 ht, h3, h2⟩

/-- **C127** (breeding) Breeding one individual takes at least the draws for the first parent and the two decisions, and at most three
selections and the draws of the user's operators more. With one individual there is no decision about crossover. -/
theorem C127_breed {M : EvoOps I Mo U} {x m s : Nat} (hM : M.DrawsAtMost x m s) (env : NumEnv) (model : Mo) (p : Population I)
    (r : ReproParams U) {sel : Selector} (hs : r.parentSelector = .builtin sel) :
    (defaultBreed M env model p r).DrawsBetween (breedLeast sel.draws p.len) (breedMost sel.draws p.len x m s) :=
  drawn_breed hM env model p r hs

/-- **C127** (a generation) So many for each individual missing from the next population, also when exactly one is missing, which is bred and
dropped. -/
theorem C127_generate {M : EvoModel I Mo U} (hb : M.breed = defaultBreed M.toEvoOps) {x m s : Nat} (hM : M.toEvoOps.DrawsAtMost x m s)
    (env : NumEnv) (model : Mo) (p : Population I) (r : ReproParams U) (n : Nat) {sel : Selector} (hs : r.parentSelector = .builtin sel)
    (offspring : List I) :
    (defaultGenerate M env model (r, n) p offspring).DrawsBetween ((n - offspring.length) * breedLeast sel.draws p.len)
      ((n - offspring.length) * breedMost sel.draws p.len x m s) :=
  drawn_generate hb hM env model p (r, n) hs offspring

/-- **C127** (a run of the genetic algorithm) A run draws so many for each individual bred, and nothing else. -/
theorem C127_ga {M : EvoModel I Mo U} (hb : M.breed = defaultBreed M.toEvoOps) {x m s : Nat} (hM : M.toEvoOps.DrawsAtMost x m s)
    (envs : Nat → Env I) (henv : ∀ t, (envs t).Lawful) (progress : Q → Population I → Prog (Bool × Q))
    (hq : ∀ q p, (progress q p).DrawsExactly 0) (fuel : Nat) (a : Ga Mo U) (init : List I) (p : GaParams)
    (hp : p.populationSize ≤ 2 ^ 53) (q : Q) {fin : Bool} {st : RunState I (Ga Mo U) Q} {c : Nat}
    (h : (evolvePopulation (ga M) envs progress fuel a init p q).draws (.ok (fin, st)) c) :
    let bred := missing (I := I) p.populationSize (eliteCount p.populationSize p.elitismRate)
    let d := p.selectionStrategy.draws
    ((bredFrom fin st.shown).map fun pop => bred pop * breedLeast d pop.len).sum ≤ c ∧
      c ≤ ((bredFrom fin st.shown).map fun pop => bred pop * breedMost d pop.len x m s).sum :=
  drawn_run hb hM (ga_standard M) (ga_drawn hM) envs henv progress hq fuel a init p hp q (fin, st) c h

/-- **C127** (a run of the adaptive genetic algorithm) The same. -/
theorem C127_aga {M : EvoModel I Mo U} (hb : M.breed = defaultBreed M.toEvoOps) {x m s : Nat} (hM : M.toEvoOps.DrawsAtMost x m s)
    (envs : Nat → Env I) (henv : ∀ t, (envs t).Lawful) (progress : Q → Population I → Prog (Bool × Q))
    (hq : ∀ q p, (progress q p).DrawsExactly 0) (fuel : Nat) (a : Aga Mo U) (init : List I) (p : AgaParams)
    (hp : p.populationSize ≤ 2 ^ 53) (q : Q) {fin : Bool} {st : RunState I (Aga Mo U) Q} {c : Nat}
    (h : (evolvePopulation (aga M) envs progress fuel a init p q).draws (.ok (fin, st)) c) :
    let bred := missing (I := I) p.populationSize (eliteCount p.populationSize p.elitismRate)
    let d := p.selectionStrategy.draws
    ((bredFrom fin st.shown).map fun pop => bred pop * breedLeast d pop.len).sum ≤ c ∧
      c ≤ ((bredFrom fin st.shown).map fun pop => bred pop * breedMost d pop.len x m s).sum :=
  drawn_run hb hM (aga_standard M) (aga_drawn hM) envs henv progress hq fuel a init p hp q (fin, st) c h

/-- **C127** (budget) Those sums, in terms of the number of individuals bred. -/
theorem C127_budget (size elites d x m s : Nat) (fin : Bool) (shown : List (Population I)) :
    bredInRun size elites fin shown * (d + 1) ≤ ((bredFrom fin shown).map fun pop => missing size elites pop * breedLeast d pop.len).sum ∧
      ((bredFrom fin shown).map fun pop => missing size elites pop * breedMost d pop.len x m s).sum ≤
        bredInRun size elites fin shown * (4 * d + 2 + x + m + s) := by
  unfold bredInRun
  generalize bredFrom fin shown = l
  induction l with
  | nil => simp
  | cons p l ih =>
    have h1 : missing size elites p * (d + 1) ≤ missing size elites p * breedLeast d p.len :=
      Nat.mul_le_mul_left _ (by unfold breedLeast; omega)
    have h2 : missing size elites p * breedMost d p.len x m s ≤ missing size elites p * (4 * d + 2 + x + m + s) :=
      Nat.mul_le_mul_left _ (by unfold breedMost; split <;> omega)
    simp only [List.map_cons, List.sum_cons, Nat.add_mul _ _ (_ + _)]
    omega

/-- **C127** (initial population) Filling up with `size` random individuals takes `size` times what one takes. -/
theorem C127_extend (newRandom : Prog I) {n : Nat} (hn : newRandom.DrawsExactly n) (individuals : List I) (size : Nat) :
    (defaultExtend newRandom individuals size).DrawsExactly (size * n) := by
  unfold defaultExtend
  refine drawn_ite _ (fun h => drawn_pure (by simp [h])) fun h => drawn_bind ((drawn_replicate (lo := n) (hi := n)
    (fun a c hc => ⟨(hn a c hc).ge, (hn a c hc).le⟩) size).mono fun _ c hc => drawn_pure (by omega))

/-- **C127** (initial population from one individual) It takes at most `size - 1` times what a mutation takes. -/
theorem C127_extend_with {M : EvoOps I Mo U} (model : Mo) {m : Nat} (hm : ∀ a, (M.mutate model a).DrawsBetween 0 m) (individuals : List I)
    (size : Nat) (x : I) : (defaultExtendWith M model individuals size x).DrawsBetween 0 ((size - 1) * m) := by
  unfold defaultExtendWith
  refine drawn_ite _ (fun h => drawn_pure (by simp)) fun h => drawn_ite _ (fun h => drawn_pure (by simp)) fun h' =>
    drawn_bind (drawn_lift fun n hn => drawn_bind ((drawn_replicate (hm x) n).mono fun _ c hc => drawn_pure ?_))
  unfold usizeSub at hn
  split at hn
  · cases hn; omega
  · cases hn

/-! ### OneMax -/

/-- **C127** (OneMax) A new individual takes as many draws as it has bits, a crossover one, a mutation at most two. -/
theorem C127_onemax (length : Nat) : (OneMax.newRandom length).DrawsExactly length ∧ OneMax.ops.DrawsAtMost 1 2 0 := by
  constructor
  · refine drawn_bind ((drawn_replicate (lo := 1) (hi := 1) (drawn_bind (drawn_uniform fun _ _ => drawn_pure ⟨le_rfl, le_rfl⟩)) length).mono
      fun _ c hc => drawn_pure (by omega))
  · refine ⟨fun _ a b => ?_, fun _ a => ?_, fun _ _ => drawn_pure rfl, fun _ _ => drawn_pure rfl, fun _ _ _ _ => drawn_pure ⟨le_rfl, le_rfl⟩,
      fun _ _ _ => drawn_pure rfl, fun _ _ _ _ _ h => ?_⟩
    · exact drawn_bind (drawn_bind (drawn_rangeExcl fun _ _ _ => drawn_lift fun _ _ => drawn_pure ⟨by omega, le_rfl⟩))
    · by_cases hl : a.genome.length < 2
      · exact drawn_bind (Drawn.mono (C127_short .duplicate a.genome hl) fun _ c hc => drawn_pure ⟨Nat.zero_le _, by omega⟩)
      · refine drawn_bind (Drawn.mono (C127_mutate .duplicate a.genome (by omega)) fun _ c hc => drawn_pure ⟨Nat.zero_le _, ?_⟩)
        have : c ≤ 2 := hc.2
        omega
    · cases h; rfl

/-- **C127** (a run of OneMax) `run` with the genetic algorithm and any strategy but the tournament takes `populationSize * length`
numbers for the initial population and between 2 and 9 for each individual bred. -/
theorem C127_onemax_run (envs : Nat → Env OneMax) (henv : ∀ t, (envs t).Lawful) (progress : Q → Population OneMax → Prog (Bool × Q))
    (hq : ∀ q p, (progress q p).DrawsExactly 0) (fuel : Nat) (a : Ga Unit Empty) (length : Nat) (p : GaParams)
    (hp : p.populationSize ≤ 2 ^ 53) (hs : p.selectionStrategy.draws = 1) (q : Q) {o : Option OneMax}
    {st : RunState OneMax (Ga Unit Empty) Q} {c : Nat}
    (h : (runRandom OneMax.model (ga OneMax.model) envs progress fuel a (OneMax.newRandom length) p q).draws (.ok (o, st)) c) :
    let bred := bredInRun p.populationSize (eliteCount p.populationSize p.elitismRate) o.isSome st.shown
    p.populationSize * length + bred * 2 ≤ c ∧ c ≤ p.populationSize * length + bred * 9 := by
  refine (?_ : Drawn (fun y c =>
    p.populationSize * length + bredInRun p.populationSize (eliteCount p.populationSize p.elitismRate) y.1.isSome y.2.shown * 2 ≤ c ∧
    c ≤ p.populationSize * length + bredInRun p.populationSize (eliteCount p.populationSize p.elitismRate) y.1.isSome y.2.shown * 9) _) _ _ h
  refine drawn_bind (Drawn.mono (C127_extend (OneMax.newRandom length) (C127_onemax length).1 [] p.populationSize) fun init c hc => ?_)
  subst hc
  refine drawn_bind (Drawn.mono (drawn_run rfl (C127_onemax length).2 (ga_standard OneMax.model) (ga_drawn (C127_onemax length).2) envs henv progress hq
    fuel a init p hp q) ?_)
  rintro ⟨fin, st⟩ c hc
  obtain ⟨h1, h2⟩ := C127_budget p.populationSize (eliteCount p.populationSize p.elitismRate) 1 1 2 0 fin st.shown
  rw [hs] at hc
  have hc1 := h1.trans hc.1
  have hc2 := hc.2.trans h2
  unfold takeResult
  refine drawn_ite _ (fun hf => drawn_bind (drawn_lift fun y _ => drawn_pure ?_)) fun hf => drawn_pure ?_
  · have : fin = true := hf
    subst this
    simp only [Option.isSome_some]
    omega
  · have : fin = false := by simpa using hf
    subst this
    simp only [Option.isSome_none]
    omega

/-! ### Examples -/

-- scrambling five genes takes between 3 and 6 draws, and 6 are possible
example : (MutationStrategy.scramble.mutate [1, 2, 3, 4, 5]).DrawsBetween 3 6 ∧
    ∃ g, (MutationStrategy.scramble.mutate [1, 2, 3, 4, 5]).draws (.ok g) 6 :=
  ⟨C127_mutate .scramble [1, 2, 3, 4, 5] (by simp), C127_scramble [1, 2, 3, 4, 5] 6 (by simp) (by simp)⟩

-- GPX2 of equal genomes draws once; of genomes without a common edge once for every gene
example : (CrossoverStrategy.generalizedPartition2.crossover (fun a b => decide (a < b)) (fun _ l => l) 9 [1, 2, 3, 4, 5] [1, 2, 3, 4, 5]).DrawsExactly 1 :=
  C127_crossover _ _ _ .generalizedPartition2 _ _ [[1, 2, 3, 4, 5]] (by decide +kernel)
example : (CrossoverStrategy.generalizedPartition2.crossover (fun a b => decide (a < b)) (fun _ l => l) 9 [1, 2, 3, 4, 5] [1, 3, 5, 2, 4]).DrawsExactly 5 :=
  C127_crossover _ _ _ .generalizedPartition2 _ _ [[1], [2], [3], [4], [5]] (by decide +kernel)

-- ten generations of OneMax with 100 individuals of 32 bits, one of them an elite: between 5180 and 12200 draws
example {o : OneMax} {st : RunState OneMax (Ga Unit Empty) Unit} {c : Nat} (envs : Nat → Env OneMax) (henv : ∀ t, (envs t).Lawful)
    (hs : st.shown.length = 11)
    (h : (runRandom OneMax.model (ga OneMax.model) envs (fun q p => pure (p.generation < 10, q)) 20 (Ga.ofModel ()) (OneMax.newRandom 32)
      GaParams.default ()).draws (.ok (some o, st)) c) : 5180 ≤ c ∧ c ≤ 12200 := by
  have hc := C127_onemax_run envs henv _ (fun _ _ => drawn_pure rfl) 20 _ 32 GaParams.default (by simp [GaParams.default]) rfl () h
  have he : eliteCount GaParams.default.populationSize GaParams.default.elitismRate = 1 := by decide +kernel
  obtain ⟨b1, b2, -⟩ := C115_budget 100 1 true st.shown
  have hb : (bredFrom true st.shown).length = 10 := by simp [bredFrom, hs]
  rw [hb] at b1 b2
  rw [he] at hc
  change 100 * 32 + bredInRun 100 1 true st.shown * 2 ≤ c ∧ c ≤ 100 * 32 + bredInRun 100 1 true st.shown * 9 at hc
  omega

end RG.Props
