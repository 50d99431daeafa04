import Verif.Proofs.Model
import Verif.Props.Selection

/-!
# Properties C47–C49: breeding and initial populations

`defaultBreed M` is the default `breed` of a model with operators `M`; the operators are arbitrary programs.
-/

set_option linter.unusedSectionVars false

namespace RG.Props
open RG RG.Prog
variable {I : Type} [Individual I] {Mo U : Type}

/-! ### An example model: individuals are numbers, their own fitness; crossover adds, mutation doubles -/

/-- Individuals that are their own fitness. -/
structure Num where
  v : F64
deriving DecidableEq

instance : Individual Num where
  fitness x := x.v
  eq a b := a.v.feq b.v

instance : DefaultValid Num := ⟨fun _ => rfl⟩

/-- The individual of fitness `q`. -/
def num (q : ℚ) : Num := ⟨F64.lit q⟩

/-- No user-defined selectors. -/
def noSelectors : CustomSelector Num Empty := ⟨fun u => u.elim, fun u => u.elim, fun u => u.elim⟩

/-- The example operators. -/
def numOps : EvoOps Num Unit Empty where
  crossover _ a b := pure ⟨a.v.add b.v⟩
  mutate _ a := pure ⟨a.v.add a.v⟩
  evaluate _ a := pure a
  selectors := noSelectors

/-- An environment: sequential sums, `exp` replaced by the identity. -/
def exEnv : NumEnv := ⟨id, fun l => l.foldl F64.add F64.zero⟩

/-- Three individuals of fitness 1, 2 and 5. -/
def numPop : Population Num :=
  { individuals := [num 1, num 2, num 5], generation := 0, stagnation := 0,
    stats := ⟨Stats.collect [F64.lit 1, F64.lit 2, F64.lit 5]⟩ }

/-- Tournament selection, crossover rate 1/2, mutation rate 1/4. -/
def numParams : ReproParams Empty := ⟨F64.lit (1 / 2), F64.lit (1 / 4), .builtin (.tournament ⟨2⟩)⟩

theorem noSelectors_members : noSelectors.ReturnsMembers := fun u => u.elim
theorem noSelectors_distinct : noSelectors.DistinctMembers := fun u => u.elim

/-! ### C47 -/

/-- **C47** (exact outcomes) What `breed` can return, for arbitrary operators and selectors: a child of the chosen parents
if it is valid and survives, the fittest parent otherwise. -/
theorem C47_outcomes (M : EvoOps I Mo U) (env : NumEnv) (model : Mo) (p : Population I) (r : ReproParams U) (c : I) :
    (defaultBreed M env model p r).yields (.ok c) ↔ ∃ p1 p2 f o, Mating M env p r p1 p2 ∧ IsFittestParent p1 p2 f ∧
      IsChild M model r.mutationRate p1 p2 o ∧
      ((isValid o = true ∧ (M.canSurvive model o f p).yields (.ok true) ∧ c = o) ∨
       ((isValid o = false ∨ (M.canSurvive model o f p).yields (.ok false)) ∧ c = f)) :=
  yields_defaultBreed M env model p r c

/-- **C47** (keep-best) With the default `can_survive` the bred individual is a valid child at least as fit as the fittest
parent, or that fittest parent itself, which is a member of the population. In every case it is at least as fit as both
parents if no fitness in the population is NaN, and it is valid if the population's individuals are. -/
theorem C47_keep_best (M : EvoOps I Mo U) (hs : M.selectors.ReturnsMembers) (hd : M.selectors.DistinctMembers)
    (hcs : M.canSurvive = fun _ offspring parent _ => pure ((fitness parent).le (fitness offspring)))
    (env : NumEnv) (model : Mo) (p : Population I) (r : ReproParams U) (c : I)
    (h : (defaultBreed M env model p r).yields (.ok c)) :
    ∃ p1 p2 f, Mating M env p r p1 p2 ∧ IsFittestParent p1 p2 f ∧ p1 ∈ p.individuals ∧ f ∈ p.individuals ∧
      (∀ b, p2 = some b → b ∈ p.individuals ∧ Individual.eq b p1 = false) ∧
      (c = f ∨ (isValid c = true ∧ (fitness f).le (fitness c) = true ∧ IsChild M model r.mutationRate p1 p2 c)) ∧
      ((∀ x ∈ p.individuals, (fitness x).isNaN = false) →
        (fitness p1).le (fitness c) = true ∧ ∀ b, p2 = some b → (fitness b).le (fitness c) = true) ∧
      ((∀ x ∈ p.individuals, isValid x = true) → isValid c = true) := by
  obtain ⟨p1, p2, f, o, hm, hf, hc, h⟩ := (yields_defaultBreed M env model p r c).1 h
  obtain ⟨m1, m2⟩ := hm.mem hs hd
  have mf := hf.mem m1 fun b hb => (m2 b hb).1
  have hcase : c = f ∨ (isValid c = true ∧ (fitness f).le (fitness c) = true ∧
      IsChild M model r.mutationRate p1 p2 c) := by
    rcases h with ⟨hv, hsv, rfl⟩ | ⟨_, rfl⟩
    · rw [hcs] at hsv
      cases hle : (fitness f).le (fitness c)
      · simp [hle] at hsv
      · exact Or.inr ⟨hv, rfl, hc⟩
    · exact Or.inl rfl
  refine ⟨p1, p2, f, hm, hf, m1, mf, m2, hcase, fun hn => ?_, fun hv => ?_⟩
  · obtain ⟨l1, l2⟩ := hf.le (hn p1 m1) fun b hb => hn b (m2 b hb).1
    rcases hcase with rfl | ⟨_, hle, _⟩
    · exact ⟨l1, l2⟩
    · exact ⟨F64.le_trans l1 hle, fun b hb => F64.le_trans (l2 b hb) hle⟩
  · rcases hcase with rfl | ⟨h, _⟩
    · exact hv _ mf
    · exact h

/-- **C47** (default `can_survive`) A model that does not define `can_survive` keeps an offspring exactly if its fitness and the
parent's are numbers and it is not less fit than the parent. -/
theorem C47_default_survive (crossover : Mo → I → I → Prog I) (mutate improve evaluate : Mo → I → Prog I)
    (preGeneration : Mo → Population I → ReproParams U → Prog (Mo × ReproParams U)) (selectors : CustomSelector I U) :
    ({ crossover, mutate, improve, evaluate, preGeneration, selectors } : EvoOps I Mo U).canSurvive =
        (fun _ offspring parent _ => pure ((fitness parent).le (fitness offspring))) ∧
      ∀ model (offspring parent : I) p (b : Bool),
        (({ crossover, mutate, improve, evaluate, preGeneration, selectors } : EvoOps I Mo U).canSurvive model offspring parent
          p).yields (.ok b) ↔ (b = true ↔ (fitness parent).isNaN = false ∧ (fitness offspring).isNaN = false ∧
            (fitness offspring).lt (fitness parent) = false) := by
  refine ⟨rfl, fun model o f p b => ?_⟩
  have h : (fitness f).le (fitness o) = true ↔ (fitness f).isNaN = false ∧ (fitness o).isNaN = false ∧
      (fitness o).lt (fitness f) = false := by
    constructor
    · intro h
      refine ⟨F64.not_nan_left_of_le h, F64.not_nan_right_of_le h, ?_⟩
      exact (F64.not_lt_iff_le (F64.not_nan_right_of_le h) (F64.not_nan_left_of_le h)).2 h
    · rintro ⟨h1, h2, h3⟩
      exact (F64.not_lt_iff_le h2 h1).1 h3
  show (pure ((fitness f).le (fitness o)) : Prog Bool).yields (.ok b) ↔ _
  rw [yields_pure, ← h]
  cases b <;> cases (fitness f).le (fitness o) <;> simp

/-- **C47** (defaults) A model that defines only `crossover`, `mutate` and `evaluate` does not improve, changes nothing before a
generation, and breeds and builds initial populations by the default methods. -/
theorem C47_defaults (crossover : Mo → I → I → Prog I) (mutate evaluate : Mo → I → Prog I) (selectors : CustomSelector I U) :
    let M : EvoModel I Mo U := { crossover, mutate, evaluate, selectors }
    (∀ m i r, (M.improve m i).yields r ↔ r = .ok i) ∧ (∀ m p q r, (M.preGeneration m p q).yields r ↔ r = .ok (m, q)) ∧
      M.breed = defaultBreed M.toEvoOps ∧ (M.extend = fun _ => defaultExtend) ∧ M.extendWith = defaultExtendWith M.toEvoOps := by
  refine ⟨fun m i r => ?_, fun m p q r => ?_, rfl, rfl, rfl⟩
  · exact yields_pure _ _
  · exact yields_pure _ _

/-- **C47** (validity, any `can_survive`) A valid population breeds only valid individuals. -/
theorem C47_valid (M : EvoOps I Mo U) (hs : M.selectors.ReturnsMembers) (hd : M.selectors.DistinctMembers)
    (env : NumEnv) (model : Mo) (p : Population I) (hp : ∀ x ∈ p.individuals, isValid x = true) (r : ReproParams U) :
    Partially (fun c => isValid c = true) (defaultBreed M env model p r) := by
  intro c h
  obtain ⟨p1, p2, f, o, hm, hf, hc, h⟩ := (yields_defaultBreed M env model p r c).1 h
  obtain ⟨m1, m2⟩ := hm.mem hs hd
  rcases h with ⟨hv, _, rfl⟩ | ⟨_, rfl⟩
  · exact hv
  · exact hp _ (hf.mem m1 fun b hb => (m2 b hb).1)

-- parents 1 and 5 (both draws of the first tournament are 0), crossed (draw 0), then mutated (draw 0): 12
example : ((defaultBreed numOps exEnv () numPop numParams).exec (fun (s : List Nat) n => (min (s.headD 0) n, s.tail))
    [0, 0, 0, 2, 0, 0]).1 = .ok (num 12) := by decide +kernel

-- the hypotheses of `C47_keep_best` hold for these operators, and the default `can_survive` is the one assumed
example : ∃ p1 p2 f, Mating numOps exEnv numPop numParams p1 p2 ∧ IsFittestParent p1 p2 f ∧
    (fitness p1).le (fitness (num 12)) = true := by
  have hx := exec_yields (fun (s : List Nat) n => (min (s.headD 0) n, s.tail)) (fun s n => Nat.min_le_right _ _)
      (defaultBreed numOps exEnv () numPop numParams) [0, 0, 0, 2, 0, 0]
  rw [show ((defaultBreed numOps exEnv () numPop numParams).exec
      (fun (s : List Nat) n => (min (s.headD 0) n, s.tail)) [0, 0, 0, 2, 0, 0]).1 = .ok (num 12) by decide +kernel] at hx
  obtain ⟨p1, p2, f, h1, h2, h3, -, -, -, h4, -⟩ :=
    C47_keep_best numOps noSelectors_members noSelectors_distinct rfl exEnv () numPop numParams (num 12) hx
  exact ⟨p1, p2, f, h1, h2, (h4 (by decide +kernel)).1⟩

/-! ### C48 -/

/-- **C48** With a crossover rate that is not positive (zero, negative or NaN), or a population of at most one individual,
`crossover` is not called: the program does not depend on it. -/
theorem C48_no_crossover (M : EvoOps I Mo U) (c : Mo → I → I → Prog I) (env : NumEnv) (model : Mo) (p : Population I)
    (r : ReproParams U) (h : F64.zero.lt r.crossoverRate = false ∨ p.individuals.length ≤ 1) :
    (defaultBreed (M.withCrossover c) env model p r).Same (defaultBreed M env model p r) := by
  refine breed_same_crossover M c env model p r fun p1 p2 hm => ?_
  cases hm with
  | pair _ h2 h3 _ =>
    rcases h with h | h
    · rw [canFire_iff_pos, h] at h3; cases h3
    · omega

/-- **C48** `crossover` is only called with members of the population that compare different (`second != first`): the program
does not depend on what it would do with others. -/
theorem C48_crossover_distinct (M : EvoOps I Mo U) (hs : M.selectors.ReturnsMembers) (hd : M.selectors.DistinctMembers)
    (c : Mo → I → I → Prog I) (env : NumEnv) (model : Mo) (p : Population I) (r : ReproParams U)
    (h : ∀ a b, a ∈ p.individuals → b ∈ p.individuals → Individual.eq b a = false → c model a b = M.crossover model a b) :
    (defaultBreed (M.withCrossover c) env model p r).Same (defaultBreed M env model p r) := by
  refine breed_same_crossover M c env model p r fun p1 p2 hm => Same.of_eq ?_
  obtain ⟨m1, m2⟩ := hm.mem hs hd
  exact h p1 p2 m1 (m2 p2 rfl).1 (m2 p2 rfl).2

/-- **C48** With a mutation rate that is not positive (zero, negative or NaN) `mutate` is not called. -/
theorem C48_no_mutation (M : EvoOps I Mo U) (c : Mo → I → Prog I) (env : NumEnv) (model : Mo) (p : Population I)
    (r : ReproParams U) (h : F64.zero.lt r.mutationRate = false) :
    (defaultBreed (M.withMutate c) env model p r).Same (defaultBreed M env model p r) :=
  breed_same_mutate M c env model p r fun h' => by rw [canFire_iff_pos, h] at h'; cases h'

/-- **C48** With a mutation rate of at least 1 `mutate` is always called: if it panics, `breed` never returns. -/
theorem C48_always_mutation (M : EvoOps I Mo U) (env : NumEnv) (model : Mo) (p : Population I) (r : ReproParams U)
    (h : F64.one.le r.mutationRate = true) (c : I) :
    ¬ (defaultBreed (M.withMutate fun _ _ => Prog.done .panic) env model p r).yields (.ok c) := by
  intro hc
  obtain ⟨p1, p2, f, o, _, _, ⟨o0, o1, o2, _, h1, _⟩, _⟩ := (yields_defaultBreed _ env model p r c).1 hc
  rcases h1 with ⟨h1, _⟩ | ⟨_, h1⟩
  · exact not_canSkip h h1
  · cases h1

/-- **C48** `mutate` is called with probability `⌈rate * 2^53⌉ / 2^53`: this is the probability that `breed` fails when
`mutate` panics, for operators that otherwise never fail. -/
theorem C48_mutation_probability (M : EvoOps I Mo U) (env : NumEnv) (model : Mo) (p : Population I) (r : ReproParams U)
    (hr : F64.zero.le r.mutationRate = true ∧ r.mutationRate.le F64.one = true)
    (h : Always (fun _ => True) (defaultBreed (M.withMutate fun _ i => pure i) env model p r)) :
    (defaultBreed (M.withMutate fun _ _ => Prog.done .panic) env model p r).probFail =
      (⌈r.mutationRate.val * 2 ^ 53⌉ : ℤ) / 2 ^ 53 := by
  rw [probFail_breed M env model p r h]
  obtain ⟨h1, h2, h3⟩ := inClosedUnit_iff.1 (show inClosedUnit r.mutationRate = true by
    unfold inClosedUnit; rw [hr.1, hr.2]; rfl)
  exact prob_fire h1 h2 h3

theorem numPop_select : Always (fun _ => True) (numParams.parentSelector.select exEnv numOps.selectors numPop) :=
  (C38_member exEnv numPop (by simp [numPop]) (by decide) (.tournament ⟨2⟩) (by simp [Selector.InRange]) (by simp)
    (by simp)).mono fun _ _ => trivial

example : (defaultBreed (numOps.withMutate fun _ _ => Prog.done .panic) exEnv () numPop numParams).probFail = 1 / 4 := by
  rw [C48_mutation_probability numOps exEnv () numPop numParams (by decide +kernel)]
  · rw [show numParams.mutationRate.val = 1 / 4 by decide +kernel,
      show ((1 : ℚ) / 4 * 2 ^ 53) = ((2 ^ 51 : ℤ) : ℚ) by norm_num, Int.ceil_intCast]
    norm_num
  · refine defaultBreed_always (fun _ => True) _ exEnv () numPop numParams numPop_select (fun ex _ => ?_) ?_ ?_ ?_ ?_ ?_
    · exact (selectDistinct_always numPop_select ex 3).mono fun _ _ _ _ => trivial
    all_goals intros; exact (always_pure _ _).2 trivial

/-! ### C49 -/

/-- **C49** `extend_population` keeps the vector and appends exactly `size` fresh random individuals. -/
theorem C49_extend (newRandom : Prog I) (l l' : List I) (size : Nat) :
    (defaultExtend newRandom l size).yields (.ok l') ↔
      ∃ new, l' = l ++ new ∧ new.length = size ∧ ∀ x ∈ new, newRandom.yields (.ok x) := by
  unfold defaultExtend
  split
  · rename_i h0
    subst h0
    constructor
    · rintro h; cases h; exact ⟨[], by simp⟩
    · rintro ⟨new, rfl, h, _⟩
      rw [List.length_eq_zero_iff.1 h]; simp
  · simp only [yields_bind_ok, yields_replicate, yields_pure, Res.ok.injEq]
    constructor
    · rintro ⟨new, ⟨h1, h2⟩, rfl⟩; exact ⟨new, rfl, h1, h2⟩
    · rintro ⟨new, rfl, h1, h2⟩; exact ⟨new, ⟨h1, h2⟩, rfl⟩

/-- **C49** `extend_population_with` keeps the vector and appends exactly `size` individuals: none for `size = 0`, otherwise
the given one and `size - 1` mutated copies of it. -/
theorem C49_extend_with (M : EvoOps I Mo U) (model : Mo) (l l' : List I) (size : Nat) (x : I) :
    (defaultExtendWith M model l size x).yields (.ok l') ↔
      (size = 0 ∧ l' = l) ∨ ∃ new, 0 < size ∧ l' = l ++ x :: new ∧ (x :: new).length = size ∧
        ∀ y ∈ new, (M.mutate model x).yields (.ok y) := by
  unfold defaultExtendWith
  by_cases h0 : size = 0
  · subst h0
    simp
  · by_cases h1 : size = 1
    · subst h1
      simp only [if_neg h0, if_true, yields_pure, Res.ok.injEq]
      constructor
      · rintro rfl; exact Or.inr ⟨[], by simp⟩
      · rintro (⟨h, _⟩ | ⟨new, _, rfl, h, _⟩)
        · exact absurd h h0
        · have : new = [] := by simpa using h
          subst this; rfl
    · have hsub : usizeSub size 1 = .ok (size - 1) := by unfold usizeSub; rw [if_pos (by omega)]
      simp only [if_neg h0, if_neg h1, hsub, Prog.lift_ok, Prog.bind_pure_left, yields_bind_ok, yields_replicate,
        yields_pure, Res.ok.injEq]
      constructor
      · rintro ⟨new, ⟨h2, h3⟩, rfl⟩
        exact Or.inr ⟨new, by omega, by simp, by simp [h2]; omega, h3⟩
      · rintro (⟨h, _⟩ | ⟨new, _, rfl, h, h3⟩)
        · exact absurd h h0
        · exact ⟨new, ⟨by simp at h; omega, h3⟩, by simp⟩

/-- **C49** Neither of them fails unless the operators do. -/
theorem C49_total (M : EvoOps I Mo U) (model : Mo) (newRandom : Prog I) (l : List I) (size : Nat) (x : I)
    (h1 : Always (fun _ => True) newRandom) (h2 : Always (fun _ => True) (M.mutate model x)) :
    Always (fun l' => l'.length = l.length + size) (defaultExtend newRandom l size) ∧
    Always (fun l' => l'.length = l.length + size) (defaultExtendWith M model l size x) := by
  constructor
  · unfold defaultExtend
    split
    · rename_i h; subst h; simp
    · rw [always_bind]
      refine (always_replicate _ _ h1 size).mono fun new hn => ?_
      rw [always_pure]; simp [hn.1]
  · unfold defaultExtendWith
    by_cases h0 : size = 0
    · subst h0; simp
    · by_cases h1 : size = 1
      · subst h1; simp
      · have hsub : usizeSub size 1 = .ok (size - 1) := by unfold usizeSub; rw [if_pos (by omega)]
        simp only [if_neg h0, if_neg h1, hsub, Prog.lift_ok, Prog.bind_pure_left]
        rw [always_bind]
        refine (always_replicate _ _ h2 (size - 1)).mono fun new hn => ?_
        rw [always_pure]; simp [hn.1]; omega

end RG.Props
