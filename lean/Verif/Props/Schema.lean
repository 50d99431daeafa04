import Verif.Proofs.Schema
import Verif.Props.OneMax

/-!
# Property C126: schemata

A schema prescribes genes at some positions (`SpecSchema.lean`). Holland's schema theorem bounds how fast the genomes that match a
schema are lost. Here it is about `breed` with the operators of the OneMax module, `SinglePoint` and `Duplicate`.
-/

set_option linter.unusedSectionVars false

namespace RG.Props
open RG RG.Prog
variable {I : Type} [Individual I] {Mo U G : Type} [DecidableEq G]

/-! ### The operators -/

/-- **C126** `SinglePoint`: an offspring of two parents that match the schema matches it. If the first parent matches it, and all prescribed
positions are between `first` and `last`, then `n - 1 - last` of the `n` points are good; if the second one does, `first + 1`. -/
theorem C126_crossover (H : Schema G) (first last : Nat) (hH : H.Within first last) (lt : G → G → Bool) (ord : Nat → List G → List G)
    (fuel : Nat) (p q : List G) (hlen : p.length = q.length) (hl : last < p.length) :
    (H.Matches p → H.Matches q → (CrossoverStrategy.singlePoint.crossover lt ord fuel p q).prob H.Matches = 1) ∧
    (H.Matches p → (p.length - 1 - last : ℚ) / p.length ≤ (CrossoverStrategy.singlePoint.crossover lt ord fuel p q).prob H.Matches) ∧
    (H.Matches q → first < p.length → (first + 1 : ℚ) / p.length ≤ (CrossoverStrategy.singlePoint.crossover lt ord fuel p q).prob H.Matches) := by
  have hne : p ≠ [] := fun h => by rw [h] at hl; exact Nat.not_lt_zero _ hl
  have hpos : (0 : ℚ) < p.length := by exact_mod_cast List.length_pos_iff.2 hne
  rw [Schema.prob_spx H lt ord fuel p q hne hlen]
  refine ⟨fun hp hq => ?_, fun hp => ?_, fun hq hf => ?_⟩
  · rw [Finset.filter_true_of_mem fun point _ => Schema.matches_both hlen hp hq point, Finset.card_range, div_self hpos.ne']
  · refine div_le_div_of_nonneg_right ?_ hpos.le
    have : (Finset.Ico (last + 1) p.length) ⊆ (Finset.range p.length).filter fun point => H.Matches (p.take point ++ q.drop point) := by
      intro i hi
      rw [Finset.mem_Ico] at hi
      exact Finset.mem_filter.2 ⟨Finset.mem_range.2 hi.2, Schema.matches_left hH hlen hp (by omega)⟩
    have := Finset.card_le_card this
    rw [Nat.card_Ico] at this
    have h2 : ((p.length - (last + 1) : ℕ) : ℚ) ≤ _ := Nat.cast_le.2 this
    rw [Nat.cast_sub (by omega)] at h2
    push_cast at h2
    linarith
  · refine div_le_div_of_nonneg_right ?_ hpos.le
    have : (Finset.range (first + 1)) ⊆ (Finset.range p.length).filter fun point => H.Matches (p.take point ++ q.drop point) := by
      intro i hi
      rw [Finset.mem_range] at hi
      exact Finset.mem_filter.2 ⟨Finset.mem_range.2 (by omega), Schema.matches_right hH hlen hq (by omega)⟩
    have := Finset.card_le_card this
    rw [Finset.card_range] at this
    exact_mod_cast this

/-- **C126** The bounds are attained: if the other parent disagrees with the schema at `first` and `last`, both prescribed, no other
point is good. -/
theorem C126_crossover_exact (H : Schema G) (first last : Nat) (hH : H.Within first last) (lt : G → G → Bool)
    (ord : Nat → List G → List G) (fuel : Nat) (p q : List G) (hlen : p.length = q.length) (hfl : first ≤ last) (hl : last < p.length) (a b : G)
    (ha : (first, a) ∈ H) (hb : (last, b) ∈ H) :
    (H.Matches p → q[last]? ≠ some b →
      (CrossoverStrategy.singlePoint.crossover lt ord fuel p q).prob H.Matches = (p.length - 1 - last : ℚ) / p.length) ∧
    (H.Matches q → p[first]? ≠ some a →
      (CrossoverStrategy.singlePoint.crossover lt ord fuel p q).prob H.Matches = (first + 1 : ℚ) / p.length) := by
  have hne : p ≠ [] := fun h => by rw [h] at hl; exact Nat.not_lt_zero _ hl
  rw [Schema.prob_spx H lt ord fuel p q hne hlen]
  refine ⟨fun hp hq => ?_, fun hq hp => ?_⟩
  · have : ((Finset.range p.length).filter fun point => H.Matches (p.take point ++ q.drop point)) = Finset.Ico (last + 1) p.length := by
      ext i
      rw [Finset.mem_filter, Finset.mem_range, Finset.mem_Ico]
      constructor
      · rintro ⟨h1, h2⟩
        refine ⟨?_, h1⟩
        by_contra h
        have := h2 _ hb
        rw [Schema.get_spx p q hlen, if_neg (by simpa using h)] at this
        exact hq this
      · rintro ⟨h1, h2⟩
        exact ⟨h2, Schema.matches_left hH hlen hp (by omega)⟩
    rw [this, Nat.card_Ico, Nat.cast_sub (by omega)]
    push_cast
    congr 1; ring
  · have : ((Finset.range p.length).filter fun point => H.Matches (p.take point ++ q.drop point)) = Finset.range (first + 1) := by
      ext i
      rw [Finset.mem_filter, Finset.mem_range, Finset.mem_range]
      constructor
      · rintro ⟨h1, h2⟩
        by_contra h
        have := h2 _ ha
        rw [Schema.get_spx p q hlen, if_pos (by simpa using h)] at this
        exact hp this
      · intro h1
        exact ⟨by omega, Schema.matches_right hH hlen hq (by omega)⟩
    rw [this, Finset.card_range]
    push_cast
    rfl

/-- **C126** `Duplicate`: a match survives with probability at least `1 - o/n`, `o` being the number of prescribed positions. -/
theorem C126_mutation (H : Schema G) (g : List G) (hH : ∀ x ∈ H, x.1 < g.length) (hg : H.Matches g) :
    1 - (H.order : ℚ) / g.length ≤ (MutationStrategy.duplicate.mutate g).prob H.Matches := by
  by_cases hn : 2 ≤ g.length
  · exact Schema.prob_duplicate g hn hH hg
  · have : MutationStrategy.duplicate.mutate g = pure g := by
      show duplicateMutation g = pure g
      unfold duplicateMutation
      rw [if_pos (by omega)]
    rw [this, prob_pure, if_pos hg]
    have : (0 : ℚ) ≤ (H.order : ℚ) / g.length := by positivity
    linarith

/-! ### Breeding -/

/-- **C126** The schema theorem: at least what the good parents contribute, less what the mutation destroys. All offspring survive here. -/
theorem C126_breed (H : Schema G) (first last : Nat) (hH : H.Within first last) (M : EvoOps I Mo U) (genome : I → List G) (model : Mo) (n : Nat)
    (lt : G → G → Bool) (ord : Nat → List G → List G) (fuel : Nat) (hM : SchemaModel M genome model n lt ord fuel)
    (hsurv : M.canSurvive = fun _ _ _ _ => pure true)
    (h1 : M.selectors.ReturnsMembers) (h2 : M.selectors.DistinctMembers) (hfl : first ≤ last) (hl : last < n)
    (env : NumEnv) (p : Population I) (hp : 1 < p.individuals.length) (hg : ∀ x ∈ p.individuals, (genome x).length = n) (r : ReproParams U) :
    (1 - chance r.mutationRate * (H.order / n)) *
      ((1 - chance r.crossoverRate) * (r.parentSelector.select env M.selectors p).prob (fun x => H.Matches (genome x.2)) +
        chance r.crossoverRate * (twoParents M env p r).average
          (share (fun x => H.Matches (genome x)) ((n - 1 - last) / n) ((first + 1) / n))) ≤
      (defaultBreed M env model p r).prob fun x => H.Matches (genome x) := by
  have := Schema.breed_le hM hH hl h1 h2 env p hp hg r
    (share (fun x => H.Matches (genome x)) ((n - 1 - last) / n) ((first + 1) / n)) (by
      intro x hx y hy
      right
      have hxn := hg x hx
      refine ⟨?_, fun o => by rw [hsurv]; exact (always_pure _ _).2 (Or.inl rfl)⟩
      refine Schema.start_le hM (x, y) _ le_rfl (fun y' hy' => ?_) hxn (fun b hb => hg b (hy b hb))
      have hyn := hg y' (hy y' hy')
      have hc := C126_crossover H first last hH lt ord fuel (genome x) (genome y') (by rw [hxn, hyn]) (by rw [hxn]; exact hl)
      rw [hxn] at hc
      show (if H.Matches (genome x) then _ else _) + (if H.Matches (genome y') then _ else _) ≤ _
      by_cases ha : H.Matches (genome x)
      · by_cases hb : H.Matches (genome y')
        · rw [if_pos ha, if_pos hb, hc.1 ha hb, ← add_div]
          have hn0 : (0 : ℚ) < n := by exact_mod_cast Nat.zero_lt_of_lt hl
          rw [div_le_one hn0]
          have : (first : ℚ) ≤ last := by exact_mod_cast hfl
          linarith
        · rw [if_pos ha, if_neg hb, add_zero]; exact hc.2.1 ha
      · by_cases hb : H.Matches (genome y')
        · rw [if_neg ha, if_pos hb, zero_add]; exact hc.2.2 hb (by omega)
        · rw [if_neg ha, if_neg hb, add_zero]; exact prob_nonneg _ _)
  rwa [Schema.share_none] at this

/-- **C126** Whatever the rule for the survival, which must not fail: parents that all match have matching offspring, but for mutation. -/
theorem C126_any (H : Schema G) (first last : Nat) (hH : H.Within first last) (M : EvoOps I Mo U) (genome : I → List G) (model : Mo) (n : Nat)
    (lt : G → G → Bool) (ord : Nat → List G → List G) (fuel : Nat) (hM : SchemaModel M genome model n lt ord fuel)
    (hsurv : ∀ o f p, Always (fun _ => True) (M.canSurvive model o f p))
    (h1 : M.selectors.ReturnsMembers) (h2 : M.selectors.DistinctMembers) (hl : last < n)
    (env : NumEnv) (p : Population I) (hp : 1 < p.individuals.length) (hg : ∀ x ∈ p.individuals, (genome x).length = n) (r : ReproParams U) :
    (1 - chance r.mutationRate * (H.order / n)) *
      ((1 - chance r.crossoverRate) * (r.parentSelector.select env M.selectors p).prob (fun x => H.Matches (genome x.2)) +
        chance r.crossoverRate * (twoParents M env p r).prob (AllGood fun x => H.Matches (genome x))) ≤
      (defaultBreed M env model p r).prob fun x => H.Matches (genome x) := by
  have := Schema.breed_le hM hH hl h1 h2 env p hp hg r
    (fun ps => if AllGood (fun x => H.Matches (genome x)) ps then 1 else 0) (by
      intro x hx y hy
      have hxn := hg x hx
      by_cases hall : AllGood (fun x => H.Matches (genome x)) (x, y)
      · right
        rw [if_pos hall]
        refine ⟨?_, fun o => (hsurv _ _ _).mono fun b _ => Or.inr ?_⟩
        · cases y with
          | none =>
            show _ ≤ (pure x : Prog I).prob _
            rw [prob_pure, if_pos hall.1]
          | some y' =>
            have hyn := hg y' (hy y' rfl)
            show _ ≤ (M.crossover model x y').prob _
            rw [Schema.prob_genome (hM.crossover x y' hxn hyn), (C126_crossover H first last hH lt ord fuel (genome x) (genome y')
              (by rw [hxn, hyn]) (by rw [hxn]; exact hl)).1 hall.1 (hall.2 y' rfl)]
        · cases y with
          | none => exact hall.1
          | some y' =>
            show H.Matches (genome (if _ then y' else x))
            split
            · exact hall.2 y' rfl
            · exact hall.1
      · left; rw [if_neg hall])
  have e1 : (r.parentSelector.select env M.selectors p).average
      (fun x => if AllGood (fun x => H.Matches (genome x)) (x.2, none) then (1 : ℚ) else 0) =
      (r.parentSelector.select env M.selectors p).prob (fun x => H.Matches (genome x.2)) := by
    unfold Prog.average prob
    refine expect_congr _ _ _ fun r _ => ?_
    cases r with
    | ok x => exact if_congr ⟨fun h => h.1, fun h => ⟨h, fun y hy => by cases hy⟩⟩ rfl rfl
    | panic => rfl
    | diverge => rfl
  have e2 : (twoParents M env p r).average (fun ps => if AllGood (fun x => H.Matches (genome x)) ps then (1 : ℚ) else 0) =
      (twoParents M env p r).prob (AllGood fun x => H.Matches (genome x)) := by
    unfold Prog.average prob
    exact expect_congr _ _ _ fun r _ => by cases r <;> rfl
  rwa [e1, e2] at this

/-- **C126** Holland's form, with the distance `last - first` of the outermost prescribed positions: it needs the second parents
to be as good as the first ones that have a second. -/
theorem C126_holland (H : Schema G) (first last : Nat) (hH : H.Within first last) (M : EvoOps I Mo U) (genome : I → List G) (model : Mo) (n : Nat)
    (lt : G → G → Bool) (ord : Nat → List G → List G) (fuel : Nat) (hM : SchemaModel M genome model n lt ord fuel)
    (hsurv : M.canSurvive = fun _ _ _ _ => pure true)
    (h1 : M.selectors.ReturnsMembers) (h2 : M.selectors.DistinctMembers) (hfl : first ≤ last) (hl : last < n)
    (env : NumEnv) (p : Population I) (hp : 1 < p.individuals.length) (hg : ∀ x ∈ p.individuals, (genome x).length = n) (r : ReproParams U)
    (hfirst : (r.parentSelector.select env M.selectors p).prob (fun x => H.Matches (genome x.2)) ≤
      (twoParents M env p r).prob fun ps => H.Matches (genome ps.1))
    (hsecond : (twoParents M env p r).prob (fun ps => H.Matches (genome ps.1) ∧ ps.2 ≠ none) ≤
      (twoParents M env p r).prob fun ps => ∃ y ∈ ps.2, H.Matches (genome y)) :
    (1 - chance r.mutationRate * (H.order / n)) * (1 - chance r.crossoverRate * ((last - first) / n)) *
      (r.parentSelector.select env M.selectors p).prob (fun x => H.Matches (genome x.2)) ≤
      (defaultBreed M env model p r).prob fun x => H.Matches (genome x) := by
  refine le_trans ?_ (C126_breed H first last hH M genome model n lt ord fuel hM hsurv h1 h2 hfl hl env p hp hg r)
  rw [mul_assoc]
  refine mul_le_mul_of_nonneg_left ?_ (Schema.keep_nonneg hH hl _)
  have hn0 : (0 : ℚ) < n := by exact_mod_cast Nat.zero_lt_of_lt hl
  have hflq : (first : ℚ) ≤ last := by exact_mod_cast hfl
  have hlq : (last : ℚ) + 1 ≤ n := by exact_mod_cast hl
  have hχ := chance_nonneg r.crossoverRate
  set good : I → Prop := fun x => H.Matches (genome x) with hgood
  set s := (r.parentSelector.select env M.selectors p).prob (fun x => H.Matches (genome x.2))
  set α : ℚ := (n - 1 - last) / n with hα
  set β : ℚ := (first + 1) / n with hβ
  have hαβ : 1 - (last - first : ℚ) / n = α + β := by rw [hα, hβ]; field_simp; ring
  have hβ0 : 0 ≤ β := by rw [hβ]; positivity
  have hαβ0 : (0 : ℚ) ≤ (last - first) / n := div_nonneg (by linarith) hn0.le
  have hαβ1 : 0 ≤ α + β := by
    rw [hα, hβ, ← add_div]
    exact div_nonneg (by linarith) hn0.le
  suffices h : (α + β) * s ≤ (twoParents M env p r).average (share good α β) by
    have h3 := mul_le_mul_of_nonneg_left h hχ
    have h4 : (1 - chance r.crossoverRate * ((last - first) / n)) * s = (1 - chance r.crossoverRate) * s + chance r.crossoverRate *
        ((α + β) * s) := by rw [← hαβ]; ring
    rw [h4]; linarith
  refine le_trans (mul_le_mul_of_nonneg_left hfirst hαβ1) ?_
  have h5 := mul_le_mul_of_nonneg_left hsecond hβ0
  have h6 : (α + β) * (twoParents M env p r).prob (fun ps => good ps.1) + β * (twoParents M env p r).prob (fun ps => ∃ y ∈ ps.2, good y) ≤
      (twoParents M env p r).average (share good α β) + β * (twoParents M env p r).prob (fun ps => good ps.1 ∧ ps.2 ≠ none) := by
    unfold Prog.average prob
    rw [← expect_mul_left, ← expect_mul_left, ← expect_mul_left, ← expect_add, ← expect_add]
    refine expect_mono _ _ _ fun ps _ => ?_
    rcases ps with ⟨x, y⟩ | _ | _
    · dsimp only
      cases y with
      | none =>
        simp only [share]
        by_cases hx : good x
        · simp [hx]; linarith
        · simp [hx]
      | some y =>
        simp only [share]
        by_cases hx : good x <;> by_cases hy : good y <;> simp [hx, hy]
    · simp
    · simp
  exact le_of_add_le_add_right (h6.trans (add_le_add_right h5 _))

/-! ### A generation -/

/-- **C126** The mean number of good individuals, whatever they are, that a generation makes: those it starts with, the elites, and for each
missing individual the chance that `breed` returns a good one; but a single missing one is not made. -/
theorem C126_generation (M : EvoModel I Mo U) (env : NumEnv) (model : Mo) (r : ReproParams U) (size : Nat) (p : Population I) (elites : List I)
    (hb : Always (fun _ => True) (M.breed env model p r)) (good : I → Prop) [DecidablePred good] :
    (defaultGenerate M env model (r, size) p elites).average (fun l => (l.countP (fun x => decide (good x)) : ℚ)) =
      elites.countP (fun x => decide (good x)) +
        (if size - elites.length = 1 then 0 else ((size - elites.length : ℕ) : ℚ)) * (M.breed env model p r).prob good := by
  unfold defaultGenerate
  dsimp only
  split
  · rename_i h
    rw [h, average_pure]
    simp
  · rename_i h
    rw [h, average_bind]
    simp only [average_pure]
    rw [average_const hb]
    simp
  · rename_i h0 h1
    rw [if_neg h1, average_bind]
    simp only [average_pure, List.countP_append]
    push_cast
    obtain ⟨ht, ha⟩ := average_replicate hb good (size - elites.length)
    rw [average_add, average_const ht, ha]

/-! ### OneMax -/

/-- **C126** The model of `lib.rs` is such a model. -/
theorem C126_oneMax (n : Nat) (hn : 0 < n) (hn' : n ≤ 2 ^ 53) :
    SchemaModel OneMax.ops (fun x => x.genome) () n (fun _ _ => false) (fun _ l => l) 0 := by
  refine ⟨fun a b _ _ => ?_, fun a _ => ?_, fun a _ => (always_pure _ _).2 rfl, fun a ha => (always_pure _ _).2 ⟨rfl, ?_⟩⟩
  · show (OneMax.crossover a b >>= _) = _
    unfold OneMax.crossover
    rw [bind_assoc]
    exact Prog.bind_pure_right _
  · show (OneMax.mutate a >>= _) = _
    unfold OneMax.mutate
    rw [bind_assoc]
    exact Prog.bind_pure_right _
  · exact (C63_ratio a (fun h => by rw [h] at ha; exact hn.ne ha) (by rw [ha]; exact hn')).2.2.2.2.2


/-- OneMax where every offspring survives. -/
def allSurvive : EvoOps OneMax Unit Empty := { OneMax.ops with canSurvive := fun _ _ _ _ => pure true }

theorem allSurvive_schema (n : Nat) (hn : 0 < n) (hn' : n ≤ 2 ^ 53) :
    SchemaModel allSurvive (fun x => x.genome) () n (fun _ _ => false) (fun _ l => l) 0 :=
  ⟨(C126_oneMax n hn hn').crossover, (C126_oneMax n hn hn').mutate, (C126_oneMax n hn hn').improve, (C126_oneMax n hn hn').evaluate⟩

/-- A population of given genomes. -/
def genomes (gs : List (List Bool)) : Population OneMax := 
  ⟨gs.map fun g => OneMax.evaluate (.ofGenome g), 0, 0, ⟨Stats.collect (gs.map fun g => fitness (OneMax.evaluate (.ofGenome g)))⟩⟩

/-- Crossover surely, mutation never. -/
def crossOnly (size : Nat) : ReproParams Empty := ⟨F64.one, F64.zero, .builtin (.tournament ⟨size⟩)⟩

/-- **C126** Holland's form is false without its last hypothesis. With tournaments of two among a lone `true` and a lone `false`, the `true` is
chosen with probability 3/4, and neither crossover nor mutation can destroy it; but its partner is then a `false`, as `select_distinct`
wants another one: only 9/16 of the offspring are `true`. -/
theorem C126_unlike : ((crossOnly 2).parentSelector.select exEnv allSurvive.selectors (genomes [[false], [true]])).prob
      (fun x => Schema.Matches [(0, true)] x.2.genome) = 3 / 4 ∧
    (defaultBreed allSurvive exEnv () (genomes [[false], [true]]) (crossOnly 2)).prob (fun x => Schema.Matches [(0, true)] x.genome) = 9 / 16 := by
  refine ⟨by decide +kernel, ?_⟩
  unfold prob
  rw [expect_breed_sure _ _ _ _ (by simp [genomes]) (crossOnly 2) chance_one chance_zero]
  decide +kernel

/-- **C126** The schema theorem is false of OneMax itself, whose `can_survive` is the default: with uniform selection, the offspring
that match the schema of the less fit parent hardly ever survive. -/
theorem C126_keep_best : ((crossOnly 1).parentSelector.select exEnv OneMax.ops.selectors (genomes [[false], [true]])).prob
      (fun x => Schema.Matches [(0, false)] x.2.genome) = 1 / 2 ∧
    (twoParents OneMax.ops exEnv (genomes [[false], [true]]) (crossOnly 1)).average
      (share (fun x => Schema.Matches [(0, false)] x.genome) 0 1) = 1 / 2 ∧
    (defaultBreed OneMax.ops exEnv () (genomes [[false], [true]]) (crossOnly 1)).prob (fun x => Schema.Matches [(0, false)] x.genome) = 1 / 16 := by
  refine ⟨by decide +kernel, by decide +kernel, ?_⟩
  unfold prob
  rw [expect_breed_sure _ _ _ _ (by simp [genomes]) (crossOnly 1) chance_one chance_zero]
  decide +kernel

/-! ### Examples -/

/-- The default rates, with uniform selection. -/
def uniformRates : ReproParams Empty := { (ReproParams.default : ReproParams Empty) with parentSelector := .builtin (.tournament ⟨1⟩) }

/-- Three genomes. -/
def three : Population OneMax := genomes [[false, false, false], [false, true, false], [true, true, false]]

theorem three_length : ∀ x ∈ three.individuals, x.genome.length = 3 := by
  intro x hx
  simp [three, genomes, OneMax.evaluate, OneMax.ofGenome] at hx
  rcases hx with rfl | rfl | rfl <;> rfl

example : (1 - chance uniformRates.mutationRate * ((2 : ℕ) / (3 : ℕ))) * (1 - chance uniformRates.crossoverRate * (((1 : ℕ) - (0 : ℕ)) / (3 : ℕ))) *
    (uniformRates.parentSelector.select exEnv allSurvive.selectors three).prob (fun x => Schema.Matches [(0, true), (1, true)] x.2.genome) ≤
    (defaultBreed allSurvive exEnv () three uniformRates).prob fun x => Schema.Matches [(0, true), (1, true)] x.genome :=
  C126_holland [(0, true), (1, true)] 0 1 (by intro x hx; simp at hx; rcases hx with rfl | rfl <;> simp) allSurvive (fun x => x.genome) () 3 _ _ 0
    (allSurvive_schema 3 (by norm_num) (by norm_num)) rfl (fun u => u.elim) (fun u => u.elim) (by norm_num) (by norm_num) exEnv three
    (by simp [three, genomes]) three_length uniformRates (by decide +kernel) (by decide +kernel)

example : (uniformRates.parentSelector.select exEnv allSurvive.selectors three).prob
      (fun x => Schema.Matches [(0, true), (1, true)] x.2.genome) = 1 / 3 ∧
    (twoParents allSurvive exEnv three uniformRates).average (share (fun x => Schema.Matches [(0, true), (1, true)] x.genome) (1 / 3) (1 / 3)) =
      55 / 243 := by
  refine ⟨by decide +kernel, by decide +kernel⟩

/-- For OneMax itself, with the default rule. -/
example : (1 - chance uniformRates.mutationRate * ((1 : ℕ) / (3 : ℕ))) *
      ((1 - chance uniformRates.crossoverRate) * (2 / 3) + chance uniformRates.crossoverRate * (28 / 81)) ≤
    (defaultBreed OneMax.ops exEnv () three uniformRates).prob fun x => Schema.Matches [(1, true)] x.genome := by
  have h := C126_any [(1, true)] 1 1 (by intro x hx; simp at hx; subst hx; simp) OneMax.ops (fun x => x.genome) () 3 _ _ 0
    (C126_oneMax 3 (by norm_num) (by norm_num)) (fun _ _ _ => (always_pure _ _).2 trivial) (fun u => u.elim) (fun u => u.elim) (by norm_num) exEnv three
    (by simp [three, genomes]) three_length uniformRates
  rwa [show (uniformRates.parentSelector.select exEnv OneMax.ops.selectors three).prob
      (fun x => Schema.Matches [(1, true)] x.2.genome) = 2 / 3 by decide +kernel,
    show (twoParents OneMax.ops exEnv three uniformRates).prob (AllGood fun x => Schema.Matches [(1, true)] x.genome) = 28 / 81 by
      decide +kernel] at h

/-- OneMax that breeds by copying a random individual. -/
def copying : EvoModel OneMax Unit Empty := { OneMax.model with breed := fun _ _ p _ => do
  let i ← Prog.uniform 3
  pure (p.individuals.getD i (.ofGenome [])) }

example : (defaultGenerate copying exEnv () (uniformRates, 3) three [OneMax.ofGenome [true, true, true]]).average
    (fun l => (l.countP (fun x => decide (Schema.Matches [(1, true)] x.genome)) : ℚ)) = 7 / 3 := by
  rw [C126_generation copying exEnv () uniformRates 3 three _ _ fun x => Schema.Matches [(1, true)] x.genome]
  · decide +kernel
  · rintro r ⟨i, -, rfl⟩
    exact ⟨_, rfl, trivial⟩

example : (CrossoverStrategy.singlePoint.crossover (fun _ _ => false) (fun _ l => l) 0 [1, 2, 3, 4, 5] [6, 7, 8, 9, 10]).prob
    (Schema.Matches [(1, 2), (2, 3)]) = 2 / 5 := by decide +kernel

example : (MutationStrategy.duplicate.mutate [1, 2, 3, 4]).prob (Schema.Matches [(0, 1)]) = 3 / 4 := by decide +kernel

end RG.Props
