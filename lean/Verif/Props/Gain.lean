import Verif.Proofs.Gain
import Verif.Props.Convergence

/-!
# C128: what a generation gains on average

`p.average f` is the expectation of `f` over the normal ends of `p` (`SpecSchema.lean`). A selection that favours the fit
(`FavoursFit`, C82: tournament, rank, elitist) and the default `can_survive` are assumed.
-/

set_option linter.unusedSectionVars false

namespace RG.Props
open RG RG.Prog
variable {I : Type} [Individual I] {Mo U : Type}

/-- The mean fitness of a list of individuals. -/
def meanFitness (l : List I) : ℚ := (l.map fun x => (fitness x).val).sum / l.length

/-- **C128** (breeding gains) With the default `can_survive`, a bred individual is on average at least as good as a selected one, by every
measure `φ` that does not fall with the fitness. -/
theorem C128_breed {M : EvoOps I Mo U}
    (hcs : M.canSurvive = fun _ offspring parent _ => pure ((fitness parent).le (fitness offspring)))
    (env : NumEnv) (model : Mo) (p : Population I) (r : ReproParams U) (hal : Always (fun _ => True) (defaultBreed M env model p r))
    (hsel : Partially (IsMember p) (r.parentSelector.select env M.selectors p))
    (hnan : ∀ x ∈ p.individuals, (fitness x).isNaN = false) (φ : F64 → ℚ) (hφ : ∀ a b, a.le b = true → φ a ≤ φ b) :
    (r.parentSelector.select env M.selectors p).average (fun x => φ (fitness x.2)) ≤
      (defaultBreed M env model p r).average fun c => φ (fitness c) :=
  average_breed_ge hcs env model p r hal (fun x hx => hnan _ (List.mem_of_getElem? (hsel x hx).2)) (fun _ => True) φ
    (fun _ _ _ _ h => hφ _ _ h) (fun _ _ => trivial) fun _ _ => trivial

/-- **C128** (thresholds) If the selection favours the fit, the probability that a bred individual reaches a fitness is at least the
proportion of the population that has reached it. -/
theorem C128_threshold {M : EvoOps I Mo U}
    (hcs : M.canSurvive = fun _ offspring parent _ => pure ((fitness parent).le (fitness offspring)))
    (env : NumEnv) (model : Mo) (p : Population I) (r : ReproParams U) (hal : Always (fun _ => True) (defaultBreed M env model p r))
    (hsel : Always (IsMember p) (r.parentSelector.select env M.selectors p))
    (hf : FavoursFit (r.parentSelector.select env M.selectors p) p.individuals.length)
    (hnan : ∀ x ∈ p.individuals, (fitness x).isNaN = false)
    (hsorted : p.individuals.Pairwise fun a b => (fitness a).le (fitness b) = true) (t : F64) :
    (p.individuals.countP (fun x => t.le (fitness x)) : ℚ) / p.individuals.length ≤
      (defaultBreed M env model p r).prob fun c => t.le (fitness c) = true := by
  have h := C128_breed hcs env model p r hal (fun x hx => by
    obtain ⟨y, e, hy⟩ := hsel _ hx; cases e; exact hy) hnan (fun v => if t.le v = true then 1 else 0) (fun a b hab => by
      by_cases h1 : t.le a = true
      · rw [if_pos h1, if_pos (F64.le_trans h1 hab)]
      · rw [if_neg h1]; split <;> norm_num)
  rw [average_indicator, average_indicator] at h
  refine le_trans ?_ h
  set n := p.individuals.length with hn
  set m := p.individuals.countP (fun x => t.le (fitness x)) with hm
  rcases Nat.eq_zero_or_pos m with h0 | h0
  · rw [h0]
    simpa using prob_nonneg _ _
  have hmn : m ≤ n := List.countP_le_length
  refine (C82_dominates p _ hsel hf m hmn h0).trans (prob_mono _ _ _ fun x hx hle => ?_)
  -- the last `m` individuals are exactly those that reach `t`
  obtain ⟨y, e, hy⟩ := hsel _ hx
  cases e
  have hlast : ∀ i (hi : i < n), n - m ≤ i → t.le (fitness p.individuals[i]) = true := by
    intro i hi hle
    by_contra hc
    have hlow : ∀ j (hj : j < n), j ≤ i → ¬ t.le (fitness p.individuals[j]) = true := fun j hj hji hjt => hc (by
      rcases Nat.lt_or_eq_of_le hji with hlt | rfl
      · exact F64.le_trans hjt (List.pairwise_iff_getElem.1 hsorted j i hj hi hlt)
      · exact hjt)
    have hsum : m = (p.individuals.take (i + 1)).countP (fun x => t.le (fitness x)) +
        (p.individuals.drop (i + 1)).countP (fun x => t.le (fitness x)) := by
      rw [← List.countP_append, List.take_append_drop]
    have h1 : (p.individuals.take (i + 1)).countP (fun x => t.le (fitness x)) = 0 := by
      rw [List.countP_eq_zero]
      intro x hx
      obtain ⟨j, hj, rfl⟩ := List.getElem_of_mem hx
      simp only [List.length_take] at hj
      rw [List.getElem_take]
      exact hlow j (by omega) (by omega)
    have h2 : (p.individuals.drop (i + 1)).countP (fun x => t.le (fitness x)) ≤ n - (i + 1) :=
      List.countP_le_length.trans (by simp [hn])
    omega
  have := hlast x.1 hy.1 hle
  have hx2 := hy.2
  rw [List.getElem?_eq_getElem hy.1] at hx2
  rwa [Option.some.inj hx2] at this

/-- **C128** (mean) The expected fitness of a bred individual is at least the mean of the population, if fitness values are finite. -/
theorem C128_mean {M : EvoOps I Mo U}
    (hcs : M.canSurvive = fun _ offspring parent _ => pure ((fitness parent).le (fitness offspring)))
    (env : NumEnv) (model : Mo) (p : Population I) (r : ReproParams U) (hal : Always (fun _ => True) (defaultBreed M env model p r))
    (hsel : Always (IsMember p) (r.parentSelector.select env M.selectors p))
    (hf : FavoursFit (r.parentSelector.select env M.selectors p) p.individuals.length)
    (hfin : ∀ x ∈ p.individuals, (fitness x).isFinite = true)
    (hsorted : p.individuals.Pairwise fun a b => (fitness a).le (fitness b) = true)
    (hbred : Partially (fun c => (fitness c).isFinite = true) (defaultBreed M env model p r)) :
    meanFitness p.individuals ≤ (defaultBreed M env model p r).average fun c => (fitness c).val := by
  have hmem : ∀ x, (r.parentSelector.select env M.selectors p).yields (.ok x) → x.2 ∈ p.individuals := fun x hx => by
    obtain ⟨y, e, hy⟩ := hsel _ hx; cases e; exact List.mem_of_getElem? hy.2
  refine (C82_expected p _ hsel hf hfin hsorted).trans ?_
  refine le_trans (le_of_eq ?_) (average_breed_ge hcs env model p r hal (fun x hx => F64.isNaN_of_finite (hfin _ (hmem x hx)))
    (fun x => (fitness x).isFinite = true) F64.val (fun a b ha hb h => (F64.le_finite ha hb).1 h) (fun x hx => hfin _ (hmem x hx)) hbred)
  unfold average
  refine expect_congr _ _ _ fun r _ => ?_
  cases r <;> rfl

/-- The elites are on average at least as good as the population. -/
theorem takeElites_sum_ge {p : Population I} (hfin : ∀ x ∈ p.individuals, (fitness x).isFinite = true)
    (hsorted : p.individuals.Pairwise fun a b => (fitness a).le (fitness b) = true) (elites : Nat) :
    0 ≤ ((takeElites elites p []).map fun x => (fitness x).val - meanFitness p.individuals).sum := by
  set m := meanFitness p.individuals with hm
  unfold takeElites
  split
  · have hp : (p.individuals.map fun x => (fitness x).val).Pairwise (· ≤ ·) := by
      rw [List.pairwise_map]
      refine (List.Pairwise.and_mem.1 hsorted).imp fun h => (F64.le_finite (hfin _ h.1) (hfin _ h.2.1)).1 h.2.2
    have := drop_sum_ge (p.individuals.map fun x => (fitness x).val) hp m (by
      rw [hm, meanFitness, List.length_map]
      rcases Nat.eq_zero_or_pos p.individuals.length with h0 | h0
      · rw [List.eq_nil_of_length_eq_zero h0]; simp
      · have : (p.individuals.length : ℚ) ≠ 0 := by exact_mod_cast h0.ne'
        field_simp) (p.len - elites)
    rw [← List.map_drop, List.map_map] at this
    exact this
  · simp

/-- **C128** (a generation) The expected total of the differences from the mean of the population, over the elites and the bred individuals
that are to make the next one, is not negative: before duplicates are merged, a generation does not lower the mean on average. -/
theorem C128_generation {M : EvoModel I Mo U} (hb : M.breed = defaultBreed M.toEvoOps)
    (hcs : M.canSurvive = fun _ offspring parent _ => pure ((fitness parent).le (fitness offspring)))
    (env : NumEnv) (model : Mo) (p : Population I) (r : ReproParams U)
    (hal : Always (fun _ => True) (defaultBreed M.toEvoOps env model p r))
    (hsel : Always (IsMember p) (r.parentSelector.select env M.selectors p))
    (hf : FavoursFit (r.parentSelector.select env M.selectors p) p.individuals.length)
    (hfin : ∀ x ∈ p.individuals, (fitness x).isFinite = true)
    (hsorted : p.individuals.Pairwise fun a b => (fitness a).le (fitness b) = true)
    (hbred : Partially (fun c => (fitness c).isFinite = true) (defaultBreed M.toEvoOps env model p r)) (elites size : Nat) :
    0 ≤ (defaultGenerate M env model (r, size) p (takeElites elites p [])).average
      fun l => (l.map fun x => (fitness x).val - meanFitness p.individuals).sum := by
  set m := meanFitness p.individuals with hm
  have helite : 0 ≤ ((takeElites elites p []).map fun x => (fitness x).val - m).sum := takeElites_sum_ge hfin hsorted elites
  have hmean := C128_mean hcs env model p r hal hsel hf hfin hsorted hbred
  simp only [defaultGenerate, hb]
  split
  · rw [average_pure]; exact helite
  · refine le_average ?_
    rw [always_bind]
    exact hal.mono fun _ _ => (always_pure _ _).2 helite
  · rename_i k _ _
    rw [average_bind]
    simp only [average_pure, List.map_append, List.sum_append]
    rw [average_add, average_const (average_replicate hal (fun _ => True) _).1, average_replicate_sum hal]
    have : (defaultBreed M.toEvoOps env model p r).average (fun x => (fitness x).val - m) =
        (defaultBreed M.toEvoOps env model p r).average (fun x => (fitness x).val) - m := by
      have h1 := average_add (defaultBreed M.toEvoOps env model p r) (fun x => (fitness x).val) (fun _ => -m)
      rw [average_const hal] at h1
      simpa [sub_eq_add_neg] using h1
    rw [this]
    have h0 : (0 : ℚ) ≤ (size - (takeElites elites p []).length : Nat) := Nat.cast_nonneg _
    have := mul_nonneg h0 (sub_nonneg.2 hmean)
    linarith

/-! ### The limits of this -/

/-- Two individuals, of fitness 0 and 9. -/
def lowAndHigh : Population Num := ⟨[num 0, num 9], 0, 0, ⟨Stats.collect [F64.lit 0, F64.lit 9]⟩⟩

/-- A uniform choice of the parent, no crossover, always mutation. -/
def uniformParams : ReproParams Empty := ⟨F64.zero, F64.one, .builtin (.tournament ⟨1⟩)⟩

/-- **C128** (merging duplicates) The population that results can have a lower mean, although the list it is made from has a higher one:
of 0 and 9, with mean 4.5, breeding can make 9, 9, 9, 1, 2, with mean 6; the population is then 1, 2, 9, with mean 4. -/
theorem C128_merging : ∃ l p' old, (defaultGenerate guessModel exFullEnv.num () (uniformParams, 5) lowAndHigh []).yields (.ok l) ∧
    lowAndHigh.replace exFullEnv.sort l = .ok (p', old) ∧ meanFitness p'.individuals < meanFitness lowAndHigh.individuals ∧
    meanFitness lowAndHigh.individuals < meanFitness l := by
  have h1 : (defaultGenerate guessModel exFullEnv.num () (uniformParams, 5) lowAndHigh []).yields (.ok [num 9, num 9, num 9, num 1, num 2]) :=
    yields_of_draws _ [1, 0, 0, 0, 1, 0, 0, 0, 1, 0, 0, 0, 0, 0, 0, 1, 0, 0, 0, 2] _ (by decide +kernel)
  have h2 : (lowAndHigh.replace exFullEnv.sort [num 9, num 9, num 9, num 1, num 2]).okAnd
      (fun y => y.1.individuals = [num 1, num 2, num 9]) = true := by decide +kernel
  obtain ⟨⟨p', old⟩, h3, h4⟩ := Res.of_okAnd h2
  refine ⟨_, p', old, h1, h3, ?_, ?_⟩
  · have h4 : p'.individuals = [num 1, num 2, num 9] := by simpa using h4
    rw [h4]
    decide +kernel
  · decide +kernel

/-- A model whose mutation makes the number 0, which always survives. -/
def decayModel : EvoOps Num Unit Empty :=
  { crossover := fun _ a _ => pure a
    mutate := fun _ _ => pure (num 0)
    evaluate := fun _ a => pure a
    canSurvive := fun _ _ _ _ => pure true
    selectors := ⟨fun u => u.elim, fun u => u.elim, fun u => u.elim⟩ }

/-- **C128** (other rules of survival) Without the default `can_survive` breeding can lower the mean with certainty. -/
theorem C128_any_rule : (defaultBreed decayModel exFullEnv.num () lowAndHigh uniformParams).average (fun c => (fitness c).val) <
    meanFitness lowAndHigh.individuals := by
  have h : ∀ c, (defaultBreed decayModel exFullEnv.num () lowAndHigh uniformParams).yields (.ok c) → c = num 0 := by
    intro c hc
    obtain ⟨p1, p2, f, o, -, -, ⟨o0, o1, o2, -, h1, h2, h3⟩, h4⟩ := (yields_defaultBreed _ _ _ _ _ c).1 hc
    have ho : o1 = num 0 := by
      rcases h1 with ⟨h1, -⟩ | ⟨-, h1⟩
      · exact absurd h1 (not_canSkip (by decide +kernel))
      · cases h1; rfl
    cases h2
    cases h3
    subst ho
    rcases h4 with ⟨-, -, h⟩ | ⟨h | h, -⟩
    · exact h
    · exact absurd h (by decide +kernel)
    · cases h
  have h0 : (defaultBreed decayModel exFullEnv.num () lowAndHigh uniformParams).average (fun c => (fitness c).val) ≤ 0 := by
    have hz : (fitness (num 0)).val = 0 := by decide +kernel
    refine (average_mono _ (g := fun _ => 0) fun a ha => ?_).trans (le_of_eq ?_)
    · rw [h a ha, hz]
    · unfold average
      refine Eq.trans (expect_congr _ _ _ fun r _ => ?_) (expect_const (defaultBreed decayModel exFullEnv.num () lowAndHigh uniformParams) 0)
      cases r <;> rfl
  refine lt_of_le_of_lt h0 ?_
  decide +kernel

/-! ### An example -/

/-- The default rates and tournaments of two. -/
def duelRates : ReproParams Empty := ⟨F64.lit (8 / 10), F64.lit (1 / 10), .builtin (.tournament ⟨2⟩)⟩

-- of 0 and 9 a bred individual reaches 9 with probability at least 1/2 and has an expected fitness of at least 4.5
example : (1 : ℚ) / 2 ≤ (defaultBreed guessModel.toEvoOps exFullEnv.num () lowAndHigh duelRates).prob
      (fun c => (F64.lit 9).le (fitness c) = true) ∧
    9 / 2 ≤ (defaultBreed guessModel.toEvoOps exFullEnv.num () lowAndHigh duelRates).average (fun c => (fitness c).val) := by
  have hv : ∀ x ∈ lowAndHigh.individuals, isValid x = true := by decide +kernel
  have hal : Always (fun x => isValid x = true) (defaultBreed guessModel.toEvoOps exFullEnv.num () lowAndHigh duelRates) :=
    breed_always guess_safe _ _ _ _ (by simp [lowAndHigh]) (by simp [lowAndHigh]) hv
      ⟨_, rfl, by show (2 : Nat) ≠ 0; norm_num, fun b h => by cases h⟩
  have hsel : Always (IsMember lowAndHigh) (duelRates.parentSelector.select exFullEnv.num guessModel.selectors lowAndHigh) :=
    C38_member exFullEnv.num lowAndHigh (by simp [lowAndHigh]) (by simp [lowAndHigh]) (.tournament ⟨2⟩) (by show (2 : Nat) ≠ 0; norm_num)
      (fun b h => by cases h) (fun h => by cases h)
  have hf : FavoursFit (duelRates.parentSelector.select exFullEnv.num guessModel.selectors lowAndHigh) lowAndHigh.individuals.length :=
    (C82_rank_based lowAndHigh (by simp [lowAndHigh])).1 ⟨2⟩ (by norm_num)
  have hs : lowAndHigh.individuals.Pairwise fun a b => (fitness a).le (fitness b) = true := by decide +kernel
  constructor
  · refine le_trans (by decide +kernel) (C128_threshold rfl _ _ _ _ (hal.mono fun _ _ => trivial) hsel hf
      (fun x hx => F64.isNaN_of_finite (hv x hx)) hs (F64.lit 9))
  · refine le_trans (by decide +kernel) (C128_mean rfl _ _ _ _ (hal.mono fun _ _ => trivial) hsel hf hv hs fun c hc => ?_)
    obtain ⟨d, e, hd⟩ := hal _ hc
    cases e
    exact hd

end RG.Props
