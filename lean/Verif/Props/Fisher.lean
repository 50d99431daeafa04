import Verif.Props.Asking

/-!
# C130: what the wheels gain

With the roulette wheel the expected fitness of a selected individual exceeds the mean of the population by the variance divided by the mean
(the theorem of Fisher for proportional selection), up to the rounding errors of `f64`. With the default `can_survive` breeding keeps that
gain, and a generation made of elites and bred individuals has it for every bred one.
-/

set_option linter.unusedSectionVars false

namespace RG.Props
open RG RG.Prog
variable {I : Type} [Individual I] {Mo U : Type}

/-- The variance of the fitness values of a list of individuals. -/
def fitnessVariance (l : List I) : ℚ := (l.map fun x => ((fitness x).val - meanFitness l) ^ 2).sum / l.length

/-- A sum over a list as one over its indices. -/
theorem list_sum_range (l : List I) (g : I → ℚ) :
    (l.map g).sum = ∑ i ∈ Finset.range l.length, if h : i < l.length then g l[i] else 0 := by
  rw [← Fin.sum_univ_eq_sum_range (fun i => if h : i < l.length then g l[i] else 0), ← List.sum_ofFn]
  congr 1
  refine List.ext_getElem (by simp) fun i h1 h2 => ?_
  simp only [List.length_map] at h1
  simp

/-- If every individual is selected with a probability close to its share of the total weight, the average of `g` over the selected one is
close to the weighted mean of `g`. -/
theorem average_shares {p : Population I} {q : Prog (Nat × I)} (hal : Always (IsMember p) q) (w g : I → ℚ) (ε W : ℚ)
    (hP : ∀ i (hi : i < p.individuals.length), |q.prob (fun r => r.1 = i) - w p.individuals[i] / W| ≤ ε) :
    |q.average (fun r => g r.2) - (p.individuals.map fun x => w x * g x).sum / W| ≤ ε * (p.individuals.map fun x => |g x|).sum := by
  have h1 : q.average (fun r => g r.2) = q.average fun r => if h : r.1 < p.individuals.length then g p.individuals[r.1] else 0 :=
    average_congr _ fun r hr => by
      obtain ⟨a, e, ha1, ha2⟩ := hal _ hr
      cases e
      rw [dif_pos ha1]
      rw [List.getElem?_eq_getElem ha1] at ha2
      rw [Option.some.inj ha2]
  rw [h1, average_by_index hal fun i => if h : i < p.individuals.length then g p.individuals[i] else 0, list_sum_range, list_sum_range,
    Finset.sum_div, ← Finset.sum_sub_distrib, Finset.mul_sum]
  refine (Finset.abs_sum_le_sum_abs _ _).trans (Finset.sum_le_sum fun i hi => ?_)
  have hi := Finset.mem_range.1 hi
  simp only [dif_pos hi]
  rw [show g p.individuals[i] * q.prob (fun r => r.1 = i) - w p.individuals[i] * g p.individuals[i] / W =
    (q.prob (fun r => r.1 = i) - w p.individuals[i] / W) * g p.individuals[i] by ring, abs_mul]
  exact mul_le_mul_of_nonneg_right (hP i hi) (abs_nonneg _)

theorem sum_sq_mean (l : List I) (hW : 0 < (l.map fun x => (fitness x).val).sum) :
    (l.map fun x => (fitness x).val * (fitness x).val).sum / (l.map fun x => (fitness x).val).sum =
      meanFitness l + fitnessVariance l / meanFitness l := by
  have hn : (l.length : ℚ) ≠ 0 := fun h => by
    have : l = [] := List.eq_nil_of_length_eq_zero (by exact_mod_cast h)
    rw [this] at hW; simp at hW
  have key : ∀ (c : ℚ) (l : List I), (l.map fun x => ((fitness x).val - c) ^ 2).sum =
      (l.map fun x => (fitness x).val * (fitness x).val).sum - 2 * c * (l.map fun x => (fitness x).val).sum + c ^ 2 * l.length := by
    intro c l
    induction l with
    | nil => simp
    | cons x l ih => simp only [List.map_cons, List.sum_cons, List.length_cons, ih]; push_cast; ring
  unfold fitnessVariance
  rw [key]
  unfold meanFitness
  set W := (l.map fun x => (fitness x).val).sum
  have hW' : W ≠ 0 := hW.ne'
  field_simp
  ring

section Roulette
variable {p : Population I}

theorem fair_total_pos {w : I → F64} (hw : FairWeights (p.individuals.map w)) : 0 < (p.individuals.map fun x => (w x).val).sum := by
  have := hw.2.1
  rw [List.map_map] at this
  exact lt_of_lt_of_le (zpow_pos (by norm_num) _) this

theorem fair_ne {w : I → F64} (hw : FairWeights (p.individuals.map w)) : p.individuals ≠ [] := fun h => by
  have := fair_total_pos hw
  rw [h] at this
  simp at this

theorem fair_always (env : NumEnv) (s : Selector) {w : I → F64} (hw : FairWeights (p.individuals.map w)) (hs : IsWheel s)
    (hr : s.InRange) : Always (IsMember p) (s.select env p) := by
  have hlen := hw.2.2.2
  rw [List.length_map] at hlen
  refine C38_member env p (fair_ne hw) (hlen.trans (by norm_num)) s hr ?_ ?_
  all_goals cases s <;> first | exact hs.elim | (intro b h; cases h) | (intro h; cases h)

/-- **C130** (selection) With fair fitness values, the expected fitness of an individual selected by the roulette wheel is the mean plus the
variance divided by the mean, up to a relative error of `n^2 / 2^49`. -/
theorem C130_selected (env : NumEnv) (henv : env.LawfulSum) (s : RouletteWheelSelection) (hw : FairWeights (p.individuals.map fitness)) :
    |((s.prepare env p).select p).average (fun x => (fitness x.2).val) -
        (meanFitness p.individuals + fitnessVariance p.individuals / meanFitness p.individuals)| ≤
      p.individuals.length ^ 2 * meanFitness p.individuals / 2 ^ 49 := by
  have hpos := fair_total_pos hw
  have hal : Always (IsMember p) ((s.prepare env p).select p) := fair_always env (.rouletteWheel (s.prepare env p)) hw trivial trivial
  have h := average_shares hal (fun x => (fitness x).val) (fun x => (fitness x).val) _ _
    fun i hi => C42_f64_probability env henv s p hw i hi
  rw [sum_sq_mean _ hpos] at h
  refine h.trans (le_of_eq ?_)
  have habs : (p.individuals.map fun x => |(fitness x).val|) = p.individuals.map fun x => (fitness x).val :=
    List.map_congr_left fun x hx => abs_of_nonneg (hw.1 _ (List.mem_map_of_mem hx)).2
  rw [habs]
  have hn : (p.individuals.length : ℚ) ≠ 0 := by
    exact_mod_cast fun h => fair_ne hw (List.eq_nil_of_length_eq_zero h)
  unfold meanFitness
  field_simp

/-- **C130** (breeding) With the default `can_survive` the expected fitness of a bred individual is at least that. -/
theorem C130_breed {M : EvoOps I Mo U}
    (hcs : M.canSurvive = fun _ offspring parent _ => pure ((fitness parent).le (fitness offspring)))
    (env : NumEnv) (henv : env.LawfulSum) (model : Mo) (s : RouletteWheelSelection) (cr mr : F64)
    (hw : FairWeights (p.individuals.map fitness))
    (hal : Always (fun _ => True) (defaultBreed M env model p ⟨cr, mr, .builtin (.rouletteWheel (s.prepare env p))⟩))
    (hbred : Partially (fun c => (fitness c).isFinite = true)
      (defaultBreed M env model p ⟨cr, mr, .builtin (.rouletteWheel (s.prepare env p))⟩)) :
    meanFitness p.individuals + fitnessVariance p.individuals / meanFitness p.individuals -
        p.individuals.length ^ 2 * meanFitness p.individuals / 2 ^ 49 ≤
      (defaultBreed M env model p ⟨cr, mr, .builtin (.rouletteWheel (s.prepare env p))⟩).average fun c => (fitness c).val := by
  have hsel : Always (IsMember p) ((s.prepare env p).select p) := fair_always env (.rouletteWheel (s.prepare env p)) hw trivial trivial
  have hmem : ∀ x, ((s.prepare env p).select p).yields (.ok x) → (fitness x.2).isFinite = true := fun x hx => by
    obtain ⟨y, e, hy⟩ := hsel _ hx
    cases e
    exact (hw.1 _ (List.mem_map_of_mem (List.mem_of_getElem? hy.2))).1
  have h1 := (abs_le.1 (C130_selected env henv s hw)).1
  have h2 := average_breed_ge hcs env model p ⟨cr, mr, .builtin (.rouletteWheel (s.prepare env p))⟩ hal
    (fun x hx => F64.isNaN_of_finite (hmem x hx)) (fun x => (fitness x).isFinite = true) F64.val
    (fun a b ha hb h => (F64.le_finite ha hb).1 h) hmem hbred
  have h3 : ((s.prepare env p).select p).average (fun x => (fitness x.2).val) ≤ _ := h2
  linarith

/-- **C130** (a generation) The expected total of the differences from the mean, over the elites and the bred individuals that are to make the
next population, is at least the gain times the number of bred individuals (two or more, since a single one is dropped). -/
theorem C130_generation {M : EvoModel I Mo U} (hb : M.breed = defaultBreed M.toEvoOps)
    (hcs : M.canSurvive = fun _ offspring parent _ => pure ((fitness parent).le (fitness offspring)))
    (env : NumEnv) (henv : env.LawfulSum) (model : Mo) (s : RouletteWheelSelection) (cr mr : F64)
    (hw : FairWeights (p.individuals.map fitness))
    (hsorted : p.individuals.Pairwise fun a b => (fitness a).le (fitness b) = true)
    (hal : Always (fun _ => True) (defaultBreed M.toEvoOps env model p ⟨cr, mr, .builtin (.rouletteWheel (s.prepare env p))⟩))
    (hbred : Partially (fun c => (fitness c).isFinite = true)
      (defaultBreed M.toEvoOps env model p ⟨cr, mr, .builtin (.rouletteWheel (s.prepare env p))⟩))
    (elites missing : Nat) (hmissing : 2 ≤ missing) :
    missing * (fitnessVariance p.individuals / meanFitness p.individuals - p.individuals.length ^ 2 * meanFitness p.individuals / 2 ^ 49) ≤
      (defaultGenerate M env model (⟨cr, mr, .builtin (.rouletteWheel (s.prepare env p))⟩, (takeElites elites p []).length + missing) p
        (takeElites elites p [])).average fun l => (l.map fun x => (fitness x).val - meanFitness p.individuals).sum := by
  have hmean := C130_breed hcs env henv model s cr mr hw hal hbred
  set r : ReproParams U := ⟨cr, mr, .builtin (.rouletteWheel (s.prepare env p))⟩ with hr
  set m := meanFitness p.individuals with hm
  have hfin : ∀ x ∈ p.individuals, (fitness x).isFinite = true := fun x hx => (hw.1 _ (List.mem_map_of_mem hx)).1
  have helite : 0 ≤ ((takeElites elites p []).map fun x => (fitness x).val - m).sum := takeElites_sum_ge hfin hsorted elites
  obtain ⟨k, rfl⟩ : ∃ k, missing = k + 2 := ⟨missing - 2, by omega⟩
  have e : defaultGenerate M env model (r, (takeElites elites p []).length + (k + 2)) p (takeElites elites p []) =
      (Prog.replicate (k + 2) (defaultBreed M.toEvoOps env model p r) >>= fun new => pure (takeElites elites p [] ++ new)) := by
    simp only [defaultGenerate, hb, Nat.add_sub_cancel_left]
  rw [e, average_bind]
  simp only [average_pure, List.map_append, List.sum_append]
  rw [average_add, average_const (average_replicate hal (fun _ => True) _).1, average_replicate_sum hal]
  have : (defaultBreed M.toEvoOps env model p r).average (fun x => (fitness x).val - m) =
      (defaultBreed M.toEvoOps env model p r).average (fun x => (fitness x).val) - m := by
    have h1 := average_add (defaultBreed M.toEvoOps env model p r) (fun x => (fitness x).val) (fun _ => -m)
    rw [average_const hal] at h1
    simpa [sub_eq_add_neg] using h1
  rw [this]
  have h0 : (0 : ℚ) ≤ (k + 2 : Nat) := Nat.cast_nonneg _
  have := mul_le_mul_of_nonneg_left (show fitnessVariance p.individuals / m - p.individuals.length ^ 2 * m / 2 ^ 49 ≤
    (defaultBreed M.toEvoOps env model p r).average (fun x => (fitness x).val) - m by linarith) h0
  linarith

end Roulette

/-- **C130** (no variance, no gain) The variance is zero exactly if all fitness values are the mean. -/
theorem C130_variance (l : List I) (hl : l ≠ []) :
    0 ≤ fitnessVariance l ∧ (fitnessVariance l = 0 ↔ ∀ x ∈ l, (fitness x).val = meanFitness l) := by
  have hn : (0 : ℚ) < l.length := by exact_mod_cast List.length_pos_iff.2 hl
  have hnn : ∀ y ∈ l.map fun x => ((fitness x).val - meanFitness l) ^ 2, 0 ≤ y := fun y hy => by
    obtain ⟨x, -, rfl⟩ := List.mem_map.1 hy
    exact sq_nonneg _
  refine ⟨div_nonneg (List.sum_nonneg hnn) hn.le, ?_⟩
  unfold fitnessVariance
  rw [div_eq_zero_iff, or_iff_left hn.ne']
  constructor
  · intro h x hx
    have h1 := List.single_le_sum hnn _ (List.mem_map_of_mem (f := fun x => ((fitness x).val - meanFitness l) ^ 2) hx)
    rw [h] at h1
    have := pow_eq_zero_iff (two_ne_zero) |>.1 (le_antisymm h1 (sq_nonneg _))
    linarith
  · intro h
    refine List.sum_eq_zero fun y hy => ?_
    obtain ⟨x, hx, rfl⟩ := List.mem_map.1 hy
    simp only [h x hx, sub_self]
    norm_num

/-- **C130** (Boltzmann) If the weights `exp(fitness / T)` are fair and rise with the fitness, the expected fitness of an individual selected by
Boltzmann selection is at least the mean, up to rounding. -/
theorem C130_boltzmann (env : NumEnv) (henv : env.LawfulSum) (s : BoltzmannSelection F64)
    (hc : s.coolingRate.feq F64.zero = false) (p : Population I) (weight : I → F64) (hweight : ∀ x, weight x = env.exp ((fitness x).div (s.temperature.mul s.coolingRate)))
    (hw : FairWeights (p.individuals.map weight))
    (hmono : ∀ x ∈ p.individuals, ∀ y ∈ p.individuals, (fitness x).val ≤ (fitness y).val → (weight x).val ≤ (weight y).val) :
    meanFitness p.individuals - p.individuals.length * (p.individuals.map fun x => |(fitness x).val|).sum / 2 ^ 49 ≤
      ((s.prepare env p).select env p).average fun x => (fitness x.2).val := by
  have hpos := fair_total_pos hw
  have hal : Always (IsMember p) ((s.prepare env p).select env p) := fair_always env (.boltzmann (s.prepare env p)) hw trivial hc
  have h := (abs_le.1 (average_shares hal (fun x => (weight x).val) (fun x => (fitness x).val) _ _
    fun i hi => C43_f64_probability env henv s p weight hweight hw i hi)).1
  have hn : (0 : ℚ) < p.individuals.length := by exact_mod_cast List.length_pos_iff.2 (fair_ne hw)
  have hch : (p.individuals.map fun x => (fitness x).val).sum * (p.individuals.map fun x => (weight x).val).sum ≤
      p.individuals.length * (p.individuals.map fun x => (weight x).val * (fitness x).val).sum := by
    rw [list_sum_range, list_sum_range, list_sum_range]
    have : MonovaryOn (fun i => if h : i < p.individuals.length then (fitness p.individuals[i]).val else 0)
        (fun i => if h : i < p.individuals.length then (weight p.individuals[i]).val else 0) (Finset.range p.individuals.length) := by
      intro i hi j hj hlt
      have hi := Finset.mem_range.1 hi
      have hj := Finset.mem_range.1 hj
      simp only [dif_pos hi, dif_pos hj] at hlt ⊢
      by_contra hc
      exact absurd (hmono _ (List.getElem_mem hj) _ (List.getElem_mem hi) (not_le.1 hc).le) (not_le.2 hlt)
    have hch := this.sum_mul_sum_le_card_mul_sum
    rw [Finset.card_range] at hch
    refine hch.trans (le_of_eq ?_)
    congr 1
    refine Finset.sum_congr rfl fun i hi => ?_
    simp only [dif_pos (Finset.mem_range.1 hi)]
    ring
  have hm : meanFitness p.individuals ≤
      (p.individuals.map fun x => (weight x).val * (fitness x).val).sum / (p.individuals.map fun x => (weight x).val).sum := by
    unfold meanFitness
    rw [div_le_div_iff₀ hn hpos]
    linarith
  have e : (p.individuals.length : ℚ) * (p.individuals.map fun x => |(fitness x).val|).sum / 2 ^ 49 =
      p.individuals.length / 2 ^ 49 * (p.individuals.map fun x => |(fitness x).val|).sum := by ring
  rw [e]
  linarith

/-! ### Example -/

-- fitness 1, 2 and 7: the mean is 10/3, the variance 62/9, and a selected individual has on average the fitness 27/5
example (env : NumEnv) (henv : env.LawfulSum) (s : RouletteWheelSelection) :
    |((s.prepare env (⟨[num 1, num 2, num 7], 0, 0, numPop.stats⟩ : Population Num)).select
      ⟨[num 1, num 2, num 7], 0, 0, numPop.stats⟩).average (fun x => (fitness x.2).val) - 27 / 5| ≤ 30 / 2 ^ 49 := by
  have h := C130_selected (p := (⟨[num 1, num 2, num 7], 0, 0, numPop.stats⟩ : Population Num)) env henv s fair_example
  rw [show meanFitness (⟨[num 1, num 2, num 7], 0, 0, numPop.stats⟩ : Population Num).individuals = 10 / 3 by decide +kernel,
    show fitnessVariance (⟨[num 1, num 2, num 7], 0, 0, numPop.stats⟩ : Population Num).individuals = 62 / 9 by decide +kernel] at h
  norm_num at h ⊢
  exact h

-- ten offspring of these, without elites: at least 20 more than ten times the mean, in total
example : 20 ≤ (defaultGenerate guessModel exEnv () (⟨F64.one, F64.zero, .builtin (.rouletteWheel (RouletteWheelSelection.prepare exEnv ⟨F64.zero⟩
      (⟨[num 1, num 2, num 7], 0, 0, numPop.stats⟩ : Population Num)))⟩, 10) ⟨[num 1, num 2, num 7], 0, 0, numPop.stats⟩ []).average
      fun l => (l.map fun x => (fitness x).val - 10 / 3).sum := by
  have hv : ∀ x ∈ [num 1, num 2, num 7], isValid x = true := by decide +kernel
  have hal := breed_always guess_safe exEnv () (⟨[num 1, num 2, num 7], 0, 0, numPop.stats⟩ : Population Num)
    ⟨F64.one, F64.zero, .builtin (.rouletteWheel (RouletteWheelSelection.prepare exEnv ⟨F64.zero⟩
      (⟨[num 1, num 2, num 7], 0, 0, numPop.stats⟩ : Population Num)))⟩ (by simp)
      (by simp) hv ⟨.rouletteWheel _, rfl, trivial, fun b h => by cases h⟩
  have h := C130_generation (M := guessModel) (p := (⟨[num 1, num 2, num 7], 0, 0, numPop.stats⟩ : Population Num)) rfl rfl exEnv exEnv_lawful ()
    ⟨F64.zero⟩ F64.one F64.zero fair_example (by decide +kernel) (hal.mono fun _ _ => trivial) (fun c hc => by
      obtain ⟨d, e, hd⟩ := hal _ hc
      cases e
      exact hd) 0 10 (by norm_num)
  rw [show meanFitness (⟨[num 1, num 2, num 7], 0, 0, numPop.stats⟩ : Population Num).individuals = 10 / 3 by decide +kernel,
    show fitnessVariance (⟨[num 1, num 2, num 7], 0, 0, numPop.stats⟩ : Population Num).individuals = 62 / 9 by decide +kernel] at h
  refine le_trans ?_ h
  norm_num

-- Boltzmann selection, with `exp` replaced by the identity, temperature and cooling rate 1
example : (10 : ℚ) / 3 - 30 / 2 ^ 49 ≤ ((BoltzmannSelection.prepare exEnv ⟨F64.one, F64.one, F64.zero⟩
      (⟨[num 1, num 2, num 7], 0, 0, numPop.stats⟩ : Population Num)).select exEnv
      ⟨[num 1, num 2, num 7], 0, 0, numPop.stats⟩).average fun x => (fitness x.2).val := by
  have e : [num 1, num 2, num 7].map (fun x => exEnv.exp ((fitness x).div (F64.one.mul F64.one))) = [num 1, num 2, num 7].map fitness := by
    decide +kernel
  have h := C130_boltzmann exEnv exEnv_lawful ⟨F64.one, F64.one, F64.zero⟩ (by decide +kernel)
    (⟨[num 1, num 2, num 7], 0, 0, numPop.stats⟩ : Population Num) _ (fun _ => rfl) (by
      show FairWeights ([num 1, num 2, num 7].map fun x => exEnv.exp ((fitness x).div (F64.one.mul F64.one)))
      rw [e]; exact fair_example) (by decide +kernel)
  refine le_trans (by decide +kernel) h

end RG.Props
