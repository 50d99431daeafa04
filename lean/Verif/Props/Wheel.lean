import Verif.Proofs.WheelF64
import Verif.Props.Ladder

/-!
# Properties C42, C43, C69: the roulette wheels in `f64`

The probabilities of the code itself: with rounded running sums, a total added in the order of rayon's choice, rounded targets and
`2^53` possible draws. The weights may be any finite non-negative numbers whose exact sum is neither tiny nor huge.
-/

set_option linter.unusedSectionVars false

namespace RG.Props
open RG RG.Prog
variable {I : Type} [Individual I] {Mo U : Type}

/-- The weights of a wheel: finite and non-negative, at most `2^40` of them, the exact sum between `2^-960` and `2^1000`. -/
def FairWeights (ws : List F64) : Prop :=
  (∀ w ∈ ws, w.isFinite = true ∧ 0 ≤ w.val) ∧ (2 : ℚ) ^ (-960 : Int) ≤ (ws.map F64.val).sum ∧
    (ws.map F64.val).sum ≤ (2 : ℚ) ^ (1000 : Int) ∧ ws.length ≤ 2 ^ 40

theorem FairWeights.ok {ws : List F64} (h : FairWeights ws) {total : F64} (ht : TreeSum ws total) : WheelOk ws total where
  finite w hw := (h.1 w hw).1
  nonneg w hw := (h.1 w hw).2
  low := by rw [pow2_eq]; exact h.2.1
  high := by rw [pow2_eq]; exact h.2.2.1
  len := h.2.2.2
  sum := ht

theorem prob_memberAt (w : Prog F64) (ws : List F64) (total : F64) (p : Population I) (hl : ws.length = p.individuals.length)
    (hne : p.individuals ≠ []) (P : Nat × I → Prop) [DecidablePred P] (Q : Nat → Prop) [DecidablePred Q]
    (hPQ : ∀ j (hj : j < p.individuals.length), P (j, p.individuals[j]) ↔ Q j) :
    (w >>= fun u => lift (wheelIndex ws total u) >>= fun i => lift (memberAt p i)).prob P =
      (w >>= fun u => lift (wheelIndex ws total u)).prob Q := by
  have hws : ws ≠ [] := by
    rintro rfl
    exact hne (List.eq_nil_of_length_eq_zero hl.symm)
  rw [← bind_assoc]
  unfold prob
  rw [expect_bind]
  refine expect_congr _ _ _ fun r hr => ?_
  rw [yields_bind] at hr
  rcases hr with ⟨u, -, h⟩ | ⟨h, rfl⟩ | ⟨h, rfl⟩
  · obtain ⟨j, hj, hp⟩ := wheelIndex_spec ws total u hws
    rw [hj] at h
    cases (yields_lift _ _).1 h
    have hjl : j < p.len := by rw [← show ws.length = p.len from hl]; exact hp.1
    show (lift (memberAt p j)).prob P = _
    rw [memberAt_ok hjl, lift_ok, prob_pure]
    exact if_congr (hPQ j hjl) rfl rfl
  · rfl
  · rfl

/-- **C42** (`f64`, probability) With fair fitness values, the roulette wheel selects the individual `i` with probability
`fitness / total`, up to an error of at most `n * 2^-49`. -/
theorem C42_f64_probability (env : NumEnv) (henv : env.LawfulSum) (s : RouletteWheelSelection) (p : Population I)
    (hw : FairWeights (p.individuals.map fitness)) (i : Nat) (hi : i < p.individuals.length) :
    |((s.prepare env p).select p).prob (fun r => r.1 = i) -
      (fitness p.individuals[i]).val / (p.individuals.map fun x => (fitness x).val).sum| ≤ p.individuals.length / 2 ^ 49 := by
  have hne : p.individuals ≠ [] := by rintro h; simp [h] at hi
  have h := (hw.ok (henv _)).prob_index i (by simpa using hi)
  unfold RouletteWheelSelection.select
  rw [prob_memberAt genF64 _ _ p (by simp) hne (fun r => r.1 = i) (fun j => j = i) (fun j hj => Iff.rfl)]
  simp only [wheel, exactSum, List.map_map, List.length_map, List.getElem_map, Function.comp_def] at h
  exact h

/-- **C43** (`f64`, probability) Boltzmann selection likewise, with the weights `exp(fitness / T)` at the new temperature,
whatever the function `exp` is. -/
theorem C43_f64_probability (env : NumEnv) (henv : env.LawfulSum) (s : BoltzmannSelection F64) (p : Population I)
    (weight : I → F64) (hweight : ∀ x, weight x = env.exp ((fitness x).div (s.temperature.mul s.coolingRate)))
    (hw : FairWeights (p.individuals.map weight)) (i : Nat) (hi : i < p.individuals.length) :
    |((s.prepare env p).select env p).prob (fun r => r.1 = i) -
      (weight p.individuals[i]).val / (p.individuals.map fun x => (weight x).val).sum| ≤ p.individuals.length / 2 ^ 49 := by
  have hne : p.individuals ≠ [] := by rintro h; simp [h] at hi
  obtain rfl : weight = fun x => env.exp ((fitness x).div (s.temperature.mul s.coolingRate)) := funext hweight
  have h := (hw.ok (henv _)).prob_index i (by simpa using hi)
  obtain ⟨t1, -, t3⟩ := C43_prepare env s p
  unfold BoltzmannSelection.select BoltzmannSelection.selectIndex
  rw [prob_memberAt genF64 _ _ p (by simp) hne (fun r => r.1 = i) (fun j => j = i) (fun j hj => Iff.rfl), t1, t3]
  simp only [wheel, exactSum, List.map_map, List.length_map, List.getElem_map, Function.comp_def] at h
  rw [List.map_map]
  exact h

theorem fair_example : FairWeights ([num 1, num 2, num 7].map fitness) := by
  refine ⟨by decide +kernel, ?_, ?_, by decide⟩
  · refine le_trans ?_ (show (1 : ℚ) ≤ _ by decide +kernel)
    exact zpow_le_one_of_nonpos₀ (by norm_num) (by norm_num)
  · refine le_trans (show _ ≤ (2 : ℚ) ^ (4 : Int) by decide +kernel) ?_
    exact zpow_le_zpow_right₀ (by norm_num) (by norm_num)

-- the third of the individuals with fitness 1, 2 and 7 is selected in 70 % of the cases
example (env : NumEnv) (henv : env.LawfulSum) (s : RouletteWheelSelection) :
    |((s.prepare env (⟨[num 1, num 2, num 7], 0, 0, numPop.stats⟩ : Population Num)).select
      ⟨[num 1, num 2, num 7], 0, 0, numPop.stats⟩).prob (fun r => r.1 = 2) - 7 / 10| ≤ 3 / 2 ^ 49 := by
  have := C42_f64_probability env henv s (⟨[num 1, num 2, num 7], 0, 0, numPop.stats⟩ : Population Num) fair_example 2 (by simp)
  rw [show (fitness ((⟨[num 1, num 2, num 7], 0, 0, numPop.stats⟩ : Population Num).individuals[2])).val /
    ((⟨[num 1, num 2, num 7], 0, 0, numPop.stats⟩ : Population Num).individuals.map fun x => (fitness x).val).sum = 7 / 10 by
      decide +kernel] at this
  simpa using this

/-- **C69** The roulette wheel selects an individual at the level with probability at least `1 / (2 B)`, if all fitness values are
finite and between 0 and `2^900`, and the level is at least `2^-960`. -/
theorem C69_selects_roulette (M : EvoModel I Mo U) (Pr : I → Prop) (B : Nat) (hB : B ≤ 2 ^ 24) (env : NumEnv) (henv : env.LawfulSum)
    (hfit : ∀ x, Pr x → Evaluated M x → isValid x = true →
      (fitness x).isFinite = true ∧ 0 ≤ (fitness x).val ∧ (fitness x).val ≤ (2 : ℚ) ^ (900 : Int))
    (target : F64) (ht : target.isFinite = true) (ht0 : (2 : ℚ) ^ (-960 : Int) ≤ target.val) :
    SelectsFit .rouletteWheel env (FinePop M Pr B) target (1 / (2 * B)) := by
  rintro sel ⟨s0, h0, l, rfl⟩ pop hpop ⟨x, hx, hxt⟩
  have hfold : ∃ r, l.foldl (fun s ep => s.prepare ep.1 ep.2) s0 = .rouletteWheel r := by
    have hs0 : ∃ r, s0 = .rouletteWheel r := by cases h0; exact ⟨_, rfl⟩
    clear h0
    induction l generalizing s0 with
    | nil => exact hs0
    | cons ep l ih =>
      obtain ⟨r, rfl⟩ := hs0
      exact ih _ ⟨_, rfl⟩
  obtain ⟨r, hr⟩ := hfold
  rw [hr]
  show _ ≤ ((r.prepare env pop).select pop).prob _
  have hf := fun y hy => hfit y (hpop.prop y hy) (hpop.evaluated y hy) (hpop.good.valid y hy)
  have hne : pop.individuals ≠ [] := List.ne_nil_of_mem hx
  have hpos := List.length_pos_of_ne_nil hne
  have hlen := hpop.len
  set n := pop.individuals.length with hn
  have hnq : (0 : ℚ) < n := by exact_mod_cast hpos
  have hxv : target.val ≤ (fitness x).val := (F64.le_finite ht (hf x hx).1).1 hxt
  -- the last individual is a fittest one
  have hlast : ∀ y ∈ pop.individuals, (fitness y).val ≤ (fitness pop.individuals[n - 1]).val := by
    intro y hy
    obtain ⟨j, hj, rfl⟩ := List.getElem_of_mem hy
    have hm : pop.individuals[n - 1] ∈ pop.individuals := List.getElem_mem _
    rcases Nat.lt_or_ge j (n - 1) with h | h
    · exact (F64.le_finite (hf _ hy).1 (hf _ hm).1).1 (List.pairwise_iff_getElem.1 hpop.good.sorted j (n - 1) hj (by omega) h)
    · obtain rfl : j = n - 1 := by omega
      exact le_rfl
  have hsum0 : (fitness x).val ≤ (pop.individuals.map fun x => (fitness x).val).sum :=
    List.single_le_sum (fun z hz => by obtain ⟨y, hy, rfl⟩ := List.mem_map.1 hz; exact (hf y hy).2.1) _ (List.mem_map.2 ⟨x, hx, rfl⟩)
  have hsumle : ∀ c, (∀ y ∈ pop.individuals, (fitness y).val ≤ c) → (pop.individuals.map fun x => (fitness x).val).sum ≤ n * c := by
    intro c hc
    have := List.sum_le_card_nsmul (pop.individuals.map fun x => (fitness x).val) c
      (fun z hz => by obtain ⟨y, hy, rfl⟩ := List.mem_map.1 hz; exact hc y hy)
    simpa [hn] using this
  have hfair : FairWeights (pop.individuals.map fitness) := by
    refine ⟨fun w hw => ?_, ?_, ?_, ?_⟩
    · obtain ⟨y, hy, rfl⟩ := List.mem_map.1 hw
      exact ⟨(hf y hy).1, (hf y hy).2.1⟩
    · rw [List.map_map]
      exact ht0.trans (hxv.trans hsum0)
    · rw [List.map_map]
      refine (hsumle _ fun y hy => (hf y hy).2.2).trans ?_
      have : (n : ℚ) ≤ (2 : ℚ) ^ (100 : Int) := by
        have h1 : (n : ℚ) ≤ (2 : ℚ) ^ (24 : Int) := by exact_mod_cast hlen.trans hB
        exact h1.trans (zpow_le_zpow_right₀ (by norm_num) (by norm_num))
      calc _ ≤ (2 : ℚ) ^ (100 : Int) * (2 : ℚ) ^ (900 : Int) := mul_le_mul_of_nonneg_right this (by positivity)
        _ = _ := by rw [← zpow_add₀ (by norm_num)]; norm_num
    · rw [List.length_map]; omega
  have hP := C42_f64_probability env henv r pop hfair (n - 1) (by omega)
  set W := (pop.individuals.map fun x => (fitness x).val).sum with hW
  have hW0 : 0 < W := lt_of_lt_of_le (by positivity) (ht0.trans (hxv.trans hsum0))
  have hshare : 1 / (n : ℚ) ≤ (fitness pop.individuals[n - 1]).val / W := by
    rw [div_le_div_iff₀ hnq hW0, one_mul, mul_comm]
    exact hsumle _ hlast
  have hB2 : (n : ℚ) / 2 ^ 49 ≤ 1 / (2 * n) := by
    have h1 : (n : ℚ) ≤ 2 ^ 24 := by exact_mod_cast hlen.trans hB
    rw [div_le_div_iff₀ (by norm_num) (by positivity)]
    nlinarith
  have hBn : 1 / (2 * (B : ℚ)) ≤ 1 / (2 * n) := by
    have h1 : (n : ℚ) ≤ B := by exact_mod_cast hlen
    exact one_div_le_one_div_of_le (by positivity) (by linarith)
  have e : 1 / (n : ℚ) = 1 / (2 * n) + 1 / (2 * n) := by field_simp; norm_num
  rw [abs_le] at hP
  calc 1 / (2 * (B : ℚ)) ≤ ((r.prepare env pop).select pop).prob (fun r => r.1 = n - 1) := by linarith [hP.1]
    _ ≤ _ := prob_mono _ _ _ fun c hc h => ?_
  have hm : pop.individuals[c.1]? = some c.2 := ((Selector.rouletteWheel (r.prepare env pop)).select_isMember env pop c hc).2
  have hm' : pop.individuals[n - 1] = c.2 := by
    rw [h, List.getElem?_eq_getElem (by omega)] at hm
    exact Option.some.inj hm
  rw [← hm', F64.le_finite ht (hf _ (List.getElem_mem _)).1]
  exact hxv.trans (hlast x hx)

end RG.Props
