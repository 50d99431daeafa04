import Verif.Props.Wheel
import Verif.Props.Linear
import Mathlib.Algebra.Order.Chebyshev

/-!
# Property C82: selection pressure

A population is sorted, so that a larger index means an individual at least as fit (C08). Selection should not prefer the less fit.
-/

set_option linter.unusedSectionVars false

namespace RG.Props
open RG RG.Prog
variable {I : Type} [Individual I]

/-- The selection does not prefer a smaller index (a less fit individual) to a larger one. -/
def FavoursFit (select : Prog (Nat × I)) (n : Nat) : Prop :=
  ∀ i j, i ≤ j → j < n → select.prob (fun r => r.1 = i) ≤ select.prob (fun r => r.1 = j)

theorem pow_diff_mono (k : Nat) {i j : Nat} (h : i ≤ j) :
    ((i : ℚ) + 1) ^ k - (i : ℚ) ^ k ≤ ((j : ℚ) + 1) ^ k - (j : ℚ) ^ k := by
  refine monotone_nat_of_le_succ (f := fun m : Nat => ((m : ℚ) + 1) ^ k - (m : ℚ) ^ k) (fun m => ?_) h
  have key : ∀ k : Nat, ∀ b : ℚ, 1 ≤ b → 2 * b ^ k ≤ (b + 1) ^ k + (b - 1) ^ k := by
    intro k
    induction k with
    | zero => intro b _; norm_num
    | succ k ih =>
      intro b hb
      have h1 := ih b hb
      have h2 : (b - 1) ^ k ≤ (b + 1) ^ k := pow_le_pow_left₀ (by linarith) (by linarith) k
      have e : (b + 1) ^ (k + 1) + (b - 1) ^ (k + 1) = b * ((b + 1) ^ k + (b - 1) ^ k) + ((b + 1) ^ k - (b - 1) ^ k) := by ring
      have e2 : 2 * b ^ (k + 1) = b * (2 * b ^ k) := by ring
      rw [e, e2]
      have := mul_le_mul_of_nonneg_left h1 (show 0 ≤ b by linarith)
      linarith
  have := key k ((m : ℚ) + 1) (by have : (0 : ℚ) ≤ m := Nat.cast_nonneg m; linarith)
  push_cast
  rw [add_sub_cancel_right] at this
  linarith

/-- **C82** Tournament, rank and elitist selection: fitter individuals are selected at least as often. -/
theorem C82_rank_based (p : Population I) (hp : p.individuals ≠ []) :
    (∀ s : TournamentSelection, s.size ≠ 0 → FavoursFit (s.select p) p.individuals.length) ∧
    (p.individuals.length < 2 ^ 32 → FavoursFit (rankSelect p) p.individuals.length) ∧
    (∀ s : ElitistSelection, s.ratio.isFinite = true → 0 ≤ s.ratio.val → s.ratio.val < 1 → p.individuals.length ≤ 2 ^ 53 →
      FavoursFit (s.select p) p.individuals.length) := by
  refine ⟨fun s hs i j hij hj => ?_, fun hn i j hij hj => ?_, fun s h1 h2 h3 hn i j hij hj => ?_⟩
  · rw [C39_probability s hs p i (by omega), C39_probability s hs p j hj]
    exact div_le_div_of_nonneg_right (pow_diff_mono _ hij) (by positivity)
  · rw [C40_probability p hn i (by omega), C40_probability p hn j hj]
    have : (i : ℚ) ≤ j := by exact_mod_cast hij
    exact div_le_div_of_nonneg_right (by linarith) (by positivity)
  · obtain ⟨b, -, hb, hu, hz⟩ := C41_uniform s ⟨h1, h2, h3⟩ p hp hn
    rcases Nat.lt_or_ge i b with hi | hi
    · rw [prob_eq_zero _ _ fun r hr => hz i r hi hr]
      exact prob_nonneg _ _
    · rw [hu i hi (by omega), hu j (by omega) hj]

/-- **C82** Roulette-wheel selection, with fair fitness values in ascending order: the same up to the rounding errors of `f64`. -/
theorem C82_roulette (env : NumEnv) (henv : env.LawfulSum) (s : RouletteWheelSelection) (p : Population I)
    (hw : FairWeights (p.individuals.map fitness)) (i j : Nat) (hi : i < p.individuals.length) (hj : j < p.individuals.length)
    (hle : (fitness p.individuals[i]).val ≤ (fitness p.individuals[j]).val) :
    ((s.prepare env p).select p).prob (fun r => r.1 = i) ≤
      ((s.prepare env p).select p).prob (fun r => r.1 = j) + p.individuals.length / 2 ^ 48 := by
  have h1 := (abs_le.1 (C42_f64_probability env henv s p hw i hi)).2
  have h2 := (abs_le.1 (C42_f64_probability env henv s p hw j hj)).1
  have hpos : 0 < (p.individuals.map fun x => (fitness x).val).sum := by
    have := hw.2.1
    rw [List.map_map] at this
    exact lt_of_lt_of_le (zpow_pos (by norm_num) _) this
  have h3 := div_le_div_of_nonneg_right hle hpos.le
  have e : (p.individuals.length : ℚ) / 2 ^ 48 = p.individuals.length / 2 ^ 49 + p.individuals.length / 2 ^ 49 := by ring
  rw [e]
  linarith

/-! ### Consequences of favouring the fit -/

theorem prob_lt_sum (q : Prog (Nat × I)) (m : Nat) :
    q.prob (fun r => r.1 < m) = ∑ i ∈ Finset.range m, q.prob (fun r => r.1 = i) := by
  induction m with
  | zero => simpa using prob_eq_zero q (fun r => r.1 < 0) fun r _ => by omega
  | succ m ih =>
    rw [Finset.sum_range_succ, ← ih, ← prob_or _ _ _ fun r h1 h2 => by omega]
    exact prob_congr _ _ _ fun r _ => by omega

theorem expect_sum (q : Prog (Nat × I)) (m : Nat) (f : Nat → Res (Nat × I) → ℚ) :
    q.expect (fun r => ∑ i ∈ Finset.range m, f i r) = ∑ i ∈ Finset.range m, q.expect (f i) := by
  induction m with
  | zero => simpa using expect_const q 0
  | succ m ih =>
    rw [Finset.sum_range_succ, ← ih, ← expect_add]
    exact expect_congr _ _ _ fun r _ => Finset.sum_range_succ _ _

/-- **C82** Selection that favours the fit is at least as good as a uniform choice: the selected individual is among the `m`
fittest with probability at least `m / n`. -/
theorem C82_dominates (p : Population I) (select : Prog (Nat × I)) (hal : Always (IsMember p) select)
    (hf : FavoursFit select p.individuals.length) (m : Nat) (hm : m ≤ p.individuals.length) (hm0 : 0 < m) :
    (m : ℚ) / p.individuals.length ≤ select.prob (fun r => p.individuals.length - m ≤ r.1) := by
  set n := p.individuals.length with hn
  have hnot : select.prob (fun r => n - m ≤ r.1) = 1 - select.prob (fun r => r.1 < n - m) := by
    have h1 := prob_add_not_of_always select (fun r => r.1 < n - m) hal
    have h2 : select.prob (fun r => ¬ r.1 < n - m) = select.prob (fun r => n - m ≤ r.1) :=
      prob_congr _ _ _ fun r _ => not_lt
    linarith
  have hone : select.prob (fun r => r.1 < n) = 1 := prob_eq_one_of_always _ _ (hal.mono fun r hr => hr.1)
  rw [prob_lt_sum, ← Finset.sum_range_add_sum_Ico _ (Nat.sub_le n m)] at hone
  have hlow : select.prob (fun r => r.1 < n - m) ≤ (n - m : Nat) * select.prob (fun r => r.1 = n - m) := by
    rw [prob_lt_sum]
    refine (Finset.sum_le_card_nsmul _ _ _ fun i hi => hf i (n - m) (Finset.mem_range.1 hi).le (by omega)).trans ?_
    rw [Finset.card_range, nsmul_eq_mul]
  have hhigh : (m : ℚ) * select.prob (fun r => r.1 = n - m) ≤ ∑ i ∈ Finset.Ico (n - m) n, select.prob (fun r => r.1 = i) := by
    refine le_trans (le_of_eq ?_) (Finset.card_nsmul_le_sum _ _ (select.prob (fun r => r.1 = n - m)) fun i hi => ?_)
    · rw [Nat.card_Ico, nsmul_eq_mul, show n - (n - m) = m by omega]
    · exact hf _ _ (Finset.mem_Ico.1 hi).1 (Finset.mem_Ico.1 hi).2
  rw [prob_lt_sum] at hnot hlow
  rw [hnot, div_le_iff₀ (by exact_mod_cast (show 0 < n by omega))]
  have hnm : ((n - m : Nat) : ℚ) = n - m := by push_cast [hm]; ring
  rw [hnm] at hlow
  have hm' : (0 : ℚ) < m := by exact_mod_cast hm0
  have hnm0 : (0 : ℚ) ≤ (n : ℚ) - m := by rw [← hnm]; positivity
  set L := ∑ i ∈ Finset.range (n - m), select.prob (fun r => r.1 = i)
  set H := ∑ i ∈ Finset.Ico (n - m) n, select.prob (fun r => r.1 = i)
  set a := select.prob (fun r => r.1 = n - m)
  have e : 1 - L = H := by linarith
  -- m L ≤ m (n-m) a ≤ (n-m) H
  have h1 := mul_le_mul_of_nonneg_left hlow hm'.le
  have h2 := mul_le_mul_of_nonneg_left hhigh hnm0
  nlinarith

/-- **C82** The expected fitness of the selected individual is at least the average fitness. -/
theorem C82_expected (p : Population I) (select : Prog (Nat × I)) (hal : Always (IsMember p) select)
    (hf : FavoursFit select p.individuals.length) (hfin : ∀ x ∈ p.individuals, (fitness x).isFinite = true)
    (hsorted : p.individuals.Pairwise fun a b => (fitness a).le (fitness b) = true) :
    (p.individuals.map fun x => (fitness x).val).sum / p.individuals.length ≤
      select.expect (fun | .ok r => (fitness r.2).val | _ => 0) := by
  classical
  set n := p.individuals.length with hn
  let f : Nat → ℚ := fun i => if h : i < p.individuals.length then (fitness p.individuals[i]).val else 0
  have hexp : select.expect (fun | .ok r => (fitness r.2).val | _ => 0) =
      ∑ i ∈ Finset.range n, f i * select.prob (fun r => r.1 = i) := by
    have : ∀ i, f i * select.prob (fun r => r.1 = i) =
        select.expect (fun r => f i * (match r with | .ok r => if r.1 = i then 1 else 0 | _ => 0)) := fun i => by
      rw [expect_mul_left]
      congr 1
      unfold prob
      refine expect_congr _ _ _ fun r _ => ?_
      cases r <;> simp
    simp only [this]
    rw [← expect_sum]
    refine expect_congr _ _ _ fun r hr => ?_
    obtain ⟨a, rfl, ha1, ha2⟩ := hal r hr
    simp only [mul_ite, mul_one, mul_zero]
    rw [Finset.sum_ite_eq, if_pos (Finset.mem_range.2 ha1)]
    simp only [f, dif_pos ha1]
    rw [List.getElem?_eq_getElem ha1] at ha2
    rw [Option.some.inj ha2]
  have hsum : (p.individuals.map fun x => (fitness x).val).sum = ∑ i ∈ Finset.range n, f i := by
    rw [← Fin.sum_univ_eq_sum_range, ← List.sum_ofFn]
    congr 1
    refine List.ext_getElem (by simp [hn]) fun i h1 h2 => ?_
    simp only [List.length_map] at h1
    simp [f, h1]
  have hone : ∑ i ∈ Finset.range n, select.prob (fun r => r.1 = i) = 1 := by
    rw [← prob_lt_sum]
    exact prob_eq_one_of_always _ _ (hal.mono fun r hr => hr.1)
  have hmono : MonovaryOn f (fun i => select.prob (fun r => r.1 = i)) (Finset.range n) := by
    intro i hi j hj hlt
    have hi : i < n := Finset.mem_range.1 hi
    have hj : j < n := Finset.mem_range.1 hj
    have hij : i < j := by
      by_contra hc
      exact absurd (hf j i (not_lt.1 hc) hi) (not_le.2 hlt)
    simp only [f, dif_pos (show i < p.individuals.length from hi), dif_pos (show j < p.individuals.length from hj)]
    exact (F64.le_finite (hfin _ (List.getElem_mem _)) (hfin _ (List.getElem_mem _))).1 (List.pairwise_iff_getElem.1 hsorted i j hi hj hij)
  have hch := hmono.sum_mul_sum_le_card_mul_sum
  rw [hone, mul_one, Finset.card_range] at hch
  rw [hexp, hsum]
  rcases Nat.eq_zero_or_pos n with h0 | h0
  · rw [h0]; simp
  · rw [div_le_iff₀ (by exact_mod_cast h0), mul_comm]
    exact hch

/-! ### Linear selection -/

/-- **C82** Linear selection in exact arithmetic, with a bias between 0 and 2 other than 1. The draws that select the individual of
rank `j` (0 is the fittest) form an interval. Its length falls linearly with the rank if the bias is above 1, and grows if it is below. -/
theorem C82_linear (b : ℝ) (hb : b ≠ 1) (hb0 : 0 ≤ b) (hb2 : b ≤ 2) (n : Nat) (hn : 0 < n) :
    ∃ lo len : Nat → ℝ,
      (∀ j, j < n → ∀ u, 0 ≤ u → u < 1 →
        ((⟨b⟩ : LinearSelection ℝ).selectIndex Nat.floor n u = .ok (n - 1 - j) ↔ u ∈ Set.Ico (lo j) (lo j + len j))) ∧
      (∀ j, j < n → 0 ≤ lo j ∧ 0 ≤ len j ∧ lo j + len j ≤ 1) ∧
      (∀ j, len (j + 1) - len j = -2 * (b - 1) / n ^ 2) ∧
      (1 < b → ∀ i j, i < j → len j < len i) ∧ (b < 1 → ∀ i j, i < j → len i < len j) := by
  have hn' : (0 : ℝ) < n := by exact_mod_cast hn
  have hstep : ∀ j : Nat, (b * (((j + 1 : Nat) + 1 : ℝ) / n) - (b - 1) * (((j + 1 : Nat) + 1 : ℝ) / n) ^ 2 -
      (b * ((j + 1 : Nat) / n) - (b - 1) * (((j + 1 : Nat) : ℝ) / n) ^ 2)) -
      (b * ((j + 1 : ℝ) / n) - (b - 1) * ((j + 1 : ℝ) / n) ^ 2 - (b * (j / n) - (b - 1) * ((j : ℝ) / n) ^ 2)) =
      -2 * (b - 1) / n ^ 2 := by
    intro j
    push_cast
    field_simp
    ring
  refine ⟨fun j => b * (j / n) - (b - 1) * (j / n) ^ 2,
    fun j => b * ((j + 1) / n) - (b - 1) * ((j + 1) / n) ^ 2 - (b * (j / n) - (b - 1) * (j / n) ^ 2), ?_, ?_, hstep, ?_, ?_⟩
  · intro j hj u h0 h1
    rw [C44_exact_draws b hb hb0 hb2 n hn u h0 h1 j hj, Set.mem_Ico]
    simp only [add_sub_cancel]
  · intro j hj
    have hx0 : (0 : ℝ) ≤ j / n := by positivity
    have hx1 : ((j : ℝ) + 1) / n ≤ 1 := by
      rw [div_le_one hn']; exact_mod_cast hj
    have hd : ((j : ℝ) + 1) / n = j / n + 1 / n := by ring
    have h1n : (0 : ℝ) < 1 / n := by positivity
    beta_reduce
    rw [hd] at hx1 ⊢
    set x := (j : ℝ) / n
    set h := (1 : ℝ) / n
    refine ⟨?_, ?_, ?_⟩
    · nlinarith [mul_nonneg hb0 (mul_nonneg hx0 (show 0 ≤ 1 - x by linarith)), mul_nonneg hx0 hx0]
    · have : b * (x + h) - (b - 1) * (x + h) ^ 2 - (b * x - (b - 1) * x ^ 2) = h * (b * (1 - (2 * x + h)) + (2 * x + h)) := by ring
      rw [this]
      refine mul_nonneg h1n.le ?_
      rcases le_or_gt (2 * x + h) 1 with hc | hc
      · have := mul_nonneg hb0 (show 0 ≤ 1 - (2 * x + h) by linarith); linarith
      · nlinarith [mul_nonneg (show 0 ≤ 2 - b by linarith) (show 0 ≤ 2 * x + h - 1 by linarith)]
    · have h2 : b * (x + h) - (b - 1) * (x + h) ^ 2 = 1 - (1 - (x + h)) * (1 - (b - 1) * (x + h)) := by ring
      have : 0 ≤ (1 - (x + h)) * (1 - (b - 1) * (x + h)) := mul_nonneg (by linarith) (by nlinarith)
      linarith
  · intro h1 i j hij
    refine strictAnti_nat_of_succ_lt (f := fun j : Nat => b * (((j : ℝ) + 1) / n) - (b - 1) * (((j : ℝ) + 1) / n) ^ 2 - (b * (j / n) - (b - 1) * ((j : ℝ) / n) ^ 2)) (fun m => ?_) hij
    have := hstep m
    have h2 : -2 * (b - 1) / (n : ℝ) ^ 2 < 0 := div_neg_of_neg_of_pos (by linarith) (by positivity)
    linarith
  · intro h1 i j hij
    refine strictMono_nat_of_lt_succ (f := fun j : Nat => b * (((j : ℝ) + 1) / n) - (b - 1) * (((j : ℝ) + 1) / n) ^ 2 - (b * (j / n) - (b - 1) * ((j : ℝ) / n) ^ 2)) (fun m => ?_) hij
    have := hstep m
    have h2 : 0 < -2 * (b - 1) / (n : ℝ) ^ 2 := div_pos (by linarith) (by positivity)
    linarith

/-- **C82** "Higher bias values result in stronger selection pressure": in exact arithmetic, with biases between 0 and 2 other than 1,
every draw selects an individual at least as fit with the higher bias. (With bias 1 the code always selects the fittest: C44.) -/
theorem C82_linear_bias (b b' : ℝ) (hb : b ≠ 1) (hb' : b' ≠ 1) (hb0 : 0 ≤ b) (hle : b ≤ b') (hb2 : b' ≤ 2) (n : Nat) (hn : 0 < n)
    (u : ℝ) (h0 : 0 ≤ u) (h1 : u < 1) (i i' : Nat) (hi : (⟨b⟩ : LinearSelection ℝ).selectIndex Nat.floor n u = .ok i)
    (hi' : (⟨b'⟩ : LinearSelection ℝ).selectIndex Nat.floor n u = .ok i') : i ≤ i' := by
  obtain ⟨k, hk, hk'⟩ := C44_exact_in_range b hb n hn u h0 h1
  obtain ⟨k', hk2, hk2'⟩ := C44_exact_in_range b' hb' n hn u h0 h1
  rw [hk'] at hi; cases hi
  rw [hk2'] at hi'; cases hi'
  have hn' : (0 : ℝ) < n := by exact_mod_cast hn
  have r1 := (C44_exact_draws b hb hb0 (hle.trans hb2) n hn u h0 h1 (n - 1 - i) (by omega)).1
    (by rw [hk']; congr 1; omega)
  have r2 := (C44_exact_draws b' hb' (hb0.trans hle) hb2 n hn u h0 h1 (n - 1 - i') (by omega)).1
    (by rw [hk2']; congr 1; omega)
  by_contra hc
  have hj : n - 1 - i + 1 ≤ n - 1 - i' := by omega
  set j := n - 1 - i
  set j' := n - 1 - i'
  have hjn : j' < n := by omega
  have hx : ((j : ℝ) + 1) / n ≤ (j' : ℝ) / n := div_le_div_of_nonneg_right (by exact_mod_cast hj) hn'.le
  have hx0 : 0 ≤ ((j : ℝ) + 1) / n := by positivity
  have hy1 : (j' : ℝ) / n ≤ 1 := by rw [div_le_one hn']; exact_mod_cast hjn.le
  have h2 := r1.2
  have h3 := r2.1
  set x := ((j : ℝ) + 1) / n
  set y := (j' : ℝ) / n
  -- F b x ≤ F b' x ≤ F b' y
  have f1 : b * x - (b - 1) * x ^ 2 ≤ b' * x - (b' - 1) * x ^ 2 := by
    nlinarith [mul_nonneg (sub_nonneg.2 hle) (mul_nonneg hx0 (show 0 ≤ 1 - x by linarith))]
  have f2 : b' * x - (b' - 1) * x ^ 2 ≤ b' * y - (b' - 1) * y ^ 2 := by
    have e : b' * y - (b' - 1) * y ^ 2 - (b' * x - (b' - 1) * x ^ 2) = (y - x) * (b' * (1 - (x + y)) + (x + y)) := by ring
    have : 0 ≤ (y - x) * (b' * (1 - (x + y)) + (x + y)) := by
      refine mul_nonneg (by linarith) ?_
      rcases le_or_gt (x + y) 1 with hc | hc
      · have := mul_nonneg (hb0.trans hle) (show 0 ≤ 1 - (x + y) by linarith); linarith
      · nlinarith [mul_nonneg (show 0 ≤ 2 - b' by linarith) (show 0 ≤ x + y - 1 by linarith)]
    linarith
  linarith

/-! ### Examples -/

theorem numPop_sorted : numPop.individuals.Pairwise fun a b => (fitness a).le (fitness b) = true := by decide +kernel

theorem numPop_member : Always (IsMember numPop) (rankSelect numPop) :=
  C38_member exEnv numPop (by decide) (by decide) .rank trivial (by simp) (fun _ => by decide)

-- rank selection from individuals of fitness 1, 2 and 5: the expected fitness is at least the average
example : (8 / 3 : ℚ) ≤ (rankSelect numPop).expect (fun | .ok r => (fitness r.2).val | _ => 0) := by
  have h := C82_expected numPop (rankSelect numPop) numPop_member ((C82_rank_based numPop (by decide)).2.1 (by decide))
    (by decide +kernel) numPop_sorted
  have e : (numPop.individuals.map fun x => (fitness x).val).sum / (numPop.individuals.length : ℚ) = 8 / 3 := by decide +kernel
  rwa [e] at h

-- a tournament of three: one of the two fittest of three with probability at least 2/3
example : (2 : ℚ) / 3 ≤ ((⟨3⟩ : TournamentSelection).select numPop).prob (fun r => 1 ≤ r.1) := by
  have h := C82_dominates numPop _
    (C38_member exEnv numPop (by decide) (by decide) (.tournament ⟨3⟩) (show (3 : Nat) ≠ 0 by decide) (by simp) (by simp))
    ((C82_rank_based numPop (by decide)).1 ⟨3⟩ (by decide)) 2 (by decide) (by decide)
  exact h

end RG.Props
