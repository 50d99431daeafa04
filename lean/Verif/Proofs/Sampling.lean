import Mathlib.Probability.Moments.SubGaussian
import Mathlib.Probability.Distributions.Uniform
import Verif.Sampling
import Verif.Proofs.Convergence

/-!
# Concentration of the counts of repeated selections
-/

namespace RG
open MeasureTheory ProbabilityTheory

/-- Hoeffding's lemma for a Bernoulli variable. -/
theorem hoeffding_bernoulli (p : ℝ) (h0 : 0 ≤ p) (h1 : p ≤ 1) (t : ℝ) :
    (1 - p) + p * Real.exp t ≤ Real.exp (t * p + t ^ 2 / 8) := by
  let μ : Measure ℝ := ENNReal.ofReal (1 - p) • Measure.dirac 0 + ENNReal.ofReal p • Measure.dirac 1
  have hμ : IsProbabilityMeasure μ := by
    constructor
    simp only [μ, Measure.add_apply, Measure.smul_apply, measure_univ, smul_eq_mul, mul_one]
    rw [← ENNReal.ofReal_add (by linarith) h0]
    simp
  have hint : ∀ f : ℝ → ℝ, ∫ x, f x ∂μ = (1 - p) * f 0 + p * f 1 := by
    intro f
    have hi : ∀ (a : ℝ) (c : ℝ), Integrable f (ENNReal.ofReal c • Measure.dirac a) := fun a c =>
      (integrable_dirac (by simp)).smul_measure ENNReal.ofReal_ne_top
    rw [integral_add_measure (hi _ _) (hi _ _), integral_smul_measure, integral_smul_measure, integral_dirac, integral_dirac,
      ENNReal.toReal_ofReal (by linarith), ENNReal.toReal_ofReal h0]
    simp
  have hm : HasSubgaussianMGF (fun ω : ℝ => ω - μ[fun x => x]) ((‖(1 : ℝ) - 0‖₊ / 2) ^ 2) μ := by
    refine hasSubgaussianMGF_of_mem_Icc (X := fun x => x) aemeasurable_id ?_
    simp only [μ]
    rw [ae_add_measure_iff]
    constructor
    · refine Measure.ae_smul_measure ?_ _
      rw [ae_dirac_eq]; simp
    · refine Measure.ae_smul_measure ?_ _
      rw [ae_dirac_eq]; simp
  have h := hm.mgf_le t
  rw [mgf, hint, hint] at h
  simp at h
  have e1 : Real.exp (t * (1 - p)) = Real.exp t * Real.exp (-(t * p)) := by rw [← Real.exp_add]; ring_nf
  have e2 : Real.exp (t * p + t ^ 2 / 8) = Real.exp (t ^ 2 / 8) * Real.exp (t * p) := by rw [← Real.exp_add]; ring_nf
  have e3 : Real.exp (-(t * p)) * Real.exp (t * p) = 1 := by rw [← Real.exp_add]; simp
  rw [e1] at h
  have h' : ((1 - p) + p * Real.exp t) * Real.exp (-(t * p)) ≤ Real.exp (t ^ 2 / 8) := by
    refine le_trans (le_of_eq (by ring)) (h.trans (le_of_eq ?_))
    congr 1; ring
  rw [e2]
  calc _ = ((1 - p) + p * Real.exp t) * Real.exp (-(t * p)) * Real.exp (t * p) := by rw [mul_assoc, e3, mul_one]
    _ ≤ _ := mul_le_mul_of_nonneg_right h' (Real.exp_pos _).le

namespace Prog
variable {α β : Type}

/-- Expected value of a real-valued function of the outcome. -/
noncomputable def expectR : Prog α → (Res α → ℝ) → ℝ
  | done r, g => g r
  | pick n k, g => (∑ i ∈ Finset.range (n + 1), (k i).expectR g) / (n + 1)

theorem expectR_bind (p : Prog α) (f : α → Prog β) (g : Res β → ℝ) :
    (p >>= f).expectR g = p.expectR fun r => match r with
      | .ok a => (f a).expectR g
      | .panic => g .panic
      | .diverge => g .diverge := by
  induction p with
  | done r => cases r <;> rfl
  | pick n k ih => simp only [bind_pick, expectR, ih]

theorem expectR_mono (p : Prog α) (g g' : Res α → ℝ) (h : ∀ r, g r ≤ g' r) : p.expectR g ≤ p.expectR g' := by
  induction p with
  | done r => exact h r
  | pick n k ih => exact div_le_div_of_nonneg_right (Finset.sum_le_sum fun i _ => ih i) (by positivity)

theorem expectR_add (p : Prog α) (g g' : Res α → ℝ) : p.expectR (fun r => g r + g' r) = p.expectR g + p.expectR g' := by
  induction p with
  | done r => rfl
  | pick n k ih => simp only [expectR, ih, Finset.sum_add_distrib, add_div]

theorem expectR_mul (p : Prog α) (c : ℝ) (g : Res α → ℝ) : p.expectR (fun r => c * g r) = c * p.expectR g := by
  induction p with
  | done r => rfl
  | pick n k ih => simp only [expectR, ih, ← Finset.mul_sum, mul_div_assoc]

theorem expectR_cast (p : Prog α) (g : Res α → ℚ) : p.expectR (fun r => (g r : ℝ)) = (p.expect g : ℝ) := by
  induction p with
  | done r => rfl
  | pick n k ih => simp only [expectR, expect, ih]; push_cast; rfl

/-- The value of a normal outcome, and 0 for the others. -/
def okR (f : α → ℝ) : Res α → ℝ
  | .ok a => f a
  | _ => 0

theorem expectR_prob (p : Prog α) (P : α → Prop) [DecidablePred P] :
    p.expectR (okR fun a => if P a then 1 else 0) = (p.prob P : ℝ) := by
  unfold prob
  rw [← expectR_cast]
  congr 1
  funext r
  cases r <;> simp [okR]
  split <;> simp

/-- Two values. -/
theorem expectR_two_le (p : Prog α) (P : α → Prop) [DecidablePred P] (x y : ℝ) (hy : 0 ≤ y) :
    p.expectR (okR fun a => if P a then x else y) ≤ p.prob P * x + (1 - p.prob P) * y := by
  have e : (okR fun a : α => if P a then x else y) =
      fun r => x * okR (fun a : α => if P a then 1 else 0) r + y * okR (fun a : α => if ¬ P a then 1 else 0) r := by
    funext r
    cases r <;> simp [okR]
    split <;> simp
  rw [e, expectR_add, expectR_mul, expectR_mul, expectR_prob, expectR_prob]
  have h : (p.prob P : ℝ) + (p.prob fun a => ¬ P a : ℝ) ≤ 1 := by exact_mod_cast prob_add_not p P
  nlinarith

/-- Markov's inequality. -/
theorem markov (p : Prog α) (P : α → Prop) [DecidablePred P] (f : α → ℝ) (c : ℝ) (hf : ∀ a, 0 ≤ f a) (h : ∀ a, P a → c ≤ f a) :
    c * p.prob P ≤ p.expectR (okR f) := by
  rw [← expectR_prob, ← expectR_mul]
  refine expectR_mono _ _ _ fun r => ?_
  cases r with
  | ok a =>
    show c * (if P a then 1 else 0) ≤ f a
    split
    · rename_i hP; simpa using h a hP
    · simpa using hf a
  | panic => simp [okR]
  | diverge => simp [okR]

end Prog

open Prog
variable {I : Type}

theorem u32Add_eq {a b c : Nat} (h : u32Add a b = .ok c) : c = a + b := by
  unfold u32Add at h
  split at h
  · cases h; rfl
  · cases h

/-- The moment generating function of a count. -/
theorem collectLoop_mgf (select : Prog (Nat × I)) (i : Nat) (t : ℝ) (n : Nat) (c : List Nat) :
    (collectLoop select n c).expectR (okR fun c' => Real.exp (t * (c'.getD i 0 : Nat))) ≤
      Real.exp (t * (c.getD i 0 : Nat)) *
        ((1 - (select.prob fun r => r.1 = i : ℝ)) + (select.prob fun r => r.1 = i : ℝ) * Real.exp t) ^ n := by
  have hp0 : (0 : ℝ) ≤ (select.prob fun r => r.1 = i : ℝ) := by exact_mod_cast prob_nonneg _ _
  have hp1 : (select.prob fun r => r.1 = i : ℝ) ≤ 1 := by exact_mod_cast prob_le_one _ _
  set q := (select.prob fun r => r.1 = i : ℝ) with hq
  have hm : 0 ≤ (1 - q) + q * Real.exp t := by have := Real.exp_pos t; nlinarith
  induction n generalizing c with
  | zero => simp [collectLoop, okR, expectR, pure]
  | succ n ih =>
    unfold collectLoop
    rw [expectR_bind]
    refine le_trans (expectR_mono _ _ (okR fun r => if r.1 = i then
      Real.exp (t * (c.getD i 0 : Nat)) * (((1 - q) + q * Real.exp t) ^ n) * Real.exp t else
      Real.exp (t * (c.getD i 0 : Nat)) * (((1 - q) + q * Real.exp t) ^ n)) fun r => ?_) ?_
    · cases r with
      | panic => simp [okR]
      | diverge => simp [okR]
      | ok r =>
        have hpos : (0 : ℝ) ≤ okR (fun r : Nat × I => if r.1 = i then
            Real.exp (t * (c.getD i 0 : Nat)) * (((1 - q) + q * Real.exp t) ^ n) * Real.exp t else
            Real.exp (t * (c.getD i 0 : Nat)) * (((1 - q) + q * Real.exp t) ^ n)) (.ok r) := by
          show (0 : ℝ) ≤ if r.1 = i then _ else _
          split <;> positivity
        show (Prog.lift (index c r.1) >>= fun x => Prog.lift (u32Add x 1) >>= fun x => collectLoop select n (c.set r.1 x)).expectR _ ≤ _
        rcases h : index c r.1 with x | _ | _
        · rw [Prog.lift_ok, Prog.bind_pure_left]
          have hx : r.1 < c.length ∧ c.getD r.1 0 = x := by
            unfold index at h
            rcases Nat.lt_or_ge r.1 c.length with hl | hl
            · rw [List.getElem?_eq_getElem hl] at h
              cases h
              exact ⟨hl, by simp [List.getD_eq_getElem?_getD, hl]⟩
            · rw [List.getElem?_eq_none hl] at h
              cases h
          rcases h' : u32Add x 1 with y | _ | _
          · cases u32Add_eq h'
            rw [Prog.lift_ok, Prog.bind_pure_left]
            refine (ih _).trans ?_
            show _ ≤ if r.1 = i then _ else _
            by_cases hi : r.1 = i
            · rw [if_pos hi]
              subst hi
              rw [show (c.set r.1 (x + 1)).getD r.1 0 = c.getD r.1 0 + 1 by
                simp [List.getD_eq_getElem?_getD, hx.1, ← hx.2]]
              rw [show t * ((c.getD r.1 0 + 1 : Nat) : ℝ) = t * (c.getD r.1 0 : Nat) + t by push_cast; ring, Real.exp_add]
              exact le_of_eq (by ring)
            · rw [if_neg hi]
              rw [show (c.set r.1 (x + 1)).getD i 0 = c.getD i 0 by
                simp [List.getD_eq_getElem?_getD, hi]]
          · exact hpos
          · exact hpos
        · exact hpos
        · exact hpos
    · refine (expectR_two_le _ _ _ _ (by positivity)).trans (le_of_eq ?_)
      rw [← hq, pow_succ]
      ring

/-- Hoeffding's inequality for one count: too many, or too few. -/
theorem collectLoop_tail (select : Prog (Nat × I)) (i n : Nat) (c : List Nat) (hc : c.getD i 0 = 0) (δ : ℝ) (s : ℝ) (hs : s = 1 ∨ s = -1)
    (P : List Nat → Prop) [DecidablePred P] (hδ : 0 ≤ δ)
    (hP : ∀ c', P c' → n * δ ≤ s * ((c'.getD i 0 : Nat) - n * (select.prob fun r => r.1 = i : ℝ))) :
    ((collectLoop select n c).prob P : ℝ) ≤ Real.exp (-2 * n * δ ^ 2) := by
  have hp0 : (0 : ℝ) ≤ (select.prob fun r => r.1 = i : ℝ) := by exact_mod_cast prob_nonneg _ _
  have hp1 : (select.prob fun r => r.1 = i : ℝ) ≤ 1 := by exact_mod_cast prob_le_one _ _
  have hm := collectLoop_mgf select i (4 * δ * s) n c
  set q := (select.prob fun r => r.1 = i : ℝ) with hq
  have hH := hoeffding_bernoulli q hp0 hp1 (4 * δ * s)
  have hss : s ^ 2 = 1 := by rcases hs with rfl | rfl <;> norm_num
  rw [hc] at hm
  have h2 : ((1 - q) + q * Real.exp (4 * δ * s)) ^ n ≤ Real.exp (n * (4 * δ * s * q + 2 * δ ^ 2)) := by
    rw [Real.exp_nat_mul]
    refine pow_le_pow_left₀ (by have := Real.exp_pos (4 * δ * s); nlinarith) (hH.trans (le_of_eq ?_)) n
    congr 1
    have : (4 * δ * s) ^ 2 = 16 * δ ^ 2 := by rw [mul_pow, hss]; ring
    rw [this]; ring
  have hk := markov (collectLoop select n c) P
    (fun c' => Real.exp (4 * δ * s * (c'.getD i 0 : Nat))) (Real.exp (4 * n * δ ^ 2 + 4 * δ * s * (n * q)))
    (fun a => (Real.exp_pos _).le) (fun a ha => by
      have ha := hP a ha
      refine Real.exp_le_exp.2 ?_
      have := mul_le_mul_of_nonneg_left ha (show 0 ≤ 4 * δ by linarith)
      nlinarith)
  have h3 := hk.trans (hm.trans (mul_le_mul_of_nonneg_left h2 (Real.exp_pos _).le))
  rw [← Real.exp_add] at h3
  have e : Real.exp (4 * δ * s * ((0 : Nat) : ℝ) + n * (4 * δ * s * q + 2 * δ ^ 2)) =
      Real.exp (4 * n * δ ^ 2 + 4 * δ * s * (n * q)) * Real.exp (-2 * n * δ ^ 2) := by
    rw [← Real.exp_add]; congr 1; push_cast; ring
  rw [e] at h3
  exact le_of_mul_le_mul_left h3 (Real.exp_pos _)

end RG
