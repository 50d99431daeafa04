import Verif.Proofs.StatsError
import Verif.Props.Stats
import Mathlib.Algebra.Order.Archimedean.Basic

/-!
# How accurate the statistics are (C90)

C05 is about exact arithmetic and C06 says what rounding can never break. Here: how far the computed `avg`, `var` and `std` can be from the
mean, the sample variance and its root. `lo`, `hi` enclose the samples.
-/

namespace RG.Props
open RG Arith F64 Stats

set_option exponentiation.threshold 1100

/-- Error of a correctly rounded square root. -/
private theorem sqrt_rel {v : F64} (hf : v.isFinite = true) (h0 : 0 ≤ v.val) (hs : (sqrt v).isFinite = true) :
    |(sqrt v).val ^ 2 - v.val| ≤ 3 / 2 ^ 53 * v.val := by
  rcases h0.eq_or_lt with h | hpos
  · rw [(sqrt_zero hf h.symm).2, ← h]; norm_num
  · cases v with
    | nan => cases hf
    | inf s => cases hf
    | nzero => exact absurd hpos (lt_irrefl _)
    | fin q hq =>
      simp only [val_fin] at *
      have hq' : (0 : ℝ) < (q : ℝ) := by exact_mod_cast hpos
      set r := Real.sqrt (q : ℝ) with hr
      have hr0 : 0 < r := Real.sqrt_pos.2 hq'
      have hrr : r * r = q := Real.mul_self_sqrt hq'.le
      obtain ⟨k, hk1, hk2⟩ := exists_mem_Ico_zpow (y := (2 : ℝ)) hr0 (by norm_num)
      -- `q` is at least `2^-1074`
      have hqmin : pow2 (-1074) ≤ q := by
        obtain ⟨z, hz⟩ := hq.1.mult
        have hp := pow2_pos (-1074)
        have hz1 : 1 ≤ z := by
          by_contra hc
          have : (z : ℚ) ≤ 0 := by exact_mod_cast (by omega : z ≤ 0)
          rw [hz] at hpos
          nlinarith
        have : (1 : ℚ) ≤ z := by exact_mod_cast hz1
        rw [hz]; nlinarith
      have hk : -538 ≤ k := by
        by_contra hc
        have h1 : (2 : ℝ) ^ (k + 1) ≤ 2 ^ (-538 : Int) := zpow_le_zpow_right₀ (by norm_num) (by omega)
        have h2 : r < 2 ^ (-538 : Int) := hk2.trans_le h1
        have h3 : (q : ℝ) < 2 ^ (-1076 : Int) := by
          rw [← hrr, show (-1076 : Int) = -538 + -538 by norm_num, zpow_add₀ (by norm_num)]
          exact mul_lt_mul'' h2 h2 hr0.le hr0.le
        have h4 : ((pow2 (-1074) : ℚ) : ℝ) ≤ (q : ℝ) := by exact_mod_cast hqmin
        rw [pow2_eq] at h4
        push_cast at h4
        have h5 : (2 : ℝ) ^ (-1076 : Int) ≤ 2 ^ (-1074 : Int) := zpow_le_zpow_right₀ (by norm_num) (by norm_num)
        linarith
      -- a number of the format near the root
      set m : Int := round (r / 2 ^ (k - 52)) with hm
      have hp : (0 : ℝ) < 2 ^ (k - 52) := zpow_pos (by norm_num) _
      have e52 : (2 : ℝ) ^ (k + 1) = 2 ^ 53 * 2 ^ (k - 52) := by
        rw [← zpow_natCast, ← zpow_add₀ (by norm_num)]; congr 1; push_cast; ring
      have ek : (2 : ℝ) ^ k = 2 ^ 52 * 2 ^ (k - 52) := by
        rw [← zpow_natCast, ← zpow_add₀ (by norm_num)]; congr 1; push_cast; ring
      have hm1 : |r / 2 ^ (k - 52) - m| ≤ 1 / 2 := abs_sub_round _
      have hb1 : r / 2 ^ (k - 52) < 2 ^ 53 := by rw [div_lt_iff₀ hp]; rwa [e52] at hk2
      have hb0 : 0 < r / 2 ^ (k - 52) := by positivity
      have hmabs : |m| ≤ 2 ^ 53 := by
        have h1 : (m : ℝ) < 2 ^ 53 + 1 := by linarith [(abs_le.1 hm1).1]
        have h2 : (-1 : ℝ) < m := by linarith [(abs_le.1 hm1).2]
        have h3 : m < 2 ^ 53 + 1 := by exact_mod_cast h1
        have h4 : -1 < m := by exact_mod_cast h2
        rw [abs_le]; omega
      have hF : Fmt ((m : ℚ) * pow2 (k - 52)) := fmt_of_le hmabs (by omega)
      have hn := sqrt_nearest hpos.le hs hF
      have hcast : (((m : ℚ) * pow2 (k - 52) : ℚ) : ℝ) = m * 2 ^ (k - 52) := by
        rw [pow2_eq]; push_cast; ring
      rw [hcast] at hn
      have hd : |(m : ℝ) * 2 ^ (k - 52) - r| ≤ 1 / 2 ^ 53 * r := by
        have h1 : (m : ℝ) * 2 ^ (k - 52) - r = -(r / 2 ^ (k - 52) - m) * 2 ^ (k - 52) := by field_simp; ring
        rw [h1, abs_mul, abs_neg, abs_of_pos hp]
        rw [ek] at hk1
        have h2 : |r / 2 ^ (k - 52) - m| * 2 ^ (k - 52) ≤ 1 / 2 * 2 ^ (k - 52) := mul_le_mul_of_nonneg_right hm1 hp.le
        refine h2.trans ?_
        have h3 : (1 : ℝ) / 2 ^ 53 * (2 ^ 52 * 2 ^ (k - 52)) = 1 / 2 * 2 ^ (k - 52) := by ring
        rw [← h3]
        exact mul_le_mul_of_nonneg_left hk1 (by norm_num)
      have h := hn.trans hd
      set s : ℝ := (((sqrt (fin q hq)).val : ℚ) : ℝ) with hsd
      have key : |s ^ 2 - q| ≤ 3 / 2 ^ 53 * q := by
        have e1 : s ^ 2 - q = (s - r) * (s - r + 2 * r) := by rw [← hrr]; ring
        rw [e1, abs_mul]
        have h2 : |s - r + 2 * r| ≤ 3 * r := by
          refine (abs_add_le _ _).trans ?_
          rw [abs_of_pos (show 0 < 2 * r by linarith)]
          have : 1 / 2 ^ 53 * r ≤ 1 * r := mul_le_mul_of_nonneg_right (by norm_num) hr0.le
          linarith
        calc |s - r| * |s - r + 2 * r| ≤ 1 / 2 ^ 53 * r * (3 * r) :=
              mul_le_mul h h2 (abs_nonneg _) (by positivity)
          _ = 3 / 2 ^ 53 * q := by rw [← hrr]; ring
      have : (((|(sqrt (fin q hq)).val ^ 2 - q| : ℚ)) : ℝ) ≤ ((3 / 2 ^ 53 * q : ℚ) : ℝ) := by
        push_cast; exact key
      exact_mod_cast this

/-- **C90** The computed average of `n` samples differs from the mean by at most `(M(n+1)/2 + 3(hi-lo))` units of `2^-53` (and an absolute
term of the order of the smallest positive number), where `M` bounds the samples. -/
theorem C90_average (samples : List F64) (hne : samples ≠ []) (hlen : samples.length ≤ 2 ^ 53) (lo hi M : ℚ)
    (hM : |lo| ≤ M ∧ |hi| ≤ M) (hM' : M < 2 ^ 1023) (h : ∀ x ∈ samples, x.isFinite = true ∧ lo ≤ x.val ∧ x.val ≤ hi) :
    ∃ av, (Stats.collect samples).getAvg = some av ∧ av.isFinite = true ∧
      |av.val - mean (samples.map F64.val)| ≤
        (M * (samples.length + 1) / 2 + 3 * (hi - lo)) / 2 ^ 53 + (samples.length + 1) / 2 / 2 ^ 1075 := by
  obtain ⟨x, xs, rfl⟩ := List.exists_cons_of_ne_nil hne
  have h1023 : pow2 1023 = 2 ^ 1023 := by rw [pow2_eq]; norm_num
  obtain ⟨h1, -, -, h4⟩ := Stats.avg_near x xs hM.1 hM.2 (by rw [h1023]; exact hM') h hlen
  refine ⟨_, Stats.getAvg_of (Stats.collect_count_ne x xs), h1, ?_⟩
  have hm : (Stats.collect ((x :: xs).map F64.val)).avg = mean ((x :: xs).map F64.val) := by
    have := (C05_mean_var ((x :: xs).map F64.val)).2.1 (by simp)
    rw [Stats.getAvg_of (by rw [Stats.collect_count]; simp)] at this
    exact Option.some.inj this
  rw [hm] at h4
  refine h4.trans (le_of_eq ?_)
  have ht : pow2 (-1075) = 1 / 2 ^ 1075 := by rw [pow2_eq, zpow_neg]; norm_num
  unfold Stats.avgErr
  rw [ht]
  ring

/-- **C90** The computed variance of `n ≥ 2` samples differs from the sample variance by at most
`M W (n+1) + W² (2n+12)` units of `2^-53` (and a tiny absolute term), with `W = hi - lo`; the square of the computed standard deviation by
at most `M W (n+1) + W² (2n+21)` such units. Both are finite. -/
theorem C90_variance (samples : List F64) (hlen2 : 2 ≤ samples.length) (hlen : samples.length ≤ 2 ^ 50) (lo hi M : ℚ)
    (hM : |lo| ≤ M ∧ |hi| ≤ M) (hM' : M ≤ 2 ^ 450) (h : ∀ x ∈ samples, x.isFinite = true ∧ lo ≤ x.val ∧ x.val ≤ hi) :
    ∃ vr sd, (Stats.collect samples).getVar = some vr ∧ (Stats.collect samples).getStd = some sd ∧
      vr.isFinite = true ∧ sd.isFinite = true ∧
      |vr.val - sampleVar (samples.map F64.val)| ≤
        (M * (hi - lo) * (samples.length + 1) + (hi - lo) ^ 2 * (2 * samples.length + 12)) / 2 ^ 53 +
          (4 + (hi - lo) * (samples.length + 1)) / 2 ^ 1075 ∧
      |sd.val ^ 2 - sampleVar (samples.map F64.val)| ≤
        (M * (hi - lo) * (samples.length + 1) + (hi - lo) ^ 2 * (2 * samples.length + 21)) / 2 ^ 53 +
          (5 + (hi - lo) * (samples.length + 1)) / 2 ^ 1075 := by
  obtain ⟨x, xs, rfl⟩ := List.exists_cons_of_ne_nil (show samples ≠ [] by rintro rfl; simp at hlen2)
  have h450 : pow2 450 = 2 ^ 450 := by rw [pow2_eq]; norm_num
  have ht : (1 : ℚ) / 2 ^ 1075 = pow2 (-1075) := by rw [pow2_eq, zpow_neg]; norm_num
  obtain ⟨s1, s2, s3, s4⟩ := Stats.sum_near x xs hM.1 hM.2 (by rw [h450]; exact hM') h hlen
  have hc := Stats.collect_count_ne x xs
  have hcount := Stats.collect_count (x :: xs)
  have hx := h x (by simp)
  have hW0 : 0 ≤ hi - lo := by linarith [hx.2.1, hx.2.2]
  have hM0 : 0 ≤ M := (abs_nonneg _).trans hM.1
  have hvar : (Stats.collect (x :: xs)).getVar = some ((Stats.collect (x :: xs)).sumSquared.div
      (F64.ofNat ((x :: xs).length - 1))) := by
    rw [Stats.getVar_of hc]
    unfold PopulatedStats.var
    rw [hcount, if_pos (by omega)]
    rfl
  have hsv : sampleVar ((x :: xs).map F64.val) =
      (Stats.collect ((x :: xs).map F64.val)).sumSquared / (((x :: xs).length : ℚ) - 1) := by
    have := (C05_mean_var ((x :: xs).map F64.val)).2.2.2 (by rw [List.length_map]; exact hlen2)
    rw [Stats.getVar_of (by rw [Stats.collect_count]; simp)] at this
    rw [← Option.some.inj this]
    unfold PopulatedStats.var
    rw [Stats.collect_count, List.length_map, if_pos (by omega)]
    simp only [Arith.div, Arith.ofNat]
    rw [Nat.cast_sub (by omega)]
    push_cast
    rfl
  have hN : (F64.ofNat ((x :: xs).length - 1)).isFinite = true ∧
      (F64.ofNat ((x :: xs).length - 1)).val = ((x :: xs).length : ℚ) - 1 := by
    obtain ⟨a, b⟩ := F64.ofNat_exact (n := (x :: xs).length - 1) (by omega)
    refine ⟨a, ?_⟩
    rw [b, Nat.cast_sub (by omega)]; push_cast; rfl
  have hvf := F64.div_ofNat_finite (n := (x :: xs).length - 1) s1 (by omega) (by omega)
  have hv0 := (F64.zero_le_finite hvf).1 (F64.div_nonneg (n := (x :: xs).length - 1) ((F64.zero_le_finite s1).2 s2) (by omega) (by omega))
  have hn1 : (1 : ℚ) ≤ ((x :: xs).length : ℚ) - 1 := by
    have : (2 : ℚ) ≤ ((x :: xs).length : ℚ) := by exact_mod_cast hlen2
    linarith
  have hvv : ((Stats.collect (x :: xs)).sumSquared.div (F64.ofNat ((x :: xs).length - 1))).val =
      rndQ ((Stats.collect (x :: xs)).sumSquared.val / (((x :: xs).length : ℚ) - 1)) := by
    have e := F64.div_finite s1 hN.1 (by rw [hN.2]; linarith)
    rw [hN.2] at e
    have hvf' := hvf
    rw [e] at hvf' ⊢
    by_cases hb : |rndQ ((Stats.collect (x :: xs)).sumSquared.val / (((x :: xs).length : ℚ) - 1))| < pow2 1024
    · exact (round_finite hb).2
    · rw [round_overflow hb] at hvf'; cases hvf'
  have hsf := F64.sqrt_finite hvf hv0
  have hsq := sqrt_rel hvf hv0 hsf
  refine ⟨_, _, hvar, by unfold Stats.getStd; rw [hvar]; rfl, hvf, hsf, ?_⟩
  have hsq' : |(ArithSqrt.sqrt ((Stats.collect (x :: xs)).sumSquared.div (F64.ofNat ((x :: xs).length - 1)))).val ^ 2 -
      ((Stats.collect (x :: xs)).sumSquared.div (F64.ofNat ((x :: xs).length - 1))).val| ≤
      3 / 2 ^ 53 * ((Stats.collect (x :: xs)).sumSquared.div (F64.ofNat ((x :: xs).length - 1))).val := hsq
  have near := rnd_near_abs ((Stats.collect (x :: xs)).sumSquared.val / (((x :: xs).length : ℚ) - 1))
  rw [← hvv] at near
  rw [hsv]
  have hW := hi - lo
  generalize (ArithSqrt.sqrt ((Stats.collect (x :: xs)).sumSquared.div (F64.ofNat ((x :: xs).length - 1)))).val = sd at *
  generalize ((Stats.collect (x :: xs)).sumSquared.div (F64.ofNat ((x :: xs).length - 1))).val = vr at *
  generalize (Stats.collect ((x :: xs).map F64.val)).sumSquared = T at *
  generalize (Stats.collect (x :: xs)).sumSquared.val = S at *
  generalize ((x :: xs).length : ℚ) = n at *
  clear hsq hvv hvf hsf hv0
  generalize hi - lo = W at *
  have hp := pow2_pos (-1075)
  have hpos : 0 < n - 1 := by linarith
  have q0 : 0 ≤ S / (n - 1) := by positivity
  have q1 : S / (n - 1) ≤ 2 * W ^ 2 + 2 * pow2 (-1075) := by rw [div_le_iff₀ hpos]; linarith
  have q2 : |S / (n - 1) - T / (n - 1)| ≤ Stats.sumErr M W n := by
    rw [← sub_div, abs_div, abs_of_pos hpos, div_le_iff₀ hpos]; linarith
  rw [abs_of_nonneg q0] at near
  have hW2 := sq_nonneg W
  have n1 : 1 / 2 ^ 53 * (S / (n - 1)) ≤ 1 / 2 ^ 53 * (2 * W ^ 2 + 2 * pow2 (-1075)) := mul_le_mul_of_nonneg_left q1 (by norm_num)
  have eτ : (1 : ℚ) / 2 ^ 53 * pow2 (-1075) ≤ 1 / 100 * pow2 (-1075) := mul_le_mul_of_nonneg_right (by norm_num) hp.le
  have v1 : |vr - T / (n - 1)| ≤ Stats.sumErr M W n + (1 / 2 ^ 53 * (2 * W ^ 2) + 2 * pow2 (-1075)) := by
    have := abs_add_le (vr - S / (n - 1)) (S / (n - 1) - T / (n - 1))
    rw [sub_add_sub_cancel] at this
    linarith
  have vb : vr ≤ 3 * W ^ 2 + 4 * pow2 (-1075) := by
    have := (abs_le.1 near).2
    have e1 : (1 : ℚ) / 2 ^ 53 * W ^ 2 ≤ 1 / 100 * W ^ 2 := mul_le_mul_of_nonneg_right (by norm_num) hW2
    linarith
  have v2 : 3 / 2 ^ 53 * vr ≤ 3 / 2 ^ 53 * (3 * W ^ 2 + 4 * pow2 (-1075)) := mul_le_mul_of_nonneg_left vb (by norm_num)
  have e3 : ∀ c : ℚ, c / 2 ^ 1075 = c * pow2 (-1075) := fun c => by rw [← ht]; ring
  rw [e3, e3]
  unfold Stats.sumErr at v1
  generalize pow2 (-1075) = t at *
  constructor
  · linarith
  · have := abs_add_le (sd ^ 2 - vr) (vr - T / (n - 1))
    rw [sub_add_sub_cancel] at this
    linarith

/-- **C90** In particular, for at most a thousand samples of magnitude at most `M` the average is within `10^-13 M` of the mean (and
`10^-300`). -/
theorem C90_thousand (samples : List F64) (hne : samples ≠ []) (hlen : samples.length ≤ 1000) (M : ℚ) (hM : M < 2 ^ 1023)
    (h : ∀ x ∈ samples, x.isFinite = true ∧ |x.val| ≤ M) :
    ∃ av, (Stats.collect samples).getAvg = some av ∧ |av.val - mean (samples.map F64.val)| ≤ M / 10 ^ 13 + 1 / 10 ^ 300 := by
  obtain ⟨x, hx⟩ := List.exists_mem_of_ne_nil _ hne
  have hM0 : 0 ≤ M := (abs_nonneg _).trans (h x hx).2
  obtain ⟨av, h1, -, h3⟩ := C90_average samples hne (hlen.trans (by norm_num)) (-M) M M
    ⟨by rw [abs_neg, abs_of_nonneg hM0], by rw [abs_of_nonneg hM0]⟩ hM (fun x hx => ⟨(h x hx).1, abs_le.1 (h x hx).2⟩)
  refine ⟨av, h1, h3.trans ?_⟩
  have hl : (samples.length : ℚ) ≤ 1000 := by exact_mod_cast hlen
  have h4 : M * (samples.length + 1) ≤ M * 1001 := mul_le_mul_of_nonneg_left (by linarith) hM0
  have h5 : ((samples.length : ℚ) + 1) / 2 / 2 ^ 1075 ≤ 1 / 10 ^ 300 := by
    calc ((samples.length : ℚ) + 1) / 2 / 2 ^ 1075 ≤ 1001 / 2 / 2 ^ 1075 :=
          div_le_div_of_nonneg_right (by linarith) (by positivity)
      _ ≤ 1 / 10 ^ 300 := by norm_num
  have h6 : (M * (samples.length + 1) / 2 + 3 * (M - -M)) / 2 ^ 53 ≤ (507 * M) / 2 ^ 53 :=
    div_le_div_of_nonneg_right (by linarith) (by positivity)
  have h7 : (507 * M) / 2 ^ 53 ≤ M / 10 ^ 13 := by
    have : (507 * M) / 2 ^ 53 = M * (507 / 2 ^ 53) := by ring
    rw [this, div_eq_mul_inv M]
    exact mul_le_mul_of_nonneg_left (by norm_num) hM0
  linarith

/-- Non-trivial instance: three samples between 1 and 4. -/
example : ∃ av vr sd, (Stats.collect [F64.lit 1, F64.lit 2, F64.lit 4]).getAvg = some av ∧
    (Stats.collect [F64.lit 1, F64.lit 2, F64.lit 4]).getVar = some vr ∧
    (Stats.collect [F64.lit 1, F64.lit 2, F64.lit 4]).getStd = some sd ∧
    |av.val - 7 / 3| ≤ 1 / 10 ^ 14 ∧ |vr.val - 7 / 3| ≤ 1 / 10 ^ 13 ∧ |sd.val ^ 2 - 7 / 3| ≤ 1 / 10 ^ 13 := by
  have hs : ∀ x ∈ [F64.lit 1, F64.lit 2, F64.lit 4], x.isFinite = true ∧ (1 : ℚ) ≤ x.val ∧ x.val ≤ 4 := by decide +kernel
  have hv : [F64.lit 1, F64.lit 2, F64.lit 4].map F64.val = [1, 2, 4] := by decide +kernel
  obtain ⟨av, a1, -, a3⟩ := C90_average [F64.lit 1, F64.lit 2, F64.lit 4] (by simp) (by simp) 1 4 4 (by norm_num) (by norm_num) hs
  obtain ⟨vr, sd, v1, v2, -, -, v3, v4⟩ := C90_variance [F64.lit 1, F64.lit 2, F64.lit 4] (by simp) (by simp) 1 4 4 (by norm_num)
    (by norm_num) hs
  rw [hv] at a3 v3 v4
  have hm : mean [(1 : ℚ), 2, 4] = 7 / 3 := by norm_num [mean]
  have hs' : sampleVar [(1 : ℚ), 2, 4] = 7 / 3 := by norm_num [sampleVar, hm]
  rw [hm] at a3
  rw [hs'] at v3 v4
  refine ⟨av, vr, sd, a1, v1, v2, a3.trans ?_, v3.trans ?_, v4.trans ?_⟩ <;> norm_num

/-- **C90** (an error is unavoidable) The mean of 1, 1 and 0 is not an `f64`. -/
theorem C90_inexact : ∃ av, (Stats.collect [F64.lit 1, F64.lit 1, F64.lit 0]).getAvg = some av ∧
    av.val ≠ mean [1, 1, 0] := by
  refine ⟨(Stats.collect [F64.lit 1, F64.lit 1, F64.lit 0]).avg, by decide +kernel, ?_⟩
  have hm : mean [(1 : ℚ), 1, 0] = 2 / 3 := by norm_num [mean]
  rw [hm]
  decide +kernel

end RG.Props
