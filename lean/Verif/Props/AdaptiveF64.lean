import Verif.Proofs.AdaptiveF64
import Verif.Props.Algorithm

/-!
# Property C109: the adaptive rates as they are computed, in `f64`

C57 proves what the formulas say in exact arithmetic and that the `f64` rates stay in `[0,1]`. Here the response to the spread is
proved in `f64`, every operation rounded: it is monotone, the lower ends are reached exactly, the rates are within a few units
of `2^-54` of the exact formulas, and the upper end can be exceeded, by at most `2^-53` (and this much does happen).
-/

namespace RG.Props
open RG
variable {Mo U : Type}

/-- **C109** More spread never lowers the crossover rate and never raises the mutation rate, roundings included. -/
theorem C109_monotone (cr mr : FRange F64) (std std' ref : F64)
    (hc : cr.start.InClosedUnit ∧ cr.stop.InClosedUnit) (hm : mr.start.InClosedUnit ∧ mr.stop.InClosedUnit)
    (hco : cr.start.val ≤ cr.stop.val) (hmo : mr.start.val ≤ mr.stop.val)
    (hs : std.isFinite = true) (hs' : std'.isFinite = true) (hr : ref.isFinite = true) (h0 : 0 < ref.val)
    (h : std.val ≤ std'.val) :
    (adjustedRates cr mr std ref).1.val ≤ (adjustedRates cr mr std' ref).1.val ∧
    (adjustedRates cr mr std' ref).2.val ≤ (adjustedRates cr mr std ref).2.val := by
  obtain ⟨⟨-, a1⟩, -, a2⟩ := rates_val hc hm hs hr h0
  obtain ⟨⟨-, b1⟩, -, b2⟩ := rates_val hc hm hs' hr h0
  rw [a1, a2, b1, b2]
  have hd : min 1 (max 0 (rndQ (std.val / ref.val))) ≤ min 1 (max 0 (rndQ (std'.val / ref.val))) :=
    min_le_min_left _ (max_le_max_left _ (rndQ_mono (div_le_div_of_nonneg_right h h0.le)))
  have hc' : 0 ≤ rndQ (cr.stop.val - cr.start.val) := rndQ_nonneg (by linarith)
  have hm' : 0 ≤ rndQ (mr.stop.val - mr.start.val) := rndQ_nonneg (by linarith)
  constructor
  · apply rndQ_mono
    have := rndQ_mono (mul_le_mul_of_nonneg_left hd hc')
    linarith
  · apply rndQ_mono
    have := rndQ_mono (mul_le_mul_of_nonneg_left (rndQ_mono (sub_le_sub_left hd 1)) hm')
    linarith

/-- **C109** The computed rates are close to the exact formulas: the crossover rate is off by at most `4·2^-54`, the mutation
rate by at most `5·2^-54`. This holds for ranges written backwards too. -/
theorem C109_accuracy (cr mr : FRange F64) (std ref : F64)
    (hc : cr.start.InClosedUnit ∧ cr.stop.InClosedUnit) (hm : mr.start.InClosedUnit ∧ mr.stop.InClosedUnit)
    (hs : std.isFinite = true) (hr : ref.isFinite = true) (h0 : 0 < ref.val) :
    |(adjustedRates cr mr std ref).1.val -
      (cr.start.val + (cr.stop.val - cr.start.val) * min 1 (max 0 (std.val / ref.val)))| ≤ 4 / 2 ^ 54 ∧
    |(adjustedRates cr mr std ref).2.val -
      (mr.start.val + (mr.stop.val - mr.start.val) * (1 - min 1 (max 0 (std.val / ref.val))))| ≤ 5 / 2 ^ 54 := by
  have e54 : (1 : ℚ) / 2 ^ 54 = pow2 (-54) := by rw [pow2_eq]; norm_num
  have e4 : (4 : ℚ) / 2 ^ 54 = pow2 (-54) + 3 * pow2 (-54) := by rw [← e54]; norm_num
  have e5 : (5 : ℚ) / 2 ^ 54 = 2 * pow2 (-54) + 3 * pow2 (-54) := by rw [← e54]; norm_num
  obtain ⟨⟨-, a1⟩, -, a2⟩ := rates_val hc hm hs hr h0
  rw [a1, a2, e4, e5]
  have g := clamp_err (std.val / ref.val)
  obtain ⟨m0, m1⟩ := clamp_mem (rndQ (std.val / ref.val))
  constructor
  · exact interp_err (F64.fmt_val cr.start) hc.1.2.1 hc.1.2.2 hc.2.2.1 hc.2.2.2 m0 m1 g
  · have g1 := rndQ_err_le_one (x := 1 - min 1 (max 0 (rndQ (std.val / ref.val)))) (by linarith) (by linarith)
    have g2 : |rndQ (1 - min 1 (max 0 (rndQ (std.val / ref.val)))) - (1 - min 1 (max 0 (std.val / ref.val)))| ≤
        2 * pow2 (-54) := by
      have k1 := abs_le.1 g
      have k2 := abs_le.1 g1
      exact abs_le.2 ⟨by linarith [k1.1, k1.2, k2.1, k2.2], by linarith [k1.1, k1.2, k2.1, k2.2]⟩
    exact interp_err (F64.fmt_val mr.start) hm.1.2.1 hm.1.2.2 hm.2.2.1 hm.2.2.2
      (rndQ_nonneg (x := 1 - min 1 (max 0 (rndQ (std.val / ref.val)))) (by linarith))
      (rndQ_le fmt_one (by linarith)) g2

/-- **C109** The rates never fall below the lower end of their range, and exceed the upper end by at most `2^-53`. -/
theorem C109_range (cr mr : FRange F64) (std ref : F64)
    (hc : cr.start.InClosedUnit ∧ cr.stop.InClosedUnit) (hm : mr.start.InClosedUnit ∧ mr.stop.InClosedUnit)
    (hco : cr.start.val ≤ cr.stop.val) (hmo : mr.start.val ≤ mr.stop.val)
    (hs : std.isFinite = true) (hr : ref.isFinite = true) (h0 : 0 < ref.val) :
    (cr.start.val ≤ (adjustedRates cr mr std ref).1.val ∧
      (adjustedRates cr mr std ref).1.val ≤ cr.stop.val + 1 / 2 ^ 53) ∧
    (mr.start.val ≤ (adjustedRates cr mr std ref).2.val ∧
      (adjustedRates cr mr std ref).2.val ≤ mr.stop.val + 1 / 2 ^ 53) := by
  have e53 : pow2 (-53) = 1 / 2 ^ 53 := by rw [pow2_eq]; norm_num
  obtain ⟨⟨-, a1⟩, -, a2⟩ := rates_val hc hm hs hr h0
  rw [a1, a2, ← e53]
  obtain ⟨m0, m1⟩ := clamp_mem (rndQ (std.val / ref.val))
  exact ⟨⟨interp_under (F64.fmt_val _) hco m0, interp_over hc.1.2.1 hco hc.2.2.2 m1⟩,
    interp_under (F64.fmt_val _) hmo (rndQ_nonneg (by linarith)),
    interp_over hm.1.2.1 hmo hm.2.2.2 (rndQ_le fmt_one (by linarith))⟩

/-- **C109** The lower ends are met exactly: no spread gives exactly the lowest crossover rate; at least the reference spread
gives exactly the lowest mutation rate. No order of the range ends is needed. -/
theorem C109_ends (cr mr : FRange F64) (std ref : F64)
    (hc : cr.start.InClosedUnit ∧ cr.stop.InClosedUnit) (hm : mr.start.InClosedUnit ∧ mr.stop.InClosedUnit)
    (hs : std.isFinite = true) (hr : ref.isFinite = true) (h0 : 0 < ref.val) :
    (std.val ≤ 0 → (adjustedRates cr mr std ref).1.val = cr.start.val) ∧
    (ref.val ≤ std.val → (adjustedRates cr mr std ref).2.val = mr.start.val) := by
  obtain ⟨⟨-, a1⟩, -, a2⟩ := rates_val hc hm hs hr h0
  rw [a1, a2]
  constructor
  · intro h
    have hq : rndQ (std.val / ref.val) ≤ 0 := rndQ_nonpos (div_nonpos_of_nonpos_of_nonneg h h0.le)
    rw [max_eq_left hq, min_eq_right zero_le_one, mul_zero, rndQ_zero, add_zero]
    exact rndQ_of_fmt (F64.fmt_val _)
  · intro h
    have hq : 1 ≤ rndQ (std.val / ref.val) := le_rndQ fmt_one ((one_le_div h0).2 h)
    rw [max_eq_right (zero_le_one.trans hq), min_eq_left hq, sub_self, rndQ_zero, mul_zero, rndQ_zero, add_zero]
    exact rndQ_of_fmt (F64.fmt_val _)

/-- **C109** These are the rates the algorithm breeds with from a later generation that is a multiple of the interval, the
reference being the spread of generation 0. -/
theorem C109_adjust (a : Aga Mo U) (first std : F64) (g : Nat) (hg : g ≠ 0) (hi : a.adjustmentInterval ≠ 0)
    (hd : a.adjustmentInterval ∣ g) :
    ((a.adjust 0 first).adjust g std).breeding.crossoverRate =
      (adjustedRates a.crossoverRateRange a.mutationRateRange std first).1 ∧
    ((a.adjust 0 first).adjust g std).breeding.mutationRate =
      (adjustedRates a.crossoverRateRange a.mutationRateRange std first).2 ∧
    ((a.adjust 0 first).adjust g std).referenceStd = first := by
  have h : a.adjustmentInterval ≠ 0 ∧ g % a.adjustmentInterval = 0 := ⟨hi, Nat.mod_eq_zero_of_dvd hd⟩
  unfold Aga.adjust
  rw [if_neg hg, if_pos rfl, if_pos h]
  exact ⟨rfl, rfl, rfl⟩

/-- **C109** (the claim "the rate never exceeds the upper end of its range" is false) With the crossover range
`148/300 .. 299/300`, generation 0 is bred with the upper end, and a later generation of the same spread with a rate that is
higher by exactly `2^-53`: the bound of `C109_range` cannot be improved. -/
theorem C109_exceeds_counterexample :
    (F64.lit (148 / 300)).InClosedUnit ∧ (F64.lit (299 / 300)).InClosedUnit ∧
    (adjustedRates ⟨F64.lit (148 / 300), F64.lit (299 / 300)⟩ ⟨F64.zero, F64.one⟩ F64.one F64.one).1.val =
      (F64.lit (299 / 300)).val + 1 / 2 ^ 53 := by
  refine ⟨by unfold F64.InClosedUnit; decide +kernel, by unfold F64.InClosedUnit; decide +kernel, by decide +kernel⟩

/-! Examples: the hypotheses hold, and the response is strict somewhere. -/

example : (adjustedRates ⟨F64.lit (1 / 4), F64.one⟩ ⟨F64.zero, F64.lit (1 / 2)⟩ (F64.lit 3) (F64.lit 4)).1.val = 13 / 16 ∧
    (adjustedRates ⟨F64.lit (1 / 4), F64.one⟩ ⟨F64.zero, F64.lit (1 / 2)⟩ (F64.lit 3) (F64.lit 4)).2.val = 1 / 8 ∧
    (adjustedRates ⟨F64.lit (1 / 4), F64.one⟩ ⟨F64.zero, F64.lit (1 / 2)⟩ (F64.lit 1) (F64.lit 4)).1.val = 7 / 16 ∧
    (adjustedRates ⟨F64.lit (1 / 4), F64.one⟩ ⟨F64.zero, F64.lit (1 / 2)⟩ (F64.lit 1) (F64.lit 4)).2.val = 3 / 8 := by
  decide +kernel

example : (F64.lit (1 / 4)).InClosedUnit ∧ F64.one.InClosedUnit ∧ (F64.lit (1 / 4)).val ≤ F64.one.val ∧
    (F64.lit 3).isFinite = true ∧ (F64.lit 4).isFinite = true ∧ 0 < (F64.lit 4).val := by
  unfold F64.InClosedUnit; decide +kernel

/-- A quotient that overflows counts as full diversity: a huge spread against a tiny reference. -/
example : (adjustedRates ⟨F64.lit (1 / 4), F64.one⟩ ⟨F64.zero, F64.lit (1 / 2)⟩ (F64.lit (10 ^ 300)) (F64.lit (1 / 10 ^ 300))).1.val
    = 1 := by decide +kernel

end RG.Props
