import Verif.Proofs.Algorithm
import Verif.SpecAlgorithm

/-! Helper lemmas for C109: the diversity and the adaptive rates as rationals, with every rounding in view. -/

namespace RG

/-- Rounding a number between -1 and 1 moves it by at most `2^-54`. -/
theorem rndQ_err_abs {x : ℚ} (h : |x| ≤ 1) : |rndQ x - x| ≤ pow2 (-54) := by
  rcases le_total 0 x with h0 | h0
  · exact rndQ_err_le_one h0 (abs_le.1 h).2
  · have := rndQ_err_le_one (x := -x) (by linarith) (by linarith [(abs_le.1 h).1])
    rw [rndQ_neg] at this
    rw [← abs_neg]
    convert this using 2
    ring

/-- Clamping does nothing that rounding could disturb: the clamped quotient is within `2^-54` of the exact one. -/
theorem clamp_err (q : ℚ) : |min 1 (max 0 (rndQ q)) - min 1 (max 0 q)| ≤ pow2 (-54) := by
  have hp := (pow2_pos (-54)).le
  rcases le_total q 0 with h0 | h0
  · rw [max_eq_left h0, max_eq_left (rndQ_nonpos h0)]; simpa using hp
  rcases le_total q 1 with h1 | h1
  · rw [max_eq_right h0, max_eq_right (rndQ_nonneg h0), min_eq_right h1, min_eq_right (rndQ_le fmt_one h1)]
    exact rndQ_err_le_one h0 h1
  · rw [max_eq_right h0, max_eq_right (rndQ_nonneg h0), min_eq_left h1, min_eq_left (le_rndQ fmt_one h1)]
    simpa using hp

theorem clampA_fin {x : F64} (h : x.isFinite = true) :
    (clampA x (Arith.lit 0) (Arith.lit 1)).isFinite = true ∧
      (clampA x (Arith.lit 0) (Arith.lit 1)).val = min 1 (max 0 x.val) := by
  obtain ⟨c1, c2, c3⟩ := clampA_cases x
  cases h0 : x.lt F64.zero
  · cases h1 : F64.one.lt x
    · rw [c3 h0 h1]
      have a0 : ¬ x.val < 0 := fun hh => by
        rw [(F64.lt_finite (b := F64.zero) h rfl).2 hh] at h0; exact absurd h0 (by decide)
      have a1 : ¬ 1 < x.val := fun hh => by
        rw [(F64.lt_finite (a := F64.one) rfl h).2 hh] at h1; exact absurd h1 (by decide)
      refine ⟨h, ?_⟩
      rw [max_eq_right (not_lt.1 a0), min_eq_right (not_lt.1 a1)]
    · rw [c2 h1]
      have a1 : (1 : ℚ) < x.val := (F64.lt_finite rfl h).1 h1
      refine ⟨rfl, ?_⟩
      rw [max_eq_right (zero_le_one.trans a1.le), min_eq_left a1.le]; rfl
  · rw [c1 h0]
    have a0 : x.val < 0 := (F64.lt_finite h rfl).1 h0
    refine ⟨rfl, ?_⟩
    rw [max_eq_left a0.le, min_eq_right zero_le_one]; rfl

/-- The diversity is the rounded quotient, clamped; an overflowing quotient gives the end on its side. -/
theorem diversity_val {std ref : F64} (hs : std.isFinite = true) (hr : ref.isFinite = true) (h0 : 0 < ref.val) :
    (diversity std ref).isFinite = true ∧ (diversity std ref).val = min 1 (max 0 (rndQ (std.val / ref.val))) := by
  have e : diversity std ref = clampA (std.div ref) (Arith.lit 0) (Arith.lit 1) := rfl
  rw [e, F64.div_finite hs hr h0.ne']
  by_cases hb : |rndQ (std.val / ref.val)| < pow2 1024
  · obtain ⟨f, v⟩ := F64.round_finite (s := std.signBit ^^ ref.signBit) hb
    rw [← v]; exact clampA_fin f
  · rw [F64.round_overflow hb]
    have hbig : (1 : ℚ) < pow2 1024 := by
      rw [← pow2_zero]; exact lt_of_le_of_ne (pow2_le.2 (by norm_num)) (by
        intro hh; have := pow2_le.1 hh.ge; omega)
    have hb' := not_lt.1 hb
    by_cases hn : std.val / ref.val < 0
    · have hd : decide (std.val / ref.val < 0) = true := decide_eq_true hn
      rw [hd]
      obtain ⟨c1, -, -⟩ := clampA_cases (F64.inf true)
      rw [c1 (by decide +kernel)]
      rw [max_eq_left (rndQ_nonpos hn.le), min_eq_right zero_le_one]
      exact ⟨rfl, rfl⟩
    · have hd : decide (std.val / ref.val < 0) = false := decide_eq_false hn
      rw [hd]
      obtain ⟨-, c2, -⟩ := clampA_cases (F64.inf false)
      rw [c2 (by decide +kernel)]
      have hq := rndQ_nonneg (not_lt.1 hn)
      rw [abs_of_nonneg hq] at hb'
      rw [max_eq_right hq, min_eq_left (hbig.le.trans hb')]
      exact ⟨rfl, rfl⟩

theorem clamp_mem (q : ℚ) : 0 ≤ min 1 (max 0 q) ∧ min 1 (max 0 q) ≤ 1 :=
  ⟨le_min zero_le_one (le_max_left _ _), min_le_left _ _⟩

theorem one_sub_val {d : F64} (hf : d.isFinite = true) (h0 : 0 ≤ d.val) (h1 : d.val ≤ 1) :
    (F64.one.sub d).isFinite = true ∧ (F64.one.sub d).val = rndQ (1 - d.val) :=
  F64.sub_val (a := F64.one) rfl hf rep_one (by rw [F64.val_one]; exact abs_le.2 ⟨by linarith, by linarith⟩)

/-- Both rates as rationals. -/
theorem rates_val {cr mr : FRange F64} {std ref : F64}
    (hc : cr.start.InClosedUnit ∧ cr.stop.InClosedUnit) (hm : mr.start.InClosedUnit ∧ mr.stop.InClosedUnit)
    (hs : std.isFinite = true) (hr : ref.isFinite = true) (h0 : 0 < ref.val) :
    ((adjustedRates cr mr std ref).1.isFinite = true ∧
      (adjustedRates cr mr std ref).1.val = rndQ (cr.start.val +
        rndQ (rndQ (cr.stop.val - cr.start.val) * min 1 (max 0 (rndQ (std.val / ref.val)))))) ∧
    ((adjustedRates cr mr std ref).2.isFinite = true ∧
      (adjustedRates cr mr std ref).2.val = rndQ (mr.start.val +
        rndQ (rndQ (mr.stop.val - mr.start.val) * rndQ (1 - min 1 (max 0 (rndQ (std.val / ref.val))))))) := by
  obtain ⟨df, dv⟩ := diversity_val hs hr h0
  obtain ⟨m0, m1⟩ := clamp_mem (rndQ (std.val / ref.val))
  rw [← dv] at m0 m1 ⊢
  have ho : (Arith.lit 1 : F64) = F64.one := by decide +kernel
  obtain ⟨sf, sv⟩ := one_sub_val df m0 m1
  have s0 : 0 ≤ (F64.one.sub (diversity std ref)).val := by rw [sv]; exact rndQ_nonneg (by linarith)
  have s1 : (F64.one.sub (diversity std ref)).val ≤ 1 := by rw [sv]; exact rndQ_le fmt_one (by linarith)
  have e1 : (adjustedRates cr mr std ref).1 = interpolateF64 cr.start cr.stop (diversity std ref) := rfl
  have e2 : (adjustedRates cr mr std ref).2 = interpolateF64 mr.start mr.stop (F64.one.sub (diversity std ref)) := by
    rw [← ho]; rfl
  obtain ⟨a1, a2, -⟩ := interp_val hc.1.1 hc.2.1 df hc.1.2.1 hc.1.2.2 hc.2.2.1 hc.2.2.2 m0 m1
  obtain ⟨b1, b2, -⟩ := interp_val hm.1.1 hm.2.1 sf hm.1.2.1 hm.1.2.2 hm.2.2.1 hm.2.2.2 s0 s1
  rw [e1, e2]
  exact ⟨⟨a1, a2⟩, b1, by rw [b2, sv]⟩

/-- Interpolating with a ratio that is off by `e` is off by at most `e + 3·2^-54`. -/
theorem interp_err {a b r r' e : ℚ} (fa : Fmt a) (ha0 : 0 ≤ a) (ha1 : a ≤ 1) (hb0 : 0 ≤ b) (hb1 : b ≤ 1)
    (hr0 : 0 ≤ r) (hr1 : r ≤ 1) (he : |r - r'| ≤ e) :
    |rndQ (a + rndQ (rndQ (b - a) * r)) - (a + (b - a) * r')| ≤ e + 3 * pow2 (-54) := by
  have hd : |b - a| ≤ 1 := abs_le.2 ⟨by linarith, by linarith⟩
  have hd' : |rndQ (b - a)| ≤ 1 := F64.abs_rndQ_le fmt_one hd
  have hm : |rndQ (b - a) * r| ≤ 1 := by
    rw [abs_mul, abs_of_nonneg hr0]; nlinarith [abs_nonneg (rndQ (b - a))]
  have g1 := rndQ_err_abs hd
  have g2 := rndQ_err_abs hm
  have lo : 0 ≤ a + rndQ (rndQ (b - a) * r) := by
    have h1 : -a ≤ rndQ (b - a) := le_rndQ fa.neg (by linarith)
    have h2 : -a ≤ rndQ (rndQ (b - a) * r) := by
      apply le_rndQ fa.neg
      rcases le_or_gt 0 (rndQ (b - a)) with h | h
      · nlinarith [mul_nonneg h hr0]
      · nlinarith
    linarith
  have hi : a + rndQ (rndQ (b - a) * r) ≤ 1 + pow2 (-54) := by
    have h1 : rndQ (b - a) ≤ rndQ (1 - a) := rndQ_mono (by linarith)
    have h0 : 0 ≤ rndQ (1 - a) := rndQ_nonneg (by linarith)
    have h2 : rndQ (rndQ (b - a) * r) ≤ rndQ (1 - a) := by
      apply rndQ_le (fmt_rndQ _)
      nlinarith
    have h3 := (abs_le.1 (rndQ_err_le_one (x := 1 - a) (by linarith) (by linarith))).2
    linarith
  have g3 : |rndQ (a + rndQ (rndQ (b - a) * r)) - (a + rndQ (rndQ (b - a) * r))| ≤ pow2 (-54) := by
    rcases le_total (a + rndQ (rndQ (b - a) * r)) 1 with h | h
    · exact rndQ_err_le_one lo h
    · have h1 : rndQ (a + rndQ (rndQ (b - a) * r)) = 1 :=
        le_antisymm (rndQ_le_one_of_lt hi) (le_rndQ fmt_one h)
      rw [h1, abs_le]
      constructor <;> linarith [pow2_pos (-54)]
  have g4 : |(rndQ (b - a) - (b - a)) * r| ≤ pow2 (-54) := by
    rw [abs_mul, abs_of_nonneg hr0]; nlinarith [abs_nonneg (rndQ (b - a) - (b - a)), pow2_pos (-54)]
  have g5 : |(b - a) * (r - r')| ≤ e := by
    rw [abs_mul]; nlinarith [abs_nonneg (b - a), abs_nonneg (r - r')]
  have e' : rndQ (a + rndQ (rndQ (b - a) * r)) - (a + (b - a) * r') =
      (rndQ (a + rndQ (rndQ (b - a) * r)) - (a + rndQ (rndQ (b - a) * r))) +
      ((rndQ (rndQ (b - a) * r) - rndQ (b - a) * r) + ((rndQ (b - a) - (b - a)) * r + (b - a) * (r - r'))) := by ring
  rw [e']
  refine (abs_add_le _ _).trans ?_
  have k1 := abs_add_le (rndQ (rndQ (b - a) * r) - rndQ (b - a) * r) ((rndQ (b - a) - (b - a)) * r + (b - a) * (r - r'))
  have k2 := abs_add_le ((rndQ (b - a) - (b - a)) * r) ((b - a) * (r - r'))
  linarith

/-- At most `2^-53` above the upper end. -/
theorem interp_over {a b r : ℚ} (ha0 : 0 ≤ a) (hab : a ≤ b) (hb1 : b ≤ 1) (hr1 : r ≤ 1) :
    rndQ (a + rndQ (rndQ (b - a) * r)) ≤ b + pow2 (-53) := by
  have e53 : pow2 (-53) = 2 * pow2 (-54) := by rw [← pow2_succ]; norm_num
  have hd0 : 0 ≤ rndQ (b - a) := rndQ_nonneg (by linarith)
  have h1 : rndQ (rndQ (b - a) * r) ≤ rndQ (b - a) := rndQ_le (fmt_rndQ _) (by nlinarith)
  have h2 := (abs_le.1 (rndQ_err_le_one (x := b - a) (by linarith) (by linarith))).2
  have h3 : rndQ (a + rndQ (rndQ (b - a) * r)) ≤ rndQ (a + rndQ (b - a)) := rndQ_mono (by linarith)
  rcases le_total (a + rndQ (b - a)) 1 with h | h
  · have h4 := (abs_le.1 (rndQ_err_le_one (x := a + rndQ (b - a)) (by linarith) h)).2
    linarith
  · have h5 : a + rndQ (b - a) ≤ 1 + pow2 (-54) := by linarith
    have h4 := rndQ_le_one_of_lt h5
    linarith [pow2_pos (-54)]

theorem interp_under {a b r : ℚ} (fa : Fmt a) (hab : a ≤ b) (hr0 : 0 ≤ r) :
    a ≤ rndQ (a + rndQ (rndQ (b - a) * r)) := by
  apply le_rndQ fa
  have := rndQ_nonneg (mul_nonneg (rndQ_nonneg (x := b - a) (by linarith)) hr0)
  linarith

end RG
