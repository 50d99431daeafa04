import Verif.Interpolate
import Verif.Proofs.StatsF64

/-! Rounding lemmas for interpolation. -/

namespace RG
namespace F64

theorem add_val {a b : F64} {B : ℚ} (ha : a.isFinite = true) (hb : b.isFinite = true) (hB : Rep B)
    (h : |a.val + b.val| ≤ B) : (add a b).isFinite = true ∧ (add a b).val = rndQ (a.val + b.val) := by
  rw [add_finite ha hb]; exact round_of_abs_le hB h

theorem sub_val {a b : F64} {B : ℚ} (ha : a.isFinite = true) (hb : b.isFinite = true) (hB : Rep B)
    (h : |a.val - b.val| ≤ B) : (sub a b).isFinite = true ∧ (sub a b).val = rndQ (a.val - b.val) := by
  rw [sub_finite ha hb]; exact round_of_abs_le hB h

theorem mul_val {a b : F64} {B : ℚ} (ha : a.isFinite = true) (hb : b.isFinite = true) (hB : Rep B)
    (h : |a.val * b.val| ≤ B) : (mul a b).isFinite = true ∧ (mul a b).val = rndQ (a.val * b.val) := by
  rw [mul_finite ha hb]; exact round_of_abs_le hB h

theorem div_val {a b : F64} {B : ℚ} (ha : a.isFinite = true) (hb : b.isFinite = true) (h0 : b.val ≠ 0) (hB : Rep B)
    (h : |a.val / b.val| ≤ B) : (div a b).isFinite = true ∧ (div a b).val = rndQ (a.val / b.val) := by
  rw [div_finite ha hb h0]; exact round_of_abs_le hB h

/-- A value in `[0,1]` is finite. -/
theorem unit_interval {a : F64} : (zero.le a = true ∧ a.le one = true) ↔ a.isFinite = true ∧ 0 ≤ a.val ∧ a.val ≤ 1 := by
  constructor
  · rintro ⟨h1, h2⟩
    have hf := finite_of_between (a := zero) (b := one) rfl rfl h1 h2
    rw [le_finite rfl hf] at h1
    rw [le_finite hf rfl] at h2
    exact ⟨hf, h1, h2⟩
  · rintro ⟨hf, h1, h2⟩
    rw [le_finite rfl hf, le_finite hf rfl]; exact ⟨h1, h2⟩

end F64

theorem rep_one : Rep 1 := by have := rep_nat (n := 1) (by norm_num); simpa using this
theorem fmt_one : Fmt 1 := rep_one.1

/-- `fl(1 - a)` is off by at most 2^-54. -/
theorem rndQ_err_le_one {x : ℚ} (h0 : 0 ≤ x) (h1 : x ≤ 1) : |rndQ x - x| ≤ pow2 (-54) := by
  rcases eq_or_lt_of_le h1 with rfl | hlt
  · rw [rndQ_of_fmt fmt_one]; simpa using (pow2_pos _).le
  rcases eq_or_lt_of_le h0 with rfl | hpos
  · rw [rndQ_zero]; simpa using (pow2_pos _).le
  have hl : flog2 x < 0 := flog2_lt_of_abs_lt hpos.ne' (by rw [abs_of_pos hpos, pow2_zero]; exact hlt)
  have hc : cexp x ≤ -53 := by unfold cexp; omega
  have := rndQ_err x
  have h2 := pow2_le.2 hc
  have h3 : pow2 (-53) = 2 * pow2 (-54) := by rw [← pow2_succ]; norm_num
  linarith

/-- Values slightly above 1 round to 1. -/
theorem rndQ_le_one_of_lt {x : ℚ} (h : x ≤ 1 + pow2 (-54)) : rndQ x ≤ 1 := by
  rcases le_or_gt x 1 with h1 | h1
  · exact rndQ_le fmt_one h1
  · have e54 : pow2 (-54) = 1 / 2 ^ 54 := by rw [pow2_eq]; norm_num
    have hl : flog2 x = 0 := by
      apply flog2_unique
      · rw [abs_of_pos (by linarith), pow2_zero]; linarith
      · rw [abs_of_pos (by linarith), zero_add, pow2_one]
        rw [e54] at h
        have : (1 : ℚ) / 2 ^ 54 < 1 := by norm_num
        linarith
    have hc : cexp x = -52 := by unfold cexp; rw [hl]; norm_num
    have herr := rndQ_err x
    rw [hc] at herr
    have h52 : pow2 (-52) = 4 * pow2 (-54) := by
      rw [show (-52 : Int) = -54 + 1 + 1 by norm_num, pow2_succ, pow2_succ]; ring
    have hf : Fmt (rndQ x) := fmt_rndQ x
    by_contra hc1
    push Not at hc1
    -- a grid number above 1 is at least 1 + 2^-52
    have hge : 1 + pow2 (-52) ≤ rndQ x := by
      rcases fmt_mult_or x hf with ⟨z, hz⟩ | ⟨hlt, -⟩
      · rw [hc] at hz
        have e52 : pow2 (-52) = 1 / 2 ^ 52 := by rw [pow2_eq]; norm_num
        rw [hz, e52] at hc1 ⊢
        have h4 : (2 ^ 52 : ℚ) < z := by
          rw [mul_one_div, lt_div_iff₀ (by positivity)] at hc1; linarith
        have h5 : (2 ^ 52 + 1 : ℤ) ≤ z := by
          have : ((2 ^ 52 : ℤ) : ℚ) < z := by exact_mod_cast h4
          have := Int.cast_lt.1 this
          omega
        have h6 : (2 ^ 52 + 1 : ℚ) ≤ z := by exact_mod_cast h5
        rw [mul_one_div, le_div_iff₀ (by positivity)]
        linarith
      · rw [hl, pow2_zero] at hlt
        exact absurd hlt (not_lt.2 (hc1.le.trans (le_abs_self _)))
    have := (abs_le.1 herr).2
    have hp := pow2_pos (-54)
    linarith

/-- Multiplying a value of at least 1 by a binary64 ratio below 1 gives strictly less, even after rounding. -/
theorem rndQ_mul_lt {M r : ℚ} (hM : 1 ≤ M) (hr : Fmt r) (h0 : 0 ≤ r) (h1 : r < 1) : rndQ (M * r) < M := by
  have hr' : r ≤ 1 - pow2 (-53) := by
    have := fmt_lt_pow2 hr (k := 0) (by rw [abs_of_nonneg h0, pow2_zero]; exact h1)
    rw [abs_of_nonneg h0] at this
    have e : pow2 (0 - 53) = 1 / 2 ^ 53 := by rw [pow2_eq]; norm_num
    have e' : pow2 (-53) = 1 / 2 ^ 53 := by rw [pow2_eq]; norm_num
    rw [e] at this; rw [e']
    linarith
  rcases lt_or_ge (M * r) (pow2 (-1)) with hs | hs
  · have : rndQ (M * r) ≤ pow2 (-1) := rndQ_le (fmt_pow2 (by norm_num)) hs.le
    have e : pow2 (-1) = 1 / 2 := by rw [pow2_eq]; norm_num
    rw [e] at this
    linarith
  · have hx : 0 < M * r := (pow2_pos _).trans_le hs
    have hsp := flog2_spec hx.ne'
    rw [abs_of_pos hx] at hsp
    have hl : -1 ≤ flog2 (M * r) := le_flog2_of_le_abs (by rw [abs_of_pos hx]; exact hs)
    have hc : cexp (M * r) = flog2 (M * r) - 52 := by unfold cexp; omega
    have herr := (abs_le.1 (rndQ_err (M * r))).2
    rw [hc, pow2_sub] at herr
    have e52 : pow2 52 = 2 ^ 52 := by rw [pow2_eq]; norm_num
    have e53 : pow2 (-53) = 1 / 2 ^ 53 := by rw [pow2_eq]; norm_num
    rw [e52] at herr
    rw [e53] at hr'
    have hMr : M * r < M := by nlinarith
    have h2 : M * r ≤ M * (1 - 1 / 2 ^ 53) := by
      apply mul_le_mul_of_nonneg_left hr'; linarith
    have h3 : pow2 (flog2 (M * r)) < M := hsp.1.trans_lt hMr
    have h4 : M * (1 - 1 / 2 ^ 53) = M - M / 2 ^ 53 := by ring
    have h5 : pow2 (flog2 (M * r)) / 2 ^ 52 / 2 < M / 2 ^ 53 := by
      rw [div_div, show (2 : ℚ) ^ 52 * 2 = 2 ^ 53 by norm_num]
      exact div_lt_div_of_pos_right h3 (by positivity)
    linarith

namespace F64

/-- `n as f64 * r` truncated is below `n`, for `r` in `[0,1)`. -/
theorem toUsize_finite {x : F64} (h : x.isFinite = true) : x.toUsize = min ⌊x.val⌋.toNat (2 ^ 64 - 1) := by
  cases x with
  | nan => simp at h
  | inf s => simp at h
  | nzero => rfl
  | fin q hq => rfl

theorem toUsize_le {x : F64} {n : Nat} (h : x.isFinite = true) (hx : x.val ≤ n) : x.toUsize ≤ n := by
  rw [toUsize_finite h]
  refine (min_le_left _ _).trans ?_
  have : ⌊x.val⌋ ≤ n := by
    have := Int.floor_mono hx
    simpa using this
  omega

theorem toUsize_lt {x : F64} {n : Nat} (h : x.isFinite = true) (hx : x.val < n) (hn : 0 < n) : x.toUsize < n := by
  rw [toUsize_finite h]
  refine (min_le_left _ _).trans_lt ?_
  have : ⌊x.val⌋ < n := by rw [Int.floor_lt]; exact_mod_cast hx
  omega

theorem le_toUsize {x : F64} {n : Nat} (h : x.isFinite = true) (hx : (n : ℚ) ≤ x.val) (hn : n < 2 ^ 64) :
    n ≤ x.toUsize := by
  rw [toUsize_finite h]
  refine le_min ?_ (by omega)
  have : (n : ℤ) ≤ ⌊x.val⌋ := by rw [Int.le_floor]; exact_mod_cast hx
  omega

end F64

/-- The value computed by `interpolate_f64` on `[0,1]`. -/
theorem interp_val {a b r : F64} (ha : a.isFinite = true) (hb : b.isFinite = true) (hr : r.isFinite = true)
    (ha0 : 0 ≤ a.val) (ha1 : a.val ≤ 1) (hb0 : 0 ≤ b.val) (hb1 : b.val ≤ 1) (hr0 : 0 ≤ r.val) (hr1 : r.val ≤ 1) :
    (interpolateF64 a b r).isFinite = true ∧
      (interpolateF64 a b r).val = rndQ (a.val + rndQ (rndQ (b.val - a.val) * r.val)) ∧
      0 ≤ (interpolateF64 a b r).val ∧ (interpolateF64 a b r).val ≤ 1 := by
  have hd : |b.val - a.val| ≤ 1 := abs_le.2 ⟨by linarith, by linarith⟩
  obtain ⟨f1, v1⟩ := F64.sub_val hb ha rep_one hd
  have hd' : |rndQ (b.val - a.val)| ≤ 1 := F64.abs_rndQ_le fmt_one hd
  have hm : |(F64.sub b a).val * r.val| ≤ 1 := by
    rw [v1, abs_mul, abs_of_nonneg hr0]
    nlinarith [abs_nonneg (rndQ (b.val - a.val))]
  obtain ⟨f2, v2⟩ := F64.mul_val f1 hr rep_one hm
  have hm' : |rndQ ((F64.sub b a).val * r.val)| ≤ 1 := F64.abs_rndQ_le fmt_one hm
  have hs : |a.val + (F64.mul (F64.sub b a) r).val| ≤ pow2 1 := by
    rw [v2, pow2_one]
    exact (abs_add_le _ _).trans (by rw [abs_of_nonneg ha0]; linarith)
  obtain ⟨f3, v3⟩ := F64.add_val ha f2 (F64.rep_pow2_le (k := 1) (by norm_num) (by norm_num)) hs
  have hv : (interpolateF64 a b r).val = rndQ (a.val + rndQ (rndQ (b.val - a.val) * r.val)) := by
    show (F64.add a (F64.mul (F64.sub b a) r)).val = _
    rw [v3, v2, v1]
  refine ⟨f3, hv, ?_, ?_⟩
  · rw [hv]
    apply rndQ_nonneg
    have h1 : -a.val ≤ rndQ (b.val - a.val) := le_rndQ (F64.fmt_val a).neg (by linarith)
    have h2 : -a.val ≤ rndQ (rndQ (b.val - a.val) * r.val) := by
      apply le_rndQ (F64.fmt_val a).neg
      rcases le_or_gt 0 (rndQ (b.val - a.val)) with h | h
      · nlinarith [mul_nonneg h hr0]
      · nlinarith
    linarith
  · rw [hv]
    apply rndQ_le_one_of_lt
    have h1 : rndQ (b.val - a.val) ≤ rndQ (1 - a.val) := rndQ_mono (by linarith)
    have h0 : 0 ≤ rndQ (1 - a.val) := rndQ_nonneg (by linarith)
    have h2 : rndQ (rndQ (b.val - a.val) * r.val) ≤ rndQ (1 - a.val) := by
      apply rndQ_le (fmt_rndQ _)
      nlinarith
    have h3 := (abs_le.1 (rndQ_err_le_one (x := 1 - a.val) (by linarith) (by linarith))).2
    linarith

/-- The value inside `interpolate_usize` for exact bounds. -/
theorem usize_val (min max : Nat) (h1 : min ≤ max) (h2 : max ≤ 2 ^ 53) (r : F64)
    (hr : r.isFinite = true ∧ 0 ≤ r.val ∧ r.val ≤ 1) :
    let x := (F64.ofNat min).add ((F64.ofNat (max - min)).mul r)
    x.isFinite = true ∧ x.val = rndQ (min + rndQ ((max - min : Nat) * r.val)) := by
  obtain ⟨f1, v1⟩ := F64.ofNat_exact (n := min) (by omega)
  obtain ⟨f2, v2⟩ := F64.ofNat_exact (n := max - min) (by omega)
  have hb : Rep ((max - min : Nat) : ℚ) := rep_nat (by omega)
  have hm : |(F64.ofNat (max - min)).val * r.val| ≤ ((max - min : Nat) : ℚ) := by
    rw [v2, abs_of_nonneg (mul_nonneg (by positivity) hr.2.1)]
    exact mul_le_of_le_one_right (by positivity) hr.2.2
  obtain ⟨f3, v3⟩ := F64.mul_val f2 hr.1 hb hm
  have hm' : |rndQ ((F64.ofNat (max - min)).val * r.val)| ≤ ((max - min : Nat) : ℚ) := F64.abs_rndQ_le hb.1 hm
  have hs : |(F64.ofNat min).val + ((F64.ofNat (max - min)).mul r).val| ≤ (max : ℚ) := by
    rw [v1, v3]
    refine (abs_add_le _ _).trans ?_
    rw [abs_of_nonneg (by positivity)]
    have : ((max - min : Nat) : ℚ) = max - min := Nat.cast_sub h1
    linarith
  obtain ⟨f4, v4⟩ := F64.add_val f1 f3 (rep_nat (n := max) h2) hs
  exact ⟨f4, by rw [v4, v1, v3, v2]⟩

end RG
