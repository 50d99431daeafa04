import Verif.Proofs.Selection
import Verif.Proofs.RealArith
import Verif.Float.Sqrt

/-! Helper lemmas about linear selection. -/

namespace RG
open Arith

/-! ### Exact arithmetic -/

/-- The quantile function `u ↦ x` of linear selection with bias `b`: the offset is `n * x`. -/
noncomputable def linX (b u : ℝ) : ℝ := (b - Real.sqrt (b * b - 4 * (b - 1) * u)) / 2 / (b - 1)

theorem offset_exact (s : LinearSelection ℝ) (n : Nat) (u : ℝ) : s.offset n u = n * linX s.bias u := by
  have h : s.offset n u = (n : ℝ) * (s.bias - Real.sqrt (s.bias * s.bias -
    ((4 : ℚ) : ℝ) * (s.bias - ((1 : ℚ) : ℝ)) * u)) / ((2 : ℚ) : ℝ) / (s.bias - ((1 : ℚ) : ℝ)) := rfl
  rw [h]
  unfold linX
  push_cast
  ring

/-- `x` lies in `[0,1)` and solves `b x - (b-1) x² = u`. -/
theorem linX_spec {b u : ℝ} (hb : b ≠ 1) (h0 : 0 ≤ u) (h1 : u < 1) :
    0 ≤ linX b u ∧ linX b u < 1 ∧ b * linX b u - (b - 1) * linX b u ^ 2 = u := by
  have hD : 0 ≤ b * b - 4 * (b - 1) * u := by
    rcases lt_or_gt_of_ne hb with h | h
    · nlinarith [mul_nonneg (sub_nonneg.2 h.le) h0, mul_self_nonneg b]
    · nlinarith [mul_nonneg (sub_nonneg.2 h.le) (sub_nonneg.2 h1.le), mul_self_nonneg (b - 2)]
  obtain ⟨s, hs⟩ : ∃ s, s = Real.sqrt (b * b - 4 * (b - 1) * u) := ⟨_, rfl⟩
  have hs0 : 0 ≤ s := hs ▸ Real.sqrt_nonneg _
  have hss : s * s = b * b - 4 * (b - 1) * u := by rw [hs]; exact Real.mul_self_sqrt hD
  have hb' : b - 1 ≠ 0 := sub_ne_zero.2 hb
  unfold linX
  rw [← hs, div_div]
  refine ⟨?_, ?_, ?_⟩
  · rcases lt_or_gt_of_ne hb with h | h
    · apply div_nonneg_of_nonpos
      · have : b ≤ s := by
          by_contra hc
          push Not at hc
          nlinarith [mul_nonneg (sub_nonneg.2 h.le) h0]
        linarith
      · linarith
    · apply div_nonneg
      · have : s ≤ b := by
          by_contra hc
          push Not at hc
          nlinarith [mul_nonneg (sub_nonneg.2 h.le) h0]
        linarith
      · linarith
  · rcases lt_or_gt_of_ne hb with h | h
    · rw [div_lt_one_of_neg (by linarith)]
      have : s < 2 - b := by
        by_contra hc
        push Not at hc
        nlinarith [mul_pos (sub_pos.2 h) (sub_pos.2 h1)]
      linarith
    · rw [div_lt_one (by linarith)]
      have : 2 - b < s := by
        by_contra hc
        push Not at hc
        nlinarith [mul_pos (sub_pos.2 h) (sub_pos.2 h1)]
      linarith
  · field_simp
    nlinarith

theorem linX_mono {b u u' : ℝ} (h : u ≤ u') : linX b u ≤ linX b u' := by
  unfold linX
  rcases lt_trichotomy b 1 with hb | hb | hb
  · have : Real.sqrt (b * b - 4 * (b - 1) * u) ≤ Real.sqrt (b * b - 4 * (b - 1) * u') :=
      Real.sqrt_le_sqrt (by nlinarith)
    exact div_le_div_of_nonpos_of_le (by linarith) (by linarith)
  · simp [hb]
  · have : Real.sqrt (b * b - 4 * (b - 1) * u') ≤ Real.sqrt (b * b - 4 * (b - 1) * u) :=
      Real.sqrt_le_sqrt (by nlinarith)
    exact div_le_div_of_nonneg_right (by linarith) (by linarith)

theorem selectIndex_lt {α : Type} [Arith α] [ArithSqrt α] {cast : α → Nat} {s : LinearSelection α} {n : Nat} {u : α}
    (h : cast (s.offset n u) < n) : s.selectIndex cast n u = .ok (n - 1 - cast (s.offset n u)) := by
  unfold LinearSelection.selectIndex usizeSub
  rw [if_pos h.le]
  simp only [Res.bind_ok]
  rw [if_pos (by omega)]
  congr 1
  omega

theorem selectIndex_ge {α : Type} [Arith α] [ArithSqrt α] {cast : α → Nat} {s : LinearSelection α} {n : Nat} {u : α}
    (h : n ≤ cast (s.offset n u)) : s.selectIndex cast n u = .panic := by
  unfold LinearSelection.selectIndex usizeSub
  split
  · simp only [Res.bind_ok]
    rw [if_neg (by omega)]
  · rfl

/-! ### `f64` -/

section F64s
open F64

/-- The part of the index formula that depends on the draw: `bias - √(bias² - 4(bias-1)u)`. -/
def linGap (b u : F64) : F64 := b.sub (F64.sqrt ((b.mul b).sub (((F64.lit 4).mul (b.sub (F64.lit 1))).mul u)))

/-- The number under the root. -/
def linDisc (b u : F64) : F64 := (b.mul b).sub (((F64.lit 4).mul (b.sub (F64.lit 1))).mul u)

theorem offset_f64 (s : LinearSelection F64) (n : Nat) (u : F64) :
    s.offset n u = (((F64.ofNat n).mul (linGap s.bias u)).div (F64.lit 2)).div (s.bias.sub (F64.lit 1)) := rfl

theorem lit4 : (F64.lit 4).isFinite = true ∧ (F64.lit 4).val = 4 := by decide +kernel
theorem lit2 : (F64.lit 2).isFinite = true ∧ (F64.lit 2).val = 2 := by decide +kernel

theorem rep_p (k : Int) (h : 0 ≤ k) (h' : k < 1024) : Rep (pow2 k) := rep_pow2 (by omega) h'
theorem pow2_10 : pow2 10 = 1024 := by rw [pow2_eq]; norm_num
theorem pow2_20 : pow2 20 = 1048576 := by rw [pow2_eq]; norm_num

/-- The largest draw. -/
def maxDraw : Nat := 2 ^ 53 - 1

theorem bias_sub_one {b : F64} (hf : b.isFinite = true) (h1 : 1 < b.val) (h2 : b.val ≤ 1024) :
    (b.sub (F64.lit 1)).isFinite = true ∧ (b.sub (F64.lit 1)).val = rndQ (b.val - 1) ∧
      0 < (b.sub (F64.lit 1)).val ∧ (b.sub (F64.lit 1)).val ≤ 1024 ∧ pow2 (-52) ≤ (b.sub (F64.lit 1)).val := by
  rw [F64.lit_one]
  obtain ⟨h3, h4⟩ := F64.sub_val (B := pow2 10) hf F64.isFinite_one (rep_p 10 (by norm_num) (by norm_num))
    (by rw [val_one, pow2_10, abs_le]; constructor <;> linarith)
  rw [val_one] at h4
  -- `b ≥ 1 + 2^-52`
  have hb : pow2 (-52) ≤ b.val - 1 := by
    obtain ⟨m, e, hm, he, hv⟩ := F64.fmt_val b
    rcases le_or_gt (-52) e with hle | hgt
    · obtain ⟨z, hz, -⟩ := pow2_int (k := e + 52) (by omega)
      obtain ⟨w, hw, -⟩ := pow2_int (k := 52) (by omega)
      have he' : pow2 e = z * pow2 (-52) := by rw [← hz, ← pow2_add]; congr 1; ring
      have h1' : (1 : ℚ) = w * pow2 (-52) := by rw [← hw, ← pow2_add, ← pow2_zero]; rfl
      have hpos := pow2_pos (-52)
      have : (1 : ℚ) ≤ ((m * z - w : Int) : ℚ) := by
        have h5 : (0 : ℚ) < ((m * z - w : Int) : ℚ) * pow2 (-52) := by
          push_cast
          have : ((m : ℚ) * z - w) * pow2 (-52) = b.val - 1 := by rw [hv, he', h1']; ring
          rw [this]; linarith
        have h6 : (0 : ℚ) < ((m * z - w : Int) : ℚ) := pos_of_mul_pos_left h5 hpos.le
        exact_mod_cast h6
      have h7 : b.val - 1 = ((m * z - w : Int) : ℚ) * pow2 (-52) := by
        rw [hv, he']; nth_rewrite 1 [h1']; push_cast; ring
      rw [h7]
      nlinarith
    · exfalso
      have h5 : (|m| : ℚ) < 2 ^ 53 := by exact_mod_cast hm
      have h6 : (m : ℚ) < 2 ^ 53 := (le_abs_self _).trans_lt h5
      have h7 : pow2 e ≤ pow2 (-53) := pow2_le.2 (by omega)
      have h8 := pow2_pos e
      have h9 : pow2 (-53) = 1 / 2 ^ 53 := by rw [pow2_eq]; norm_num
      rw [h9] at h7
      have : b.val < 1 := by
        rw [hv]
        rcases le_or_gt (m : ℚ) 0 with h | h
        · nlinarith
        · calc (m : ℚ) * pow2 e ≤ m * (1 / 2 ^ 53) := mul_le_mul_of_nonneg_left h7 h.le
            _ < 2 ^ 53 * (1 / 2 ^ 53) := mul_lt_mul_of_pos_right h6 (by positivity)
            _ = 1 := by norm_num
      linarith
  have h5 : pow2 (-52) ≤ rndQ (b.val - 1) := le_rndQ (fmt_pow2 (by norm_num)) hb
  have h6 : rndQ (b.val - 1) ≤ pow2 10 := rndQ_le (fmt_pow2 (by norm_num)) (by rw [pow2_10]; linarith)
  rw [pow2_10] at h6
  refine ⟨h3, h4, ?_, ?_, ?_⟩
  · rw [h4]; exact (pow2_pos _).trans_le h5
  · rw [h4]; exact h6
  · rw [h4]; exact h5

/-- The discriminant decreases with the draw. -/
theorem linDisc_anti {b : F64} (hf : b.isFinite = true) (h1 : 1 < b.val) (h2 : b.val ≤ 1024) {k k' : Nat}
    (hk : k ≤ k') (hk' : k' ≤ 2 ^ 53) :
    (linDisc b (F64.unit k)).isFinite = true ∧ (linDisc b (F64.unit k')).val ≤ (linDisc b (F64.unit k)).val ∧
      (linDisc b (F64.unit k)).val ≤ 1048576 := by
  obtain ⟨c1, c2, c3, c4, c5⟩ := bias_sub_one hf h1 h2
  obtain ⟨m1, m2⟩ := F64.mul_val (B := pow2 20) hf hf (rep_p 20 (by norm_num) (by norm_num))
    (by rw [pow2_20, abs_le]; constructor <;> nlinarith)
  have m3 : 0 ≤ (b.mul b).val := by rw [m2]; exact rndQ_nonneg (by nlinarith)
  have m4 : (b.mul b).val ≤ 1048576 := by
    rw [m2, ← pow2_20]; exact rndQ_le (fmt_pow2 (by norm_num)) (by rw [pow2_20]; nlinarith)
  obtain ⟨f1, f2⟩ := lit4
  obtain ⟨d1, d2⟩ := F64.mul_val (B := pow2 20) f1 c1 (rep_p 20 (by norm_num) (by norm_num))
    (by rw [pow2_20, f2, abs_le]; constructor <;> linarith)
  have d3 : 0 ≤ ((F64.lit 4).mul (b.sub (F64.lit 1))).val := by
    rw [d2, f2]; exact rndQ_nonneg (by linarith)
  have d4 : ((F64.lit 4).mul (b.sub (F64.lit 1))).val ≤ 1048576 := by
    rw [d2, f2, ← pow2_20]; exact rndQ_le (fmt_pow2 (by norm_num)) (by rw [pow2_20]; linarith)
  unfold linDisc
  generalize (F64.lit 4).mul (b.sub (F64.lit 1)) = c at *
  have stage : ∀ j : Nat, j ≤ 2 ^ 53 → (c.mul (F64.unit j)).isFinite = true ∧
      (c.mul (F64.unit j)).val = rndQ (c.val * (j / 2 ^ 53)) ∧ 0 ≤ (c.mul (F64.unit j)).val ∧
      (c.mul (F64.unit j)).val ≤ 1048576 := by
    intro j hj
    obtain ⟨u1, u2⟩ := F64.unit_val hj
    have hj1 : (j : ℚ) / 2 ^ 53 ≤ 1 := by rw [div_le_one (by positivity)]; exact_mod_cast hj
    have hj0 : (0 : ℚ) ≤ (j : ℚ) / 2 ^ 53 := by positivity
    have hle : c.val * (j / 2 ^ 53) ≤ 1048576 := by nlinarith
    have hge : 0 ≤ c.val * (j / 2 ^ 53) := mul_nonneg d3 hj0
    obtain ⟨e1, e2⟩ := F64.mul_val (B := pow2 20) d1 u1 (rep_p 20 (by norm_num) (by norm_num))
      (by rw [pow2_20, u2, abs_le]; constructor <;> linarith)
    rw [u2] at e2
    refine ⟨e1, e2, ?_, ?_⟩
    · rw [e2]; exact rndQ_nonneg hge
    · rw [e2, ← pow2_20]; exact rndQ_le (fmt_pow2 (by norm_num)) (by rw [pow2_20]; exact hle)
  have stage2 : ∀ j : Nat, j ≤ 2 ^ 53 → ((b.mul b).sub (c.mul (F64.unit j))).isFinite = true ∧
      ((b.mul b).sub (c.mul (F64.unit j))).val = rndQ ((b.mul b).val - (c.mul (F64.unit j)).val) := by
    intro j hj
    obtain ⟨e1, e2, e3, e4⟩ := stage j hj
    exact F64.sub_val (B := pow2 20) m1 e1 (rep_p 20 (by norm_num) (by norm_num))
      (by rw [pow2_20, abs_le]; constructor <;> linarith)
  obtain ⟨e1, e2, e3, e4⟩ := stage k (hk.trans hk')
  obtain ⟨e1', e2', e3', e4'⟩ := stage k' hk'
  obtain ⟨g1, g2⟩ := stage2 k (hk.trans hk')
  obtain ⟨g1', g2'⟩ := stage2 k' hk'
  have hu : (k : ℚ) / 2 ^ 53 ≤ k' / 2 ^ 53 := by
    have : (k : ℚ) ≤ k' := by exact_mod_cast hk
    exact div_le_div_of_nonneg_right this (by positivity)
  have hmono : (c.mul (F64.unit k)).val ≤ (c.mul (F64.unit k')).val := by
    rw [e2, e2']; exact rndQ_mono (mul_le_mul_of_nonneg_left hu d3)
  refine ⟨g1, ?_, ?_⟩
  · show ((b.mul b).sub (c.mul (F64.unit k'))).val ≤ ((b.mul b).sub (c.mul (F64.unit k))).val
    rw [g2, g2']; exact rndQ_mono (by linarith)
  · show ((b.mul b).sub (c.mul (F64.unit k))).val ≤ _
    rw [g2, ← pow2_20]; exact rndQ_le (fmt_pow2 (by norm_num)) (by rw [pow2_20]; linarith)

theorem sqrt_finite_mono {x y : F64} (hx : x.isFinite = true) (hy : y.isFinite = true) (h0 : 0 ≤ x.val)
    (h : x.val ≤ y.val) (hB : y.val ≤ 1048576) :
    x.sqrt.isFinite = true ∧ y.sqrt.isFinite = true ∧ x.sqrt.val ≤ y.sqrt.val ∧ 0 ≤ x.sqrt.val ∧ y.sqrt.val ≤ 1024 := by
  have key : ∀ z : F64, z.isFinite = true → 0 ≤ z.val → z.val ≤ 1048576 →
      z.sqrt.isFinite = true ∧ z.sqrt.val = rndQ (sqrtApprox z.val) := by
    intro z hz hz0 hzB
    have h1024 : sqrtApprox 1048576 = 1024 := by decide +kernel
    cases z with
    | nan => cases hz
    | inf s => cases hz
    | nzero =>
      refine ⟨rfl, ?_⟩
      show (0 : ℚ) = rndQ (sqrtApprox 0)
      have : sqrtApprox 0 = 0 := by decide +kernel
      rw [this, rndQ_zero]
    | fin q hq =>
      have hq0 : 0 ≤ q := hz0
      have e : F64.sqrt (fin q hq) = F64.round false (sqrtApprox q) := by
        show (if q < 0 then nan else F64.round false (sqrtApprox q)) = _
        rw [if_neg (not_lt.2 hq0)]
      rw [e]
      refine F64.round_of_abs_le (B := pow2 10) (rep_p 10 (by norm_num) (by norm_num)) ?_
      rw [pow2_10, abs_of_nonneg (F64.sqrtApprox_nonneg' q), ← h1024]
      exact F64.sqrtApprox_mono hq0 hzB
  have h1024 : sqrtApprox 1048576 = 1024 := by decide +kernel
  obtain ⟨a1, a2⟩ := key x hx h0 (h.trans hB)
  obtain ⟨b1, b2⟩ := key y hy (h0.trans h) hB
  refine ⟨a1, b1, ?_, ?_, ?_⟩
  · rw [a2, b2]; exact rndQ_mono (F64.sqrtApprox_mono h0 h)
  · rw [a2]; exact rndQ_nonneg (F64.sqrtApprox_nonneg' _)
  · rw [b2, ← pow2_10]
    refine rndQ_le (fmt_pow2 (by norm_num)) ?_
    rw [pow2_10, ← h1024]
    exact F64.sqrtApprox_mono (h0.trans h) hB

/-- The gap increases with the draw, as long as the discriminant at the larger draw is not negative. -/
theorem linGap_mono {b : F64} (hf : b.isFinite = true) (h1 : 1 < b.val) (h2 : b.val ≤ 1024) {k k' : Nat}
    (hk : k ≤ k') (hk' : k' ≤ 2 ^ 53) (hD : 0 ≤ (linDisc b (F64.unit k')).val) :
    (linGap b (F64.unit k)).isFinite = true ∧ (linGap b (F64.unit k')).isFinite = true ∧
      (linGap b (F64.unit k)).val ≤ (linGap b (F64.unit k')).val ∧ |(linGap b (F64.unit k)).val| ≤ 1024 ∧
      |(linGap b (F64.unit k')).val| ≤ 1024 := by
  obtain ⟨d1, d2, d3⟩ := linDisc_anti hf h1 h2 hk hk'
  obtain ⟨d1', -, -⟩ := linDisc_anti hf h1 h2 (_root_.le_refl k') hk'
  obtain ⟨s1, s2, s3, s4, s5⟩ := sqrt_finite_mono d1' d1 hD d2 d3
  have e : ∀ u, linGap b u = b.sub (F64.sqrt (linDisc b u)) := fun _ => rfl
  rw [e, e]
  have key : ∀ z : F64, z.isFinite = true → 0 ≤ z.val → z.val ≤ 1024 →
      (b.sub z).isFinite = true ∧ (b.sub z).val = rndQ (b.val - z.val) ∧ |(b.sub z).val| ≤ 1024 := by
    intro z hz hz0 hz1
    have hab : |b.val - z.val| ≤ pow2 10 := by rw [pow2_10, abs_le]; constructor <;> linarith
    obtain ⟨g1, g2⟩ := F64.sub_val (B := pow2 10) hf hz (rep_p 10 (by norm_num) (by norm_num)) hab
    refine ⟨g1, g2, ?_⟩
    rw [g2, ← pow2_10]
    exact F64.abs_rndQ_le (fmt_pow2 (by norm_num)) hab
  obtain ⟨g1, g2, g3⟩ := key _ s1 s4 (s3.trans s5)
  obtain ⟨g1', g2', g3'⟩ := key _ s2 (s4.trans s3) s5
  refine ⟨g1', g1, ?_, g3', g3⟩
  rw [g2, g2']
  exact rndQ_mono (by linarith)

/-- From the gap to the offset. -/
theorem offset_of_gap {b : F64} (hf : b.isFinite = true) (h1 : 1 < b.val) (h2 : b.val ≤ 1024) {n : Nat} (hn : n ≤ 2 ^ 53)
    {g : F64} (hg : g.isFinite = true) (hgB : |g.val| ≤ 1024) :
    ((((F64.ofNat n).mul g).div (F64.lit 2)).div (b.sub (F64.lit 1))).isFinite = true ∧
    ((((F64.ofNat n).mul g).div (F64.lit 2)).div (b.sub (F64.lit 1))).val =
      rndQ (rndQ (rndQ (n * g.val) / 2) / (b.sub (F64.lit 1)).val) := by
  obtain ⟨c1, c2, c3, c4, c5⟩ := bias_sub_one hf h1 h2
  obtain ⟨n1, n2⟩ := F64.ofNat_exact hn
  obtain ⟨t1, t2⟩ := lit2
  have hp63 : pow2 63 = 2 ^ 53 * 1024 := by rw [pow2_eq]; norm_num
  have hnq : (n : ℚ) ≤ 2 ^ 53 := by exact_mod_cast hn
  have hab : |(n : ℚ) * g.val| ≤ pow2 63 := by
    rw [hp63, abs_mul, abs_of_nonneg (by positivity : (0 : ℚ) ≤ n)]
    exact mul_le_mul hnq hgB (abs_nonneg _) (by positivity)
  obtain ⟨p1, p2⟩ := F64.mul_val (B := pow2 63) n1 hg (rep_p 63 (by norm_num) (by norm_num)) (by rw [n2]; exact hab)
  rw [n2] at p2
  have hpB : |((F64.ofNat n).mul g).val| ≤ pow2 63 := by
    rw [p2]; exact F64.abs_rndQ_le (fmt_pow2 (by norm_num)) hab
  have hqB : |((F64.ofNat n).mul g).val / 2| ≤ pow2 63 := by
    rw [abs_div, abs_of_pos (by norm_num : (0 : ℚ) < 2)]
    have := abs_nonneg ((F64.ofNat n).mul g).val
    linarith
  obtain ⟨q1, q2⟩ := F64.div_val (B := pow2 63) p1 t1 (by rw [t2]; norm_num) (rep_p 63 (by norm_num) (by norm_num))
    (by rw [t2]; exact hqB)
  rw [t2] at q2
  have hqB' : |(((F64.ofNat n).mul g).div (F64.lit 2)).val| ≤ pow2 63 := by
    rw [q2]; exact F64.abs_rndQ_le (fmt_pow2 (by norm_num)) hqB
  have hrB : |(((F64.ofNat n).mul g).div (F64.lit 2)).val / (b.sub (F64.lit 1)).val| ≤ pow2 115 := by
    rw [abs_div, abs_of_pos c3, div_le_iff₀ c3]
    refine hqB'.trans ?_
    have : pow2 63 = pow2 115 * pow2 (-52) := by rw [← pow2_add]; rfl
    rw [this]
    exact mul_le_mul_of_nonneg_left c5 (pow2_pos _).le
  obtain ⟨r1, r2⟩ := F64.div_val (B := pow2 115) q1 c1 c3.ne' (rep_p 115 (by norm_num) (by norm_num)) hrB
  exact ⟨r1, by rw [r2, q2, p2]⟩

theorem toUsize_mono {x y : F64} (hx : x.isFinite = true) (hy : y.isFinite = true) (h : x.val ≤ y.val) :
    x.toUsize ≤ y.toUsize := by
  rw [F64.toUsize_finite hx, F64.toUsize_finite hy]
  have : ⌊x.val⌋ ≤ ⌊y.val⌋ := Int.floor_mono h
  exact min_le_min (by omega) (_root_.le_refl _)

/-- In `f64`, the offset increases with the draw. -/
theorem offset_mono (s : LinearSelection F64) (hf : s.bias.isFinite = true) (h1 : 1 < s.bias.val) (h2 : s.bias.val ≤ 1024)
    {n : Nat} (hn : n ≤ 2 ^ 53) {k k' : Nat} (hk : k ≤ k') (hk' : k' ≤ 2 ^ 53)
    (hD : 0 ≤ (linDisc s.bias (F64.unit k')).val) :
    (s.offset n (F64.unit k)).toUsize ≤ (s.offset n (F64.unit k')).toUsize := by
  obtain ⟨g1, g2, g3, g4, g5⟩ := linGap_mono hf h1 h2 hk hk' hD
  obtain ⟨c1, c2, c3, c4, c5⟩ := bias_sub_one hf h1 h2
  rw [offset_f64, offset_f64]
  obtain ⟨a1, a2⟩ := offset_of_gap hf h1 h2 hn g1 g4
  obtain ⟨b1, b2⟩ := offset_of_gap hf h1 h2 hn g2 g5
  refine toUsize_mono a1 b1 ?_
  rw [a2, b2]
  refine rndQ_mono (div_le_div_of_nonneg_right (rndQ_mono (div_le_div_of_nonneg_right (rndQ_mono ?_) (by norm_num))) c3.le)
  exact mul_le_mul_of_nonneg_left g3 (by positivity)

/-- Scaling down by a power of two is exact away from the subnormal range. -/
theorem Fmt.mul_pow2' {q : ℚ} (h : Fmt q) (hq : pow2 (-1000) ≤ |q|) {k : Int} (hk : -20 ≤ k) : Fmt (q * pow2 k) := by
  obtain ⟨m, e, hm, he, rfl⟩ := h
  refine ⟨m, e + k, hm, ?_, by rw [pow2_add]; ring⟩
  by_contra hc
  have he' : e ≤ -1054 := by omega
  have h1 : |(m : ℚ) * pow2 e| < 2 ^ 53 * pow2 (-1054) := by
    rw [abs_mul, abs_of_pos (pow2_pos e)]
    have h2 : (|m| : ℚ) < 2 ^ 53 := by exact_mod_cast hm
    calc |(m : ℚ)| * pow2 e ≤ |(m : ℚ)| * pow2 (-1054) := mul_le_mul_of_nonneg_left (pow2_le.2 he') (abs_nonneg _)
      _ < 2 ^ 53 * pow2 (-1054) := mul_lt_mul_of_pos_right h2 (pow2_pos _)
  have h3 : (2 : ℚ) ^ 53 * pow2 (-1054) = pow2 (-1001) := by
    have : (2 : ℚ) ^ 53 = pow2 53 := by rw [pow2_eq]; norm_num
    rw [this, ← pow2_add]; rfl
  rw [h3] at h1
  exact absurd (hq.trans_lt h1) (not_lt.2 (pow2_le.2 (by norm_num)))

/-- For a bias `1 + 2^-j`, if the gap at the largest draw is below `2 * 2^-j`, the offset is below `n`. -/
theorem offset_lt (s : LinearSelection F64) (hf : s.bias.isFinite = true) (h1 : 1 < s.bias.val) (h2 : s.bias.val ≤ 1024)
    (j : Nat) (hj : j ≤ 10) (hb : (s.bias.sub (F64.lit 1)).val = pow2 (-j)) {n : Nat} (hn0 : 0 < n) (hn : n ≤ 2 ^ 53)
    (hnj : (1 : ℚ) ≤ n * pow2 (1 - j))
    (hD : 0 ≤ (linDisc s.bias (F64.unit maxDraw)).val)
    (hg0 : pow2 (-20) ≤ (linGap s.bias (F64.unit maxDraw)).val)
    (hg : (linGap s.bias (F64.unit maxDraw)).val < pow2 (1 - j)) :
    (s.offset n (F64.unit maxDraw)).toUsize < n := by
  obtain ⟨g1, g2, g3, g4, g5⟩ := linGap_mono hf h1 h2 (_root_.le_refl maxDraw) (by unfold maxDraw; norm_num) hD
  rw [offset_f64]
  obtain ⟨a1, a2⟩ := offset_of_gap hf h1 h2 hn g1 g4
  have hFg := F64.fmt_val (linGap s.bias (F64.unit maxDraw))
  generalize linGap s.bias (F64.unit maxDraw) = g at *
  refine F64.toUsize_lt a1 ?_ hn0
  rw [a2, hb]
  -- the scaled gap is a ratio below 1
  have hpj := pow2_pos (1 - (j : Int))
  have hr : Fmt (g.val * pow2 (j - 1)) := by
    refine Fmt.mul_pow2' hFg ?_ (by omega)
    rw [abs_of_nonneg ((pow2_pos _).le.trans hg0)]
    exact (pow2_le.2 (by norm_num)).trans hg0
  have hinv : pow2 (1 - (j : Int)) * pow2 (j - 1) = 1 := by rw [← pow2_add, ← pow2_zero]; congr 1; ring
  have hr0 : 0 ≤ g.val * pow2 (j - 1) := mul_nonneg ((pow2_pos _).le.trans hg0) (pow2_pos _).le
  have hr1 : g.val * pow2 (j - 1) < 1 := by
    rw [← hinv]; exact mul_lt_mul_of_pos_right hg (pow2_pos _)
  have h3 := rndQ_mul_lt hnj hr hr0 hr1
  have e1 : (n : ℚ) * pow2 (1 - j) * (g.val * pow2 (j - 1)) = n * g.val := by
    calc _ = (n : ℚ) * g.val * (pow2 (1 - (j : Int)) * pow2 (j - 1)) := by ring
      _ = n * g.val := by rw [hinv, mul_one]
  rw [e1] at h3
  have hp0 : pow2 (-20) ≤ rndQ (n * g.val) := by
    refine le_rndQ (fmt_pow2 (by norm_num)) ?_
    have : (1 : ℚ) ≤ n := by exact_mod_cast hn0
    have := (pow2_pos _).trans_le hg0
    nlinarith
  have habs : |rndQ (n * g.val)| = rndQ (n * g.val) := abs_of_nonneg ((pow2_pos _).le.trans hp0)
  have hbig : pow2 (-1000) ≤ |rndQ (n * g.val)| := by
    rw [habs]; exact (pow2_le.2 (by norm_num)).trans hp0
  have hhalf : rndQ (n * g.val) / 2 = rndQ (n * g.val) * pow2 (-1) := by
    rw [show pow2 (-1) = 1 / 2 by rw [pow2_eq]; norm_num]; ring
  have hF1 : Fmt (rndQ (n * g.val) / 2) := by
    rw [hhalf]; exact Fmt.mul_pow2' (fmt_rndQ _) hbig (by norm_num)
  rw [rndQ_of_fmt hF1]
  have hdiv : rndQ (n * g.val) / 2 / pow2 (-j) = rndQ (n * g.val) * pow2 (j - 1) := by
    rw [hhalf, div_eq_iff (pow2_ne _), mul_assoc, ← pow2_add]
    congr 2; ring
  rw [hdiv, rndQ_of_fmt (Fmt.mul_pow2' (fmt_rndQ _) hbig (by omega))]
  calc rndQ (n * g.val) * pow2 (j - 1) < n * pow2 (1 - j) * pow2 (j - 1) := mul_lt_mul_of_pos_right h3 (pow2_pos _)
    _ = n := by rw [mul_assoc, hinv, mul_one]

end F64s
end RG
