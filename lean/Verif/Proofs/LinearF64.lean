import Verif.Proofs.Linear
import Verif.Proofs.WheelNeg

/-!
# Linear selection in `f64`: error bounds

Every step of the index formula is a correctly rounded operation. The bounds are collected in terms of the draw, not of the root, since
the root is very sensitive to rounding where the number under it is near zero.
-/

namespace RG
open F64 Prog

/-- Half the distance of 1 to the next `f64`. -/
local notation "ε" => ((1 : ℚ) / 2 ^ 53)

theorem pow2_tiny : pow2 (-1075) ≤ ε ^ 4 := by
  have h : ε ^ 4 = pow2 (-212) := by rw [pow2_eq, zpow_neg]; norm_num
  rw [h]
  exact pow2_le.2 (by norm_num)

theorem rnd_near (y : ℚ) : |rndQ y - y| ≤ ε * |y| + ε ^ 4 := by
  have ht := pow2_tiny
  rcases le_total 0 y with h | h
  · have h1 := rndQ_ge h
    have h2 := le_rndQ_add h
    rw [abs_of_nonneg h, abs_le]
    constructor <;> linarith
  · have h1 := rndQ_ge (neg_nonneg.2 h)
    have h2 := le_rndQ_add (neg_nonneg.2 h)
    rw [rndQ_neg] at h1 h2
    rw [abs_of_nonpos h, abs_le]
    constructor <;> linarith

theorem rnd_le_of_le {y c : ℚ} (hc : ε ≤ c) (h : y ≤ c) : rndQ y ≤ c * (1 + 2 * ε) := by
  have h1 := rndQ_mono h
  have h2 := (abs_le.1 (rnd_near c)).2
  rw [abs_of_nonneg (le_trans (by positivity) hc)] at h2
  have h3 : ε ^ 4 ≤ c * ε := by
    have : ε ^ 4 = ε * ε ^ 3 := by ring
    rw [this]
    refine mul_le_mul hc ?_ (by positivity) (le_trans (by positivity) hc)
    norm_num
  linarith

theorem rnd_ge_of_ge {y c : ℚ} (hc : ε ≤ c) (h : c ≤ y) : c * (1 - 2 * ε) ≤ rndQ y := by
  have h1 := rndQ_mono h
  have h2 := (abs_le.1 (rnd_near c)).1
  rw [abs_of_nonneg (le_trans (by positivity) hc)] at h2
  have h3 : ε ^ 4 ≤ c * ε := by
    have : ε ^ 4 = ε * ε ^ 3 := by ring
    rw [this]
    refine mul_le_mul hc ?_ (by positivity) (le_trans (by positivity) hc)
    norm_num
  linarith

/-- The number under the root. -/
theorem disc_near {b u : ℚ} (h1 : 1 < b) (h2 : b ≤ 2) (hu0 : 0 ≤ u) (hu1 : u ≤ 1) :
    |rndQ (rndQ (b * b) - rndQ (4 * (b - 1) * u)) - (b ^ 2 - 4 * (b - 1) * u)| ≤ 13 * ε := by
  have e1 := rnd_near (b * b)
  have e2 := rnd_near (4 * (b - 1) * u)
  have e3 := rnd_near (rndQ (b * b) - rndQ (4 * (b - 1) * u))
  generalize rndQ (b * b) = p at *
  generalize rndQ (4 * (b - 1) * u) = q at *
  have hu : 0 ≤ 4 * (b - 1) * u := mul_nonneg (by linarith) hu0
  have hu' : 4 * (b - 1) * u ≤ 4 * (b - 1) := mul_le_of_le_one_right (by linarith) hu1
  have hbb : b * b ≤ 4 := by nlinarith
  have hD0 : 0 ≤ b * b - 4 * (b - 1) * u := by nlinarith [sq_nonneg (2 - b)]
  rw [abs_of_nonneg (by nlinarith : 0 ≤ b * b)] at e1
  rw [abs_of_nonneg hu] at e2
  have he : ε ^ 4 ≤ ε / 100 := by norm_num
  have heb : ε * (b * b) ≤ ε * 4 := mul_le_mul_of_nonneg_left hbb (by positivity)
  have heu : ε * (4 * (b - 1) * u) ≤ ε * 4 := mul_le_mul_of_nonneg_left (by linarith) (by positivity)
  obtain ⟨a1, a2⟩ := abs_le.1 e1
  obtain ⟨b1, b2⟩ := abs_le.1 e2
  have hpq : |p - q| ≤ 4 + 9 * ε := abs_le.2 ⟨by linarith [show ε ≤ 1 by norm_num], by linarith⟩
  have hpq' : ε * |p - q| ≤ ε * (4 + 9 * ε) := mul_le_mul_of_nonneg_left hpq (by positivity)
  have hee : ε * (9 * ε) ≤ ε / 100 := by norm_num
  obtain ⟨c1, c2⟩ := abs_le.1 e3
  rw [abs_le]
  constructor <;> nlinarith

/-- The root. -/
theorem root_near {d : ℚ} (h0 : 0 ≤ d) (h5 : d ≤ 5) :
    0 ≤ rndQ (sqrtApprox d) ∧ rndQ (sqrtApprox d) ≤ 3 ∧ d ≤ (rndQ (sqrtApprox d) + 4 * ε) ^ 2 ∧
      (4 * ε ≤ rndQ (sqrtApprox d) → (rndQ (sqrtApprox d) - 4 * ε) ^ 2 ≤ d) := by
  obtain ⟨s1, s2⟩ := sqrtRoot_spec h0
  have hsc := sqrtApprox_scaled d
  have hA0 := F64.sqrtApprox_nonneg' d
  have hpos : (0 : ℚ) < 2 ^ sqrtScale := pow_pos (by norm_num) _
  have h4 : (4 : ℚ) ^ sqrtScale = 2 ^ sqrtScale * 2 ^ sqrtScale := by rw [← mul_pow]; norm_num
  have hbig : 1 / (2 : ℚ) ^ sqrtScale ≤ ε := by
    refine one_div_le_one_div_of_le (by positivity) (pow_le_pow_right₀ (by norm_num) ?_)
    decide
  rw [h4] at s1 s2
  clear h4
  generalize (2 : ℚ) ^ sqrtScale = W at *
  set a : ℚ := (sqrtRoot d : ℚ) / W with ha
  have ha0 : 0 ≤ a := div_nonneg (Nat.cast_nonneg _) hpos.le
  have hra : (sqrtRoot d : ℚ) = a * W := by rw [ha, div_mul_cancel₀ _ hpos.ne']
  set h : ℚ := 1 / W with hh
  have h1 : h * W = 1 := by rw [hh, div_mul_cancel₀ _ hpos.ne']
  have hh0 : 0 ≤ h := div_nonneg zero_le_one hpos.le
  push_cast at s1 s2
  have t1 : a ^ 2 ≤ d := by
    have : a ^ 2 * (W * W) ≤ d * (W * W) := by rw [hra] at s1; nlinarith
    exact le_of_mul_le_mul_right this (by positivity)
  have t2 : d ≤ (a + h) ^ 2 := by
    have : d * (W * W) ≤ (a + h) ^ 2 * (W * W) := by
      have e : (a + h) ^ 2 * (W * W) = (a * W + h * W) * (a * W + h * W) := by ring
      rw [e, h1, ← hra]; exact s2.le
    exact le_of_mul_le_mul_right this (by positivity)
  have t3 : a ≤ sqrtApprox d ∧ sqrtApprox d ≤ a + h := by
    have l : (sqrtRoot d : ℚ) ≤ sqrtApprox d * W := by rw [hsc]; split <;> linarith
    have r : sqrtApprox d * W ≤ (a + h) * W := by
      rw [add_mul, h1, ← hra, hsc]; split <;> linarith
    rw [hra] at l
    exact ⟨le_of_mul_le_mul_right l hpos, le_of_mul_le_mul_right r hpos⟩
  have ha24 : a ≤ 24 / 10 := by
    by_contra hc
    push Not at hc
    nlinarith
  have hn := rnd_near (sqrtApprox d)
  have hS0 : 0 ≤ rndQ (sqrtApprox d) := rndQ_nonneg hA0
  rw [abs_of_nonneg hA0] at hn
  generalize rndQ (sqrtApprox d) = S at *
  generalize sqrtApprox d = A at *
  have hA3 : A ≤ 25 / 10 := by
    have : ε ≤ 1 / 10 := by norm_num
    linarith [t3.2]
  have hAe : ε * A ≤ ε * (25 / 10) := mul_le_mul_of_nonneg_left hA3 (by positivity)
  have he : ε ^ 4 ≤ ε / 100 := by norm_num
  have he2 : ε ≤ 1 / 100 := by norm_num
  have he0 : 0 < ε := by positivity
  obtain ⟨n1, n2⟩ := abs_le.1 hn
  refine ⟨hS0, by linarith, ?_, ?_⟩
  · exact t2.trans (pow_le_pow_left₀ (by linarith) (by linarith [t3.1]) 2)
  · intro h4
    exact le_trans (pow_le_pow_left₀ (by linarith) (by linarith [t3.2]) 2) t1

/-- From the gap to the offset, below. -/
theorem off_lt {n T : Nat} {β g : ℚ} (hβ : 2 * ε ≤ β) (hT : 1 ≤ T) (h : n * g ≤ 2 * β * T * (1 - 7 * ε)) :
    rndQ (rndQ (rndQ (n * g) / 2) / β) < T := by
  have hβ0 : 0 < β := lt_of_lt_of_le (by positivity) hβ
  have hTq : (1 : ℚ) ≤ T := by exact_mod_cast hT
  have hβT : 2 * ε ≤ β * T := by
    calc 2 * ε ≤ β := hβ
      _ ≤ β * T := le_mul_of_one_le_right hβ0.le hTq
  have hhalf : (1 / 2 : ℚ) ≤ 1 - 7 * ε := by norm_num
  have hc : ε ≤ β * T * (1 - 7 * ε) := by
    calc ε = 2 * ε * (1 / 2) := by ring
      _ ≤ β * T * (1 - 7 * ε) := mul_le_mul hβT hhalf (by norm_num) (by positivity)
  have he0 : 0 < ε := by positivity
  have s1 := rnd_le_of_le (c := 2 * β * T * (1 - 7 * ε)) (by linarith) h
  have s2 := rnd_le_of_le (y := rndQ (n * g) / 2) (c := β * T * (1 - 7 * ε) * (1 + 2 * ε))
    (hc.trans (le_mul_of_one_le_right (he0.le.trans hc) (by linarith))) (by linarith)
  have hc1 : ε ≤ T * (1 - 7 * ε) * (1 + 2 * ε) * (1 + 2 * ε) := by
    have : (1 : ℚ) * (1 / 2) * 1 * 1 ≤ T * (1 - 7 * ε) * (1 + 2 * ε) * (1 + 2 * ε) := by
      refine mul_le_mul (mul_le_mul (mul_le_mul hTq hhalf (by norm_num) (by linarith)) (by linarith) (by norm_num) ?_)
        (by linarith) (by norm_num) ?_
      · exact mul_nonneg (by linarith) (by linarith)
      · exact mul_nonneg (mul_nonneg (by linarith) (by linarith)) (by linarith)
    exact le_trans (by norm_num) this
  have s3 := rnd_le_of_le (y := rndQ (rndQ (n * g) / 2) / β) hc1 (by
    rw [div_le_iff₀ hβ0]
    refine s2.trans (le_of_eq ?_)
    ring)
  refine s3.trans_lt ?_
  have hk : (1 - 7 * ε) * (1 + 2 * ε) * (1 + 2 * ε) * (1 + 2 * ε) < 1 := by norm_num
  have : (T : ℚ) * ((1 - 7 * ε) * (1 + 2 * ε) * (1 + 2 * ε) * (1 + 2 * ε)) < T * 1 := mul_lt_mul_of_pos_left hk (by linarith)
  linarith

/-- From the gap to the offset, above. -/
theorem off_ge {n T : Nat} {β g : ℚ} (hβ : 2 * ε ≤ β) (hT : 1 ≤ T) (h : 2 * β * T * (1 + 7 * ε) ≤ n * g) :
    T ≤ rndQ (rndQ (rndQ (n * g) / 2) / β) := by
  have hβ0 : 0 < β := lt_of_lt_of_le (by positivity) hβ
  have hTq : (1 : ℚ) ≤ T := by exact_mod_cast hT
  have hβT : 2 * ε ≤ β * T := by
    calc 2 * ε ≤ β := hβ
      _ ≤ β * T := le_mul_of_one_le_right hβ0.le hTq
  have he0 : 0 < ε := by positivity
  have hc : 2 * ε ≤ β * T * (1 + 7 * ε) := hβT.trans (le_mul_of_one_le_right (by linarith) (by linarith))
  have hhalf : (1 / 2 : ℚ) ≤ 1 - 2 * ε := by norm_num
  have s1 := rnd_ge_of_ge (c := 2 * β * T * (1 + 7 * ε)) (by linarith) h
  have s2 := rnd_ge_of_ge (y := rndQ (n * g) / 2) (c := β * T * (1 + 7 * ε) * (1 - 2 * ε))
    (by
      calc ε = 2 * ε * (1 / 2) := by ring
        _ ≤ _ := mul_le_mul hc hhalf (by norm_num) (by linarith)) (by linarith)
  have hc1 : ε ≤ T * (1 + 7 * ε) * (1 - 2 * ε) * (1 - 2 * ε) := by
    have : (1 : ℚ) * 1 * (1 / 2) * (1 / 2) ≤ T * (1 + 7 * ε) * (1 - 2 * ε) * (1 - 2 * ε) := by
      refine mul_le_mul (mul_le_mul (mul_le_mul hTq (by linarith) (by norm_num) (by linarith)) hhalf (by norm_num) ?_)
        hhalf (by norm_num) ?_
      · exact mul_nonneg (by linarith) (by linarith)
      · exact mul_nonneg (mul_nonneg (by linarith) (by linarith)) (by linarith)
    exact le_trans (by norm_num) this
  have s3 := rnd_ge_of_ge (y := rndQ (rndQ (n * g) / 2) / β) hc1 (by
    rw [le_div_iff₀ hβ0]
    refine le_trans (le_of_eq ?_) s2
    ring)
  refine le_trans ?_ s3
  have hk : 1 ≤ (1 + 7 * ε) * (1 - 2 * ε) * (1 - 2 * ε) * (1 - 2 * ε) := by norm_num
  have : (T : ℚ) * 1 ≤ T * ((1 + 7 * ε) * (1 - 2 * ε) * (1 - 2 * ε) * (1 - 2 * ε)) := mul_le_mul_of_nonneg_left hk (by linarith)
  linarith

/-- `bias - 1` is exact. -/
theorem bias_sub_one_exact {b : F64} (hf : b.isFinite = true) (h1 : 1 < b.val) (h2 : b.val ≤ 2) :
    (b.sub (F64.lit 1)).val = b.val - 1 ∧ 2 * ε ≤ b.val - 1 := by
  obtain ⟨c1, c2, c3, c4, c5⟩ := bias_sub_one hf h1 (h2.trans (by norm_num))
  have hfmt : Fmt (b.val - 1) := by
    obtain ⟨m, e, hm, he, hv⟩ := F64.fmt_val b
    rcases le_or_gt (-52) e with hle | hgt
    · obtain ⟨z, hz, -⟩ := pow2_int (k := e + 52) (by omega)
      have he' : pow2 e = z * pow2 (-52) := by rw [← hz, ← pow2_add]; congr 1; ring
      have hp : pow2 (-52) = 1 / 2 ^ 52 := by rw [pow2_eq, zpow_neg]; norm_num
      have h7 : b.val - 1 = ((m * z - 2 ^ 52 : Int) : ℚ) * pow2 (-52) := by
        rw [hv, he', hp]; push_cast; ring
      refine ⟨m * z - 2 ^ 52, -52, ?_, by norm_num, h7⟩
      have h8 : (0 : ℚ) < ((m * z - 2 ^ 52 : Int) : ℚ) := by
        have : (0 : ℚ) < ((m * z - 2 ^ 52 : Int) : ℚ) * pow2 (-52) := by rw [← h7]; linarith
        exact pos_of_mul_pos_left this (pow2_pos _).le
      have h9 : ((m * z - 2 ^ 52 : Int) : ℚ) ≤ 2 ^ 52 := by
        have : ((m * z - 2 ^ 52 : Int) : ℚ) * pow2 (-52) ≤ 1 := by rw [← h7]; linarith
        rw [hp, mul_one_div, div_le_one (by positivity)] at this
        exact this
      have h8' : 0 < m * z - 2 ^ 52 := by exact_mod_cast h8
      have h9' : m * z - 2 ^ 52 ≤ 2 ^ 52 := by exact_mod_cast h9
      rw [abs_of_pos h8']
      exact lt_of_le_of_lt h9' (by norm_num)
    · exfalso
      have h5 : (|m| : ℚ) < 2 ^ 53 := by exact_mod_cast hm
      have h6 : (m : ℚ) < 2 ^ 53 := (le_abs_self _).trans_lt h5
      have h7 : pow2 e ≤ pow2 (-53) := pow2_le.2 (by omega)
      have h8 := pow2_pos e
      have h9 : pow2 (-53) = 1 / 2 ^ 53 := by rw [pow2_eq]; norm_num
      rw [h9] at h7
      have : b.val < 1 := by
        rw [hv]
        rcases le_or_gt (m : ℚ) 0 with h | h
        · nlinarith
        · calc (m : ℚ) * pow2 e ≤ m * (1 / 2 ^ 53) := mul_le_mul_of_nonneg_left h7 h.le
            _ < 2 ^ 53 * (1 / 2 ^ 53) := mul_lt_mul_of_pos_right h6 (by positivity)
            _ = 1 := by norm_num
      linarith
  rw [rndQ_of_fmt hfmt] at c2
  refine ⟨c2, ?_⟩
  rw [c2] at c5
  refine le_trans (le_of_eq ?_) c5
  rw [pow2_eq, zpow_neg]; norm_num

theorem linDisc_val {b : F64} (hf : b.isFinite = true) (h1 : 1 < b.val) (h2 : b.val ≤ 2) {k : Nat} (hk : k ≤ 2 ^ 53) :
    (linDisc b (F64.unit k)).val = rndQ (rndQ (b.val * b.val) - rndQ (4 * (b.val - 1) * (k / 2 ^ 53))) := by
  obtain ⟨c1, -, -, -, -⟩ := bias_sub_one hf h1 (h2.trans (by norm_num))
  obtain ⟨c2, c3⟩ := bias_sub_one_exact hf h1 h2
  have hp4 : pow2 2 = 4 := by rw [pow2_eq]; norm_num
  have hp3 : pow2 3 = 8 := by rw [pow2_eq]; norm_num
  have he0 : (0 : ℚ) < ε := by positivity
  obtain ⟨m1, m2⟩ := F64.mul_val (B := pow2 2) hf hf (rep_p 2 (by norm_num) (by norm_num))
    (by rw [hp4, abs_le]; constructor <;> nlinarith)
  have m3 : 0 ≤ (b.mul b).val := by rw [m2]; exact rndQ_nonneg (by nlinarith)
  have m4 : (b.mul b).val ≤ 4 := by
    rw [m2, ← hp4]; exact rndQ_le (fmt_pow2 (by norm_num)) (by rw [hp4]; nlinarith)
  obtain ⟨f1, f2⟩ := lit4
  obtain ⟨d1, d2⟩ := F64.mul_val (B := pow2 2) f1 c1 (rep_p 2 (by norm_num) (by norm_num))
    (by rw [hp4, f2, c2, abs_le]; constructor <;> linarith)
  have d3 : ((F64.lit 4).mul (b.sub (F64.lit 1))).val = 4 * (b.val - 1) := by
    rw [d2, f2, c2]
    refine rndQ_of_fmt ?_
    have := Fmt.mul_pow2' (c2 ▸ F64.fmt_val (b.sub (F64.lit 1))) (k := 2) (by
      rw [abs_of_pos (by linarith)]
      refine le_trans (pow2_le.2 (by norm_num : (-1000 : Int) ≤ -52)) (le_trans (le_of_eq ?_) c3)
      rw [pow2_eq, zpow_neg]; norm_num) (by norm_num)
    rwa [hp4, mul_comm] at this
  unfold linDisc
  generalize (F64.lit 4).mul (b.sub (F64.lit 1)) = c at *
  obtain ⟨u1, u2⟩ := F64.unit_val hk
  have hj1 : (k : ℚ) / 2 ^ 53 ≤ 1 := by rw [div_le_one (by positivity)]; exact_mod_cast hk
  have hj0 : (0 : ℚ) ≤ (k : ℚ) / 2 ^ 53 := by positivity
  have hle : c.val * (k / 2 ^ 53) ≤ 4 := by rw [d3]; nlinarith
  have hge : 0 ≤ c.val * (k / 2 ^ 53) := mul_nonneg (by rw [d3]; linarith) hj0
  obtain ⟨e1, e2⟩ := F64.mul_val (B := pow2 2) d1 u1 (rep_p 2 (by norm_num) (by norm_num))
    (by rw [hp4, u2, abs_le]; constructor <;> linarith)
  rw [u2] at e2
  have e3 : 0 ≤ (c.mul (F64.unit k)).val := by rw [e2]; exact rndQ_nonneg hge
  have e4 : (c.mul (F64.unit k)).val ≤ 4 := by
    rw [e2, ← hp4]; exact rndQ_le (fmt_pow2 (by norm_num)) (by rw [hp4]; exact hle)
  obtain ⟨g1, g2⟩ := F64.sub_val (B := pow2 3) m1 e1 (rep_p 3 (by norm_num) (by norm_num))
    (by rw [hp3, abs_le]; constructor <;> linarith)
  rw [g2, m2, e2, d3]

/-- The offset, when the number under the root is not negative. -/
theorem offset_val {b : F64} (hf : b.isFinite = true) (h1 : 1 < b.val) (h2 : b.val ≤ 2) {n : Nat} (hn : n ≤ 2 ^ 53) {k : Nat}
    (hk : k ≤ 2 ^ 53) (hD : 0 ≤ (linDisc b (F64.unit k)).val) :
    ((⟨b⟩ : LinearSelection F64).offset n (F64.unit k)).isFinite = true ∧
      ((⟨b⟩ : LinearSelection F64).offset n (F64.unit k)).val =
        rndQ (rndQ (rndQ (n * rndQ (b.val - rndQ (sqrtApprox (linDisc b (F64.unit k)).val))) / 2) / (b.val - 1)) := by
  have h2' : b.val ≤ 1024 := h2.trans (by norm_num)
  obtain ⟨g1, -, -, g4, -⟩ := linGap_mono hf h1 h2' (le_refl k) hk hD
  obtain ⟨d1, -, d3⟩ := linDisc_anti hf h1 h2' (le_refl k) hk
  obtain ⟨s1, -, -, s4, s5⟩ := sqrt_finite_mono d1 d1 hD (le_refl _) d3
  have hs : (F64.sqrt (linDisc b (F64.unit k))).val = rndQ (sqrtApprox (linDisc b (F64.unit k)).val) := by
    generalize linDisc b (F64.unit k) = z at *
    cases z with
    | nan => cases d1
    | inf s => cases d1
    | nzero =>
      show (0 : ℚ) = rndQ (sqrtApprox 0)
      have : sqrtApprox 0 = 0 := by decide +kernel
      rw [this, rndQ_zero]
    | fin q hq =>
      have e : F64.sqrt (fin q hq) = F64.round false (sqrtApprox q) := by
        show (if q < 0 then nan else F64.round false (sqrtApprox q)) = _
        exact if_neg (not_lt.2 hD)
      rw [e] at s1 ⊢
      have h1024 : sqrtApprox 1048576 = 1024 := by decide +kernel
      refine (F64.round_of_abs_le (B := pow2 10) (rep_p 10 (by norm_num) (by norm_num)) ?_).2
      rw [pow2_10, abs_of_nonneg (F64.sqrtApprox_nonneg' q), ← h1024]
      exact F64.sqrtApprox_mono hD d3
  have hg : (linGap b (F64.unit k)).val = rndQ (b.val - rndQ (sqrtApprox (linDisc b (F64.unit k)).val)) := by
    show (b.sub (F64.sqrt (linDisc b (F64.unit k)))).val = _
    rw [(F64.sub_val (B := pow2 10) hf s1 (rep_p 10 (by norm_num) (by norm_num))
      (by rw [pow2_10, abs_le]; constructor <;> linarith)).2, hs]
  rw [offset_f64]
  obtain ⟨a1, a2⟩ := offset_of_gap hf h1 h2' hn g1 g4
  refine ⟨a1, ?_⟩
  rw [a2, hg, (bias_sub_one_exact hf h1 h2).1]

/-- The offset, when the number under the root is negative: NaN, which `as usize` turns into 0. -/
theorem offset_nan {b : F64} {n k : Nat} (hd : (linDisc b (F64.unit k)).isFinite = true) (hD : (linDisc b (F64.unit k)).val < 0) :
    ((⟨b⟩ : LinearSelection F64).offset n (F64.unit k)).toUsize = 0 := by
  have hs : F64.sqrt (linDisc b (F64.unit k)) = nan := by
    generalize linDisc b (F64.unit k) = z at *
    cases z with
    | nan => rfl
    | inf s => cases hd
    | nzero => exact absurd hD (lt_irrefl _)
    | fin q hq =>
      show (if q < 0 then nan else F64.round false (sqrtApprox q)) = _
      exact if_pos hD
  have : (⟨b⟩ : LinearSelection F64).offset n (F64.unit k) = nan := by
    rw [offset_f64]
    have : linGap b (F64.unit k) = nan := by
      show b.sub (F64.sqrt (linDisc b (F64.unit k))) = nan
      rw [hs]; simp
    rw [this]; simp
  rw [this]; rfl

/-- The distribution function of the position, counted from the fittest. -/
def linF (b x : ℚ) : ℚ := b * x - (b - 1) * x ^ 2

theorem disc_eq (b x u : ℚ) : b ^ 2 - 4 * (b - 1) * u = (b - 2 * (b - 1) * x) ^ 2 + 4 * (b - 1) * (linF b x - u) := by
  unfold linF; ring

/-- A draw well below `F(T/n)` selects one of the `T` fittest. -/
theorem lin_below {b : F64} (hf : b.isFinite = true) (h1 : 1 < b.val) (h2 : b.val ≤ 2) {n : Nat} (hn : n ≤ 2 ^ 53) {k T : Nat}
    (hk : k ≤ 2 ^ 53) (hT : 1 ≤ T) (hTn : T ≤ n) (h : 104 * ε ≤ 4 * (b.val - 1) * (linF b.val (T / n) - k / 2 ^ 53)) :
    ((⟨b⟩ : LinearSelection F64).offset n (F64.unit k)).toUsize < T := by
  obtain ⟨d1, -, -⟩ := linDisc_anti hf h1 (h2.trans (by norm_num)) (le_refl k) hk
  rcases lt_or_ge (linDisc b (F64.unit k)).val 0 with hD | hD
  · rw [offset_nan d1 hD]; omega
  obtain ⟨o1, o2⟩ := offset_val hf h1 h2 hn hk hD
  have hu0 : (0 : ℚ) ≤ (k : ℚ) / 2 ^ 53 := by positivity
  have hu1 : (k : ℚ) / 2 ^ 53 ≤ 1 := by rw [div_le_one (by positivity)]; exact_mod_cast hk
  have hnpos : (0 : ℚ) < n := by exact_mod_cast (show 0 < n by omega)
  have hx0 : (0 : ℚ) ≤ (T : ℚ) / n := by positivity
  have hx1 : (T : ℚ) / n ≤ 1 := by rw [div_le_one hnpos]; exact_mod_cast hTn
  have hxn : (n : ℚ) * ((T : ℚ) / n) = T := by field_simp
  have hβ := (bias_sub_one_exact hf h1 h2).2
  have hd := disc_near h1 h2 hu0 hu1
  rw [← linDisc_val hf h1 h2 hk, disc_eq b.val ((T : ℚ) / n)] at hd
  have he0 : (0 : ℚ) < ε := by positivity
  have hes : ε * ε ≤ ε / 1000 := by norm_num
  have hlt : ((⟨b⟩ : LinearSelection F64).offset n (F64.unit k)).val < T := by
    rw [o2]
    refine off_lt hβ hT ?_
    generalize (linDisc b (F64.unit k)).val = d at *
    generalize (k : ℚ) / 2 ^ 53 = u at *
    generalize b.val = c at *
    have hd5 : d ≤ 5 := by
      have := (abs_le.1 hd).2
      have h5 : (c - 2 * (c - 1) * (T / n)) ^ 2 + 4 * (c - 1) * (linF c (T / n) - u) ≤ 4 := by
        rw [← disc_eq]; nlinarith
      have : 13 * ε ≤ 1 := by norm_num
      linarith
    obtain ⟨r1, r2, r3, -⟩ := root_near hD hd5
    generalize rndQ (sqrtApprox d) = S at *
    have hg := rnd_near (c - S)
    have hcs : |c - S| ≤ 3 := abs_le.2 ⟨by linarith, by linarith⟩
    have hcs' : ε * |c - S| ≤ ε * 3 := mul_le_mul_of_nonneg_left hcs he0.le
    have he4 : ε ^ 4 ≤ ε := by norm_num
    have hg' : rndQ (c - S) ≤ c - S + 4 * ε := by linarith [(abs_le.1 hg).2]
    generalize rndQ (c - S) = g at *
    generalize hx : (T : ℚ) / n = x at *
    set r := c - 2 * (c - 1) * x with hr
    have hr0 : 0 ≤ r := by nlinarith
    have hr2 : r ≤ 2 := by nlinarith
    have hS : r + 18 * ε ≤ S := by
      have : (r + 22 * ε) ^ 2 ≤ (S + 4 * ε) ^ 2 := by
        refine le_trans ?_ r3
        have := (abs_le.1 hd).1
        nlinarith
      have := abs_le_of_sq_le_sq this (by linarith)
      linarith [(abs_le.1 this).2]
    have hgx : g ≤ 2 * (c - 1) * x * (1 - 7 * ε) := by
      have : (c - 1) * x * ε ≤ ε := by
        have : (c - 1) * x ≤ 1 := by nlinarith
        nlinarith
      linarith
    calc (n : ℚ) * g ≤ n * (2 * (c - 1) * x * (1 - 7 * ε)) := mul_le_mul_of_nonneg_left hgx hnpos.le
      _ = 2 * (c - 1) * (n * x) * (1 - 7 * ε) := by ring
      _ = _ := by rw [hxn]
  rw [F64.toUsize_finite o1]
  refine (min_le_left _ _).trans_lt ?_
  have : ⌊((⟨b⟩ : LinearSelection F64).offset n (F64.unit k)).val⌋ < (T : ℤ) := Int.floor_lt.2 (by exact_mod_cast hlt)
  omega

/-- A draw well above `F(T/n)` selects none of the `T` fittest, unless the number under the root is negative. -/
theorem lin_above {b : F64} (hf : b.isFinite = true) (h1 : 1 < b.val) (h2 : b.val ≤ 2) {n : Nat} (hn : n ≤ 2 ^ 53) {k T : Nat}
    (hk : k ≤ 2 ^ 53) (hT : 1 ≤ T) (hTn : T ≤ n) (hD : 0 ≤ (linDisc b (F64.unit k)).val)
    (h : 104 * ε ≤ 4 * (b.val - 1) * (k / 2 ^ 53 - linF b.val (T / n))) :
    T ≤ ((⟨b⟩ : LinearSelection F64).offset n (F64.unit k)).toUsize := by
  obtain ⟨o1, o2⟩ := offset_val hf h1 h2 hn hk hD
  have hu0 : (0 : ℚ) ≤ (k : ℚ) / 2 ^ 53 := by positivity
  have hu1 : (k : ℚ) / 2 ^ 53 ≤ 1 := by rw [div_le_one (by positivity)]; exact_mod_cast hk
  have hnpos : (0 : ℚ) < n := by exact_mod_cast (show 0 < n by omega)
  have hx0 : (0 : ℚ) ≤ (T : ℚ) / n := by positivity
  have hx1 : (T : ℚ) / n ≤ 1 := by rw [div_le_one hnpos]; exact_mod_cast hTn
  have hxn : (n : ℚ) * ((T : ℚ) / n) = T := by field_simp
  have hβ := (bias_sub_one_exact hf h1 h2).2
  have hd := disc_near h1 h2 hu0 hu1
  rw [← linDisc_val hf h1 h2 hk, disc_eq b.val ((T : ℚ) / n)] at hd
  have he0 : (0 : ℚ) < ε := by positivity
  have hes : ε * ε ≤ ε / 1000 := by norm_num
  have hge : (T : ℚ) ≤ ((⟨b⟩ : LinearSelection F64).offset n (F64.unit k)).val := by
    rw [o2]
    refine off_ge hβ hT ?_
    generalize (linDisc b (F64.unit k)).val = d at *
    generalize (k : ℚ) / 2 ^ 53 = u at *
    generalize b.val = c at *
    have hDx0 : 0 ≤ (c - 2 * (c - 1) * (T / n)) ^ 2 + 4 * (c - 1) * (linF c (T / n) - u) := by
      rw [← disc_eq]
      have : 4 * (c - 1) * u ≤ 4 * (c - 1) := mul_le_of_le_one_right (by linarith) hu1
      nlinarith [sq_nonneg (2 - c)]
    have hd5 : d ≤ 5 := by
      have := (abs_le.1 hd).2
      have h5 : (c - 2 * (c - 1) * (T / n)) ^ 2 + 4 * (c - 1) * (linF c (T / n) - u) ≤ 4 := by
        rw [← disc_eq]
        have : 0 ≤ 4 * (c - 1) * u := mul_nonneg (by linarith) hu0
        nlinarith
      have : 13 * ε ≤ 1 := by norm_num
      linarith
    obtain ⟨r1, r2, -, r4⟩ := root_near hD hd5
    generalize rndQ (sqrtApprox d) = S at *
    have hg := rnd_near (c - S)
    have hcs : |c - S| ≤ 3 := abs_le.2 ⟨by linarith, by linarith⟩
    have hcs' : ε * |c - S| ≤ ε * 3 := mul_le_mul_of_nonneg_left hcs he0.le
    have he4 : ε ^ 4 ≤ ε := by norm_num
    have hg' : c - S - 4 * ε ≤ rndQ (c - S) := by linarith [(abs_le.1 hg).1]
    generalize rndQ (c - S) = g at *
    generalize hx : (T : ℚ) / n = x at *
    set r := c - 2 * (c - 1) * x with hr
    have hr0 : 0 ≤ r := by nlinarith
    have hr2 : r ≤ 2 := by nlinarith
    have hr22 : 22 * ε ≤ r := by
      by_contra hc
      push Not at hc
      have : r ^ 2 ≤ (22 * ε) ^ 2 := pow_le_pow_left₀ hr0 hc.le 2
      nlinarith
    have hS : S ≤ r - 18 * ε := by
      rcases lt_or_ge S (4 * ε) with hS | hS
      · linarith
      have : (S - 4 * ε) ^ 2 ≤ (r - 22 * ε) ^ 2 := by
        refine (r4 hS).trans ?_
        have := (abs_le.1 hd).2
        nlinarith
      have := abs_le_of_sq_le_sq this (by linarith)
      linarith [(abs_le.1 this).2]
    have hgx : 2 * (c - 1) * x * (1 + 7 * ε) ≤ g := by
      have : (c - 1) * x * ε ≤ ε := by
        have : (c - 1) * x ≤ 1 := by nlinarith
        nlinarith
      linarith
    calc 2 * (c - 1) * T * (1 + 7 * ε) = n * (2 * (c - 1) * x * (1 + 7 * ε)) := by rw [← hxn]; ring
      _ ≤ (n : ℚ) * g := mul_le_mul_of_nonneg_left hgx hnpos.le
  rw [F64.toUsize_finite o1]
  have h3 : (T : ℤ) ≤ ⌊((⟨b⟩ : LinearSelection F64).offset n (F64.unit k)).val⌋ := Int.le_floor.2 (by exact_mod_cast hge)
  refine le_min (by omega) (by omega)

/-- The number under the root is negative only for the largest draws. -/
theorem lin_neg {b : F64} (hf : b.isFinite = true) (h1 : 1 < b.val) (h2 : b.val ≤ 2) {k : Nat} (hk : k ≤ 2 ^ 53)
    (hD : (linDisc b (F64.unit k)).val < 0) : 4 * (b.val - 1) * (1 - k / 2 ^ 53) ≤ 13 * ε := by
  have hu0 : (0 : ℚ) ≤ (k : ℚ) / 2 ^ 53 := by positivity
  have hu1 : (k : ℚ) / 2 ^ 53 ≤ 1 := by rw [div_le_one (by positivity)]; exact_mod_cast hk
  have hd := disc_near h1 h2 hu0 hu1
  rw [← linDisc_val hf h1 h2 hk] at hd
  have := (abs_le.1 hd).1
  nlinarith [sq_nonneg (2 - b.val)]

/-- The share of the draws that select one of the `T` fittest, or none because `n` is exceeded. -/
theorem lin_share {b : F64} (hf : b.isFinite = true) (h1 : 1 < b.val) (h2 : b.val ≤ 2) {n : Nat} (hn : n ≤ 2 ^ 53) {T : Nat}
    (hTn : T ≤ n) (N : Nat) (hN : N = 2 ^ 53) :
    |(((Finset.range N).filter fun k => ((⟨b⟩ : LinearSelection F64).offset n (F64.unit k)).toUsize < T).card : ℚ) / N -
      linF b.val (T / n)| ≤ 1 / 2 ^ 48 / (b.val - 1) := by
  obtain ⟨-, hβ⟩ := bias_sub_one_exact hf h1 h2
  have hβ0 : (0 : ℚ) < b.val - 1 := by linarith
  rcases Nat.eq_zero_or_pos T with rfl | hT
  · simp only [Nat.not_lt_zero, Finset.filter_false, Finset.card_empty, linF]
    simp
    positivity
  have hNq : (N : ℚ) = 2 ^ 53 := by rw [hN]; norm_num
  have hN0 : (0 : ℚ) < N := by rw [hNq]; positivity
  have hnpos : (0 : ℚ) < n := by exact_mod_cast (show 0 < n by omega)
  have hx0 : (0 : ℚ) ≤ (T : ℚ) / n := by positivity
  have hx1 : (T : ℚ) / n ≤ 1 := by rw [div_le_one hnpos]; exact_mod_cast hTn
  have hF0 : 0 ≤ linF b.val (T / n) := by
    unfold linF
    have : ((T : ℚ) / n) ^ 2 ≤ T / n := by nlinarith
    nlinarith
  have hF1 : linF b.val (T / n) ≤ 1 := by
    unfold linF
    nlinarith [mul_nonneg (by linarith : (0 : ℚ) ≤ 1 - T / n) (by linarith : (0 : ℚ) ≤ 2 - b.val)]
  generalize hF : linF b.val (T / n) = F at *
  set δ : ℚ := 26 * ε / (b.val - 1) with hδ
  have hδβ : 4 * (b.val - 1) * δ = 104 * ε := by rw [hδ]; field_simp; norm_num
  have hδ0 : 0 < δ := by positivity
  have htot : δ + 4 * ε / (b.val - 1) + 2 * ε ≤ 1 / 2 ^ 48 / (b.val - 1) := by
    have : 2 * ε ≤ 2 * ε / (b.val - 1) := by
      rw [le_div_iff₀ hβ0]
      exact mul_le_of_le_one_right (by positivity) (by linarith)
    have e : 1 / 2 ^ 48 / (b.val - 1) = δ + 4 * ε / (b.val - 1) + 2 * ε / (b.val - 1) := by
      rw [hδ, ← add_div, ← add_div]; congr 1; norm_num
    linarith
  have h4 : 0 < 4 * ε / (b.val - 1) := by positivity
  have he0 : (0 : ℚ) < ε := by positivity
  rw [abs_le]
  constructor
  · rcases lt_or_ge F δ with hlt | hge
    · have : (0 : ℚ) ≤ (((Finset.range N).filter fun k => ((⟨b⟩ : LinearSelection F64).offset n (F64.unit k)).toUsize < T).card : ℚ) / N := by
        positivity
      linarith
    · have hc := le_card_of_le (N := N) (P := fun k => ((⟨b⟩ : LinearSelection F64).offset n (F64.unit k)).toUsize < T)
        (x := (F - δ) * N) (mul_nonneg (by linarith) hN0.le) (by
          intro k hk
          have hkN : (k : ℚ) / 2 ^ 53 ≤ F - δ := by rw [← hNq, div_le_iff₀ hN0]; exact hk
          have hk53 : k ≤ 2 ^ 53 := by
            have : (k : ℚ) ≤ 2 ^ 53 := by
              have : (k : ℚ) / 2 ^ 53 ≤ 1 := by linarith
              rwa [div_le_one (by positivity)] at this
            exact_mod_cast this
          refine lin_below hf h1 h2 hn hk53 hT hTn ?_
          rw [hF, ← hδβ]
          exact mul_le_mul_of_nonneg_left (by linarith) (by linarith))
      rw [min_eq_left (by nlinarith)] at hc
      have : F - δ ≤ (((Finset.range N).filter fun k => ((⟨b⟩ : LinearSelection F64).offset n (F64.unit k)).toUsize < T).card : ℚ) / N := by
        rw [le_div_iff₀ hN0]; exact hc
      linarith
  · have hsub : (Finset.range N).filter (fun k => ((⟨b⟩ : LinearSelection F64).offset n (F64.unit k)).toUsize < T) ⊆
        ((Finset.range N).filter fun k : Nat => (k : ℚ) ≤ (F + δ) * N) ∪
          ((Finset.range N).filter fun k : Nat => ((N - k : Nat) : ℚ) ≤ 4 * ε / (b.val - 1) * N) := by
      intro k hk
      rw [Finset.mem_filter, Finset.mem_range] at hk
      obtain ⟨hkN, hk⟩ := hk
      rw [Finset.mem_union, Finset.mem_filter, Finset.mem_filter, Finset.mem_range]
      have hk53 : k ≤ 2 ^ 53 := by omega
      rcases lt_or_ge (linDisc b (F64.unit k)).val 0 with hD | hD
      · right
        refine ⟨hkN, ?_⟩
        have := lin_neg hf h1 h2 hk53 hD
        rw [Nat.cast_sub hkN.le, div_mul_eq_mul_div, le_div_iff₀ hβ0]
        rw [← hNq] at this
        have e : ((N : ℚ) - k) * (b.val - 1) = (4 * (b.val - 1) * (1 - k / N)) * (N / 4) := by field_simp
        rw [e]
        calc (4 * (b.val - 1) * (1 - k / N)) * (N / 4) ≤ 13 * (1 / N) * (N / 4) :=
              mul_le_mul_of_nonneg_right this (by linarith)
          _ ≤ 4 * ε * N := by rw [hNq]; norm_num
      · left
        refine ⟨hkN, ?_⟩
        by_contra hc
        push Not at hc
        refine absurd (lin_above hf h1 h2 hn hk53 hT hTn hD ?_) (by omega)
        rw [hF, ← hδβ]
        refine mul_le_mul_of_nonneg_left ?_ (by linarith)
        have : F + δ ≤ (k : ℚ) / 2 ^ 53 := by rw [← hNq, le_div_iff₀ hN0]; exact hc.le
        linarith
    have c1 := card_le_of_le (N := N) (P := fun k : Nat => (k : ℚ) ≤ (F + δ) * N) (x := (F + δ) * N)
      (mul_nonneg (by linarith) hN0.le) (fun k hk => hk)
    have c2 : (((Finset.range N).filter fun k : Nat => ((N - k : Nat) : ℚ) ≤ 4 * ε / (b.val - 1) * N).card : ℚ) ≤
        4 * ε / (b.val - 1) * N + 1 := by
      have hb : ((Finset.range N).filter fun k : Nat => ((N - k : Nat) : ℚ) ≤ 4 * ε / (b.val - 1) * N).card ≤
          ((Finset.range (N + 1)).filter fun k : Nat => (k : ℚ) ≤ 4 * ε / (b.val - 1) * N).card := by
        refine Finset.card_le_card_of_injOn (fun k => N - k) ?_ ?_
        · intro k hk
          rw [Finset.mem_coe, Finset.mem_filter, Finset.mem_range] at hk ⊢
          exact ⟨by show N - k < N + 1; omega, hk.2⟩
        · intro k hk k' hk' h
          rw [Finset.mem_coe, Finset.mem_filter, Finset.mem_range] at hk hk'
          have h : N - k = N - k' := h
          omega
      have := card_le_of_le (N := N + 1) (P := fun k : Nat => (k : ℚ) ≤ 4 * ε / (b.val - 1) * N) (x := 4 * ε / (b.val - 1) * N)
        (mul_nonneg h4.le hN0.le) (fun k hk => hk)
      exact le_trans (by exact_mod_cast hb) this
    have hcard : (((Finset.range N).filter fun k => ((⟨b⟩ : LinearSelection F64).offset n (F64.unit k)).toUsize < T).card : ℚ) ≤
        ((F + δ) * N + 1) + (4 * ε / (b.val - 1) * N + 1) := by
      refine le_trans ?_ (add_le_add c1 c2)
      exact_mod_cast (Finset.card_le_card hsub).trans (Finset.card_union_le _ _)
    have : (((Finset.range N).filter fun k => ((⟨b⟩ : LinearSelection F64).offset n (F64.unit k)).toUsize < T).card : ℚ) / N ≤
        F + δ + 4 * ε / (b.val - 1) + 2 * ε := by
      rw [div_le_iff₀ hN0]
      refine hcard.trans (le_of_eq ?_)
      have : 2 * ε * N = 2 := by rw [hNq]; norm_num
      linarith
    linarith

end RG
