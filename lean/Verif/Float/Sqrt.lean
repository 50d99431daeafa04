import Verif.Float.Lemmas
import Mathlib.Analysis.Real.Sqrt

/-!
# Correctness of the model of `f64::sqrt`

`F64.sqrt` works on rationals; here it is related to the real square root: the result is a nearest binary64 value.
-/

namespace RG

theorem rne_nearest (y : ℚ) (z : Int) : |(rne y : ℚ) - y| ≤ |(z : ℚ) - y| := by
  by_contra hc
  push Not at hc
  have h1 := rne_err y
  have h2 : |((z - rne y : Int) : ℚ)| < 1 := by
    push_cast
    calc |(z : ℚ) - rne y| = |((z : ℚ) - y) - ((rne y : ℚ) - y)| := by congr 1; ring
      _ ≤ |(z : ℚ) - y| + |(rne y : ℚ) - y| := abs_sub _ _
      _ < 1 := by linarith
  have h3 : |z - rne y| < 1 := by exact_mod_cast h2
  have h4 : z = rne y := by
    have := Int.abs_lt_one_iff.1 h3; omega
  rw [h4] at hc
  exact lt_irrefl _ hc

/-- `rndQ x` is a nearest grid number to `x`. -/
theorem rndQ_nearest (x : ℚ) {f : ℚ} (hf : Fmt f) : |rndQ x - x| ≤ |f - x| := by
  by_cases hx : x = 0
  · subst hx; simp [rndQ_zero]
  have hp := pow2_pos (cexp x)
  have key : ∀ z : Int, |rndQ x - x| ≤ |z * pow2 (cexp x) - x| := by
    intro z
    unfold rndQ
    rw [if_neg hx]
    have e : ∀ w : ℚ, w * pow2 (cexp x) - x = (w - x / pow2 (cexp x)) * pow2 (cexp x) := by
      intro w; field_simp
    rw [e, e, abs_mul, abs_mul]
    exact mul_le_mul_of_nonneg_right (rne_nearest _ z) (abs_nonneg _)
  rcases fmt_mult_or x hf with ⟨z, rfl⟩ | ⟨hlt, hce⟩
  · exact key z
  · obtain ⟨z, hz⟩ := pow2_flog2_mult x hce
    have hs := (flog2_spec hx).1
    obtain ⟨h1, h2⟩ := abs_lt.1 hlt
    rcases lt_or_gt_of_ne hx with h | h
    · rw [abs_of_neg h] at hs
      refine (key (-z)).trans ?_
      push_cast
      rw [neg_mul, ← hz, abs_of_nonneg (by linarith), abs_of_nonneg (by linarith)]
      linarith
    · rw [abs_of_pos h] at hs
      refine (key z).trans ?_
      rw [← hz, abs_of_nonpos (by linarith), abs_of_nonpos (by linarith)]
      linarith

namespace F64

/-- The integer square root used by `sqrtApprox`. -/
def sqrtRoot (q : ℚ) : Nat := isqrt ⌊q * (4 : ℚ) ^ sqrtScale⌋.toNat

theorem sqrtRoot_spec {q : ℚ} (h : 0 ≤ q) :
    ((sqrtRoot q * sqrtRoot q : Nat) : ℚ) ≤ q * (4 : ℚ) ^ sqrtScale ∧
      q * (4 : ℚ) ^ sqrtScale < (((sqrtRoot q + 1) * (sqrtRoot q + 1) : Nat) : ℚ) := by
  have hs : (0 : ℚ) ≤ q * (4 : ℚ) ^ sqrtScale := mul_nonneg h (pow_nonneg (by norm_num) _)
  unfold sqrtRoot
  generalize q * (4 : ℚ) ^ sqrtScale = s at *
  obtain ⟨h1, h2⟩ := isqrt_spec ⌊s⌋.toNat
  have hf : (⌊s⌋.toNat : ℚ) = (⌊s⌋ : ℚ) := by
    have := Int.toNat_of_nonneg (Int.floor_nonneg.2 hs)
    exact_mod_cast this
  constructor
  · refine _root_.le_trans ?_ (Int.floor_le s)
    rw [← hf]
    exact_mod_cast h1
  · refine _root_.lt_of_lt_of_le (Int.lt_floor_add_one s) ?_
    rw [← hf]
    exact_mod_cast h2

theorem sqrtApprox_eq (q : ℚ) : sqrtApprox q =
    if ((sqrtRoot q * sqrtRoot q : Nat) : ℚ) = q * (4 : ℚ) ^ sqrtScale then (sqrtRoot q : ℚ) / 2 ^ sqrtScale
    else (2 * sqrtRoot q + 1 : ℚ) / 2 ^ (sqrtScale + 1) := rfl

/-- The value that `sqrtApprox` represents, scaled. -/
theorem sqrtApprox_scaled (q : ℚ) : sqrtApprox q * 2 ^ sqrtScale =
    if ((sqrtRoot q * sqrtRoot q : Nat) : ℚ) = q * (4 : ℚ) ^ sqrtScale then (sqrtRoot q : ℚ)
    else sqrtRoot q + 1 / 2 := by
  have h : (2 : ℚ) ^ sqrtScale ≠ 0 := pow_ne_zero _ (by norm_num)
  rw [sqrtApprox_eq]
  split
  · rw [div_mul_cancel₀ _ h]
  · rw [pow_succ, div_mul_eq_div_div, div_right_comm, div_mul_cancel₀ _ h]
    ring

theorem sqrtApprox_nonneg' (q : ℚ) : 0 ≤ sqrtApprox q := by
  rw [sqrtApprox_eq]; split <;> positivity

/-- Comparison of `sqrtApprox q` with a multiple of `2^-1100` is comparison of `√q` with it. -/
theorem sqrtApprox_spec {q : ℚ} (h : 0 ≤ q) (z : Nat) :
    ((z : ℚ) / 2 ^ sqrtScale ≤ sqrtApprox q ↔ ((z : ℚ) / 2 ^ sqrtScale) ^ 2 ≤ q) ∧
    (sqrtApprox q ≤ (z : ℚ) / 2 ^ sqrtScale ↔ q ≤ ((z : ℚ) / 2 ^ sqrtScale) ^ 2) := by
  have hpos : (0 : ℚ) < 2 ^ sqrtScale := pow_pos (by norm_num) _
  have h4 : (4 : ℚ) ^ sqrtScale = 2 ^ sqrtScale * 2 ^ sqrtScale := by
    rw [← mul_pow]; norm_num
  have hsq : ((z : ℚ) / 2 ^ sqrtScale) ^ 2 = ((z * z : Nat) : ℚ) / 4 ^ sqrtScale := by
    rw [h4, div_pow, sq, sq]; push_cast; rfl
  have h4pos : (0 : ℚ) < 4 ^ sqrtScale := pow_pos (by norm_num) _
  obtain ⟨h1, h2⟩ := sqrtRoot_spec h
  have hsc := sqrtApprox_scaled q
  rw [hsq, div_le_iff₀ hpos, le_div_iff₀ hpos, div_le_iff₀ h4pos, le_div_iff₀ h4pos, hsc]
  generalize sqrtRoot q = r at *
  generalize q * (4 : ℚ) ^ sqrtScale = s at *
  split
  · rename_i he
    rw [← he]
    constructor
    · rw [Nat.cast_le, Nat.cast_le]
      exact Nat.mul_self_le_mul_self_iff.symm
    · rw [Nat.cast_le, Nat.cast_le]
      exact Nat.mul_self_le_mul_self_iff.symm
  · rename_i hne
    have h1' : ((r * r : Nat) : ℚ) < s := lt_of_le_of_ne h1 hne
    constructor
    · constructor
      · intro hz
        have : z ≤ r := by
          by_contra hc
          have : (r : ℚ) + 1 ≤ z := by exact_mod_cast Nat.lt_of_not_le hc
          linarith
        exact _root_.le_trans (by exact_mod_cast Nat.mul_self_le_mul_self this) h1
      · intro hz
        have : z * z < (r + 1) * (r + 1) := by exact_mod_cast _root_.lt_of_le_of_lt hz h2
        have : z < r + 1 := Nat.mul_self_lt_mul_self_iff.1 this
        have : (z : ℚ) ≤ r := by exact_mod_cast Nat.lt_succ_iff.1 this
        linarith
    · constructor
      · intro hz
        have : r + 1 ≤ z := by
          by_contra hc
          have : (z : ℚ) ≤ r := by exact_mod_cast Nat.lt_succ_iff.1 (Nat.lt_of_not_le hc)
          linarith
        exact _root_.le_trans h2.le (by exact_mod_cast Nat.mul_self_le_mul_self this)
      · intro hz
        have : r * r < z * z := by exact_mod_cast _root_.lt_of_lt_of_le h1' hz
        have : r < z := Nat.mul_self_lt_mul_self_iff.1 this
        have : (r : ℚ) + 1 ≤ z := by exact_mod_cast this
        linarith

theorem sqrtApprox_mono {x y : ℚ} (hx : 0 ≤ x) (h : x ≤ y) : sqrtApprox x ≤ sqrtApprox y := by
  have hpos : (0 : ℚ) < 2 ^ sqrtScale := pow_pos (by norm_num) _
  have h4pos : (0 : ℚ) < 4 ^ sqrtScale := pow_pos (by norm_num) _
  have hxy : x * (4 : ℚ) ^ sqrtScale ≤ y * (4 : ℚ) ^ sqrtScale := mul_le_mul_of_nonneg_right h h4pos.le
  obtain ⟨h1, h2⟩ := sqrtRoot_spec hx
  obtain ⟨h3, h4⟩ := sqrtRoot_spec (hx.trans h)
  refine le_of_mul_le_mul_right ?_ hpos
  rw [sqrtApprox_scaled, sqrtApprox_scaled]
  generalize x * (4 : ℚ) ^ sqrtScale = s at *
  generalize y * (4 : ℚ) ^ sqrtScale = t at *
  generalize sqrtRoot x = a at *
  generalize sqrtRoot y = b at *
  have hab : a ≤ b := by
    have : a * a < (b + 1) * (b + 1) := by exact_mod_cast _root_.lt_of_le_of_lt (h1.trans hxy) h4
    exact Nat.lt_succ_iff.1 (Nat.mul_self_lt_mul_self_iff.1 this)
  have hab' : (a : ℚ) ≤ b := by exact_mod_cast hab
  rcases Nat.lt_or_ge a b with hlt | hge
  · have : (a : ℚ) + 1 ≤ b := by exact_mod_cast hlt
    split <;> split <;> linarith
  · have : a = b := le_antisymm hab hge
    subst this
    split
    · split <;> linarith
    · rename_i hne
      split
      · rename_i he
        exact absurd (le_antisymm h1 (he ▸ hxy)) hne
      · exact _root_.le_refl _

/-- A finite square root is a nearest binary64 value to the real square root. -/
theorem sqrt_nearest {q : ℚ} {hq : Rep q} (h0 : 0 ≤ q) (hf : (sqrt (fin q hq)).isFinite = true) {f : ℚ} (hF : Fmt f) :
    |((sqrt (fin q hq)).val : ℝ) - Real.sqrt q| ≤ |(f : ℝ) - Real.sqrt q| := by
  have e : sqrt (fin q hq) = round false (sqrtApprox q) := by
    show (if q < 0 then nan else round false (sqrtApprox q)) = _
    rw [if_neg (not_lt.2 h0)]
  rw [e] at hf ⊢
  have hr : (round false (sqrtApprox q)).val = rndQ (sqrtApprox q) := by
    by_cases hb : |rndQ (sqrtApprox q)| < pow2 1024
    · exact (round_finite hb).2
    · rw [round_overflow hb] at hf; cases hf
  rw [hr]
  have hn := rndQ_nearest (sqrtApprox q) hF
  have hy0 := sqrtApprox_nonneg' q
  have hr0 : 0 ≤ rndQ (sqrtApprox q) := rndQ_nonneg hy0
  -- comparison with the midpoint
  have hx0 : 0 ≤ Real.sqrt q := Real.sqrt_nonneg _
  have hxx : Real.sqrt q * Real.sqrt q = q := Real.mul_self_sqrt (by exact_mod_cast h0)
  have cmp : ∀ z : Int, ((z : ℚ) * pow2 (-1075) ≤ sqrtApprox q → ((z * pow2 (-1075) : ℚ) : ℝ) ≤ Real.sqrt q) ∧
      (sqrtApprox q ≤ (z : ℚ) * pow2 (-1075) → Real.sqrt q ≤ ((z * pow2 (-1075) : ℚ) : ℝ)) := by
    intro z
    rcases _root_.le_total 0 z with hz | hz
    · obtain ⟨w, rfl⟩ := Int.eq_ofNat_of_zero_le hz
      have e1 : (((w : Int) : ℚ)) * pow2 (-1075) = ((w * 2 ^ 25 : Nat) : ℚ) / 2 ^ sqrtScale := by
        have : (2 : ℚ) ^ sqrtScale = 2 ^ 25 * 2 ^ 1075 := by rw [← pow_add]; rfl
        rw [this, pow2_eq, zpow_neg, Nat.cast_mul, Nat.cast_pow, Int.cast_natCast, Nat.cast_ofNat]
        have h25 : (2 : ℚ) ^ 25 ≠ 0 := by norm_num
        have h1075 : (2 : ℚ) ^ 1075 ≠ 0 := pow_ne_zero _ (by norm_num)
        have e2 : (2 : ℚ) ^ (1075 : Int) = 2 ^ 1075 := by
          rw [show (1075 : Int) = ((1075 : Nat) : Int) from rfl, zpow_natCast]
        rw [e2]
        generalize (2 : ℚ) ^ 1075 = P at *
        generalize (2 : ℚ) ^ 25 = T at *
        field_simp
      obtain ⟨s1, s2⟩ := sqrtApprox_spec h0 (w * 2 ^ 25)
      rw [e1]
      have hd0 : (0 : ℚ) ≤ ((w * 2 ^ 25 : Nat) : ℚ) / 2 ^ sqrtScale :=
        div_nonneg (Nat.cast_nonneg _) (pow_nonneg (by norm_num) _)
      generalize ((w * 2 ^ 25 : Nat) : ℚ) / 2 ^ sqrtScale = d at *
      constructor
      · intro h
        have := s1.1 h
        refine Real.le_sqrt_of_sq_le ?_
        exact_mod_cast this
      · intro h
        have := s2.1 h
        rw [Real.sqrt_le_left (by exact_mod_cast hd0)]
        exact_mod_cast this
    · have hneg : ((z : ℚ)) * pow2 (-1075) ≤ 0 :=
        mul_nonpos_of_nonpos_of_nonneg (by exact_mod_cast hz) (pow2_pos _).le
      constructor
      · intro _
        refine _root_.le_trans ?_ hx0
        exact_mod_cast hneg
      · intro h
        have h00 : sqrtApprox q = 0 := le_antisymm (h.trans hneg) hy0
        have hz0 : (z : ℚ) * pow2 (-1075) = 0 := le_antisymm hneg (h00 ▸ h)
        rw [hz0]
        have := (sqrtApprox_spec h0 0).2.1 (by rw [h00]; simp)
        have hq0 : q ≤ 0 := by simpa using this
        have hq00 : q = 0 := le_antisymm hq0 h0
        rw [hq00]; simp
  -- the midpoint is a multiple of 2^-1075
  obtain ⟨a, ha⟩ := (fmt_rndQ (sqrtApprox q)).mult
  obtain ⟨b, hb⟩ := hF.mult
  have hmid : (rndQ (sqrtApprox q) + f) / 2 = ((a + b : Int) : ℚ) * pow2 (-1075) := by
    rw [ha, hb, show (-1074 : Int) = -1075 + 1 from rfl, pow2_succ]; push_cast; ring
  obtain ⟨c1, c2⟩ := cmp (a + b)
  rw [← hmid] at c1 c2
  generalize Real.sqrt q = x at *
  generalize rndQ (sqrtApprox q) = r at *
  generalize sqrtApprox q = y at *
  have c1' : (r + f) / 2 ≤ y → ((r : ℝ) + f) / 2 ≤ x := fun h => by have := c1 h; push_cast at this; exact this
  have c2' : y ≤ (r + f) / 2 → x ≤ ((r : ℝ) + f) / 2 := fun h => by have := c2 h; push_cast at this; exact this
  rcases lt_trichotomy r f with hrf | hrf | hrf
  · have hm : y ≤ (r + f) / 2 := by
      by_contra hc
      push Not at hc
      rw [abs_of_nonpos (by linarith)] at hn
      rcases abs_cases (f - y) with ⟨h, _⟩ | ⟨h, _⟩ <;> rw [h] at hn <;> linarith
    have hx := c2' hm
    have hrf' : (r : ℝ) < f := by exact_mod_cast hrf
    rw [abs_of_nonneg (show 0 ≤ (f : ℝ) - x by linarith)]
    rw [abs_le]; constructor <;> linarith
  · rw [hrf]
  · have hm : (r + f) / 2 ≤ y := by
      by_contra hc
      push Not at hc
      rw [abs_of_nonneg (show 0 ≤ r - y by linarith)] at hn
      rcases abs_cases (f - y) with ⟨h, _⟩ | ⟨h, _⟩ <;> rw [h] at hn <;> linarith
    have hx := c1' hm
    have hrf' : (f : ℝ) < r := by exact_mod_cast hrf
    rw [abs_of_nonpos (show (f : ℝ) - x ≤ 0 by linarith)]
    rw [abs_le]; constructor <;> linarith

end F64
end RG
