import Verif.Proofs.Spread
import Verif.Proofs.WheelNeg

/-!
# How far rounding moves the average and the variance

Welford's recurrences (`stats.rs:145-149, 232-235`) at `F64` beside the same recurrences over `ℚ`.
-/

namespace RG
open Arith F64

/-- Half the distance of 1 to the next `f64`. -/
local notation "ε" => ((1 : ℚ) / 2 ^ 53)

/-- Half the smallest positive `f64`. -/
local notation "τ" => pow2 (-1075)

theorem rnd_near_abs (y : ℚ) : |rndQ y - y| ≤ ε * |y| + τ := by
  rcases le_total 0 y with h | h
  · have h1 := rndQ_ge h
    have h2 := le_rndQ_add h
    rw [abs_of_nonneg h, abs_le]
    constructor <;> linarith
  · have h1 := rndQ_ge (neg_nonneg.2 h)
    have h2 := le_rndQ_add (neg_nonneg.2 h)
    rw [rndQ_neg] at h1 h2
    rw [abs_of_nonpos h, abs_le]
    constructor <;> linarith

/-- Sums of two numbers of the format do not underflow. -/
theorem rnd_near_sum {x a : ℚ} (hx : Fmt x) (ha : Fmt a) : |rndQ (x + a) - (x + a)| ≤ ε * |x + a| := by
  obtain ⟨z1, hz1⟩ := hx.mult
  obtain ⟨z2, hz2⟩ := ha.mult
  have hz : x + a = ((z1 + z2 : ℤ) : ℚ) * pow2 (-1074) := by rw [hz1, hz2]; push_cast; ring
  by_cases hs : |x + a| ≤ pow2 (-1021)
  · rw [hz] at hs
    rw [hz, rndQ_of_fmt (fmt_of_small_mult hs)]
    simp only [sub_self, abs_zero]
    positivity
  · have := rndQ_rel_err (x := x + a) ((pow2_le.2 (by norm_num)).trans (not_le.1 hs).le)
    rwa [pow2_eq (-53), show (2 : ℚ) ^ (-53 : Int) = ε by rw [zpow_neg]; norm_num] at this

theorem rnd_near_diff {x a : ℚ} (hx : Fmt x) (ha : Fmt a) : |rndQ (x - a) - (x - a)| ≤ ε * |x - a| := by
  have := rnd_near_sum hx ha.neg
  rwa [← sub_eq_add_neg] at this

/-- One step of the average. -/
theorem stepAvg_near {a x N M W : ℚ} (ha : Fmt a) (hx : Fmt x) (hN : 2 ≤ N) (hW : |x - a| ≤ W) (haM : |a| ≤ M)
    (hxM : |x| ≤ M) : |stepAvg a x N - (a + (x - a) / N)| ≤ ε * (M + 3 * W / N) + τ := by
  have hN0 : (0 : ℚ) < N := by linarith
  have hW0 : 0 ≤ W := (abs_nonneg _).trans hW
  have d1 := rnd_near_diff hx ha
  have q1 := rnd_near_abs (rndQ (x - a) / N)
  have hd : |rndQ (x - a)| ≤ (1 + ε) * W := by
    have := abs_sub_abs_le_abs_sub (rndQ (x - a)) (x - a)
    nlinarith
  have hq : |rndQ (x - a) / N| ≤ (1 + ε) * W / N := by
    rw [abs_div, abs_of_pos hN0]
    exact div_le_div_of_nonneg_right hd hN0.le
  have hdN : |rndQ (x - a) / N - (x - a) / N| ≤ ε * W / N := by
    rw [← sub_div, abs_div, abs_of_pos hN0]
    exact div_le_div_of_nonneg_right (d1.trans (mul_le_mul_of_nonneg_left hW (by norm_num))) hN0.le
  have hM : |a + rndQ (rndQ (x - a) / N)| ≤ M := by
    rw [abs_le] at haM hxM ⊢
    rcases le_total a x with h | h
    · obtain ⟨h1, h2⟩ := welford_step_le hx ha hN h
      constructor <;> linarith [haM.1, haM.2, hxM.1, hxM.2]
    · obtain ⟨h1, h2⟩ := welford_step_le hx.neg ha.neg hN (neg_le_neg h)
      have e1 : -x - -a = -(x - a) := by ring
      rw [e1, rndQ_neg, neg_div, rndQ_neg] at h1 h2
      constructor <;> linarith [haM.1, haM.2, hxM.1, hxM.2]
  have s1 := rnd_near_sum ha (fmt_rndQ (rndQ (x - a) / N))
  have s2 : ε * |a + rndQ (rndQ (x - a) / N)| ≤ ε * M := mul_le_mul_of_nonneg_left hM (by norm_num)
  have q2 : ε * |rndQ (x - a) / N| ≤ ε * ((1 + ε) * W / N) := mul_le_mul_of_nonneg_left hq (by norm_num)
  have split : stepAvg a x N - (a + (x - a) / N) = (stepAvg a x N - (a + rndQ (rndQ (x - a) / N))) +
      (rndQ (rndQ (x - a) / N) - rndQ (x - a) / N) + (rndQ (x - a) / N - (x - a) / N) := by ring
  have t := (abs_add_le (stepAvg a x N - (a + rndQ (rndQ (x - a) / N)) + (rndQ (rndQ (x - a) / N) - rndQ (x - a) / N))
    (rndQ (x - a) / N - (x - a) / N)).trans (add_le_add_left (abs_add_le _ _) _)
  rw [← split] at t
  have fin : ε * ((1 + ε) * W / N) + ε * W / N ≤ ε * (3 * W / N) := by
    have : ε * ((1 + ε) * W / N) + ε * W / N = ε * ((2 + ε) * (W / N)) := by ring
    rw [this]
    have h3 : ε * (3 * W / N) = ε * (3 * (W / N)) := by ring
    rw [h3]
    refine mul_le_mul_of_nonneg_left (mul_le_mul_of_nonneg_right (by norm_num) (by positivity)) (by norm_num)
  unfold stepAvg at t ⊢
  rw [mul_add]
  linarith

/-- The term added to the sum of squares. -/
theorem term_near {x a a' W : ℚ} (hx : Fmt x) (ha : Fmt a) (ha' : Fmt a') (hW : |x - a| ≤ W) (hW' : |x - a'| ≤ W) :
    |rndQ (rndQ (x - a) * rndQ (x - a')) - (x - a) * (x - a')| ≤ 4 * ε * W ^ 2 + τ := by
  have hW0 : 0 ≤ W := (abs_nonneg _).trans hW
  have e0 : (0 : ℚ) ≤ ε := by norm_num
  have d1 := (rnd_near_diff hx ha).trans (mul_le_mul_of_nonneg_left hW e0)
  have d2 := (rnd_near_diff hx ha').trans (mul_le_mul_of_nonneg_left hW' e0)
  have g1 : |rndQ (x - a)| ≤ (1 + ε) * W := by
    have := abs_sub_abs_le_abs_sub (rndQ (x - a)) (x - a); linarith
  have g2 : |rndQ (x - a')| ≤ (1 + ε) * W := by
    have := abs_sub_abs_le_abs_sub (rndQ (x - a')) (x - a'); linarith
  have p1 := rnd_near_abs (rndQ (x - a) * rndQ (x - a'))
  have p2 : |rndQ (x - a) * rndQ (x - a')| ≤ (1 + ε) * W * ((1 + ε) * W) := by
    rw [abs_mul]; exact mul_le_mul g1 g2 (abs_nonneg _) (by positivity)
  have p3 : |rndQ (x - a) * rndQ (x - a') - (x - a) * (x - a')| ≤ ε * W * ((1 + ε) * W) + W * (ε * W) := by
    have : rndQ (x - a) * rndQ (x - a') - (x - a) * (x - a') =
        (rndQ (x - a) - (x - a)) * rndQ (x - a') + (x - a) * (rndQ (x - a') - (x - a')) := by ring
    rw [this]
    refine (abs_add_le _ _).trans ?_
    rw [abs_mul, abs_mul]
    exact add_le_add (mul_le_mul d1 g2 (abs_nonneg _) (by positivity)) (mul_le_mul hW d2 (abs_nonneg _) hW0)
  have split := abs_add_le (rndQ (rndQ (x - a) * rndQ (x - a')) - rndQ (x - a) * rndQ (x - a'))
    (rndQ (x - a) * rndQ (x - a') - (x - a) * (x - a'))
  rw [sub_add_sub_cancel] at split
  have p4 : ε * |rndQ (x - a) * rndQ (x - a')| ≤ ε * ((1 + ε) * W * ((1 + ε) * W)) := mul_le_mul_of_nonneg_left p2 e0
  have hsq : 0 ≤ W ^ 2 := by positivity
  have c1 : ε * ((1 + ε) * W * ((1 + ε) * W)) + (ε * W * ((1 + ε) * W) + W * (ε * W)) = (ε * ((1 + ε) ^ 2 + (1 + ε) + 1)) * W ^ 2 := by
    ring
  have c2 : (ε * ((1 + ε) ^ 2 + (1 + ε) + 1)) * W ^ 2 ≤ (4 * ε) * W ^ 2 :=
    mul_le_mul_of_nonneg_right (by norm_num) hsq
  linarith

namespace Stats

/-- Bound on the error of the average of `n` samples. -/
def avgErr (M W : ℚ) (n : ℚ) : ℚ := ε * (M * (n + 1) / 2 + 3 * W) + τ * (n + 1) / 2

theorem avgErr_step (M W n e η : ℚ) (hn : 0 < n) (he : |e| ≤ avgErr M W n) (hη : |η| ≤ ε * (M + 3 * W / (n + 1)) + τ) :
    |e * n / (n + 1) + η| ≤ avgErr M W (n + 1) := by
  have h1 : |e * n / (n + 1)| ≤ avgErr M W n * n / (n + 1) := by
    rw [abs_div, abs_mul, abs_of_pos hn, abs_of_pos (show 0 < n + 1 by linarith)]
    exact div_le_div_of_nonneg_right (mul_le_mul_of_nonneg_right he hn.le) (by linarith)
  have h2 : avgErr M W n * n / (n + 1) + (ε * (M + 3 * W / (n + 1)) + τ) = avgErr M W (n + 1) := by
    have : n + 1 ≠ 0 := by linarith
    unfold avgErr
    generalize pow2 (-1075) = t
    field_simp
    ring
  exact (abs_add_le _ _).trans (by linarith)

theorem avgErr_mono {M W m n : ℚ} (hM : 0 ≤ M) (h : m ≤ n) : avgErr M W m ≤ avgErr M W n := by
  unfold avgErr
  have := pow2_pos (-1075)
  have h1 : M * (m + 1) ≤ M * (n + 1) := mul_le_mul_of_nonneg_left (by linarith) hM
  have h2 : pow2 (-1075) * (m + 1) ≤ pow2 (-1075) * (n + 1) := mul_le_mul_of_nonneg_left (by linarith) this.le
  nlinarith

/-- The average beside the exact one. -/
theorem avg_near (x : F64) (xs : List F64) {lo hi M : ℚ} (hlo : |lo| ≤ M) (hhi : |hi| ≤ M) (hM : M < pow2 1023)
    (hfin : ∀ y ∈ x :: xs, y.isFinite = true ∧ lo ≤ y.val ∧ y.val ≤ hi) (hlen : (x :: xs).length ≤ 2 ^ 53) :
    (collect (x :: xs)).avg.isFinite = true ∧
    (lo ≤ (collect (x :: xs)).avg.val ∧ (collect (x :: xs)).avg.val ≤ hi) ∧
    (lo ≤ (collect ((x :: xs).map val)).avg ∧ (collect ((x :: xs).map val)).avg ≤ hi) ∧
    |(collect (x :: xs)).avg.val - (collect ((x :: xs).map val)).avg| ≤ avgErr M (hi - lo) (x :: xs).length := by
  have hin : ∀ v : ℚ, lo ≤ v → v ≤ hi → |v| ≤ M := fun v h1 h2 => by
    rw [abs_le] at *; constructor <;> linarith [hlo.1, hhi.2]
  induction xs using List.reverseRecOn with
  | nil =>
    have hx := hfin x (by simp)
    refine ⟨hx.1, hx.2, hx.2, ?_⟩
    show |x.val - x.val| ≤ _
    rw [sub_self, abs_zero]
    have := pow2_pos (-1075)
    have h0 : 0 ≤ M := (abs_nonneg _).trans hlo
    have h1 : 0 ≤ hi - lo := by linarith [hx.2.1, hx.2.2]
    unfold avgErr
    positivity
  | append_singleton ys y ih =>
    have hsubs : ∀ z ∈ x :: ys, z ∈ x :: (ys ++ [y]) := by
      intro z hz
      simp only [List.mem_cons, List.mem_append] at hz ⊢; tauto
    have hlen' : (x :: ys).length + 1 ≤ 2 ^ 53 := by simpa using hlen
    obtain ⟨i1, i2, i3, i4⟩ := ih (fun z hz => hfin z (hsubs z hz)) (by omega)
    have hy := hfin y (by simp)
    have e : collect (x :: (ys ++ [y])) = (collect (x :: ys)).record y := collect_concat (x :: ys) y
    have e' : collect ((x :: (ys ++ [y])).map val) = (collect ((x :: ys).map val)).record y.val := by
      have : (x :: (ys ++ [y])).map val = (x :: ys).map val ++ [y.val] := by simp
      rw [this, collect_concat]
    have hc := collect_count_ne x ys
    have hcount := collect_count (x :: ys)
    have hc' : (collect ((x :: ys).map val)).count ≠ 0 := by rw [collect_count]; simp
    have hcount' := collect_count ((x :: ys).map val)
    rw [List.length_map] at hcount'
    have r1 := (record_fields (collect (x :: ys)) y hc).1
    have r2 := record_avg (collect ((x :: ys).map val)) y.val hc'
    rw [← e] at r1
    rw [← e'] at r2
    rw [hcount'] at r2
    simp only [Arith.add, Arith.sub, Arith.div, Arith.ofNat] at r2
    have hl : ((x :: (ys ++ [y])).length : ℚ) = ((x :: ys).length : ℚ) + 1 := by
      have : (x :: (ys ++ [y])).length = (x :: ys).length + 1 := by simp
      rw [this]; push_cast; ring
    have hn1 : (1 : ℚ) ≤ ((x :: ys).length : ℚ) := by
      have : 1 ≤ (x :: ys).length := by simp
      exact_mod_cast this
    have hn2 : 2 ≤ (x :: ys).length + 1 := by simp
    rw [hcount] at r1
    have yb := (hin _ hy.2.1 hy.2.2)
    have ab := (hin _ i2.1 i2.2)
    obtain ⟨w1, w2, -⟩ := F64.welford_step (n := (x :: ys).length + 1) hy.1 i1 (yb.trans_lt hM) (ab.trans_lt hM) hn2
      (by omega)
    obtain ⟨-, v2, -⟩ := F64.welford_val (n := (x :: ys).length + 1) hy.1 i1 (yb.trans_lt hM) (ab.trans_lt hM) hn2
      (by omega)
    rw [← r1] at w1 w2 v2
    rw [(F64.ofNat_exact hlen').2] at v2
    have near := stepAvg_near (F64.fmt_val (collect (x :: ys)).avg) (F64.fmt_val y) (M := M) (W := hi - lo)
      (N := (((x :: ys).length + 1 : Nat) : ℚ)) (by push_cast; linarith)
      (by rw [abs_le]; constructor <;> linarith [i2.1, i2.2, hy.2.1, hy.2.2]) ab yb
    rw [← v2] at near
    push_cast at near r2
    rw [hl]
    generalize (collect (x :: (ys ++ [y]))).avg.val = a' at *
    generalize (collect (x :: ys)).avg.val = a at *
    generalize (collect ((x :: (ys ++ [y])).map val)).avg = m' at *
    generalize (collect ((x :: ys).map val)).avg = m at *
    generalize ((x :: ys).length : ℚ) = n at *
    have hn0 : n + 1 ≠ 0 := by linarith
    refine ⟨w1, ?_, ?_, ?_⟩
    · rcases w2 with h | h <;> constructor <;> linarith [h.1, h.2, i2.1, i2.2, hy.2.1, hy.2.2]
    · have : m' = (m * n + y.val) / (n + 1) := by rw [r2]; field_simp; ring
      rw [this]
      have hp : 0 < n + 1 := by linarith
      constructor
      · rw [le_div_iff₀ hp]; nlinarith [i3.1, hy.2.1]
      · rw [div_le_iff₀ hp]; nlinarith [i3.2, hy.2.2]
    · have : a' - m' = (a - m) * n / (n + 1) + (a' - (a + (y.val - a) / (n + 1))) := by
        rw [r2]; field_simp; ring
      rw [this]
      exact avgErr_step M (hi - lo) n _ _ (by linarith) i4 near

/-- Bound on the error of the sum of squares of `n + 1` samples, per sample after the first. -/
def sumErr (M W : ℚ) (n : ℚ) : ℚ := ε * (M * W * (n + 1) + W ^ 2 * (2 * n + 10)) + τ * (2 + W * (n + 1))

theorem sumErr_mono {M W m n : ℚ} (hM : 0 ≤ M) (hW : 0 ≤ W) (h : m ≤ n) : sumErr M W m ≤ sumErr M W n := by
  unfold sumErr
  have := pow2_pos (-1075)
  have h1 : M * W * (m + 1) ≤ M * W * (n + 1) := mul_le_mul_of_nonneg_left (by linarith) (mul_nonneg hM hW)
  have h2 : W ^ 2 * (2 * m + 10) ≤ W ^ 2 * (2 * n + 10) := mul_le_mul_of_nonneg_left (by linarith) (sq_nonneg W)
  have h3 : W * (m + 1) ≤ W * (n + 1) := mul_le_mul_of_nonneg_left (by linarith) hW
  have h4 : τ * (2 + W * (m + 1)) ≤ τ * (2 + W * (n + 1)) := mul_le_mul_of_nonneg_left (by linarith) this.le
  linarith

/-- One step of the sum of squares, over `ℚ`: `S`, `T` are the computed and the exact sum, `p`, `q` the computed and the exact
term. -/
theorem sum_step {M W n S T p q E E' : ℚ} (hW : 0 ≤ W) (hM : 0 ≤ M) (hn : 1 ≤ n) (hn' : n + 1 ≤ 2 ^ 50)
    (hS : Fmt S) (hp : Fmt p) (hS0 : 0 ≤ S) (hp0 : 0 ≤ p) (hSb : S ≤ (n - 1) * (2 * W ^ 2 + 2 * τ))
    (hq : |q| ≤ W ^ 2) {q' : ℚ} (hpq : |p - q| ≤ 4 * ε * W ^ 2 + τ) (hqq : |q - q'| ≤ W * (E + E'))
    (hE : E ≤ avgErr M W n) (hE' : E' ≤ avgErr M W (n + 1)) (hST : |S - T| ≤ (n - 1) * sumErr M W n) :
    rndQ (S + p) ≤ n * (2 * W ^ 2 + 2 * τ) ∧ |rndQ (S + p) - (T + q')| ≤ n * sumErr M W (n + 1) := by
  have hτ := pow2_pos (-1075)
  have r := rnd_near_sum hS hp
  rw [abs_of_nonneg (add_nonneg hS0 hp0)] at r
  have hW2 : 0 ≤ W ^ 2 := sq_nonneg W
  have pb : p ≤ W ^ 2 + 4 * ε * W ^ 2 + τ := by
    have h1 := (abs_le.1 hpq).2
    have h2 := (abs_le.1 hq).2
    linarith
  have hnε : ε * (n - 1) ≤ 1 / 8 := by
    have : ε * 2 ^ 50 = 1 / 8 := by norm_num
    nlinarith
  have hB : ε * ((n - 1) * (2 * W ^ 2 + 2 * τ)) ≤ 1 / 8 * (2 * W ^ 2 + 2 * τ) := by
    rw [← mul_assoc]
    exact mul_le_mul_of_nonneg_right hnε (by positivity)
  have hεS : ε * S ≤ 1 / 8 * (2 * W ^ 2 + 2 * τ) := (mul_le_mul_of_nonneg_left hSb (by norm_num)).trans hB
  have hεp : ε * p ≤ ε * (W ^ 2 + 4 * ε * W ^ 2 + τ) := mul_le_mul_of_nonneg_left pb (by norm_num)
  have hε1 : ε * W ^ 2 ≤ 1 / 100 * W ^ 2 := mul_le_mul_of_nonneg_right (by norm_num) hW2
  have hε2 : ε * (4 * ε * W ^ 2) ≤ 1 / 100 * W ^ 2 := by
    rw [← mul_assoc]; exact mul_le_mul_of_nonneg_right (by norm_num) hW2
  have hε3 : ε * τ ≤ 1 / 100 * τ := mul_le_mul_of_nonneg_right (by norm_num) hτ.le
  have rr := abs_le.1 r
  constructor
  · nlinarith [rr.2]
  · have h1 : rndQ (S + p) - (T + q') = (rndQ (S + p) - (S + p)) + (S - T) + (p - q) + (q - q') := by ring
    rw [h1]
    have t := (abs_add_le (rndQ (S + p) - (S + p) + (S - T) + (p - q)) (q - q')).trans
      (add_le_add_left ((abs_add_le _ _).trans (add_le_add_left (abs_add_le _ _) _)) _)
    refine t.trans ?_
    have hSp : ε * (S + p) ≤ ε * (n * (2 * W ^ 2 + 2 * τ)) := by
      refine mul_le_mul_of_nonneg_left ?_ (by norm_num)
      nlinarith
    have hE1 : W * (E + E') ≤ W * (2 * avgErr M W (n + 1)) := by
      refine mul_le_mul_of_nonneg_left ?_ hW
      have := avgErr_mono (W := W) hM (show n ≤ n + 1 by linarith)
      linarith
    have hmono := mul_le_mul_of_nonneg_left (sumErr_mono hM hW (show n ≤ n + 1 by linarith)) (show 0 ≤ n - 1 by linarith)
    have goal1 : ε * (n * (2 * W ^ 2 + 2 * τ)) + (4 * ε * W ^ 2 + τ) + W * (2 * avgErr M W (n + 1)) ≤ sumErr M W (n + 1) := by
      unfold avgErr sumErr
      have hnε' : ε * n * (2 * τ) ≤ τ := by
        have : ε * n ≤ 1 / 8 := by
          have : ε * 2 ^ 50 = 1 / 8 := by norm_num
          nlinarith
        nlinarith
      have hεW : 0 ≤ ε * W ^ 2 := by positivity
      nlinarith
    have hfin : n * sumErr M W (n + 1) = (n - 1) * sumErr M W (n + 1) + sumErr M W (n + 1) := by ring
    linarith

/-- The sum of squares beside the exact one. -/
theorem sum_near (x : F64) (xs : List F64) {lo hi M : ℚ} (hlo : |lo| ≤ M) (hhi : |hi| ≤ M) (hM : M ≤ pow2 450)
    (hfin : ∀ y ∈ x :: xs, y.isFinite = true ∧ lo ≤ y.val ∧ y.val ≤ hi) (hlen : (x :: xs).length ≤ 2 ^ 50) :
    (collect (x :: xs)).sumSquared.isFinite = true ∧ 0 ≤ (collect (x :: xs)).sumSquared.val ∧
    (collect (x :: xs)).sumSquared.val ≤ (((x :: xs).length : ℚ) - 1) * (2 * (hi - lo) ^ 2 + 2 * τ) ∧
    |(collect (x :: xs)).sumSquared.val - (collect ((x :: xs).map val)).sumSquared| ≤
      (((x :: xs).length : ℚ) - 1) * sumErr M (hi - lo) (x :: xs).length := by
  have hin : ∀ v : ℚ, lo ≤ v → v ≤ hi → |v| ≤ M := fun v h1 h2 => by
    rw [abs_le] at *; constructor <;> linarith [hlo.1, hhi.2]
  have h450 : pow2 450 < pow2 1023 := pow2_lt.2 (by norm_num)
  have hM' : M < pow2 1023 := hM.trans_lt h450
  induction xs using List.reverseRecOn with
  | nil =>
    have : (collect [x]).sumSquared = F64.zero := F64.lit_zero
    have h2 : (collect ([x].map val)).sumSquared = 0 := by
      show ((0 : ℚ)) = 0
      rfl
    rw [this, h2]
    refine ⟨rfl, le_rfl, ?_, ?_⟩ <;> simp
  | append_singleton ys y ih =>
    have hsubs : ∀ z ∈ x :: ys, z ∈ x :: (ys ++ [y]) := by
      intro z hz
      simp only [List.mem_cons, List.mem_append] at hz ⊢; tauto
    have hlen' : (x :: ys).length + 1 ≤ 2 ^ 50 := by simpa using hlen
    obtain ⟨i1, i2, i3, i4⟩ := ih (fun z hz => hfin z (hsubs z hz)) (by omega)
    obtain ⟨a1, a2, a3, a4⟩ := avg_near x ys hlo hhi hM' (fun z hz => hfin z (hsubs z hz)) (by omega)
    obtain ⟨b1, b2, b3, b4⟩ := avg_near x (ys ++ [y]) hlo hhi hM' hfin (by omega)
    obtain ⟨s1, s2, -⟩ := sum_bound x (ys ++ [y]) (fun z hz => ⟨(hfin z hz).1,
      (hin _ (hfin z hz).2.1 (hfin z hz).2.2).trans hM⟩) (by omega)
    have hy := hfin y (by simp)
    have e : collect (x :: (ys ++ [y])) = (collect (x :: ys)).record y := collect_concat (x :: ys) y
    have e' : collect ((x :: (ys ++ [y])).map val) = (collect ((x :: ys).map val)).record y.val := by
      have : (x :: (ys ++ [y])).map val = (x :: ys).map val ++ [y.val] := by simp
      rw [this, collect_concat]
    have hc := collect_count_ne x ys
    have hcount := collect_count (x :: ys)
    have hc' : (collect ((x :: ys).map val)).count ≠ 0 := by rw [collect_count]; simp
    obtain ⟨f1, f2⟩ := record_fields (collect (x :: ys)) y hc
    have r2 := record_sumSquared (collect ((x :: ys).map val)) y.val hc'
    rw [← e] at f1 f2
    rw [← e'] at r2
    simp only [Arith.add, Arith.sub, Arith.mul] at r2
    have hl : ((x :: (ys ++ [y])).length : ℚ) = ((x :: ys).length : ℚ) + 1 := by
      have : (x :: (ys ++ [y])).length = (x :: ys).length + 1 := by simp
      rw [this]; push_cast; ring
    have hn1 : (1 : ℚ) ≤ ((x :: ys).length : ℚ) := by
      have : 1 ≤ (x :: ys).length := by simp
      exact_mod_cast this
    have hn2 : 2 ≤ (x :: ys).length + 1 := by simp
    have hn3 : ((x :: ys).length : ℚ) + 1 ≤ 2 ^ 50 := by exact_mod_cast hlen'
    have yb := (hin _ hy.2.1 hy.2.2)
    have ab := (hin _ a2.1 a2.2)
    rw [hcount] at f1 f2
    obtain ⟨-, -, w3⟩ := F64.welford_step (n := (x :: ys).length + 1) hy.1 a1 (yb.trans_lt hM') (ab.trans_lt hM') hn2
      (by omega)
    obtain ⟨-, -, sg, hsg⟩ := F64.welford_val (n := (x :: ys).length + 1) hy.1 a1 (yb.trans_lt hM') (ab.trans_lt hM') hn2
      (by omega)
    rw [← f1] at w3 hsg f2
    have hd : ∀ v : ℚ, lo ≤ v → v ≤ hi → |y.val - v| ≤ hi - lo := fun v h1 h2 => by
      rw [abs_le]; constructor <;> linarith [hy.2.1, hy.2.2]
    have hW0 : 0 ≤ hi - lo := by linarith [hy.2.1, hy.2.2]
    have hM0 : 0 ≤ M := (abs_nonneg _).trans hlo
    have tn := term_near (F64.fmt_val y) (F64.fmt_val (collect (x :: ys)).avg) (F64.fmt_val (collect (x :: (ys ++ [y]))).avg)
      (hd _ a2.1 a2.2) (hd _ b2.1 b2.2)
    have hqb : |(y.val - (collect (x :: ys)).avg.val) * (y.val - (collect (x :: (ys ++ [y]))).avg.val)| ≤ (hi - lo) ^ 2 := by
      rw [abs_mul, sq]
      exact mul_le_mul (hd _ a2.1 a2.2) (hd _ b2.1 b2.2) (abs_nonneg _) hW0
    -- the product does not overflow
    have ht : ((y.sub (collect (x :: ys)).avg).mul (y.sub (collect (x :: (ys ++ [y]))).avg)).isFinite = true := by
      generalize (y.sub (collect (x :: ys)).avg).mul (y.sub (collect (x :: (ys ++ [y]))).avg) = t at *
      rcases F64.nonneg_cases w3 with h | h
      · rw [h] at f2
        rw [f2] at s1
        generalize (collect (x :: ys)).sumSquared = S at *
        cases S with
        | nan => cases i1
        | inf s => cases i1
        | nzero => cases s1
        | fin q hq => cases s1
      · exact h.1
    have tv : ((y.sub (collect (x :: ys)).avg).mul (y.sub (collect (x :: (ys ++ [y]))).avg)).val =
        rndQ (rndQ (y.val - (collect (x :: ys)).avg.val) * rndQ (y.val - (collect (x :: (ys ++ [y]))).avg.val)) := by
      rw [hsg] at ht ⊢
      by_cases hb : |rndQ (rndQ (y.val - (collect (x :: ys)).avg.val) * rndQ (y.val - (collect (x :: (ys ++ [y]))).avg.val))| <
          pow2 1024
      · exact (round_finite hb).2
      · rw [round_overflow hb] at ht; cases ht
    rw [F64.zero_le_finite ht] at w3
    rw [← tv] at tn
    have sv : (collect (x :: (ys ++ [y]))).sumSquared.val = rndQ ((collect (x :: ys)).sumSquared.val +
        ((y.sub (collect (x :: ys)).avg).mul (y.sub (collect (x :: (ys ++ [y]))).avg)).val) := by
      rw [f2] at s1 ⊢
      rw [add_finite i1 ht] at s1 ⊢
      by_cases hb : |rndQ ((collect (x :: ys)).sumSquared.val +
        ((y.sub (collect (x :: ys)).avg).mul (y.sub (collect (x :: (ys ++ [y]))).avg)).val)| < pow2 1024
      · exact (round_finite hb).2
      · rw [round_overflow hb] at s1; cases s1
    have hqq : |(y.val - (collect (x :: ys)).avg.val) * (y.val - (collect (x :: (ys ++ [y]))).avg.val) -
        (y.val - (collect ((x :: ys).map val)).avg) * (y.val - (collect ((x :: (ys ++ [y])).map val)).avg)| ≤
        (hi - lo) * (|(collect (x :: ys)).avg.val - (collect ((x :: ys).map val)).avg| +
          |(collect (x :: (ys ++ [y]))).avg.val - (collect ((x :: (ys ++ [y])).map val)).avg|) := by
      have h1 := hd _ b2.1 b2.2
      have h2 := hd _ a3.1 a3.2
      generalize (collect (x :: ys)).avg.val = a at *
      generalize (collect (x :: (ys ++ [y]))).avg.val = a' at *
      generalize (collect ((x :: ys).map val)).avg = m at *
      generalize (collect ((x :: (ys ++ [y])).map val)).avg = m' at *
      have : (y.val - a) * (y.val - a') - (y.val - m) * (y.val - m') = -((a - m) * (y.val - a') + (a' - m') * (y.val - m)) := by
        ring
      rw [this, abs_neg]
      refine (abs_add_le _ _).trans ?_
      rw [abs_mul, abs_mul, mul_add, mul_comm (hi - lo), mul_comm (hi - lo)]
      exact add_le_add (mul_le_mul_of_nonneg_left h1 (abs_nonneg _)) (mul_le_mul_of_nonneg_left h2 (abs_nonneg _))
    rw [hl] at b4 ⊢
    obtain ⟨k1, k2⟩ := sum_step hW0 hM0 hn1 hn3 (F64.fmt_val _) (F64.fmt_val _) i2 w3 i3 hqb tn hqq a4 b4 i4
    rw [← sv] at k1
    rw [← sv, ← r2] at k2
    rw [add_sub_cancel_right]
    exact ⟨s1, s2, k1, k2⟩

end Stats
end RG
