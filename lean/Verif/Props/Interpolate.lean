import Verif.Proofs.Interpolate

/-!
# Properties C18–C19: interpolation
-/

namespace RG.Props
open RG

-- documentation examples (tests): lib.rs:36-37 and 59-60
example : interpolateF64 (F64.lit 0) (F64.lit 10) (F64.lit (1 / 2)) = F64.lit 5 := by decide +kernel
example : interpolateUsize 0 10 (F64.lit (1 / 2)) = .ok 5 := by decide +kernel

/-! ### C18 -/

/-- **C18** Exact arithmetic: `a` at ratio 0, `b` at ratio 1, between `a` and `b` for a ratio in `[0,1]`, and monotone in
the ratio (increasing if `a ≤ b`, decreasing if `b ≤ a`). -/
theorem C18_exact {K : Type} [Field K] [LinearOrder K] [IsStrictOrderedRing K] (a b r r' : K) :
    interpolateF64 a b (0 : K) = a ∧ interpolateF64 a b (1 : K) = b ∧
    (0 ≤ r → r ≤ 1 → min a b ≤ interpolateF64 a b r ∧ interpolateF64 a b r ≤ max a b) ∧
    (r ≤ r' → a ≤ b → interpolateF64 a b r ≤ interpolateF64 a b r') ∧
    (r ≤ r' → b ≤ a → interpolateF64 a b r' ≤ interpolateF64 a b r) := by
  have e : ∀ t : K, interpolateF64 a b t = a + (b - a) * t := fun _ => rfl
  simp only [e]
  refine ⟨by ring, by ring, fun h0 h1 => ?_, fun h hab => ?_, fun h hab => ?_⟩
  · rcases le_total a b with hab | hab
    · rw [min_eq_left hab, max_eq_right hab]
      constructor <;> nlinarith
    · rw [min_eq_right hab, max_eq_left hab]
      constructor <;> nlinarith
  · nlinarith
  · nlinarith

/-- **C18** In `f64`: for bounds and ratio in `[0,1]` the result is a number in `[0,1]`. -/
theorem C18_f64 (a b r : F64) (ha : F64.zero.le a = true ∧ a.le F64.one = true)
    (hb : F64.zero.le b = true ∧ b.le F64.one = true) (hr : F64.zero.le r = true ∧ r.le F64.one = true) :
    F64.zero.le (interpolateF64 a b r) = true ∧ (interpolateF64 a b r).le F64.one = true := by
  rw [F64.unit_interval] at *
  obtain ⟨h1, -, h3, h4⟩ := interp_val ha.1 hb.1 hr.1 ha.2.1 ha.2.2 hb.2.1 hb.2.2 hr.2.1 hr.2.2
  exact ⟨h1, h3, h4⟩

/-- **C18** In `f64`, with bounds and ratios in `[0,1]`, the result at ratio 0 is (numerically) `a`, and the result is
monotone in the ratio. -/
theorem C18_f64_monotone (a b r r' : F64) (ha : F64.zero.le a = true ∧ a.le F64.one = true)
    (hb : F64.zero.le b = true ∧ b.le F64.one = true) (hr : F64.zero.le r = true) (hrr : r.le r' = true)
    (hr' : r'.le F64.one = true) :
    (interpolateF64 a b F64.zero).feq a = true ∧
    (a.le b = true → (interpolateF64 a b r).le (interpolateF64 a b r') = true) ∧
    (b.le a = true → (interpolateF64 a b r').le (interpolateF64 a b r) = true) := by
  have hr1 : F64.zero.le r = true ∧ r.le F64.one = true := ⟨hr, F64.le_trans hrr hr'⟩
  have hr2 : F64.zero.le r' = true ∧ r'.le F64.one = true := ⟨F64.le_trans hr hrr, hr'⟩
  rw [F64.unit_interval] at *
  rw [F64.le_finite hr1.1 hr2.1] at hrr
  obtain ⟨f1, v1, -⟩ := interp_val ha.1 hb.1 hr1.1 ha.2.1 ha.2.2 hb.2.1 hb.2.2 hr1.2.1 hr1.2.2
  obtain ⟨f2, v2, -⟩ := interp_val ha.1 hb.1 hr2.1 ha.2.1 ha.2.2 hb.2.1 hb.2.2 hr2.2.1 hr2.2.2
  obtain ⟨f0, v0, -⟩ := interp_val (r := F64.zero) ha.1 hb.1 rfl ha.2.1 ha.2.2 hb.2.1 hb.2.2 (by simp) (by simp)
  refine ⟨?_, fun h => ?_, fun h => ?_⟩
  · rw [F64.feq_iff]
    refine ⟨F64.isNaN_of_finite f0, F64.isNaN_of_finite ha.1, ?_⟩
    rw [F64.key_eq_finite f0 ha.1, v0]
    simp only [F64.val_zero, mul_zero, rndQ_zero, add_zero]
    exact rndQ_of_fmt (F64.fmt_val a)
  · rw [F64.le_finite ha.1 hb.1] at h
    rw [F64.le_finite f1 f2, v1, v2]
    have : 0 ≤ rndQ (b.val - a.val) := rndQ_nonneg (by linarith)
    apply rndQ_mono
    have := rndQ_mono (mul_le_mul_of_nonneg_left hrr this)
    linarith
  · rw [F64.le_finite hb.1 ha.1] at h
    rw [F64.le_finite f2 f1, v1, v2]
    have : rndQ (b.val - a.val) ≤ 0 := rndQ_nonpos (by linarith)
    apply rndQ_mono
    have := rndQ_mono (mul_le_mul_of_nonpos_left hrr this)
    linarith

/-- **C18** (rounding matters) In `f64`, ratio 1 need not give the upper bound, and can exceed it: with
`a = 148/300`, `b = 299/300` (as `f64`) the result is greater than `b`. -/
theorem C18_f64_exceeds_counterexample :
    (F64.lit (299 / 300)).lt (interpolateF64 (F64.lit (148 / 300)) (F64.lit (299 / 300)) F64.one) = true := by
  decide +kernel

example : (F64.zero.le (F64.lit (148 / 300)) = true ∧ (F64.lit (148 / 300)).le F64.one = true) := by decide +kernel

/-! ### C19 -/

/-- **C19** For `min ≤ max ≤ 2^53` and a ratio in `[0,1]`: no panic, result between `min` and `max`, and it is the
truncation of the twice rounded `min + (max-min)*ratio`. -/
theorem C19_between (min max : Nat) (h1 : min ≤ max) (h2 : max ≤ 2 ^ 53) (r : F64)
    (hr : F64.zero.le r = true ∧ r.le F64.one = true) :
    ∃ k, interpolateUsize min max r = .ok k ∧ min ≤ k ∧ k ≤ max := by
  rw [F64.unit_interval] at hr
  obtain ⟨f, v⟩ := usize_val min max h1 h2 r hr
  have hb : Rep ((max - min : Nat) : ℚ) := rep_nat (by omega)
  refine ⟨_, by unfold interpolateUsize usizeSub; rw [if_pos h1]; rfl, F64.le_toUsize f ?_ (by omega),
    F64.toUsize_le f ?_⟩
  · rw [v]
    apply le_rndQ (rep_nat (by omega)).1
    have := rndQ_nonneg (mul_nonneg (Nat.cast_nonneg (α := ℚ) (max - min)) hr.2.1)
    linarith
  · rw [v]
    apply rndQ_le (rep_nat h2).1
    have : rndQ ((max - min : Nat) * r.val) ≤ ((max - min : Nat) : ℚ) :=
      rndQ_le hb.1 (mul_le_of_le_one_right (by positivity) hr.2.2)
    have e : ((max - min : Nat) : ℚ) = max - min := Nat.cast_sub h1
    linarith

/-- **C19** Ratio 0 gives `min` and ratio 1 gives `max` (bounds up to `2^53`). -/
theorem C19_ends (min max : Nat) (h1 : min ≤ max) (h2 : max ≤ 2 ^ 53) :
    interpolateUsize min max F64.zero = .ok min ∧ interpolateUsize min max F64.one = .ok max := by
  have key : ∀ r : F64, r.isFinite = true ∧ 0 ≤ r.val ∧ r.val ≤ 1 → ∀ m : Nat, m ≤ 2 ^ 53 →
      rndQ (min + rndQ ((max - min : Nat) * r.val)) = m → interpolateUsize min max r = .ok m := by
    intro r hr m hm he
    obtain ⟨f, v⟩ := usize_val min max h1 h2 r hr
    have : interpolateUsize min max r = .ok ((F64.ofNat min).add ((F64.ofNat (max - min)).mul r)).toUsize := by
      unfold interpolateUsize usizeSub; rw [if_pos h1]; rfl
    rw [this]
    congr 1
    rw [he] at v
    exact le_antisymm (F64.toUsize_le f v.le) (F64.le_toUsize f v.ge (by omega))
  constructor
  · refine key F64.zero ⟨rfl, by simp, by simp⟩ min (by omega) ?_
    simp only [F64.val_zero, mul_zero, rndQ_zero, add_zero]
    exact rndQ_of_fmt (rep_nat (by omega)).1
  · refine key F64.one ⟨rfl, by simp, by simp⟩ max h2 ?_
    simp only [F64.val_one, mul_one]
    rw [rndQ_of_fmt (rep_nat (by omega)).1, Nat.cast_sub h1, add_sub_cancel]
    exact rndQ_of_fmt (rep_nat h2).1

/-- **C19** From 0 with a ratio below 1 the result is strictly below `max`. -/
theorem C19_strict (max : Nat) (h0 : 0 < max) (h2 : max ≤ 2 ^ 53) (r : F64)
    (hr : F64.zero.le r = true ∧ r.lt F64.one = true) :
    ∃ k, interpolateUsize 0 max r = .ok k ∧ k < max := by
  have hr' : r.isFinite = true ∧ 0 ≤ r.val ∧ r.val ≤ 1 := F64.unit_interval.1 ⟨hr.1, F64.le_of_lt hr.2⟩
  have hlt : r.val < 1 := by have := hr.2; rwa [F64.lt_finite hr'.1 rfl] at this
  obtain ⟨f, v⟩ := usize_val 0 max (by omega) h2 r hr'
  refine ⟨_, by unfold interpolateUsize usizeSub; rw [if_pos (by omega)]; rfl, F64.toUsize_lt f ?_ h0⟩
  rw [v]
  simp only [Nat.cast_zero, zero_add, Nat.sub_zero]
  rw [rndQ_of_fmt (fmt_rndQ _)]
  exact rndQ_mul_lt (by exact_mod_cast h0) (F64.fmt_val r) hr'.2.1 hlt

/-- **C19** It panics exactly when `max < min` (overflow check of `usize` subtraction), whatever the ratio. -/
theorem C19_panic (min max : Nat) (r : F64) : interpolateUsize min max r = .panic ↔ max < min := by
  unfold interpolateUsize usizeSub
  by_cases h : min ≤ max
  · simp [h]
  · simp [h]; omega

-- the truncation is of the rounded product: 100 * 0.29 is just below 29
example : interpolateUsize 0 100 (F64.lit (29 / 100)) = .ok 28 ∧ interpolateUsize 0 100 (F64.lit (1 / 100)) = .ok 1 := by
  decide +kernel

end RG.Props
