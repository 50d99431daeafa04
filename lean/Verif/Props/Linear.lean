import Verif.Proofs.Linear

/-!
# Property C44: linear selection
-/

set_option linter.unusedSectionVars false

namespace RG.Props
open RG RG.Arith RG.Prog
variable {I : Type} [Individual I]

/-! ### Exact arithmetic: the index formula over the reals, `as usize` being the floor -/

/-- **C44** For every bias other than 1, every population size and every draw in `[0,1)` the index is in range. -/
theorem C44_exact_in_range (b : ℝ) (hb : b ≠ 1) (n : Nat) (hn : 0 < n) (u : ℝ) (h0 : 0 ≤ u) (h1 : u < 1) :
    ∃ i, i < n ∧ (⟨b⟩ : LinearSelection ℝ).selectIndex Nat.floor n u = .ok i := by
  obtain ⟨h2, h3, _⟩ := linX_spec hb h0 h1
  have hlt : ⌊(⟨b⟩ : LinearSelection ℝ).offset n u⌋₊ < n := by
    rw [offset_exact, Nat.floor_lt (by positivity)]
    have : (0 : ℝ) < n := by exact_mod_cast hn
    nlinarith
  exact ⟨_, by omega, selectIndex_lt hlt⟩

/-- **C44** Larger draws never select fitter individuals (those at larger indices). -/
theorem C44_exact_antitone (b : ℝ) (hb : b ≠ 1) (n : Nat) (hn : 0 < n) (u u' : ℝ) (h0 : 0 ≤ u) (h : u ≤ u') (h1 : u' < 1)
    (i i' : Nat) (hi : (⟨b⟩ : LinearSelection ℝ).selectIndex Nat.floor n u = .ok i)
    (hi' : (⟨b⟩ : LinearSelection ℝ).selectIndex Nat.floor n u' = .ok i') : i' ≤ i := by
  have hlt : ∀ v, 0 ≤ v → v < 1 → ⌊(⟨b⟩ : LinearSelection ℝ).offset n v⌋₊ < n := by
    intro v hv0 hv1
    obtain ⟨h2, h3, _⟩ := linX_spec hb hv0 hv1
    rw [offset_exact, Nat.floor_lt (by positivity)]
    have : (0 : ℝ) < n := by exact_mod_cast hn
    nlinarith
  rw [selectIndex_lt (hlt u h0 (h.trans_lt h1))] at hi
  rw [selectIndex_lt (hlt u' (h0.trans h) h1)] at hi'
  cases hi; cases hi'
  have : ⌊(⟨b⟩ : LinearSelection ℝ).offset n u⌋₊ ≤ ⌊(⟨b⟩ : LinearSelection ℝ).offset n u'⌋₊ := by
    refine Nat.floor_mono ?_
    rw [offset_exact, offset_exact]
    exact mul_le_mul_of_nonneg_left (linX_mono h) (by positivity)
  omega

/-- **C44** (distribution) For a bias in `[0,2]` other than 1, the `j`-th fittest individual (`j = 0` is the fittest) is
selected exactly for the draws between `F(j/n)` and `F((j+1)/n)`, where `F(x) = b x - (b-1) x²`. -/
theorem C44_exact_draws (b : ℝ) (hb : b ≠ 1) (hb0 : 0 ≤ b) (hb2 : b ≤ 2) (n : Nat) (hn : 0 < n) (u : ℝ) (h0 : 0 ≤ u)
    (h1 : u < 1) (j : Nat) (hj : j < n) :
    (⟨b⟩ : LinearSelection ℝ).selectIndex Nat.floor n u = .ok (n - 1 - j) ↔
      b * (j / n) - (b - 1) * (j / n) ^ 2 ≤ u ∧ u < b * ((j + 1) / n) - (b - 1) * ((j + 1) / n) ^ 2 := by
  obtain ⟨h2, h3, h4⟩ := linX_spec hb h0 h1
  have hnpos : (0 : ℝ) < n := by exact_mod_cast hn
  have hlt : ⌊(⟨b⟩ : LinearSelection ℝ).offset n u⌋₊ < n := by
    rw [offset_exact, Nat.floor_lt (by positivity)]; nlinarith
  -- `F` is strictly increasing on `[0,1]`
  have hF : ∀ x y : ℝ, 0 ≤ x → x < y → y ≤ 1 → b * x - (b - 1) * x ^ 2 < b * y - (b - 1) * y ^ 2 := by
    intro x y hx hxy hy
    have : 0 < (y - x) * (b - (b - 1) * (x + y)) := by
      apply mul_pos (sub_pos.2 hxy)
      rcases le_or_gt b 1 with h | h
      · have hb1 : b < 1 := lt_of_le_of_ne h hb
        have : 0 < (1 - b) * (x + y) := mul_pos (by linarith) (by linarith)
        linarith
      · have : (b - 1) * (x + y) < (b - 1) * 2 := mul_lt_mul_of_pos_left (by linarith) (by linarith)
        linarith
    nlinarith
  have hle : ∀ x : ℝ, 0 ≤ x → x ≤ 1 → (x ≤ linX b u ↔ b * x - (b - 1) * x ^ 2 ≤ u) := by
    intro x hx0 hx1
    constructor
    · intro h
      rcases eq_or_lt_of_le h with h | h
      · rw [← h] at h4; exact h4.le
      · have := hF x _ hx0 h h3.le; linarith
    · intro h
      by_contra hc
      push Not at hc
      have := hF _ x h2 hc hx1
      linarith
  have hj1 : (j : ℝ) / n ≤ 1 := by rw [div_le_one hnpos]; exact_mod_cast hj.le
  have hj2 : ((j : ℝ) + 1) / n ≤ 1 := by rw [div_le_one hnpos]; exact_mod_cast hj
  rw [selectIndex_lt hlt, ← hle _ (by positivity) hj1, ← not_le, ← hle _ (by positivity) hj2, not_le,
    div_le_iff₀ hnpos, lt_div_iff₀ hnpos, mul_comm (linX b u)]
  rw [offset_exact] at hlt ⊢
  have hfl : ⌊(n : ℝ) * linX b u⌋₊ = j ↔ (j : ℝ) ≤ n * linX b u ∧ n * linX b u < j + 1 := by
    rw [Nat.floor_eq_iff (by positivity)]
  show Res.ok (n - 1 - ⌊(n : ℝ) * linX b u⌋₊) = _ ↔ _
  rw [← hfl]
  constructor
  · intro h; injection h with h; simp only at hlt; omega
  · intro h; rw [h]

example : (⟨3 / 2⟩ : LinearSelection ℝ).selectIndex Nat.floor 10 (1 / 10) = .ok (10 - 1 - 0) := by
  rw [C44_exact_draws _ (by norm_num) (by norm_num) (by norm_num) 10 (by norm_num) _ (by norm_num) (by norm_num) 0
    (by norm_num)]
  norm_num

/-! ### `f64` -/

/-- **C44 fails in `f64`**: with bias 1.1 and ten individuals, the draw `1 - 2^-53` makes the index computation underflow. -/
theorem C44_f64_counterexample :
    (⟨F64.lit (11 / 10)⟩ : LinearSelection F64).selectIndex F64.toUsize 10 (F64.unit (2 ^ 53 - 1)) = .panic := by
  decide +kernel

/-- **C44 fails in `f64`**: linear selection with bias 1.1 from ten individuals can panic. -/
theorem C44_f64_can_panic (p : Population I) (hp : p.individuals.length = 10) :
    ((⟨F64.lit (11 / 10)⟩ : LinearSelection F64).select p).yields .panic := by
  unfold LinearSelection.select
  rw [yields_bind]
  refine Or.inl ⟨F64.unit (2 ^ 53 - 1), (yields_genF64 _).2 ⟨2 ^ 53 - 1, by norm_num, rfl⟩, ?_⟩
  rw [show p.len = 10 from hp, C44_f64_counterexample]
  rfl

/-- **C44 fails in `f64`**: the same happens for several other biases just above 1. -/
theorem C44_f64_more_counterexamples :
    ∀ b ∈ [(101 : ℚ) / 100, 102 / 100, 105 / 100, 107 / 100, 113 / 100, 117 / 100, 123 / 100, 146 / 100],
      (⟨F64.lit b⟩ : LinearSelection F64).selectIndex F64.toUsize 10 (F64.unit (2 ^ 53 - 1)) = .panic := by
  decide +kernel

/-- **C44** With bias 1 (the documented "no pressure" end) the formula divides 0 by 0, and the fittest individual is
selected whatever the draw. -/
theorem C44_bias_one (n : Nat) (hn : 0 < n) (hn' : n < 2 ^ 64) (k : Nat) (hk : k < 2 ^ 53) :
    (⟨F64.one⟩ : LinearSelection F64).selectIndex F64.toUsize n (F64.unit k) = .ok (n - 1) := by
  obtain ⟨u1, u2⟩ := F64.unit_val hk.le
  obtain ⟨n1, n2⟩ := F64.ofNat_finite hn'
  have e0 : F64.one.sub (F64.lit 1) = F64.zero := by decide +kernel
  have e1 : (F64.lit 4).mul F64.zero = F64.zero := by decide +kernel
  have e2 : F64.zero.mul (F64.unit k) = F64.zero := by
    have h : ∀ s, F64.round s 0 = if s then F64.nzero else F64.zero := by decide +kernel
    rw [F64.mul_finite rfl u1, F64.val_zero, zero_mul, h]
    have hs : (F64.unit k).signBit = false := by
      have h0 : 0 ≤ (F64.unit k).val := by rw [u2]; positivity
      cases hx : F64.unit k with
      | nan => rfl
      | inf s => rw [hx] at u1; cases u1
      | fin q hq => rw [hx] at h0; simpa [F64.signBit] using h0
      | nzero =>
        exfalso
        unfold F64.unit F64.round at hx
        split at hx
        · split at hx
          · rename_i h; exact absurd h.2 (by simp)
          · cases hx
        · cases hx
    rw [hs]
    simp [F64.signBit, F64.zero]
  have e3 : (F64.one.mul F64.one).sub F64.zero = F64.one := by decide +kernel
  have e4 : F64.one.sub (F64.sqrt F64.one) = F64.zero := by decide +kernel
  have hz : ((F64.ofNat n).mul F64.zero).isFinite = true ∧ ((F64.ofNat n).mul F64.zero).val = 0 := by
    rw [F64.mul_finite n1 rfl, F64.val_zero, mul_zero]; exact F64.round_rep rep_zero
  have hz2 : (((F64.ofNat n).mul F64.zero).div (F64.lit 2)).isFinite = true ∧
      (((F64.ofNat n).mul F64.zero).div (F64.lit 2)).val = 0 := by
    rw [F64.div_finite hz.1 lit2.1 (by rw [lit2.2]; norm_num), hz.2, zero_div]
    exact F64.round_rep rep_zero
  have hoff : (⟨F64.one⟩ : LinearSelection F64).offset n (F64.unit k) = F64.nan := by
    rw [offset_f64]
    simp only [linGap, e0, e1, e2, e3, e4]
    exact F64.div_zero_zero hz2.1 rfl hz2.2 rfl
  have hc : F64.toUsize ((⟨F64.one⟩ : LinearSelection F64).offset n (F64.unit k)) = 0 := by rw [hoff]; rfl
  rw [selectIndex_lt (by rw [hc]; exact hn), hc, Nat.sub_zero]

/-- **C44** With a NaN bias, too, always the fittest is selected. -/
theorem C44_bias_nan (n : Nat) (hn : 0 < n) (u : F64) :
    (⟨F64.nan⟩ : LinearSelection F64).selectIndex F64.toUsize n u = .ok (n - 1) := by
  have hoff : (⟨F64.nan⟩ : LinearSelection F64).offset n u = F64.nan := by
    rw [offset_f64]; simp
  have hc : F64.toUsize ((⟨F64.nan⟩ : LinearSelection F64).offset n u) = 0 := by rw [hoff]; rfl
  rw [selectIndex_lt (by rw [hc]; exact hn), hc, Nat.sub_zero]

/-- **C44** (`f64`, monotonicity) For a bias above 1 for which the number under the root is not negative at the largest
draw, larger draws never select fitter individuals in `f64` either. -/
theorem C44_f64_antitone (b : F64) (hf : b.isFinite = true) (h1 : 1 < b.val) (h2 : b.val ≤ 1024)
    (hD : F64.zero.le ((b.mul b).sub (((F64.lit 4).mul (b.sub F64.one)).mul (F64.unit (2 ^ 53 - 1)))) = true)
    (n : Nat) (hn : n ≤ 2 ^ 53) (k k' : Nat) (hk : k ≤ k') (hk' : k' < 2 ^ 53) (i i' : Nat)
    (hi : (⟨b⟩ : LinearSelection F64).selectIndex F64.toUsize n (F64.unit k) = .ok i)
    (hi' : (⟨b⟩ : LinearSelection F64).selectIndex F64.toUsize n (F64.unit k') = .ok i') : i' ≤ i := by
  rw [← F64.lit_one] at hD
  obtain ⟨d1, d2, _⟩ := linDisc_anti hf h1 h2 (show k' ≤ maxDraw by unfold maxDraw; omega) (by unfold maxDraw; norm_num)
  obtain ⟨d3, _, _⟩ := linDisc_anti hf h1 h2 (le_refl maxDraw) (by unfold maxDraw; norm_num)
  have hD' : 0 ≤ (linDisc b (F64.unit k')).val := ((F64.zero_le_finite d3).1 hD).trans d2
  have := offset_mono ⟨b⟩ hf h1 h2 hn hk hk'.le hD'
  have hcase : ∀ j x, (⟨b⟩ : LinearSelection F64).selectIndex F64.toUsize n (F64.unit j) = .ok x →
      F64.toUsize ((⟨b⟩ : LinearSelection F64).offset n (F64.unit j)) < n ∧
        x = n - 1 - F64.toUsize ((⟨b⟩ : LinearSelection F64).offset n (F64.unit j)) := by
    intro j x hx
    rcases Nat.lt_or_ge (F64.toUsize ((⟨b⟩ : LinearSelection F64).offset n (F64.unit j))) n with h | h
    · rw [selectIndex_lt h] at hx; cases hx; exact ⟨h, rfl⟩
    · rw [selectIndex_ge h] at hx; cases hx
  obtain ⟨_, e1⟩ := hcase k i hi
  obtain ⟨_, e2⟩ := hcase k' i' hi'
  omega

/-- **C44** (`f64`, criterion) Under the same condition, no draw at all panics if the largest one does not. -/
theorem C44_f64_criterion (b : F64) (hf : b.isFinite = true) (h1 : 1 < b.val) (h2 : b.val ≤ 1024)
    (hD : F64.zero.le ((b.mul b).sub (((F64.lit 4).mul (b.sub F64.one)).mul (F64.unit (2 ^ 53 - 1)))) = true)
    (n : Nat) (hn : n ≤ 2 ^ 53) (hmax : (⟨b⟩ : LinearSelection F64).selectIndex F64.toUsize n (F64.unit (2 ^ 53 - 1)) ≠ .panic)
    (k : Nat) (hk : k < 2 ^ 53) :
    ∃ i, i < n ∧ (⟨b⟩ : LinearSelection F64).selectIndex F64.toUsize n (F64.unit k) = .ok i := by
  rw [← F64.lit_one] at hD
  obtain ⟨d3, _, _⟩ := linDisc_anti hf h1 h2 (le_refl maxDraw) (by unfold maxDraw; norm_num)
  have hD' : 0 ≤ (linDisc b (F64.unit maxDraw)).val := (F64.zero_le_finite d3).1 hD
  have h := offset_mono ⟨b⟩ hf h1 h2 hn (show k ≤ maxDraw by unfold maxDraw; omega) (by unfold maxDraw; norm_num) hD'
  have hlt : F64.toUsize ((⟨b⟩ : LinearSelection F64).offset n (F64.unit maxDraw)) < n := by
    by_contra hc
    exact hmax (selectIndex_ge (Nat.le_of_not_lt hc))
  exact ⟨_, by omega, selectIndex_lt (h.trans_lt hlt)⟩

/-- **C44** (`f64`, safe biases) For the biases 1.25, 1.5 and 2, and for 1 and NaN (which always select the fittest), linear selection
from `1 ≤ n ≤ 2^53` individuals never fails. It does for 1.1 (`C44_f64_counterexample`). -/
theorem C44_safe_bias : (∀ b ∈ [(5 : ℚ) / 4, 3 / 2, 2], SafeBias (F64.lit b)) ∧ SafeBias F64.one ∧ SafeBias F64.nan ∧
    ¬ SafeBias (F64.lit (11 / 10)) := by
  refine ⟨fun b hb n hn0 hn k hk => ?_, fun n hn0 hn k hk => ⟨_, by omega, C44_bias_one n hn0 (hn.trans_lt (by norm_num)) k hk⟩,
    fun n hn0 hn k hk => ⟨_, by omega, C44_bias_nan n hn0 _⟩, fun h => ?_⟩
  · have facts : ∀ c ∈ [((5 : ℚ) / 4, 2), (3 / 2, 1), (2, 0)], ((F64.lit c.1).isFinite && decide (1 < (F64.lit c.1).val) &&
        decide ((F64.lit c.1).val ≤ 1024) && decide (((F64.lit c.1).sub (F64.lit 1)).val = pow2 (-((c.2 : Nat) : Int))) &&
        decide (0 ≤ (linDisc (F64.lit c.1) (F64.unit maxDraw)).val) &&
        decide (pow2 (-20) ≤ (linGap (F64.lit c.1) (F64.unit maxDraw)).val) &&
        decide ((linGap (F64.lit c.1) (F64.unit maxDraw)).val < pow2 (1 - (c.2 : Nat))) &&
        decide (((⟨F64.lit c.1⟩ : LinearSelection F64).offset 1 (F64.unit maxDraw)).toUsize < 1)) = true := by
      decide +kernel
    have hex : ∃ j, (b, j) ∈ [((5 : ℚ) / 4, 2), (3 / 2, 1), (2, 0)] ∧ j ≤ 2 := by
      simp only [List.mem_cons, List.not_mem_nil, or_false] at hb
      rcases hb with rfl | rfl | rfl
      · exact ⟨2, by simp, by omega⟩
      · exact ⟨1, by simp, by omega⟩
      · exact ⟨0, by simp, by omega⟩
    obtain ⟨j, hj, hj2⟩ := hex
    have hfa := facts _ hj
    simp only [Bool.and_eq_true, decide_eq_true_eq] at hfa
    obtain ⟨⟨⟨⟨⟨⟨⟨f1, f2⟩, f3⟩, f4⟩, f5⟩, f6⟩, f7⟩, f8⟩ := hfa
    have hmax : ((⟨F64.lit b⟩ : LinearSelection F64).offset n (F64.unit maxDraw)).toUsize < n := by
      rcases Nat.lt_or_ge n 2 with h | h
      · have : n = 1 := by omega
        rw [this]; exact f8
      · refine offset_lt ⟨F64.lit b⟩ f1 f2 f3 j (by omega) f4 hn0 hn ?_ f5 f6 f7
        have h2 : (2 : ℚ) ≤ n := by exact_mod_cast h
        have h3 : pow2 (-1) ≤ pow2 (1 - (j : Int)) := pow2_le.2 (by omega)
        have h4 : pow2 (-1) = 1 / 2 := by rw [pow2_eq]; norm_num
        rw [h4] at h3
        nlinarith
    have h := offset_mono ⟨F64.lit b⟩ f1 f2 f3 hn (show k ≤ maxDraw by unfold maxDraw; omega) (by unfold maxDraw; norm_num) f5
    exact ⟨_, by omega, selectIndex_lt (h.trans_lt hmax)⟩
  · obtain ⟨i, -, hi⟩ := h 10 (by omega) (by norm_num) (2 ^ 53 - 1) (by norm_num)
    rw [C44_f64_counterexample] at hi
    cases hi

/-- **C44** (`f64`, safe biases) So linear selection with one of these biases always returns a member with its index. -/
theorem C44_f64_safe (b : F64) (hb : SafeBias b) (p : Population I) (hp : p.individuals ≠ [])
    (hn : p.individuals.length ≤ 2 ^ 53) : Always (IsMember p) ((⟨b⟩ : LinearSelection F64).select p) := by
  unfold LinearSelection.select
  rw [always_bind, always_genF64]
  intro k hk
  obtain ⟨i, hi, he⟩ := hb p.len (List.length_pos_of_ne_nil hp) hn k hk
  rw [he, Prog.lift_ok, Prog.bind_pure_left]
  exact isMember_memberAt hi

/-- The condition of the criterion holds, for example, for bias 1.1, which fails it only by its last draw. -/
example : F64.zero.le (((F64.lit (11 / 10)).mul (F64.lit (11 / 10))).sub
    (((F64.lit 4).mul ((F64.lit (11 / 10)).sub F64.one)).mul (F64.unit (2 ^ 53 - 1)))) = true := by decide +kernel

end RG.Props
