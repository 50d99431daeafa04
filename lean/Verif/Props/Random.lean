import Verif.Proofs.Random

/-!
# Properties C15–C17: random pairs and ranges
-/

namespace RG.Props
open RG

/-! ### C15 -/

/-- **C15** `random_pair(n)` panics exactly for `n < 2`; otherwise its possible results are exactly the ordered pairs of
distinct indices below `n`. -/
theorem C15_random_pair (n : Nat) :
    (n < 2 → ∀ r, (randomPair n).yields r ↔ r = .panic) ∧
    (2 ≤ n → ∀ r, (randomPair n).yields r ↔ ∃ a b, a < n ∧ b < n ∧ a ≠ b ∧ r = .ok (a, b)) := by
  refine ⟨fun h r => ?_, fun h r => ?_⟩
  · rw [yields_randomPair]
    constructor
    · rintro (⟨-, h'⟩ | ⟨h', -⟩)
      · exact h'
      · omega
    · intro h'; exact Or.inl ⟨h, h'⟩
  · rw [yields_randomPair]
    constructor
    · rintro (⟨h', -⟩ | ⟨-, h'⟩)
      · omega
      · exact h'
    · intro h'; exact Or.inr ⟨h, h'⟩

/-- **C15** Each of the `n (n-1)` ordered pairs has the same probability. -/
theorem C15_random_pair_uniform (n a b : Nat) (ha : a < n) (hb : b < n) (hab : a ≠ b) :
    (randomPair n).prob (· = (a, b)) = 1 / (n * (n - 1)) := by
  have h2 : 2 ≤ n := by omega
  unfold randomPair
  simp only [h2, decide_true, Res.assert_true, Prog.lift_ok, Prog.bind_pure_left]
  rw [Prog.prob_rangeExcl_bind 0 n (by omega), Finset.sum_eq_single a]
  · rw [Prog.prob_rangeExcl_bind 0 (n - 1) (by omega), Finset.sum_eq_single (if b ≤ a then b else b - 1)]
    · have : (if (if b ≤ a then b else b - 1) ≥ a then (if b ≤ a then b else b - 1) + 1
          else (if b ≤ a then b else b - 1)) = b := by split <;> split <;> omega
      simp only [Prog.prob_pure, this, if_true]
      rw [Nat.cast_sub (by omega)]
      have h1 : (n : ℚ) - 1 ≠ 0 := by
        have : (2 : ℚ) ≤ n := by exact_mod_cast h2
        linarith
      have h0 : (n : ℚ) ≠ 0 := by
        have : (2 : ℚ) ≤ n := by exact_mod_cast h2
        linarith
      push_cast
      field_simp
      ring
    · intro c _ hc
      rw [Prog.prob_pure, if_neg]
      rw [Prod.mk.injEq]
      rintro ⟨-, h⟩
      apply hc
      split at h <;> split <;> omega
    · intro h; exact absurd (Finset.mem_Ico.2 ⟨by omega, by split <;> omega⟩) h
  · intro c _ hc
    rw [Prog.prob_rangeExcl_bind 0 (n - 1) (by omega), Finset.sum_eq_zero, zero_div]
    intro d _
    rw [Prog.prob_pure, if_neg]
    rw [Prod.mk.injEq]
    exact fun h => hc h.1
  · intro h; exact absurd (Finset.mem_Ico.2 ⟨by omega, ha⟩) h

example : (randomPair 10).prob (· = (4, 5)) = 1 / 90 := by
  rw [C15_random_pair_uniform 10 4 5 (by omega) (by omega) (by omega)]; norm_num

/-! ### C16 -/

/-- **C16** With `min ≤ max ≤ n`, `bounded_random_range` never panics and its possible results are exactly the ranges
inside `0..n` with a length between `min` and `max`. -/
theorem C16_bounded_random_range (n min max : Nat) (h1 : min ≤ max) (h2 : max ≤ n) (r : Res URange) :
    (boundedRandomRange n min max).yields r ↔
      ∃ s e, r = .ok ⟨s, e⟩ ∧ s ≤ e ∧ e ≤ n ∧ min ≤ e - s ∧ e - s ≤ max := by
  rw [yields_boundedRandomRange]
  constructor
  · rintro (⟨h, -⟩ | ⟨s, l, ha, hb, hc, rfl⟩)
    · omega
    · exact ⟨s, s + l, rfl, by omega, hc, by omega, by omega⟩
  · rintro ⟨s, e, rfl, ha, hb, hc, hd⟩
    refine Or.inr ⟨s, e - s, hc, hd, by omega, ?_⟩
    congr 2; omega

/-- **C16** It always panics for `min > max`, and can panic (whatever else) whenever `max > n`. -/
theorem C16_bounded_random_range_panics (n min max : Nat) :
    (max < min → ∀ r, (boundedRandomRange n min max).yields r ↔ r = .panic) ∧
    (n < max → (boundedRandomRange n min max).yields .panic) ∧
    (min ≤ max → max ≤ n → ¬ (boundedRandomRange n min max).yields .panic) := by
  refine ⟨fun h r => ?_, fun h => ?_, fun h h' => ?_⟩
  · rw [yields_boundedRandomRange]
    constructor
    · rintro (⟨-, h'⟩ | ⟨s, l, ha, hb, -⟩)
      · exact h'
      · omega
    · rintro rfl; exact Or.inl ⟨Or.inl h, rfl⟩
  · rw [yields_boundedRandomRange]; exact Or.inl ⟨Or.inr h, rfl⟩
  · rw [C16_bounded_random_range n min max h h']; simp

/-- **C16** `random_range(n)` panics exactly for `n = 0`; otherwise its results are exactly the non-empty subranges. -/
theorem C16_random_range (n : Nat) (r : Res URange) :
    (n = 0 → ((randomRange n).yields r ↔ r = .panic)) ∧
    (n ≠ 0 → ((randomRange n).yields r ↔ ∃ s e, r = .ok ⟨s, e⟩ ∧ s < e ∧ e ≤ n)) := by
  unfold randomRange
  refine ⟨fun h => ?_, fun h => ?_⟩
  · subst h; simp [Prog.lift]
  · have : decide (n ≠ 0) = true := by simpa using h
    simp only [this, Res.assert_true, Prog.lift_ok, Prog.bind_pure_left]
    rw [C16_bounded_random_range n 1 n (by omega) le_rfl]
    constructor
    · rintro ⟨s, e, rfl, ha, hb, hc, hd⟩; exact ⟨s, e, rfl, by omega, hb⟩
    · rintro ⟨s, e, rfl, ha, hb⟩; exact ⟨s, e, rfl, by omega, hb, by omega, by omega⟩

example : (boundedRandomRange 10 3 5).yields (.ok ⟨3, 7⟩) :=
  (C16_bounded_random_range 10 3 5 (by omega) (by omega) _).2 ⟨3, 7, rfl, by omega⟩

/-! ### C17 -/

/-- **C17** The range `s..s+len` has probability `1 / ((max-min+1) (n-len+1))`. -/
theorem C17_distribution (n min max s len : Nat) (h1 : min ≤ len) (h2 : len ≤ max) (h3 : max ≤ n) (h4 : s + len ≤ n) :
    (boundedRandomRange n min max).prob (· = ⟨s, s + len⟩) = 1 / ((max - min + 1) * (n - len + 1)) :=
  prob_boundedRandomRange n min max s len h1 h2 h3 h4

/-- **C17** (the documented uniform distribution is false) As soon as two lengths are possible, two possible ranges have
different probabilities. -/
theorem C17_not_uniform_counterexample (n min max : Nat) (h1 : min < max) (h2 : max ≤ n) :
    ∃ r₁ r₂, (boundedRandomRange n min max).yields (.ok r₁) ∧ (boundedRandomRange n min max).yields (.ok r₂) ∧
      (boundedRandomRange n min max).prob (· = r₁) ≠ (boundedRandomRange n min max).prob (· = r₂) := by
  refine ⟨⟨0, 0 + min⟩, ⟨0, 0 + max⟩, ?_, ?_, ?_⟩
  · rw [C16_bounded_random_range n min max h1.le h2]; exact ⟨_, _, rfl, by omega⟩
  · rw [C16_bounded_random_range n min max h1.le h2]; exact ⟨_, _, rfl, by omega⟩
  · rw [C17_distribution n min max 0 min le_rfl h1.le h2 (by omega),
      C17_distribution n min max 0 max h1.le le_rfl h2 (by omega)]
    have e1 : (min : ℚ) < max := by exact_mod_cast h1
    have e2 : (max : ℚ) ≤ n := by exact_mod_cast h2
    refine (one_div_lt_one_div_of_lt ?_ ?_).ne
    · exact mul_pos (by linarith) (by linarith)
    · exact mul_lt_mul_of_pos_left (by linarith) (by linarith)

/-- **C17** For `random_range(2)`: 1/4, 1/4 and 1/2. -/
theorem C17_random_range_two_counterexample :
    (randomRange 2).prob (· = ⟨0, 1⟩) = 1 / 4 ∧ (randomRange 2).prob (· = ⟨1, 2⟩) = 1 / 4 ∧
      (randomRange 2).prob (· = ⟨0, 2⟩) = 1 / 2 := by
  have e : randomRange 2 = boundedRandomRange 2 1 2 := rfl
  rw [e]
  refine ⟨?_, ?_, ?_⟩
  · rw [show (⟨0, 1⟩ : URange) = ⟨0, 0 + 1⟩ from rfl, C17_distribution 2 1 2 0 1 (by omega) (by omega) (by omega)
      (by omega)]; norm_num
  · rw [show (⟨1, 2⟩ : URange) = ⟨1, 1 + 1⟩ from rfl, C17_distribution 2 1 2 1 1 (by omega) (by omega) (by omega)
      (by omega)]; norm_num
  · rw [show (⟨0, 2⟩ : URange) = ⟨0, 0 + 2⟩ from rfl, C17_distribution 2 1 2 0 2 (by omega) (by omega) (by omega)
      (by omega)]; norm_num

end RG.Props
