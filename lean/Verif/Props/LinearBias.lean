import Verif.Props.Linear

/-!
# C139 — Linear selection with any bias

`LinearSelection::new` accepts every bias (`selection.rs:440-442`). C44 describes the selection for a bias between 0 and 2 in exact arithmetic.
Here are all others: above 2 only the fittest can be selected, below 0 the fittest cannot.
-/

namespace RG.Props
open RG RG.Prog

/-- `F(x) = b x - (b-1) x²`. -/
noncomputable def linF (b x : ℝ) : ℝ := b * x - (b - 1) * x ^ 2

/-- The share of the fittest that is never selected. -/
noncomputable def linLow (b : ℝ) : ℝ := if b < 0 then b / (b - 1) else 0

/-- The share of the fittest out of which is selected. -/
noncomputable def linHigh (b : ℝ) : ℝ := if 2 < b then 1 / (b - 1) else 1

/-- A number, or the end of the range that is next to it. -/
noncomputable def linClip (b x : ℝ) : ℝ := max (linLow b) (min x (linHigh b))

theorem linX_between {b u : ℝ} (hb : b ≠ 1) (h0 : 0 ≤ u) (h1 : u < 1) : linLow b ≤ linX b u ∧ linX b u < linHigh b := by
  obtain ⟨g1, g2, -⟩ := linX_spec hb h0 h1
  constructor
  · unfold linLow
    split
    · rename_i h
      have hs : -b ≤ Real.sqrt (b * b - 4 * (b - 1) * u) := by
        apply Real.le_sqrt_of_sq_le
        nlinarith [mul_nonneg (show (0 : ℝ) ≤ 1 - b by linarith) h0]
      unfold linX
      rw [div_div, le_div_iff_of_neg (by linarith)]
      have hd : b / (b - 1) * (2 * (b - 1)) = 2 * b := by
        have : b - 1 ≠ 0 := sub_ne_zero.2 hb
        field_simp
      rw [hd]
      linarith
    · exact g1
  · unfold linHigh
    split
    · rename_i h
      have hs : b - 2 < Real.sqrt (b * b - 4 * (b - 1) * u) := by
        apply Real.lt_sqrt_of_sq_lt
        nlinarith [mul_pos (show (0 : ℝ) < b - 1 by linarith) (sub_pos.2 h1)]
      unfold linX
      rw [div_div, div_lt_div_iff₀ (by linarith) (by linarith)]
      nlinarith
    · exact g2

theorem linF_strict {b : ℝ} (hb : b ≠ 1) {x y : ℝ} (hx : linLow b ≤ x) (hxy : x < y) (hy : y ≤ linHigh b) : linF b x < linF b y := by
  have key : 0 < b - (b - 1) * (x + y) := by
    unfold linLow at hx
    unfold linHigh at hy
    split at hx
    · rename_i h
      rw [if_neg (by linarith)] at hy
      rw [div_le_iff_of_neg (by linarith)] at hx
      nlinarith
    · rename_i h
      split at hy
      · rename_i h2
        rw [le_div_iff₀ (by linarith)] at hy
        nlinarith
      · rename_i h2
        rcases lt_or_gt_of_ne hb with h3 | h3
        · nlinarith [mul_pos (show (0 : ℝ) < 1 - b by linarith) (show 0 < x + y by linarith)]
        · nlinarith
  unfold linF
  nlinarith [mul_pos (sub_pos.2 hxy) key]

/-- **C139** `new` and a strategy accept every bias, and the selector has that bias. -/
theorem C139_new (b : F64) :
    (LinearSelection.new b).bias = b ∧ (SelectionStrategy.linear b).createSelector = .ok (.linear ⟨b⟩) := ⟨rfl, rfl⟩

/-- **C139** For every bias other than 1, the `j`-th fittest individual (`j = 0` is the fittest) is selected exactly for the draws between
`F(j/n)` and `F((j+1)/n)`, where the argument of `F(x) = b x - (b-1) x²` is clipped to the range of shares that can be selected. -/
theorem C139_draws (b : ℝ) (hb : b ≠ 1) (n : Nat) (hn : 0 < n) (u : ℝ) (h0 : 0 ≤ u) (h1 : u < 1) (j : Nat) (hj : j < n) :
    (⟨b⟩ : LinearSelection ℝ).selectIndex Nat.floor n u = .ok (n - 1 - j) ↔
      linF b (linClip b (j / n)) ≤ u ∧ u < linF b (linClip b ((j + 1) / n)) := by
  obtain ⟨h2, h3, h4⟩ := linX_spec hb h0 h1
  obtain ⟨h5, h6⟩ := linX_between hb h0 h1
  have hnpos : (0 : ℝ) < n := by exact_mod_cast hn
  have hlt : ⌊(⟨b⟩ : LinearSelection ℝ).offset n u⌋₊ < n := by
    rw [offset_exact, Nat.floor_lt (by positivity)]; nlinarith
  have hL : linF b (linX b u) = u := h4
  have hle : ∀ x : ℝ, x ≤ linX b u ↔ linF b (linClip b x) ≤ u := by
    intro x
    have c1 : linLow b ≤ linClip b x := le_max_left _ _
    have c2 : linClip b x ≤ linHigh b := max_le (h5.trans h6.le) (min_le_right _ _)
    have c3 : x ≤ linX b u ↔ linClip b x ≤ linX b u := by
      unfold linClip
      rw [max_le_iff, min_le_iff]
      exact ⟨fun h => ⟨h5, Or.inl h⟩, fun h => h.2.resolve_right (not_le.2 h6)⟩
    rw [c3]
    constructor
    · intro h
      rcases eq_or_lt_of_le h with h | h
      · rw [h]; exact hL.le
      · have := linF_strict hb c1 h h6.le; linarith
    · intro h
      by_contra hc
      have := linF_strict hb h5 (not_le.1 hc) c2
      linarith
  rw [selectIndex_lt hlt, ← hle, ← not_le, ← hle, not_le, div_le_iff₀ hnpos, lt_div_iff₀ hnpos, mul_comm (linX b u)]
  rw [offset_exact] at hlt ⊢
  have hfl : ⌊(n : ℝ) * linX b u⌋₊ = j ↔ (j : ℝ) ≤ n * linX b u ∧ n * linX b u < j + 1 := by
    rw [Nat.floor_eq_iff (by positivity)]
  show Res.ok (n - 1 - ⌊(n : ℝ) * linX b u⌋₊) = _ ↔ _
  rw [← hfl]
  constructor
  · intro h; injection h with h; simp only at hlt; omega
  · intro h; rw [h]

/-- **C139** A bias above 2: only the `n / (b - 1)` fittest, rounded up, are selected. A bias below 0: the `n b / (b - 1)` fittest, rounded down,
never are. The `j`-th fittest has the index `n - 1 - j`. -/
theorem C139_range (b : ℝ) (hb : b ≠ 1) (n : Nat) (hn : 0 < n) (u : ℝ) (h0 : 0 ≤ u) (h1 : u < 1) :
    ∃ j, j < n ∧ (⟨b⟩ : LinearSelection ℝ).selectIndex Nat.floor n u = .ok (n - 1 - j) ∧
      (2 < b → (j : ℝ) < n / (b - 1)) ∧ (b < 0 → n * (b / (b - 1)) < j + 1) := by
  obtain ⟨h2, h3, -⟩ := linX_spec hb h0 h1
  obtain ⟨h5, h6⟩ := linX_between hb h0 h1
  have hnpos : (0 : ℝ) < n := by exact_mod_cast hn
  have hlt : ⌊(⟨b⟩ : LinearSelection ℝ).offset n u⌋₊ < n := by
    rw [offset_exact, Nat.floor_lt (by positivity)]; nlinarith
  refine ⟨_, hlt, selectIndex_lt hlt, fun h => ?_, fun h => ?_⟩
  · rw [offset_exact]
    show ((⌊(n : ℝ) * linX b u⌋₊ : Nat) : ℝ) < _
    refine lt_of_le_of_lt (Nat.floor_le (by positivity)) ?_
    rw [linHigh, if_pos h] at h6
    have := mul_lt_mul_of_pos_left h6 hnpos
    rwa [mul_one_div] at this
  · rw [offset_exact]
    show _ < ((⌊(n : ℝ) * linX b u⌋₊ : Nat) : ℝ) + 1
    refine lt_of_le_of_lt ?_ (Nat.lt_floor_add_one _)
    rw [linLow, if_pos h] at h5
    exact mul_le_mul_of_nonneg_left h5 hnpos.le

/-- **C139** With a bias of at least `n + 1` the fittest of `n` individuals is always selected, and with one of at most `1 - n` the least fit. -/
theorem C139_extreme (b : ℝ) (n : Nat) (hn : 0 < n) (u : ℝ) (h0 : 0 ≤ u) (h1 : u < 1) :
    ((n : ℝ) + 1 ≤ b → (⟨b⟩ : LinearSelection ℝ).selectIndex Nat.floor n u = .ok (n - 1)) ∧
    (b ≤ 1 - n → b < 0 → (⟨b⟩ : LinearSelection ℝ).selectIndex Nat.floor n u = .ok 0) := by
  have hnpos : (1 : ℝ) ≤ n := by exact_mod_cast hn
  constructor
  · intro h
    by_cases hn1 : n = 1
    · subst hn1
      obtain ⟨i, hi, e⟩ := C44_exact_in_range b (by norm_num at h; linarith) 1 hn u h0 h1
      rw [e]
      congr 1
      omega
    · have hn2 : (2 : ℝ) ≤ n := by exact_mod_cast (show 2 ≤ n by omega)
      obtain ⟨j, hj, e, h2, -⟩ := C139_range b (by linarith) n hn u h0 h1
      have := h2 (by linarith)
      rw [lt_div_iff₀ (by linarith)] at this
      have hj0 : j = 0 := by
        by_contra hc
        have : (1 : ℝ) ≤ j := by exact_mod_cast Nat.one_le_iff_ne_zero.2 hc
        nlinarith
      rw [e, hj0, Nat.sub_zero]
  · intro h hb
    obtain ⟨j, hj, e, -, h2⟩ := C139_range b (by linarith) n hn u h0 h1
    have h3 := h2 hb
    have hd : b / (b - 1) * (1 - b) = -b := by
      have : b - 1 ≠ 0 := by linarith
      field_simp
      ring
    have hjn : j = n - 1 := by
      by_contra hc
      have hj2 : (j : ℝ) + 1 ≤ n - 1 := by
        have : j + 1 + 1 ≤ n := by omega
        have : ((j + 1 + 1 : Nat) : ℝ) ≤ n := by exact_mod_cast this
        push_cast at this
        linarith
      have h4 : n * (b / (b - 1)) * (1 - b) < (n - 1) * (1 - b) := mul_lt_mul_of_pos_right (lt_of_lt_of_le h3 hj2) (by linarith)
      rw [mul_assoc, hd] at h4
      nlinarith
    rw [e, hjn]
    simp

/-! ### Examples -/

/-- With the bias 3, only the fittest half of ten individuals is selected. -/
example (u : ℝ) (h0 : 0 ≤ u) (h1 : u < 1) : ∃ j, j < 5 ∧ (⟨3⟩ : LinearSelection ℝ).selectIndex Nat.floor 10 u = .ok (10 - 1 - j) := by
  obtain ⟨j, -, e, h, -⟩ := C139_range 3 (by norm_num) 10 (by norm_num) u h0 h1
  have := h (by norm_num)
  norm_num at this
  exact ⟨j, by exact_mod_cast this, e⟩

/-- With the bias -1, the same half is never selected. -/
example (u : ℝ) (h0 : 0 ≤ u) (h1 : u < 1) : ∃ j, 5 ≤ j ∧ (⟨-1⟩ : LinearSelection ℝ).selectIndex Nat.floor 10 u = .ok (10 - 1 - j) := by
  obtain ⟨j, -, e, -, h⟩ := C139_range (-1) (by norm_num) 10 (by norm_num) u h0 h1
  have := h (by norm_num)
  norm_num at this
  refine ⟨j, ?_, e⟩
  have : 4 < j := by
    have : (4 : ℝ) < j := by linarith
    exact_mod_cast this
  omega

/-- With the bias 11 always the fittest of ten. -/
example : (⟨11⟩ : LinearSelection ℝ).selectIndex Nat.floor 10 (9 / 10) = .ok 9 :=
  (C139_extreme 11 10 (by norm_num) _ (by norm_num) (by norm_num)).1 (by norm_num)

end RG.Props
