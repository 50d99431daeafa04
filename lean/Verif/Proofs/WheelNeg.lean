import Verif.Proofs.WheelF64

/-!
# Lemmas for wheels with weights that are not positive (C83)
-/

namespace RG
open Arith

namespace F64

/-- Opposite numbers, up to the sign of zero. -/
def Opposite (a b : F64) : Prop :=
  (a.isFinite = true ∧ b.isFinite = true ∧ b.val = -a.val) ∨ (a = nan ∧ b = nan) ∨ ∃ s, a = inf s ∧ b = inf (!s)

theorem opposite_neg (a : F64) : Opposite a a.neg := by
  cases a with
  | nan => exact Or.inr (Or.inl ⟨rfl, rfl⟩)
  | inf s => exact Or.inr (Or.inr ⟨s, rfl, rfl⟩)
  | nzero => exact Or.inl ⟨rfl, (neg_finite (a := nzero) rfl).1, (neg_finite (a := nzero) rfl).2⟩
  | fin q h => exact Or.inl ⟨rfl, (neg_finite (a := fin q h) rfl).1, (neg_finite (a := fin q h) rfl).2⟩

theorem add_inf_finite {b : F64} (s : Bool) (hb : b.isFinite = true) : (inf s).add b = inf s := by
  cases b <;> first | rfl | exact absurd hb Bool.false_ne_true

theorem add_finite_inf {a : F64} (s : Bool) (ha : a.isFinite = true) : a.add (inf s) = inf s := by
  cases a <;> first | rfl | exact absurd ha Bool.false_ne_true

theorem Opposite.add {a a' b b' : F64} (h1 : Opposite a a') (h2 : Opposite b b') : Opposite (a.add b) (a'.add b') := by
  rcases h1 with ⟨f1, f1', v1⟩ | ⟨rfl, rfl⟩ | ⟨s, rfl, rfl⟩
  · rcases h2 with ⟨f2, f2', v2⟩ | ⟨rfl, rfl⟩ | ⟨t, rfl, rfl⟩
    · rw [add_finite f1 f2, add_finite f1' f2', v1, v2, ← neg_add]
      by_cases ho : |rndQ (a.val + b.val)| < pow2 1024
      · obtain ⟨r1, r2⟩ := round_finite (s := a.signBit && b.signBit) ho
        obtain ⟨r3, r4⟩ := round_finite (s := a'.signBit && b'.signBit) (q := -(a.val + b.val)) (by rwa [rndQ_neg, abs_neg])
        exact Or.inl ⟨r1, r3, by rw [r2, r4, rndQ_neg]⟩
      · rw [round_overflow ho, round_overflow (by rwa [rndQ_neg, abs_neg])]
        have h0 : a.val + b.val ≠ 0 := by
          intro h0
          rw [h0, rndQ_zero, abs_zero] at ho
          exact ho (pow2_pos _)
        refine Or.inr (Or.inr ⟨_, rfl, ?_⟩)
        congr 1
        rcases lt_or_gt_of_ne h0 with h | h
        · rw [decide_eq_true h, decide_eq_false (by linarith)]; rfl
        · rw [decide_eq_false (not_lt.2 h.le), decide_eq_true (by linarith)]; rfl
    · simp only [add_nan_right]
      exact Or.inr (Or.inl ⟨rfl, rfl⟩)
    · rw [add_finite_inf t f1, add_finite_inf _ f1']
      exact Or.inr (Or.inr ⟨t, rfl, rfl⟩)
  · simp only [add_nan_left]
    exact Or.inr (Or.inl ⟨rfl, rfl⟩)
  · rcases h2 with ⟨f2, f2', v2⟩ | ⟨rfl, rfl⟩ | ⟨t, rfl, rfl⟩
    · rw [add_inf_finite s f2, add_inf_finite _ f2']
      exact Or.inr (Or.inr ⟨s, rfl, rfl⟩)
    · simp only [add_nan_right]
      exact Or.inr (Or.inl ⟨rfl, rfl⟩)
    · cases s <;> cases t
      · exact Or.inr (Or.inr ⟨_, rfl, rfl⟩)
      · exact Or.inr (Or.inl ⟨rfl, rfl⟩)
      · exact Or.inr (Or.inl ⟨rfl, rfl⟩)
      · exact Or.inr (Or.inr ⟨_, rfl, rfl⟩)

theorem foldl_opposite (l : List F64) (z z' : F64) (h : Opposite z z') :
    Opposite (l.foldl F64.add z) ((l.map F64.neg).foldl F64.add z') := by
  induction l generalizing z z' with
  | nil => exact h
  | cons x l ih => exact ih _ _ (h.add (opposite_neg x))

/-- Not positive (including `0.0` and `-∞`), not NaN. -/
theorem nonpos_cases {a : F64} (h : a.le zero = true) : a = inf true ∨ (a.isFinite = true ∧ a.val ≤ 0) := by
  cases a with
  | nan => simp [le] at h
  | nzero => right; simp
  | fin q hq => right; rw [le_finite rfl rfl] at h; simpa using h
  | inf s =>
    cases s
    · exact absurd h (by decide)
    · exact Or.inl rfl

theorem ninf_le {a : F64} (h : a.isNaN = false) : (inf true).le a = true := by
  rw [le_iff]
  refine ⟨rfl, h, ?_⟩
  rw [key, key, Prod.Lex.toLex_le_toLex]
  cases a with
  | nan => simp at h
  | nzero => left; simp [cls]
  | fin q hq => left; simp [cls]
  | inf s => cases s <;> simp [cls, val]

/-- Adding a number that is not positive does not increase a number that is not positive. -/
theorem add_le_left {a b : F64} (ha : a.le zero = true) (hb : b.le zero = true) : (a.add b).le a = true := by
  have hna := not_nan_left_of_le ha
  rcases nonpos_cases ha with rfl | ⟨ha1, ha2⟩
  · rcases nonpos_cases hb with rfl | ⟨hb1, hb2⟩
    · decide
    · rw [add_inf_finite true hb1]; decide
  · rcases nonpos_cases hb with rfl | ⟨hb1, hb2⟩
    · rw [add_finite_inf true ha1]; exact ninf_le hna
    · rw [add_finite ha1 hb1]
      by_cases ho : |rndQ (a.val + b.val)| < pow2 1024
      · obtain ⟨r1, r2⟩ := round_finite (s := a.signBit && b.signBit) ho
        rw [le_finite r1 ha1, r2]
        exact rndQ_le (fmt_val a) (by linarith)
      · rw [round_overflow ho]
        have h0 : a.val + b.val ≠ 0 := by
          intro h0
          rw [h0, rndQ_zero, abs_zero] at ho
          exact ho (pow2_pos _)
        rw [show decide (a.val + b.val < 0) = true by
          rw [decide_eq_true_eq]; exact lt_of_le_of_ne (by linarith) h0]
        exact ninf_le hna

end F64

theorem treeSum_opposite {l : List F64} {s : F64} (h : TreeSum l s) :
    ∃ s', TreeSum (l.map F64.neg) s' ∧ F64.Opposite s s' := by
  have hz : ∀ z, z = F64.zero ∨ z = F64.nzero → F64.Opposite z z := by
    rintro z (rfl | rfl) <;> exact Or.inl ⟨rfl, rfl, by simp⟩
  induction h with
  | leaf z h l => exact ⟨_, .leaf z h _, F64.foldl_opposite l z z (hz z h)⟩
  | node z h _ _ ih1 ih2 =>
    obtain ⟨s1, t1, o1⟩ := ih1
    obtain ⟨s2, t2, o2⟩ := ih2
    rw [List.map_append]
    exact ⟨_, .node z h t1 t2, ((hz z h).add o1).add o2⟩

theorem foldl_nonpos (ws : List F64) (hw : ∀ w ∈ ws, w.le F64.zero = true) (c : F64) (hc : c.le F64.zero = true) :
    (ws.foldl (· +ₐ ·) c).le F64.zero = true := by
  induction ws generalizing c with
  | nil => exact hc
  | cons w ws ih =>
    rw [List.foldl_cons]
    exact ih (fun x hx => hw x (List.mem_cons_of_mem _ hx)) _ (F64.le_trans (F64.add_le_left hc (hw w (by simp))) hc)

/-- The running sums do not increase. -/
theorem runningSum_anti (ws : List F64) (hw : ∀ w ∈ ws, w.le F64.zero = true) (m : Nat) (hm : m + 1 < ws.length) :
    (runningSum (lit 0 : F64) ws (m + 1)).le (runningSum (lit 0 : F64) ws m) = true := by
  rw [runningSum_succ ws _ (m + 1) ws[m + 1] (List.getElem?_eq_getElem hm)]
  refine F64.add_le_left (foldl_nonpos _ (fun w h => hw w (List.mem_of_mem_take h)) _ ?_) (hw _ (List.getElem_mem hm))
  show (F64.lit 0).le _ = true
  rw [F64.lit_zero]; decide

theorem wheelPick_nonpos (ws : List F64) (hw : ∀ w ∈ ws, w.le F64.zero = true) (target : F64) (j : Nat)
    (hj : WheelPick ws target j) : j = 0 ∨ j + 1 = ws.length := by
  obtain ⟨h1, h2, h3⟩ := hj
  rcases j with _ | j
  · exact Or.inl rfl
  · right
    rcases h3 with h3 | h3
    · have h4 := h2 j (Nat.lt_succ_self j)
      have h5 := F64.le_trans (show target.le _ = true from h3) (runningSum_anti ws hw j h1)
      exact absurd (show target.le (runningSum (lit 0 : F64) ws j) = true from h5) (by
        rw [show target.le (runningSum (lit 0 : F64) ws j) = false from h4]; decide)
    · exact h3

theorem prob_wheel_draws (ws : List F64) (total : F64) (hne : ws ≠ []) (P : Nat → Prop) [DecidablePred P] (Q : Nat → Prop) [DecidablePred Q]
    (hPQ : ∀ k j, k < 2 ^ 53 → WheelPick ws ((F64.unit k).mul total) j → (P j ↔ Q k)) (N : Nat) (hN : N = 2 ^ 53) :
    (wheel ws total).prob P = (((Finset.range N).filter Q).card : ℚ) / N := by
  unfold wheel genF64
  rw [bind_assoc, Prog.prob_uniform_bind _ (by norm_num), ← hN, Finset.card_filter, Nat.cast_sum]
  congr 1
  refine Finset.sum_congr rfl fun k hk => ?_
  rw [Finset.mem_range, hN] at hk
  rw [Prog.bind_pure_left, Nat.cast_ite, Nat.cast_one, Nat.cast_zero]
  obtain ⟨j, hj, hp⟩ := wheelIndex_spec ws total (F64.unit k) hne
  rw [hj, Prog.lift_ok, Prog.prob_pure]
  exact if_congr (hPQ k j hk hp) rfl rfl

theorem le_rndQ_add {y : ℚ} (hy : 0 ≤ y) : rndQ y ≤ y * (1 + 1 / 2 ^ 53) + pow2 (-1075) := by
  have hp := pow2_pos (-1075)
  rcases le_total (pow2 (-1022)) y with hn | hn
  · have := rndQ_rel_err (x := y) (by rwa [abs_of_nonneg hy])
    rw [abs_of_nonneg hy, pow2_eq (-53), abs_le, show (2 : ℚ) ^ (-53 : Int) = 1 / 2 ^ 53 by rw [zpow_neg]; norm_num] at this
    linarith [this.2]
  · rcases eq_or_ne y 0 with rfl | h0
    · rw [rndQ_zero]; linarith
    have := rndQ_err y
    have hc : cexp y = -1074 := by
      unfold cexp
      have h1 : flog2 y ≤ -1022 := by
        have h2 := (flog2_spec h0).1
        rw [abs_of_nonneg hy] at h2
        exact pow2_le.1 (h2.trans hn)
      omega
    rw [hc, show pow2 (-1074) / 2 = pow2 (-1075) by
      rw [show (-1074 : Int) = -1075 + 1 by norm_num, pow2_succ]; ring, abs_le] at this
    have h3 : 0 ≤ y * (1 / 2 ^ 53) := by positivity
    linarith [this.2]

/-- The fraction of draws whose target `fl(u * total)` is below `c`. -/
theorem draws_lt {c T : ℚ} (hc : Fmt c) (hc0 : 0 ≤ c) (hT : pow2 (-962) ≤ T) (hcT : c ≤ 2 * T) (N : Nat) (hN : N = 2 ^ 53) :
    min (c / T) 1 - 6 / 2 ^ 53 ≤ (((Finset.range N).filter fun k : Nat => rndQ ((k : ℚ) / 2 ^ 53 * T) < c).card : ℚ) / N ∧
    (((Finset.range N).filter fun k : Nat => rndQ ((k : ℚ) / 2 ^ 53 * T) < c).card : ℚ) / N ≤ c / T + 1 / 2 ^ 53 := by
  have hT0 : 0 < T := lt_of_lt_of_le (pow2_pos _) hT
  have hNq : (2 : ℚ) ^ 53 = N := by rw [hN]; norm_num
  have hNpos : (0 : ℚ) < N := by rw [← hNq]; norm_num
  constructor
  · rcases le_total (c / T) (4 / 2 ^ 53) with hs | hs
    · refine le_trans ?_ (div_nonneg (Nat.cast_nonneg _) hNpos.le)
      have := min_le_left (c / T) 1
      have : (4 : ℚ) / 2 ^ 53 ≤ 6 / 2 ^ 53 := by norm_num
      linarith
    · have hx0 : 0 ≤ c / T - 4 / 2 ^ 53 := by linarith
      have key := le_card_of_le (N := N) (P := fun k : Nat => rndQ ((k : ℚ) / 2 ^ 53 * T) < c) (x := (c / T - 4 / 2 ^ 53) * N)
        (mul_nonneg hx0 hNpos.le) (fun k hk => by
          have h1 : (k : ℚ) / 2 ^ 53 ≤ c / T - 4 / 2 ^ 53 := by
            rw [hNq, div_le_iff₀ hNpos]
            rwa [hNq] at hk
          have h2 : (k : ℚ) / 2 ^ 53 * T ≤ c - 4 / 2 ^ 53 * T := by
            have := mul_le_mul_of_nonneg_right h1 hT0.le
            rwa [sub_mul, div_mul_cancel₀ _ hT0.ne'] at this
          have h3 := le_rndQ_add (y := (k : ℚ) / 2 ^ 53 * T) (by positivity)
          refine lt_of_le_of_lt h3 ?_
          generalize (k : ℚ) / 2 ^ 53 * T = v at *
          have hη : pow2 (-1075) ≤ 1 / 2 ^ 60 * T := by
            have : pow2 (-1075) ≤ 1 / 2 ^ 60 * pow2 (-962) := by
              rw [show (-1075 : Int) = -113 + -962 by norm_num, pow2_add]
              refine mul_le_mul_of_nonneg_right ?_ (pow2_pos _).le
              rw [pow2_eq, zpow_neg]; norm_num
            nlinarith
          norm_num at h2 hη ⊢
          linarith)
      rw [le_div_iff₀ hNpos]
      refine le_trans ?_ key
      rw [show ((c / T - 4 / 2 ^ 53) * (N : ℚ)) ⊓ (N : ℚ) = (min (c / T - 4 / 2 ^ 53) 1) * N by
        rw [min_mul_of_nonneg _ _ hNpos.le, one_mul]]
      refine mul_le_mul_of_nonneg_right ?_ hNpos.le
      refine le_min ?_ ?_
      · have := min_le_left (c / T) 1
        have : (4 : ℚ) / 2 ^ 53 ≤ 6 / 2 ^ 53 := by norm_num
        linarith
      · have := min_le_right (c / T) 1
        have : (0 : ℚ) ≤ 6 / 2 ^ 53 := by norm_num
        linarith
  · rw [div_le_iff₀ hNpos]
    refine (card_le_of_le (x := c / T * N) (by positivity) fun k hk => ?_).trans ?_
    · have : (k : ℚ) / 2 ^ 53 * T < c := lt_of_not_ge fun h => absurd (le_rndQ hc h) (not_le.2 hk)
      rw [hNq, div_mul_eq_mul_div, div_lt_iff₀ hNpos] at this
      rw [div_mul_eq_mul_div, le_div_iff₀ hT0]
      exact this.le
    · rw [add_mul, ← hNq]
      norm_num

end RG
