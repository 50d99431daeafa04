import Verif.Proofs.Selection

/-! Helper lemmas about the roulette wheels. -/

set_option linter.unusedSectionVars false

namespace RG
open Arith

/-! ### Exact arithmetic -/

section Exact
variable {K : Type} [Field K] [LinearOrder K] [IsStrictOrderedRing K]

theorem runningSum_exact (ws : List K) (m : Nat) : runningSum (lit 0 : K) ws m = (ws.take (m + 1)).sum := by
  have h : ∀ (l : List K) (c : K), l.foldl (· +ₐ ·) c = c + l.sum := by
    intro l
    induction l with
    | nil => intro c; simp
    | cons a l ih =>
      intro c
      rw [List.foldl_cons, ih, List.sum_cons, ← add_assoc]
      rfl
  unfold runningSum
  rw [h]
  show ((0 : ℚ) : K) + _ = _
  simp

theorem take_sum_mono (ws : List K) (hw : ∀ w ∈ ws, 0 ≤ w) {a b : Nat} (h : a ≤ b) :
    (ws.take a).sum ≤ (ws.take b).sum := by
  have : ws.take b = ws.take a ++ (ws.take b).drop a := by
    conv_lhs => rw [← List.take_append_drop a (ws.take b)]
    rw [List.take_take, min_eq_left h]
  rw [this, List.sum_append]
  have h2 : 0 ≤ ((ws.take b).drop a).sum := List.sum_nonneg fun x hx =>
    hw x (List.mem_of_mem_take (List.mem_of_mem_drop hx))
  linarith

theorem wheelIndex_exact (ws : List K) (hw : ∀ w ∈ ws, 0 ≤ w) (hne : ws ≠ []) (u : K) (hu : u ≤ 1) (i : Nat) :
    wheelIndex ws ws.sum u = .ok i ↔
      i < ws.length ∧ (i = 0 ∨ (ws.take i).sum < u * ws.sum) ∧ u * ws.sum ≤ (ws.take (i + 1)).sum := by
  rw [wheelIndex_iff _ _ _ hne]
  have hle : ∀ m, (u *ₐ ws.sum ≤ₐ runningSum (lit 0 : K) ws m) = decide (u * ws.sum ≤ (ws.take (m + 1)).sum) := by
    intro m; rw [runningSum_exact]; rfl
  have htot : u * ws.sum ≤ ws.sum := mul_le_of_le_one_left (List.sum_nonneg hw) hu
  unfold WheelPick
  simp only [hle, decide_eq_true_eq, decide_eq_false_iff_not, not_le]
  constructor
  · rintro ⟨h1, h2, h3⟩
    refine ⟨h1, ?_, ?_⟩
    · rcases i with _ | i
      · exact Or.inl rfl
      · exact Or.inr (h2 i (Nat.lt_succ_self i))
    · rcases h3 with h3 | h3
      · exact h3
      · rw [h3, List.take_length]; exact htot
  · rintro ⟨h1, h2, h3⟩
    refine ⟨h1, fun m hm => ?_, Or.inl h3⟩
    rcases h2 with h2 | h2
    · omega
    · exact lt_of_le_of_lt (take_sum_mono ws hw (by omega)) h2

end Exact

theorem count_le {N : Nat} {x : ℚ} (h0 : 0 ≤ x) (h1 : x ≤ N) :
    x ≤ ((Finset.range N).filter fun k : Nat => (k : ℚ) ≤ x).card ∧
      (((Finset.range N).filter fun k : Nat => (k : ℚ) ≤ x).card : ℚ) ≤ x + 1 := by
  have hset : (Finset.range N).filter (fun k : Nat => (k : ℚ) ≤ x) = Finset.range (min N (⌊x⌋₊ + 1)) := by
    ext k
    simp only [Finset.mem_filter, Finset.mem_range, lt_min_iff, Nat.lt_succ_iff]
    rw [Nat.le_floor_iff h0]
  rw [hset, Finset.card_range]
  have hf := Nat.floor_le h0
  have hf' := Nat.lt_floor_add_one x
  constructor
  · rcases le_total N (⌊x⌋₊ + 1) with h | h
    · rw [min_eq_left h]; exact h1
    · rw [min_eq_right h]; push_cast; exact hf'.le
  · calc ((min N (⌊x⌋₊ + 1) : Nat) : ℚ) ≤ ((⌊x⌋₊ + 1 : Nat) : ℚ) := by exact_mod_cast min_le_right _ _
      _ ≤ x + 1 := by push_cast; linarith

theorem exactWheel_prob (ws : List ℚ) (hw : ∀ w ∈ ws, 0 ≤ w) (hpos : 0 < ws.sum) (i : Nat) (hi : i < ws.length) :
    |(exactWheel ws).prob (fun j => j = i) - ws[i] / ws.sum| ≤ 1 / 2 ^ 53 := by
  have hne : ws ≠ [] := by rintro rfl; simp at hi
  obtain ⟨N, hN⟩ : ∃ N : Nat, N = 2 ^ 53 := ⟨_, rfl⟩
  have hNpos : (0 : ℚ) < N := by rw [hN]; norm_num
  have hNq : (2 : ℚ) ^ 53 = N := by rw [hN]; norm_num
  have hp : (exactWheel ws).prob (fun j => j = i) =
      (((Finset.range N).filter fun k : Nat => (i = 0 ∨ (ws.take i).sum < (k : ℚ) / 2 ^ 53 * ws.sum) ∧
        (k : ℚ) / 2 ^ 53 * ws.sum ≤ (ws.take (i + 1)).sum).card : ℚ) / N := by
    unfold exactWheel
    rw [Prog.prob_uniform_bind _ (by norm_num), ← hN]
    rw [Finset.card_filter]
    rw [Nat.cast_sum]
    congr 1
    refine Finset.sum_congr rfl fun k hk => ?_
    rw [Nat.cast_ite, Nat.cast_one, Nat.cast_zero]
    have hk' : (k : ℚ) / 2 ^ 53 ≤ 1 := by
      rw [div_le_one (by positivity), hNq]
      exact_mod_cast (Finset.mem_range.1 hk).le
    obtain ⟨j, hj, _⟩ := wheelIndex_spec ws ws.sum ((k : ℚ) / 2 ^ 53) hne
    have h1 := wheelIndex_exact ws hw hne ((k : ℚ) / 2 ^ 53) hk' i
    rw [hj] at h1 ⊢
    rw [Prog.lift_ok, Prog.prob_pure]
    by_cases hji : j = i
    · rw [if_pos hji, if_pos (h1.1 (by rw [hji])).2]
    · rw [if_neg hji, if_neg]
      intro h
      have := h1.2 ⟨hi, h⟩
      cases this
      exact hji rfl
  clear hN
  have hcond : ∀ (k : Nat) (x : ℚ), (k : ℚ) / 2 ^ 53 * ws.sum ≤ x ↔ (k : ℚ) ≤ x / ws.sum * N := by
    intro k x
    rw [hNq, div_mul_eq_mul_div, div_le_iff₀ hNpos, div_mul_eq_mul_div, le_div_iff₀ hpos]
  have hcond' : ∀ (k : Nat) (x : ℚ), x < (k : ℚ) / 2 ^ 53 * ws.sum ↔ ¬ (k : ℚ) ≤ x / ws.sum * N := by
    intro k x; rw [← hcond, not_le]
  simp only [hcond, hcond'] at hp
  have hS : ∀ m, 0 ≤ (ws.take m).sum / ws.sum * N ∧ (ws.take m).sum / ws.sum * N ≤ N := by
    intro m
    have h1 : 0 ≤ (ws.take m).sum := List.sum_nonneg fun x hx => hw x (List.mem_of_mem_take hx)
    have h2 : (ws.take m).sum ≤ ws.sum := by
      have := take_sum_mono ws hw (Nat.le_max_left m ws.length)
      rwa [List.take_of_length_le (Nat.le_max_right m ws.length)] at this
    refine ⟨mul_nonneg (div_nonneg h1 hpos.le) hNpos.le, ?_⟩
    have : (ws.take m).sum / ws.sum ≤ 1 := (div_le_one hpos).2 h2
    nlinarith
  have hstep : (ws.take (i + 1)).sum = (ws.take i).sum + ws[i] := by
    rw [List.take_add_one, List.getElem?_eq_getElem hi, List.sum_append]
    simp
  rw [hp]
  obtain ⟨hB0, hB1⟩ := hS (i + 1)
  obtain ⟨hA0, hA1⟩ := hS i
  obtain ⟨hb1, hb2⟩ := count_le hB0 hB1
  obtain ⟨ha1, ha2⟩ := count_le hA0 hA1
  have hdiff : (ws.take (i + 1)).sum / ws.sum * N - (ws.take i).sum / ws.sum * N = ws[i] / ws.sum * N := by
    rw [hstep]; field_simp; ring
  have key : ∀ c : ℚ, |c - ws[i] / ws.sum * N| ≤ 1 → |c / N - ws[i] / ws.sum| ≤ 1 / 2 ^ 53 := by
    intro c hc
    have : c / N - ws[i] / ws.sum = (c - ws[i] / ws.sum * N) / N := by field_simp
    rw [this, abs_div, abs_of_pos hNpos, hNq]
    exact div_le_div_of_nonneg_right hc hNpos.le
  apply key
  rcases Nat.eq_zero_or_pos i with h0 | h0
  · subst h0
    simp only [true_or, true_and]
    simp only [List.take_zero, List.sum_nil, zero_div, zero_mul, sub_zero] at hdiff
    rw [← hdiff, abs_le]
    constructor <;> linarith
  · have hi0 : ¬ i = 0 := by omega
    simp only [hi0, false_or]
    have hsub : (Finset.range N).filter (fun k : Nat => (k : ℚ) ≤ (ws.take i).sum / ws.sum * N) ⊆
        (Finset.range N).filter (fun k : Nat => (k : ℚ) ≤ (ws.take (i + 1)).sum / ws.sum * N) := by
      intro k
      simp only [Finset.mem_filter]
      rintro ⟨h1, h2⟩
      refine ⟨h1, h2.trans ?_⟩
      have : 0 ≤ ws[i] / ws.sum * N :=
        mul_nonneg (div_nonneg (hw ws[i] (List.getElem_mem hi)) hpos.le) hNpos.le
      linarith
    have hset : (Finset.range N).filter (fun k : Nat => ¬ (k : ℚ) ≤ (ws.take i).sum / ws.sum * N ∧
        (k : ℚ) ≤ (ws.take (i + 1)).sum / ws.sum * N) =
        (Finset.range N).filter (fun k : Nat => (k : ℚ) ≤ (ws.take (i + 1)).sum / ws.sum * N) \
        (Finset.range N).filter (fun k : Nat => (k : ℚ) ≤ (ws.take i).sum / ws.sum * N) := by
      ext k
      simp only [Finset.mem_filter, Finset.mem_sdiff]
      tauto
    rw [hset, Finset.card_sdiff_of_subset hsub, Nat.cast_sub (Finset.card_le_card hsub), ← hdiff, abs_le]
    constructor <;> linarith

/-! ### `f64` -/

theorem feq_zero_iff (c : F64) : c.feq F64.zero = true ↔ c = F64.zero ∨ c = F64.nzero := by
  constructor
  · intro h
    obtain ⟨h1, _, h3⟩ := F64.feq_iff.1 h
    cases c with
    | nan => simp at h1
    | inf s =>
      rw [F64.key, F64.key] at h3
      have := congrArg (fun x => (ofLex x).1) h3
      cases s <;> simp [F64.cls, F64.zero] at this
    | nzero => exact Or.inr rfl
    | fin q hq =>
      left
      have hv := (F64.key_eq_finite (a := .fin q hq) (b := F64.zero) rfl rfl).1 h3
      simp at hv
      subst hv
      rfl
  · rintro (rfl | rfl) <;> decide +kernel

theorem F64.le_add_zero {t a w : F64} (ha : F64.zero.le a = true) (hw : w = F64.zero ∨ w = F64.nzero) :
    t.le (a.add w) = t.le a := by
  have hwf : w.isFinite = true := by rcases hw with rfl | rfl <;> rfl
  have hwv : w.val = 0 := by rcases hw with rfl | rfl <;> rfl
  rcases F64.nonneg_cases ha with rfl | ⟨h1, h2⟩
  · have : (F64.inf false).add w = F64.inf false := by rcases hw with rfl | rfl <;> rfl
    rw [this]
  · rw [F64.add_finite h1 hwf, hwv, add_zero]
    obtain ⟨h3, h4⟩ := F64.round_rep (s := a.signBit && w.signBit) (F64.rep_val a)
    unfold F64.le
    rw [F64.isNaN_of_finite h3, F64.isNaN_of_finite h1, F64.key_finite h3, F64.key_finite h1, h4]

theorem runningSum_nonneg (ws : List F64) (hw : ∀ w ∈ ws, F64.zero.le w = true) (c : F64) (hc : F64.zero.le c = true) :
    F64.zero.le (ws.foldl (· +ₐ ·) c) = true := by
  induction ws generalizing c with
  | nil => exact hc
  | cons w ws ih =>
    rw [List.foldl_cons]
    exact ih (fun x hx => hw x (List.mem_cons_of_mem _ hx)) _ (F64.add_nonneg hc (hw w (by simp)))

theorem zero_le_lit_zero : F64.zero.le (lit 0 : F64) = true := by decide +kernel

theorem runningSum_succ (ws : List F64) (c : F64) (m : Nat) (w : F64) (h : ws[m]? = some w) :
    runningSum c ws m = ((ws.take m).foldl (· +ₐ ·) c).add w := by
  unfold runningSum
  rw [List.take_add_one, h, List.foldl_append]
  rfl

theorem wheelPick_zero (ws : List F64) (hw : ∀ w ∈ ws, F64.zero.le w = true) (target : F64)
    (ht : F64.zero.lt target = true) (j : Nat) (hj : WheelPick ws target j) (w : F64) (hwj : ws[j]? = some w)
    (h0 : w.feq F64.zero = true) :
    j + 1 = ws.length ∧ ∀ m, m < ws.length → target.le (runningSum F64.zero ws m) = false := by
  have hl0 : (lit 0 : F64) = F64.zero := F64.lit_zero
  obtain ⟨h1, h2, h3⟩ := hj
  have hfalse : target.le (runningSum F64.zero ws j) = false := by
    rw [runningSum_succ ws _ j w hwj, F64.le_add_zero _ ((feq_zero_iff w).1 h0)]
    · rcases j with _ | j
      · rw [List.take_zero, List.foldl_nil]
        cases hle : target.le F64.zero with
        | false => rfl
        | true =>
          have := F64.lt_of_lt_of_le ht hle
          rw [F64.lt_irrefl] at this
          cases this
      · have := h2 j (Nat.lt_succ_self j)
        rw [hl0] at this
        exact this
    · exact runningSum_nonneg _ (fun x hx => hw x (List.mem_of_mem_take hx)) _ (by decide +kernel)
  have hlast : j + 1 = ws.length := by
    rcases h3 with h3 | h3
    · rw [hl0] at h3
      have h3' : target.le (runningSum F64.zero ws j) = true := h3
      rw [hfalse] at h3'; cases h3'
    · exact h3
  refine ⟨hlast, fun m hm => ?_⟩
  rcases Nat.lt_or_eq_of_le (show m ≤ j by omega) with h | h
  · have := h2 m h
    rw [hl0] at this
    exact this
  · rw [h]; exact hfalse

theorem treeSum_nonneg {l : List F64} {s : F64} (h : TreeSum l s) (hl : ∀ x ∈ l, F64.zero.le x = true) :
    F64.zero.le s = true := by
  have hz' : ∀ z, z = F64.zero ∨ z = F64.nzero → F64.zero.le z = true := by
    rintro z (rfl | rfl) <;> decide +kernel
  induction h with
  | leaf z hz l => exact runningSum_nonneg l hl z (hz' z hz)
  | node z hz _ _ ih1 ih2 =>
    refine F64.add_nonneg (F64.add_nonneg (hz' z hz) (ih1 fun x hx => hl x ?_)) (ih2 fun x hx => hl x ?_)
    · exact List.mem_append_left _ hx
    · exact List.mem_append_right _ hx

theorem wheelPick_draw_zero (w total : F64) (ws : List F64) (hw : w.isFinite = true) (hw0 : 0 ≤ w.val)
    (ht : total.isFinite = true) : WheelPick (w :: ws) ((F64.unit 0).mul total) 0 := by
  refine ⟨by simp, fun m hm => absurd hm (Nat.not_lt_zero m), Or.inl ?_⟩
  obtain ⟨u1, u2⟩ := F64.unit_val (k := 0) (by norm_num)
  have e : runningSum (lit 0 : F64) (w :: ws) 0 = F64.zero.add w := by
    show (F64.lit 0).add w = _
    rw [F64.lit_zero]
  rw [e]
  show F64.le _ _ = true
  rw [F64.mul_finite u1 ht, F64.add_finite rfl hw, u2]
  simp only [Nat.cast_zero, zero_div, zero_mul, F64.val_zero, zero_add]
  obtain ⟨a1, a2⟩ := F64.round_rep (s := (F64.unit 0).signBit ^^ total.signBit) rep_zero
  obtain ⟨b1, b2⟩ := F64.round_rep (s := F64.zero.signBit && w.signBit) (F64.rep_val w)
  rw [F64.le_finite a1 b1, a2, b2]
  exact hw0

end RG
