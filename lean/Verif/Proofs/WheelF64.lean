import Verif.Proofs.Wheel

/-! Helper lemmas: rounding errors of the sums of a wheel in `f64`, and its probabilities. -/

set_option linter.unusedSectionVars false

namespace RG
open Arith

/-- `x` is `y` up to `k` relative rounding errors of `2^-53`. -/
def Close (k : Nat) (x y : ℚ) : Prop := (1 - k / 2 ^ 53) * y ≤ x ∧ (1 - k / 2 ^ 53) * x ≤ y

theorem Close.refl (k : Nat) {x : ℚ} (h : 0 ≤ x) : Close k x x := by
  have : (0 : ℚ) ≤ k / 2 ^ 53 := by positivity
  constructor <;> nlinarith

theorem Close.mono {k k' : Nat} {x y : ℚ} (h : Close k x y) (hk : k ≤ k') (hx : 0 ≤ x) (hy : 0 ≤ y) : Close k' x y := by
  have h1 : (k : ℚ) / 2 ^ 53 ≤ k' / 2 ^ 53 := by
    have : (k : ℚ) ≤ k' := by exact_mod_cast hk
    gcongr
  obtain ⟨a, b⟩ := h
  constructor
  · nlinarith
  · nlinarith

theorem Close.le_two {k : Nat} {x y : ℚ} (h : Close k x y) (hk : k ≤ 2 ^ 52) (hx : 0 ≤ x) : x ≤ 2 * y := by
  have h1 : (k : ℚ) / 2 ^ 53 ≤ 1 / 2 := by
    have : (k : ℚ) ≤ 2 ^ 52 := by exact_mod_cast hk
    rw [div_le_div_iff₀ (by norm_num) (by norm_num)]
    linarith
  have := h.2
  nlinarith

theorem Close.add {k : Nat} {x1 y1 x2 y2 x : ℚ} (h1 : Close k x1 y1) (h2 : Close k x2 y2) (hk : k + 1 ≤ 2 ^ 53)
    (hx1 : 0 ≤ x1) (hy1 : 0 ≤ y1) (hx2 : 0 ≤ x2) (hy2 : 0 ≤ y2) (hx : |x - (x1 + x2)| ≤ (x1 + x2) / 2 ^ 53) :
    Close (k + 1) x (y1 + y2) := by
  obtain ⟨a1, b1⟩ := h1
  obtain ⟨a2, b2⟩ := h2
  rw [abs_le] at hx
  have hk' : ((k : ℚ) + 1) / 2 ^ 53 ≤ 1 := by
    have : (k : ℚ) + 1 ≤ 2 ^ 53 := by exact_mod_cast hk
    rw [div_le_one (by norm_num)]
    exact this
  have hk0 : (0 : ℚ) ≤ k / 2 ^ 53 := by positivity
  have e : ((k + 1 : Nat) : ℚ) / 2 ^ 53 = k / 2 ^ 53 + 1 / 2 ^ 53 := by push_cast; ring
  have e' : ((k : ℚ) + 1) / 2 ^ 53 = k / 2 ^ 53 + 1 / 2 ^ 53 := by ring
  have e3 : (x1 + x2) / 2 ^ 53 = (x1 + x2) * (1 / 2 ^ 53) := by ring
  rw [e'] at hk'
  rw [e3] at hx
  unfold Close
  rw [e]
  generalize (k : ℚ) / 2 ^ 53 = r at *
  have hε : (0 : ℚ) < 1 / 2 ^ 53 := by positivity
  have hε1 : (1 : ℚ) / 2 ^ 53 ≤ 1 := by norm_num
  generalize (1 : ℚ) / 2 ^ 53 = ε at *
  constructor
  · have : (1 - ε) * ((1 - r) * (y1 + y2)) ≤ (1 - ε) * (x1 + x2) := mul_le_mul_of_nonneg_left (by linarith) (by linarith)
    have h3 : 0 ≤ ε * r * (y1 + y2) := by positivity
    nlinarith
  · have h3 : (1 - (r + ε)) * x ≤ (1 - (r + ε)) * ((1 + ε) * (x1 + x2)) := mul_le_mul_of_nonneg_left (by linarith) (by linarith)
    have h4 : 0 ≤ ε * (r + ε) * (x1 + x2) := by positivity
    nlinarith

namespace F64

/-- Addition of non-negative numbers: relative error at most `2^-53` (sums in the subnormal range are exact). -/
theorem add_close {a b : F64} (ha : a.isFinite = true) (hb : b.isFinite = true) (ha0 : 0 ≤ a.val) (hb0 : 0 ≤ b.val)
    (h : a.val + b.val ≤ pow2 1002) :
    (a.add b).isFinite = true ∧ |(a.add b).val - (a.val + b.val)| ≤ (a.val + b.val) / 2 ^ 53 ∧ a.val ≤ (a.add b).val ∧
      b.val ≤ (a.add b).val := by
  have hs : 0 ≤ a.val + b.val := by linarith
  obtain ⟨h1, h2⟩ := round_of_abs_le (s := a.signBit && b.signBit) (rep_pow2_le (k := 1002) (by norm_num) (by norm_num))
    (by rwa [abs_of_nonneg hs])
  rw [add_finite ha hb]
  refine ⟨h1, ?_, ?_, ?_⟩
  · rw [h2]
    rcases _root_.le_total (pow2 (-1022)) (a.val + b.val) with hn | hn
    · have := rndQ_rel_err (x := a.val + b.val) (by rwa [abs_of_nonneg hs])
      rw [abs_of_nonneg hs, pow2_eq] at this
      calc _ ≤ _ := this
        _ = _ := by rw [zpow_neg]; norm_num; ring
    · obtain ⟨z1, e1⟩ := (fmt_val a).mult
      obtain ⟨z2, e2⟩ := (fmt_val b).mult
      have e : a.val + b.val = ((z1 + z2 : Int) : ℚ) * pow2 (-1074) := by rw [e1, e2]; push_cast; ring
      have hf : Fmt (a.val + b.val) := by
        rw [e]
        refine fmt_of_small_mult ?_
        rw [← e, abs_of_nonneg hs]
        exact hn.trans (pow2_le.2 (by norm_num))
      rw [rndQ_of_fmt hf, sub_self, abs_zero]
      positivity
  · rw [h2]; exact le_rndQ (fmt_val a) (by linarith)
  · rw [h2]; exact le_rndQ (fmt_val b) (by linarith)

/-- Adding a zero does not change the value. -/
theorem add_zero_left {a b : F64} (ha : a.isFinite = true) (hb : b.isFinite = true) (ha0 : a.val = 0) :
    (a.add b).isFinite = true ∧ (a.add b).val = b.val := by
  rw [add_finite ha hb, ha0, zero_add]
  exact round_rep (rep_val b)

theorem add_zero_right {a b : F64} (ha : a.isFinite = true) (hb : b.isFinite = true) (hb0 : b.val = 0) :
    (a.add b).isFinite = true ∧ (a.add b).val = a.val := by
  rw [add_finite ha hb, hb0, add_zero]
  exact round_rep (rep_val a)

end F64

/-- The exact sum. -/
def exactSum (ws : List F64) : ℚ := (ws.map F64.val).sum

@[simp] theorem exactSum_nil : exactSum [] = 0 := rfl
@[simp] theorem exactSum_cons (w : F64) (ws : List F64) : exactSum (w :: ws) = w.val + exactSum ws := by simp [exactSum]
@[simp] theorem exactSum_append (a b : List F64) : exactSum (a ++ b) = exactSum a + exactSum b := by simp [exactSum]

theorem exactSum_nonneg {ws : List F64} (h : ∀ w ∈ ws, 0 ≤ w.val) : 0 ≤ exactSum ws :=
  List.sum_nonneg fun x hx => by
    obtain ⟨w, hw, rfl⟩ := List.mem_map.1 hx
    exact h w hw

theorem foldl_close (ws : List F64) (hf : ∀ w ∈ ws, w.isFinite = true) (h0 : ∀ w ∈ ws, 0 ≤ w.val) (k : Nat) (c : F64) (y : ℚ)
    (hc : c.isFinite = true) (hc0 : 0 ≤ c.val) (hy : 0 ≤ y) (hcl : Close k c.val y) (hk : k + ws.length ≤ 2 ^ 52)
    (hs : y + exactSum ws ≤ pow2 1000) :
    (ws.foldl (· +ₐ ·) c).isFinite = true ∧ c.val ≤ (ws.foldl (· +ₐ ·) c).val ∧
      Close (k + ws.length) (ws.foldl (· +ₐ ·) c).val (y + exactSum ws) := by
  induction ws generalizing c k y with
  | nil => exact ⟨hc, le_rfl, by simpa using hcl⟩
  | cons w ws ih =>
    have hw0 := h0 w (by simp)
    have hsum := exactSum_nonneg (ws := ws) fun x hx => h0 x (List.mem_cons_of_mem _ hx)
    rw [exactSum_cons] at hs
    rw [List.length_cons] at hk
    have h2 : pow2 1002 = 4 * pow2 1000 := by
      rw [show (1002 : Int) = 2 + 1000 by norm_num, pow2_add, pow2_eq 2]; norm_num
    have hle := hcl.le_two (by omega) hc0
    obtain ⟨a1, a2, a3, -⟩ := F64.add_close hc (hf w (by simp)) hc0 hw0 (by rw [h2]; linarith)
    have hcl' := hcl.add (Close.refl k hw0) (by omega) hc0 hy hw0 hw0 a2
    obtain ⟨b1, b2, b3⟩ := ih (fun x hx => hf x (List.mem_cons_of_mem _ hx)) (fun x hx => h0 x (List.mem_cons_of_mem _ hx)) (k + 1)
      (c.add w) (y + w.val) a1 (hc0.trans a3) (by linarith) hcl' (by omega) (by linarith)
    rw [List.foldl_cons]
    refine ⟨b1, a3.trans b2, ?_⟩
    rw [exactSum_cons, ← add_assoc, List.length_cons, show k + (ws.length + 1) = k + 1 + ws.length by omega]
    exact b3

theorem treeSum_close {l : List F64} {s : F64} (h : TreeSum l s) (hf : ∀ w ∈ l, w.isFinite = true) (h0 : ∀ w ∈ l, 0 ≤ w.val)
    (hk : l.length ≤ 2 ^ 52) (hs : exactSum l ≤ pow2 1000) :
    s.isFinite = true ∧ 0 ≤ s.val ∧ Close l.length s.val (exactSum l) := by
  have hz' : ∀ z, z = F64.zero ∨ z = F64.nzero → z.isFinite = true ∧ z.val = 0 := by rintro z (rfl | rfl) <;> exact ⟨rfl, rfl⟩
  induction h with
  | leaf z hz l =>
    obtain ⟨z1, z2⟩ := hz' z hz
    obtain ⟨a, b, c⟩ := foldl_close l hf h0 0 z 0 z1 z2.ge le_rfl (by rw [z2]; exact Close.refl 0 le_rfl) (by omega) (by rwa [zero_add])
    rw [zero_add, zero_add] at c
    exact ⟨a, z2 ▸ b, c⟩
  | @node z hz l1 l2 s1 s2 t1 t2 ih1 ih2 =>
    obtain ⟨z1, z2⟩ := hz' z hz
    rw [List.length_append] at hk
    rw [exactSum_append] at hs
    have n1 := exactSum_nonneg (ws := l1) fun x hx => h0 x (List.mem_append_left _ hx)
    have n2 := exactSum_nonneg (ws := l2) fun x hx => h0 x (List.mem_append_right _ hx)
    obtain ⟨a1, b1, c1⟩ := ih1 (fun x hx => hf x (List.mem_append_left _ hx)) (fun x hx => h0 x (List.mem_append_left _ hx)) (by omega)
      (by linarith)
    obtain ⟨a2, b2, c2⟩ := ih2 (fun x hx => hf x (List.mem_append_right _ hx)) (fun x hx => h0 x (List.mem_append_right _ hx)) (by omega)
      (by linarith)
    obtain ⟨d1, d2⟩ := F64.add_zero_left z1 a1 z2
    rw [← d2] at b1 c1
    have empty : ∀ {k : Nat} {x : ℚ}, k = 0 → Close k x 0 → 0 ≤ x → x = 0 := by
      rintro k x rfl ⟨_, h⟩ hx
      simp at h
      linarith
    rcases List.eq_nil_or_concat l1 with rfl | ⟨_, _, rfl⟩
    · obtain ⟨e1, e2⟩ := F64.add_zero_left d1 a2 (empty rfl c1 b1)
      rw [e2]
      exact ⟨e1, b2, by simpa using c2⟩
    · rcases List.eq_nil_or_concat l2 with rfl | ⟨_, _, rfl⟩
      · obtain ⟨e1, e2⟩ := F64.add_zero_right d1 a2 (empty rfl c2 b2)
        rw [e2]
        exact ⟨e1, b1, by simpa using c1⟩
      · have h2 : pow2 1002 = 4 * pow2 1000 := by
          rw [show (1002 : Int) = 2 + 1000 by norm_num, pow2_add, pow2_eq 2]; norm_num
        have l1 := c1.le_two (by omega) b1
        have l2 := c2.le_two (by omega) b2
        obtain ⟨e1, e2, e3, -⟩ := F64.add_close d1 a2 b1 b2 (by rw [h2]; linarith)
        refine ⟨e1, b1.trans e3, ?_⟩
        rw [exactSum_append]
        refine ((c1.mono (le_max_left _ _) b1 n1).add (c2.mono (le_max_right _ _) b2 n2) ?_ b1 n1 b2 n2 e2).mono ?_ (b1.trans e3)
          (by linarith)
        · omega
        · simp only [List.length_append, List.concat_eq_append, List.length_cons, List.length_nil]; omega

/-! ### The probabilities of a wheel -/

/-- Rounding changes a non-negative number by at most `2^-53` of it and half the least subnormal number. -/
theorem rndQ_ge {y : ℚ} (hy : 0 ≤ y) : y * (1 - 1 / 2 ^ 53) - pow2 (-1075) ≤ rndQ y := by
  have hp := pow2_pos (-1075)
  rcases le_total (pow2 (-1022)) y with hn | hn
  · have := rndQ_rel_err (x := y) (by rwa [abs_of_nonneg hy])
    rw [abs_of_nonneg hy, pow2_eq (-53), abs_le, show (2 : ℚ) ^ (-53 : Int) = 1 / 2 ^ 53 by rw [zpow_neg]; norm_num] at this
    linarith [this.1]
  · rcases eq_or_ne y 0 with rfl | h0
    · rw [rndQ_zero]; linarith
    have := rndQ_err y
    have hc : cexp y = -1074 := by
      unfold cexp
      have h1 : flog2 y ≤ -1022 := by
        have h2 := (flog2_spec h0).1
        rw [abs_of_nonneg hy] at h2
        exact pow2_le.1 (h2.trans hn)
      omega
    rw [hc, show pow2 (-1074) / 2 = pow2 (-1075) by
      rw [show (-1074 : Int) = -1075 + 1 by norm_num, pow2_succ]; ring, abs_le] at this
    have h3 : 0 ≤ y * (1 / 2 ^ 53) := by positivity
    linarith [this.1]

theorem card_le_of_le {N : Nat} {P : Nat → Prop} [DecidablePred P] {x : ℚ} (h0 : 0 ≤ x) (h : ∀ k, P k → (k : ℚ) ≤ x) :
    (((Finset.range N).filter P).card : ℚ) ≤ x + 1 := by
  have hsub : (Finset.range N).filter P ⊆ Finset.range (⌊x⌋₊ + 1) := by
    intro k hk
    rw [Finset.mem_range, Nat.lt_succ_iff, Nat.le_floor_iff h0]
    exact h k (Finset.mem_filter.1 hk).2
  have h1 := Finset.card_le_card hsub
  rw [Finset.card_range] at h1
  have h2 : (((Finset.range N).filter P).card : ℚ) ≤ ((⌊x⌋₊ + 1 : Nat) : ℚ) := by exact_mod_cast h1
  push_cast at h2
  linarith [Nat.floor_le h0]

theorem le_card_of_le {N : Nat} {P : Nat → Prop} [DecidablePred P] {x : ℚ} (h0 : 0 ≤ x) (h : ∀ k : Nat, (k : ℚ) ≤ x → P k) :
    min x N ≤ ((Finset.range N).filter P).card := by
  have hsub : Finset.range (min (⌊x⌋₊ + 1) N) ⊆ (Finset.range N).filter P := by
    intro k hk
    rw [Finset.mem_range, lt_min_iff, Nat.lt_succ_iff, Nat.le_floor_iff h0] at hk
    exact Finset.mem_filter.2 ⟨Finset.mem_range.2 hk.2, h k hk.1⟩
  have h1 := Finset.card_le_card hsub
  rw [Finset.card_range] at h1
  have h2 : ((min (⌊x⌋₊ + 1) N : Nat) : ℚ) ≤ (((Finset.range N).filter P).card : ℚ) := by exact_mod_cast h1
  refine le_trans ?_ h2
  push_cast
  exact min_le_min (Nat.lt_floor_add_one x).le le_rfl

/-- The fraction of draws whose target `fl(u * total)` is at most `c`. -/
theorem draws_le {c T : ℚ} (hc : Fmt c) (hc0 : 0 ≤ c) (hT : pow2 (-962) ≤ T) (hcT : c ≤ 2 * T) (N : Nat) (hN : N = 2 ^ 53) :
    min (c / T) 1 ≤ (((Finset.range N).filter fun k : Nat => rndQ ((k : ℚ) / 2 ^ 53 * T) ≤ c).card : ℚ) / N ∧
    (((Finset.range N).filter fun k : Nat => rndQ ((k : ℚ) / 2 ^ 53 * T) ≤ c).card : ℚ) / N ≤ c / T + 6 / 2 ^ 53 := by
  have hT0 : 0 < T := lt_of_lt_of_le (pow2_pos _) hT
  have hNq : (2 : ℚ) ^ 53 = N := by rw [hN]; norm_num
  have hNpos : (0 : ℚ) < N := by rw [← hNq]; norm_num
  constructor
  · rw [le_div_iff₀ hNpos]
    refine le_trans ?_ (le_card_of_le (x := c / T * N) (by positivity) fun k hk => ?_)
    · rw [min_mul_of_nonneg _ _ hNpos.le, one_mul]
    · refine rndQ_le hc ?_
      rw [hNq, div_mul_eq_mul_div, div_le_iff₀ hNpos]
      rw [div_mul_eq_mul_div, le_div_iff₀ hT0] at hk
      exact hk
  · have hη : pow2 (-1075) / T ≤ 1 / 2 ^ 60 := by
      rw [div_le_iff₀ hT0]
      have : pow2 (-1075) ≤ 1 / 2 ^ 60 * pow2 (-962) := by
        rw [show (-1075 : Int) = -113 + -962 by norm_num, pow2_add]
        refine mul_le_mul_of_nonneg_right ?_ (pow2_pos _).le
        rw [pow2_eq, zpow_neg]; norm_num
      nlinarith
    have hη0 : 0 ≤ pow2 (-1075) / T := div_nonneg (pow2_pos _).le hT0.le
    have hr : c / T ≤ 2 := by rw [div_le_iff₀ hT0]; exact hcT
    have hr0 : 0 ≤ c / T := by positivity
    have hcard := card_le_of_le (N := N) (P := fun k : Nat => rndQ ((k : ℚ) / 2 ^ 53 * T) ≤ c)
      (x := (c / T + pow2 (-1075) / T) * (1 + 2 / 2 ^ 53) * N) (by positivity) (fun k hk => by
        have h1 := (rndQ_ge (y := (k : ℚ) / 2 ^ 53 * T) (by positivity)).trans hk
        have hv : (k : ℚ) = k / 2 ^ 53 * N := by rw [← hNq]; field_simp
        rw [hv]
        refine mul_le_mul_of_nonneg_right ?_ hNpos.le
        have hv0 : (0 : ℚ) ≤ k / 2 ^ 53 := by positivity
        generalize (k : ℚ) / 2 ^ 53 = v at h1 hv0
        have h2 : v * (1 - 1 / 2 ^ 53) ≤ c / T + pow2 (-1075) / T := by
          rw [← add_div, le_div_iff₀ hT0]; linarith
        have h3 : v * (1 - 1 / 2 ^ 53) * (1 + 2 / 2 ^ 53) ≤ (c / T + pow2 (-1075) / T) * (1 + 2 / 2 ^ 53) :=
          mul_le_mul_of_nonneg_right h2 (by norm_num)
        refine le_trans ?_ h3
        rw [mul_assoc]
        exact le_mul_of_one_le_right hv0 (by norm_num))
    rw [div_le_iff₀ hNpos]
    refine hcard.trans ?_
    have hone : (1 : ℚ) = 1 / 2 ^ 53 * N := by rw [← hNq]; norm_num
    have : (c / T + pow2 (-1075) / T) * (1 + 2 / 2 ^ 53) + 1 / 2 ^ 53 ≤ c / T + 6 / 2 ^ 53 := by
      generalize c / T = r at *
      generalize pow2 (-1075) / T = η at *
      norm_num at hη ⊢
      linarith
    have hX : ∀ X : ℚ, X * N + 1 = (X + 1 / 2 ^ 53) * N := fun X => by rw [add_mul, ← hone]
    rw [hX]
    exact mul_le_mul_of_nonneg_right this hNpos.le

theorem Prog.prob_or {α : Type} (p : Prog α) (P Q : α → Prop) [DecidablePred P] [DecidablePred Q] (h : ∀ a, P a → Q a → False) :
    p.prob (fun a => P a ∨ Q a) = p.prob P + p.prob Q := by
  unfold Prog.prob
  rw [← Prog.expect_add]
  refine Prog.expect_congr _ _ _ fun r _ => ?_
  rcases r with a | _ | _
  · by_cases h1 : P a <;> by_cases h2 : Q a
    · exact absurd h2 (h a h1)
    all_goals simp [h1, h2]
  · simp
  · simp

/-- The draw and the choice of a wheel, as in `RouletteWheelSelection::select` and `BoltzmannSelection::select`. -/
def wheel (ws : List F64) (total : F64) : Prog Nat := do
  let u ← genF64
  Prog.lift (wheelIndex ws total u)

/-- The bounds for the running sums of a wheel. -/
structure WheelOk (ws : List F64) (total : F64) : Prop where
  finite : ∀ w ∈ ws, w.isFinite = true
  nonneg : ∀ w ∈ ws, 0 ≤ w.val
  low : pow2 (-960) ≤ exactSum ws
  high : exactSum ws ≤ pow2 1000
  len : ws.length ≤ 2 ^ 40
  sum : TreeSum ws total

theorem exactSum_take_le (ws : List F64) (h : ∀ w ∈ ws, 0 ≤ w.val) (m : Nat) : exactSum (ws.take m) ≤ exactSum ws := by
  conv_rhs => rw [← List.take_append_drop m ws, exactSum_append]
  have := exactSum_nonneg (ws := ws.drop m) fun x hx => h x (List.mem_of_mem_drop hx)
  linarith

namespace WheelOk
variable {ws : List F64} {total : F64} (h : WheelOk ws total)
include h

theorem running (m : Nat) :
    (runningSum (lit 0 : F64) ws m).isFinite = true ∧ 0 ≤ (runningSum (lit 0 : F64) ws m).val ∧
    Close ws.length (runningSum (lit 0 : F64) ws m).val (exactSum (ws.take (m + 1))) := by
  have h0 : (lit 0 : F64) = F64.zero := F64.lit_zero
  have hl := h.len
  have hle := exactSum_take_le ws h.nonneg (m + 1)
  have hlen : (ws.take (m + 1)).length ≤ ws.length := by rw [List.length_take]; exact min_le_right _ _
  have hn := fun x hx => h.nonneg x (List.mem_of_mem_take (i := m + 1) hx)
  obtain ⟨a, b, c⟩ := foldl_close (ws.take (m + 1)) (fun x hx => h.finite x (List.mem_of_mem_take hx)) hn
    0 F64.zero 0 rfl le_rfl le_rfl (Close.refl 0 le_rfl) (by omega) (by rw [zero_add]; exact hle.trans h.high)
  rw [zero_add, zero_add] at c
  unfold runningSum
  rw [h0]
  exact ⟨a, b, c.mono hlen b (exactSum_nonneg hn)⟩

theorem running_mono {a b : Nat} (hab : a ≤ b) :
    (runningSum (lit 0 : F64) ws a).val ≤ (runningSum (lit 0 : F64) ws b).val := by
  have hl := h.len
  have h1 := h.running a
  have hd : ws.take (b + 1) = ws.take (a + 1) ++ (ws.take (b + 1)).drop (a + 1) := by
    conv_lhs => rw [← List.take_append_drop (a + 1) (ws.take (b + 1))]
    rw [List.take_take, min_eq_left (by omega)]
  have hsum := exactSum_take_le ws h.nonneg (b + 1)
  have e : runningSum (lit 0 : F64) ws b = ((ws.take (b + 1)).drop (a + 1)).foldl (· +ₐ ·) (runningSum (lit 0 : F64) ws a) := by
    unfold runningSum
    conv_lhs => rw [hd, List.foldl_append]
  rw [e]
  rw [hd, exactSum_append] at hsum
  have hlen : ((ws.take (b + 1)).drop (a + 1)).length ≤ ws.length := by
    rw [List.length_drop, List.length_take]; omega
  exact (foldl_close _ (fun x hx => h.finite x (List.mem_of_mem_take (List.mem_of_mem_drop hx)))
    (fun x hx => h.nonneg x (List.mem_of_mem_take (List.mem_of_mem_drop hx))) ws.length _ _ h1.1 h1.2.1
    (exactSum_nonneg fun x hx => h.nonneg x (List.mem_of_mem_take hx)) h1.2.2 (by omega) (hsum.trans h.high)).2.1

theorem total_close : total.isFinite = true ∧ 0 ≤ total.val ∧ Close ws.length total.val (exactSum ws) :=
  treeSum_close h.sum h.finite h.nonneg (h.len.trans (by norm_num)) h.high

theorem ne_nil : ws ≠ [] := by
  rintro rfl
  have := h.low
  rw [exactSum_nil] at this
  exact absurd this (not_le.2 (pow2_pos _))

/-- The exact fraction and the computed one. -/
theorem ratio (m : Nat) :
    let S := exactSum (ws.take (m + 1)) / exactSum ws
    let c := (runningSum (lit 0 : F64) ws m).val / total.val
    S - 2 * ws.length / 2 ^ 53 ≤ c ∧ c ≤ S + 3 * ws.length / 2 ^ 53 ∧ S ≤ 1 ∧ pow2 (-962) ≤ total.val ∧ c ≤ 2 := by
  intro S c
  obtain ⟨a1, a2, a3⟩ := h.running m
  obtain ⟨b1, b2, b3⟩ := h.total_close
  have hW : 0 < exactSum ws := lt_of_lt_of_le (pow2_pos _) h.low
  have hS0 : 0 ≤ exactSum (ws.take (m + 1)) := exactSum_nonneg fun x hx => h.nonneg x (List.mem_of_mem_take hx)
  have hS1 : S ≤ 1 := by
    rw [div_le_one hW]; exact exactSum_take_le ws h.nonneg _
  have hS0' : 0 ≤ S := by positivity
  have hr : (ws.length : ℚ) / 2 ^ 53 ≤ 1 / 2 ^ 13 := by
    have : (ws.length : ℚ) ≤ 2 ^ 40 := by exact_mod_cast h.len
    rw [div_le_div_iff₀ (by norm_num) (by norm_num)]
    linarith
  have hr0 : (0 : ℚ) ≤ (ws.length : ℚ) / 2 ^ 53 := by positivity
  have e2 : 2 * (ws.length : ℚ) / 2 ^ 53 = 2 * (ws.length / 2 ^ 53) := by ring
  have e3 : 3 * (ws.length : ℚ) / 2 ^ 53 = 3 * (ws.length / 2 ^ 53) := by ring
  rw [e2, e3]
  unfold Close at a3 b3
  have eS : exactSum (ws.take (m + 1)) = S * exactSum ws := by simp only [S]; field_simp
  rw [eS] at a3
  have low := h.low
  generalize exactSum ws = W at *
  generalize (ws.length : ℚ) / 2 ^ 53 = r at *
  have hT : pow2 (-962) ≤ total.val := by
    have h2 : pow2 (-960) = 4 * pow2 (-962) := by
      rw [show (-960 : Int) = 2 + -962 by norm_num, pow2_add, pow2_eq 2]; norm_num
    have := pow2_pos (-962)
    norm_num at hr
    nlinarith [b3.1]
  have hT0 : 0 < total.val := lt_of_lt_of_le (pow2_pos _) hT
  have ec : (runningSum (lit 0 : F64) ws m).val = c * total.val := by simp only [c]; field_simp
  have hc0 : 0 ≤ c := div_nonneg a2 hT0.le
  rw [ec] at a3
  clear_value S c
  generalize total.val = T at *
  obtain ⟨a4, a5⟩ := a3
  obtain ⟨b4, b5⟩ := b3
  norm_num at hr
  have l1 : S - 2 * r ≤ c := by
    have h1 : (1 - r) * ((1 - r) * T) ≤ (1 - r) * W := mul_le_mul_of_nonneg_left b5 (by linarith)
    have h2 : (1 - r) * ((1 - r) * T) * S ≤ (1 - r) * W * S := mul_le_mul_of_nonneg_right h1 hS0'
    have h3 : (1 - r) * (1 - r) * S * T ≤ c * T := by nlinarith
    have h4 : (1 - r) * (1 - r) * S ≤ c := le_of_mul_le_mul_right h3 hT0
    nlinarith [mul_nonneg hr0 hr0, mul_nonneg (mul_nonneg hr0 hr0) hS0']
  have l2 : c ≤ S + 3 * r := by
    have h1 : (1 - r) * ((1 - r) * W) ≤ (1 - r) * T := mul_le_mul_of_nonneg_left b4 (by linarith)
    have h2 : (1 - r) * ((1 - r) * W) * c ≤ (1 - r) * T * c := mul_le_mul_of_nonneg_right h1 hc0
    have h3 : (1 - r) * (1 - r) * c * W ≤ S * W := by nlinarith
    have h4 : (1 - r) * (1 - r) * c ≤ S := le_of_mul_le_mul_right h3 hW
    by_contra hcon
    rw [not_le] at hcon
    have h5 : (1 - r) * (1 - r) * (S + 3 * r) ≤ (1 - r) * (1 - r) * c := mul_le_mul_of_nonneg_left hcon.le (by nlinarith)
    rcases hr0.eq_or_lt with h | h
    · subst h; linarith
    · nlinarith [mul_pos h h, mul_nonneg (mul_nonneg hr0 hr0) hS0', mul_nonneg hr0 (sub_nonneg.2 hS1)]
  exact ⟨l1, l2, hS1, hT, by linarith⟩

theorem target (k : Nat) (hk : k < 2 ^ 53) :
    ((F64.unit k).mul total).isFinite = true ∧ ((F64.unit k).mul total).val = rndQ ((k : ℚ) / 2 ^ 53 * total.val) := by
  obtain ⟨u1, u2⟩ := F64.unit_val hk.le
  obtain ⟨b1, b2, -⟩ := h.total_close
  rw [F64.mul_finite u1 b1, u2]
  refine F64.round_of_abs_le (F64.rep_val total) ?_
  have hk' : (k : ℚ) / 2 ^ 53 ≤ 1 := by
    rw [div_le_one (by positivity)]
    exact_mod_cast hk.le
  rw [abs_of_nonneg (by positivity)]
  exact mul_le_of_le_one_left b2 hk'

/-- The index is at most `i` when the target is at most the running sum. -/
theorem index_le {k j i : Nat} (hk : k < 2 ^ 53) (hj : WheelPick ws ((F64.unit k).mul total) j) (hi : i + 1 < ws.length) :
    j ≤ i ↔ rndQ ((k : ℚ) / 2 ^ 53 * total.val) ≤ (runningSum (lit 0 : F64) ws i).val := by
  obtain ⟨t1, t2⟩ := h.target k hk
  obtain ⟨j1, j2, j3⟩ := hj
  have hle : ∀ m, (((F64.unit k).mul total) ≤ₐ runningSum (lit 0 : F64) ws m) = true ↔
      rndQ ((k : ℚ) / 2 ^ 53 * total.val) ≤ (runningSum (lit 0 : F64) ws m).val := fun m => by
    rw [← t2]; exact F64.le_finite t1 (h.running m).1
  constructor
  · intro hji
    rcases j3 with j3 | j3
    · exact ((hle j).1 j3).trans (h.running_mono hji)
    · omega
  · intro hr
    by_contra hcon
    have := j2 i (by omega)
    rw [(hle i).2 hr] at this
    cases this

theorem prob_wheel (P : Nat → Prop) [DecidablePred P] (Q : Nat → Prop) [DecidablePred Q]
    (hPQ : ∀ k j, k < 2 ^ 53 → WheelPick ws ((F64.unit k).mul total) j → (P j ↔ Q k)) (N : Nat) (hN : N = 2 ^ 53) :
    (wheel ws total).prob P = (((Finset.range N).filter Q).card : ℚ) / N := by
  unfold wheel genF64
  rw [bind_assoc, Prog.prob_uniform_bind _ (by norm_num), ← hN, Finset.card_filter, Nat.cast_sum]
  congr 1
  refine Finset.sum_congr rfl fun k hk => ?_
  rw [Finset.mem_range, hN] at hk
  rw [Prog.bind_pure_left, Nat.cast_ite, Nat.cast_one, Nat.cast_zero]
  obtain ⟨j, hj, hp⟩ := wheelIndex_spec ws total (F64.unit k) h.ne_nil
  rw [hj, Prog.lift_ok, Prog.prob_pure]
  exact if_congr (hPQ k j hk hp) rfl rfl

/-- The distribution function. -/
theorem cdf (i : Nat) :
    exactSum (ws.take (i + 1)) / exactSum ws - 2 * ws.length / 2 ^ 53 ≤ (wheel ws total).prob (fun j => j ≤ i) ∧
    (wheel ws total).prob (fun j => j ≤ i) ≤ exactSum (ws.take (i + 1)) / exactSum ws + (3 * ws.length + 6) / 2 ^ 53 := by
  have hn : (0 : ℚ) ≤ 2 * ws.length / 2 ^ 53 := by positivity
  have hn' : (0 : ℚ) ≤ (3 * ws.length + 6) / 2 ^ 53 := by positivity
  obtain ⟨N, hN⟩ : ∃ N : Nat, N = 2 ^ 53 := ⟨_, rfl⟩
  obtain ⟨r1, r2, r3, r4, r5⟩ := h.ratio i
  have e : (3 * (ws.length : ℚ) + 6) / 2 ^ 53 = 3 * ws.length / 2 ^ 53 + 6 / 2 ^ 53 := by ring
  rcases Nat.lt_or_ge (i + 1) ws.length with hlt | hge
  · rw [h.prob_wheel _ _ (fun k j hk hj => h.index_le hk hj hlt) N hN]
    obtain ⟨a1, a2, -⟩ := h.running i
    have hT0 : 0 < total.val := lt_of_lt_of_le (pow2_pos _) r4
    obtain ⟨d1, d2⟩ := draws_le (F64.fmt_val _) a2 r4 (by rwa [div_le_iff₀ hT0] at r5) N hN
    refine ⟨le_trans ?_ d1, d2.trans ?_⟩
    · exact le_min r1 (by linarith)
    · rw [e]; linarith
  · have hone : (wheel ws total).prob (fun j => j ≤ i) = 1 := by
      have hN0 : (N : ℚ) ≠ 0 := by rw [hN]; norm_num
      rw [h.prob_wheel _ (fun _ => True) (fun k j _ hj => ⟨fun _ => trivial, fun _ => Nat.le_of_lt_succ (lt_of_lt_of_le hj.1 hge)⟩) N hN, Finset.filter_true, Finset.card_range,
        div_self hN0]
    have hfull : exactSum (ws.take (i + 1)) / exactSum ws = 1 := by
      rw [List.take_of_length_le (by omega), div_self (lt_of_lt_of_le (pow2_pos _) h.low).ne']
    rw [hone, hfull]
    exact ⟨by linarith, by linarith⟩

/-- The probability of an index. -/
theorem prob_index (i : Nat) (hi : i < ws.length) :
    |(wheel ws total).prob (fun j => j = i) - ws[i].val / exactSum ws| ≤ ws.length / 2 ^ 49 := by
  have hn : (1 : ℚ) ≤ ws.length := by exact_mod_cast (show 1 ≤ ws.length by omega)
  have hstep : exactSum (ws.take (i + 1)) = exactSum (ws.take i) + ws[i].val := by
    rw [List.take_add_one, List.getElem?_eq_getElem hi, exactSum_append]
    simp
  obtain ⟨a1, a2⟩ := h.cdf i
  rw [hstep, add_div] at a1 a2
  have hb : (5 * (ws.length : ℚ) + 6) / 2 ^ 53 ≤ ws.length / 2 ^ 49 := by
    rw [div_le_div_iff₀ (by norm_num) (by norm_num)]
    norm_num
    linarith
  have e1 : (5 * (ws.length : ℚ) + 6) / 2 ^ 53 = 2 * ws.length / 2 ^ 53 + (3 * ws.length + 6) / 2 ^ 53 := by ring
  have p1 : (0 : ℚ) ≤ 2 * ws.length / 2 ^ 53 := by positivity
  have p2 : (0 : ℚ) ≤ (3 * ws.length + 6) / 2 ^ 53 := by positivity
  rcases i with _ | i
  · have hc : (wheel ws total).prob (fun j => j = 0) = (wheel ws total).prob (fun j => j ≤ 0) :=
      Prog.prob_congr _ _ _ fun j _ => by simp
    rw [hc, abs_le]
    simp only [List.take_zero, exactSum_nil, zero_div, zero_add] at a1 a2
    constructor <;> linarith
  · obtain ⟨b1, b2⟩ := h.cdf i
    have hc : (wheel ws total).prob (fun j => j ≤ i + 1) =
        (wheel ws total).prob (fun j => j = i + 1) + (wheel ws total).prob (fun j => j ≤ i) := by
      rw [← Prog.prob_or _ _ _ fun j h1 h2 => by omega]
      exact Prog.prob_congr _ _ _ fun j _ => by omega
    rw [abs_le]
    constructor <;> linarith

end WheelOk
end RG
