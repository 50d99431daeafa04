import Verif.SpecFloat
import Verif.Proofs.Spread
import Verif.Proofs.Selection

/-!
# Property C81: the floating-point arithmetic of the model is IEEE 754 binary64

The code computes with `f64` throughout. The model of the operations is compared with `Verif.SpecFloat`.
-/

namespace RG.Props
open RG

theorem grid_iff (y : ℚ) : Grid y ↔ Fmt y := by
  unfold Grid Fmt
  simp only [pow2_eq]

theorem rne_half_even {y : ℚ} (h : |(rne y : ℚ) - y| = 1 / 2) : rne y % 2 = 0 := by
  have h1 := Int.floor_le y
  have h2 := Int.lt_floor_add_one y
  unfold rne at h ⊢
  dsimp only at h ⊢
  split_ifs at h ⊢ with c1 c2 c3
  · rw [abs_of_nonpos (by linarith)] at h; linarith
  · push_cast at h; rw [abs_of_nonneg (by linarith)] at h; linarith
  · exact c3
  · omega

/-- On a tie the rounded number has the even significand. -/
theorem rndQ_tie {x f : ℚ} (hf : Fmt f) (hne : f ≠ rndQ x) (heq : |f - x| = |rndQ x - x|) :
    ∃ k d e : ℤ, |d| = 1 ∧ |2 * k| ≤ 2 ^ 53 ∧ |2 * k + d| ≤ 2 ^ 53 ∧ -1074 ≤ e ∧
      rndQ x = ((2 * k : ℤ) : ℚ) * pow2 e ∧ f = ((2 * k + d : ℤ) : ℚ) * pow2 e := by
  by_cases hx : x = 0
  · subst hx
    rw [rndQ_zero] at heq hne
    simp at heq
    exact absurd heq hne
  have hp := pow2_pos (cexp x)
  have hr : rndQ x = rne (x / pow2 (cexp x)) * pow2 (cexp x) := by unfold rndQ; rw [if_neg hx]
  have hy53 : |x / pow2 (cexp x)| < ((2 ^ 53 : Int) : ℚ) := by
    rw [abs_div, abs_of_pos hp, div_lt_iff₀ hp]
    have : ((2 ^ 53 : Int) : ℚ) = pow2 53 := by rw [pow2_eq]; norm_num
    rw [this, ← pow2_add]
    have hc : flog2 x - 52 ≤ cexp x := le_max_left _ _
    exact (flog2_spec hx).2.trans_le (pow2_le.2 (by omega))
  obtain ⟨z, hz⟩ : ∃ z : Int, f = z * pow2 (cexp x) := by
    rcases fmt_mult_or x hf with h | ⟨hlt, hce⟩
    · exact h
    · exfalso
      have hs := (flog2_spec hx).1
      obtain ⟨h1, h2⟩ := abs_lt.1 hlt
      have hF : Fmt (pow2 (flog2 x)) := fmt_pow2 (by have : -1074 ≤ cexp x := le_max_right _ _; omega)
      rcases lt_or_gt_of_ne hx with h | h
      · rw [abs_of_neg h] at hs
        have := rndQ_nearest x hF.neg
        rw [← heq, abs_of_nonneg (by linarith), abs_of_nonneg (by linarith)] at this
        linarith
      · rw [abs_of_pos h] at hs
        have := rndQ_nearest x hF
        rw [← heq, abs_of_nonpos (by linarith), abs_of_nonpos (by linarith)] at this
        linarith
  set y := x / pow2 (cexp x) with hy
  have e : ∀ w : ℚ, w * pow2 (cexp x) - x = (w - y) * pow2 (cexp x) := by intro w; rw [hy]; field_simp
  rw [hz, hr, e, e, abs_mul, abs_mul] at heq
  have heq' : |(z : ℚ) - y| = |(rne y : ℚ) - y| := mul_right_cancel₀ (abs_ne_zero.2 hp.ne') heq
  have hzr : z ≠ rne y := by rintro h; exact hne (by rw [hz, hr, h])
  have herr := rne_err y
  have hone : (1 : ℚ) ≤ |((z - rne y : Int) : ℚ)| := by exact_mod_cast Int.one_le_abs (sub_ne_zero.2 hzr)
  have hsum : |((z - rne y : Int) : ℚ)| ≤ |(z : ℚ) - y| + |(rne y : ℚ) - y| := by
    push_cast
    calc |(z : ℚ) - rne y| = |((z : ℚ) - y) - ((rne y : ℚ) - y)| := by congr 1; ring
      _ ≤ _ := abs_sub _ _
  have hhalf : |(rne y : ℚ) - y| = 1 / 2 := by linarith
  have hd : |z - rne y| = 1 := by
    have : |((z - rne y : Int) : ℚ)| = 1 := by linarith
    exact_mod_cast this
  obtain ⟨k, hk⟩ : ∃ k, rne y = 2 * k := ⟨rne y / 2, by have := rne_half_even hhalf; omega⟩
  have hb : ∀ w : Int, |(w : ℚ) - y| = 1 / 2 → |w| ≤ 2 ^ 53 := by
    intro w hw
    have h1 : |(w : ℚ)| ≤ |(w : ℚ) - y| + |y| := by
      calc |(w : ℚ)| = |((w : ℚ) - y) + y| := by congr 1; ring
        _ ≤ _ := abs_add_le _ _
    have h2 : (|w| : ℚ) < ((2 ^ 53 : Int) : ℚ) + 1 := by linarith
    have h3 : |w| < 2 ^ 53 + 1 := by
      have : ((|w| : Int) : ℚ) < ((2 ^ 53 + 1 : Int) : ℚ) := by push_cast at h2 ⊢; linarith
      exact_mod_cast this
    omega
  refine ⟨k, z - rne y, cexp x, hd, ?_, ?_, le_max_right _ _, ?_, ?_⟩
  · rw [← hk]; exact hb _ hhalf
  · rw [← hk, show rne y + (z - rne y) = z by ring]; exact hb _ (heq'.trans hhalf)
  · rw [hr, ← hk]
  · rw [hz, ← hk, show rne y + (z - rne y) = z by ring]

/-- **C81** Rounding is to nearest, ties to even. -/
theorem C81_round (x : ℚ) : Nearest x (rndQ x) where
  grid := (grid_iff _).2 (fmt_rndQ x)
  near f hf := by exact_mod_cast rndQ_nearest x ((grid_iff f).1 hf)
  even f hf hne heq := by
    have := rndQ_tie (x := x) ((grid_iff f).1 hf) hne (by exact_mod_cast heq)
    simpa only [pow2_eq] using this

/-- **C81** There is exactly one nearest number. -/
theorem C81_unique {x : ℝ} {y z : ℚ} (hy : Nearest x y) (hz : Nearest x z) : y = z := by
  by_contra hne
  have heq : |(y : ℝ) - x| = |(z : ℝ) - x| := le_antisymm (hy.near z hz.grid) (hz.near y hy.grid)
  obtain ⟨k, d, e, hd, -, -, -, y1, z1⟩ := hy.even z hz.grid (Ne.symm hne) heq.symm
  obtain ⟨k', d', e', hd', -, -, -, z2, y2⟩ := hz.even y hy.grid hne heq
  have key : ∀ (k d e k' e' : ℤ) (w : ℚ), |d| = 1 → e ≤ e' → w = ((2 * k + d : ℤ) : ℚ) * (2 : ℚ) ^ e →
      w = ((2 * k' : ℤ) : ℚ) * (2 : ℚ) ^ e' → False := by
    intro k d e k' e' w hd hle h1 h2
    obtain ⟨n, hn⟩ := Int.eq_ofNat_of_zero_le (sub_nonneg.2 hle)
    have hp : (2 : ℚ) ^ e ≠ 0 := zpow_ne_zero _ (by norm_num)
    have h3 : ((2 * k + d : ℤ) : ℚ) = ((2 * (k' * 2 ^ n) : ℤ) : ℚ) := by
      refine mul_right_cancel₀ hp ?_
      rw [← h1, h2, show e' = n + e by omega, zpow_add₀ (by norm_num), zpow_natCast]
      push_cast
      ring
    have h4 : 2 * k + d = 2 * (k' * 2 ^ n) := by exact_mod_cast h3
    rcases (abs_eq (by norm_num : (0 : ℤ) ≤ 1)).1 hd with h | h <;> omega
  rcases le_total e e' with h | h
  · exact key k d e k' e' z hd h z1 z2
  · exact key k' d' e' k e y hd' h y2 y1

/-- **C81** The specification determines the result of an operation. -/
theorem C81_determined {x : ℚ} {s : Bool} {r r' : F64} (h : Rounds x s r) (h' : Rounds x s r') : r = r' := by
  obtain ⟨y, n1, a1, b1⟩ := h
  obtain ⟨y', n2, a2, b2⟩ := h'
  obtain rfl := C81_unique n1 n2
  rcases le_or_gt ((2 : ℚ) ^ 1024) |y| with hy | hy
  · rw [a1 hy, a2 hy]
  · obtain ⟨f1, v1, z1⟩ := b1 hy
    obtain ⟨f2, v2, z2⟩ := b2 hy
    by_cases h0 : y = 0
    · rw [z1 h0, z2 h0]
    · rcases r with _ | _ | _ | ⟨q, hq⟩ <;> rcases r' with _ | _ | _ | ⟨q', hq'⟩ <;>
        simp [F64.isFinite, F64.val] at f1 f2 v1 v2 <;> first | (exact absurd v1.symm h0) | (exact absurd v2.symm h0) | skip
      subst v1; subst v2; rfl

theorem rounds_round (s : Bool) (x : ℚ) : Rounds x s (F64.round s x) := by
  have e : pow2 1024 = (2 : ℚ) ^ 1024 := by
    rw [pow2_eq, show (1024 : Int) = ((1024 : Nat) : Int) from rfl, zpow_natCast]
  refine ⟨rndQ x, C81_round x, fun h => ?_, fun h => ?_⟩
  · rw [← e] at h
    rw [F64.round_overflow (not_lt.2 h)]
  · rw [← e] at h
    obtain ⟨h1, h2⟩ := F64.round_finite (s := s) h
    refine ⟨h1, h2, fun h0 => ?_⟩
    unfold F64.round
    rw [dif_pos h]
    cases s
    · rw [if_neg (by simp)]
      simp only [h0]; rfl
    · rw [if_pos ⟨h0, rfl⟩]; rfl

/-- **C81** Sums, differences, products and quotients of finite numbers are the rounded exact ones. A zero is negative if both
summands (the first and the negated second one) are, respectively if the signs differ. -/
theorem C81_operations (a b : F64) (ha : a.isFinite = true) (hb : b.isFinite = true) :
    Rounds (a.val + b.val) (a.signBit && b.signBit) (a.add b) ∧
    Rounds (a.val - b.val) (a.signBit && !b.signBit) (a.sub b) ∧
    Rounds (a.val * b.val) (a.signBit ^^ b.signBit) (a.mul b) ∧
    (b.val ≠ 0 → Rounds (a.val / b.val) (a.signBit ^^ b.signBit) (a.div b)) := by
  refine ⟨?_, ?_, ?_, fun h0 => ?_⟩
  · rw [F64.add_finite ha hb]; exact rounds_round _ _
  · have hs : b.neg.signBit = !b.signBit := by
      rcases b with _ | _ | _ | ⟨q, hq⟩
      · cases hb
      · cases hb
      · rfl
      · by_cases h : q = 0
        · subst h; simp [F64.neg, F64.signBit]
        · have e : F64.neg (.fin q hq) = .fin (-q) hq.neg := by simp [F64.neg, h]
          rw [e]
          rcases lt_or_gt_of_ne h with h | h
          · simp [F64.signBit, h, h.le]
          · simp [F64.signBit, h, h.le]
    obtain ⟨n1, n2⟩ := F64.neg_finite hb
    unfold F64.sub
    rw [F64.add_finite ha n1, n2, hs, ← sub_eq_add_neg]
    exact rounds_round _ _
  · rw [F64.mul_finite ha hb]; exact rounds_round _ _
  · rw [F64.div_finite ha hb h0]; exact rounds_round _ _

/-- **C81** The remaining cases: NaN, infinities, division by zero. `x` is finite. -/
theorem C81_special (a x : F64) (s t : Bool) (hx : x.isFinite = true) :
    (F64.nan.add a = .nan ∧ a.add .nan = .nan ∧ F64.nan.sub a = .nan ∧ a.sub .nan = .nan ∧
      F64.nan.mul a = .nan ∧ a.mul .nan = .nan ∧ F64.nan.div a = .nan ∧ a.div .nan = .nan) ∧
    ((F64.inf s).add x = .inf s ∧ x.add (.inf s) = .inf s ∧ (F64.inf s).sub x = .inf s ∧ x.sub (.inf s) = .inf (!s)) ∧
    ((F64.inf s).add (.inf t) = (if s = t then .inf s else .nan) ∧ (F64.inf s).sub (.inf t) = (if s = t then .nan else .inf s)) ∧
    ((F64.inf s).mul x = (if x.val = 0 then .nan else .inf (s ^^ x.signBit)) ∧
      x.mul (.inf s) = (if x.val = 0 then .nan else .inf (x.signBit ^^ s)) ∧ (F64.inf s).mul (.inf t) = .inf (s ^^ t)) ∧
    ((F64.inf s).div x = .inf (s ^^ x.signBit) ∧ x.div (.inf s) = (if x.signBit ^^ s then .nzero else .zero) ∧
      (F64.inf s).div (.inf t) = .nan) ∧
    (∀ y : F64, y.isFinite = true → y.val = 0 → x.div y = (if x.val = 0 then .nan else .inf (x.signBit ^^ y.signBit))) := by
  have hneg : ∀ y : F64, y.isFinite = true → ∃ z, y.neg = z ∧ z.isFinite = true := fun y hy => ⟨_, rfl, (F64.neg_finite hy).1⟩
  refine ⟨⟨?_, ?_, ?_, ?_, ?_, ?_, ?_, ?_⟩, ⟨?_, ?_, ?_, ?_⟩, ⟨?_, ?_⟩, ⟨?_, ?_, ?_⟩, ⟨?_, ?_, ?_⟩, ?_⟩
  · rfl
  · cases a <;> rfl
  · rfl
  · cases a <;> rfl
  · rfl
  · cases a <;> rfl
  · rfl
  · cases a <;> rfl
  · cases x <;> first | rfl | cases hx
  · cases x <;> first | rfl | cases hx
  · obtain ⟨z, h1, h2⟩ := hneg x hx
    unfold F64.sub
    rw [h1]
    cases z <;> first | rfl | cases h2
  · cases x <;> first | rfl | cases hx
  · cases s <;> cases t <;> rfl
  · cases s <;> cases t <;> rfl
  · cases x <;> first | rfl | cases hx
  · cases x <;> first | rfl | cases hx
  · rfl
  · cases x <;> first | rfl | cases hx
  · cases x <;> first | rfl | cases hx
  · rfl
  · intro y hy h0
    rw [F64.div_finite' hx hy]
    simp [h0]

theorem scale_eq (w : Nat) : ((w : ℚ)) * pow2 (-1075) = ((w * 2 ^ 25 : Nat) : ℚ) / 2 ^ F64.sqrtScale := by
  have : (2 : ℚ) ^ F64.sqrtScale = 2 ^ 25 * 2 ^ 1075 := by rw [← pow_add]; rfl
  rw [this, pow2_eq, zpow_neg, Nat.cast_mul, Nat.cast_pow, Nat.cast_ofNat]
  have h25 : (2 : ℚ) ^ 25 ≠ 0 := by norm_num
  have h1075 : (2 : ℚ) ^ 1075 ≠ 0 := pow_ne_zero _ (by norm_num)
  have e2 : (2 : ℚ) ^ (1075 : Int) = 2 ^ 1075 := by
    rw [show (1075 : Int) = ((1075 : Nat) : Int) from rfl, zpow_natCast]
  rw [e2]
  generalize (2 : ℚ) ^ 1075 = P at *
  generalize (2 : ℚ) ^ 25 = T at *
  field_simp

/-- If the real square root is a multiple of `2^-1075`, it is computed exactly before rounding. -/
theorem sqrtApprox_exact {q m : ℚ} (hq : 0 ≤ q) {z : Int} (hz : m = z * pow2 (-1075)) (hm : Real.sqrt q = m) :
    F64.sqrtApprox q = m := by
  have hm0 : 0 ≤ m := by
    have := Real.sqrt_nonneg (q : ℝ)
    rw [hm] at this
    exact_mod_cast this
  have hsq : q = m ^ 2 := by
    have := Real.sq_sqrt (show (0 : ℝ) ≤ q by exact_mod_cast hq)
    rw [hm] at this
    exact_mod_cast this.symm
  have hz0 : 0 ≤ z := by
    by_contra h
    have h1 : (z : ℚ) < 0 := by exact_mod_cast (not_le.1 h)
    have := mul_neg_of_neg_of_pos h1 (pow2_pos (-1075))
    rw [← hz] at this
    linarith
  obtain ⟨w, rfl⟩ := Int.eq_ofNat_of_zero_le hz0
  rw [Int.cast_natCast, scale_eq] at hz
  obtain ⟨s1, s2⟩ := F64.sqrtApprox_spec hq (w * 2 ^ 25)
  rw [← hz] at s1 s2
  exact le_antisymm (s2.2 hsq.le) (s1.2 hsq.ge)

/-- **C81** `sqrt` is the rounded real square root; it is NaN below zero. -/
theorem C81_sqrt (a : F64) (ha : a.isFinite = true) :
    (0 ≤ a.val → a.sqrt.isFinite = true ∧ Nearest (Real.sqrt a.val) a.sqrt.val ∧ (a.val = 0 → a.sqrt = a)) ∧
    (a.val < 0 → a.sqrt = .nan) := by
  rcases a with _ | _ | _ | ⟨q, hq⟩
  · cases ha
  · cases ha
  · refine ⟨fun _ => ⟨rfl, ?_, fun _ => rfl⟩, fun h => absurd h (by simp)⟩
    have := C81_round 0
    rw [rndQ_zero] at this
    simpa [F64.sqrt] using this
  · refine ⟨fun h0 => ?_, fun h => ?_⟩
    · have h0 : 0 ≤ q := h0
      have hf := F64.sqrt_finite ha h0
      refine ⟨hf, ⟨(grid_iff _).2 (F64.fmt_val _), fun f hF => F64.sqrt_nearest h0 hf ((grid_iff f).1 hF), ?_⟩, ?_⟩
      · intro f hF hne heq
        have hF' := (grid_iff f).1 hF
        have e : F64.sqrt (.fin q hq) = F64.round false (F64.sqrtApprox q) := by
          show (if q < 0 then F64.nan else F64.round false (F64.sqrtApprox q)) = _
          rw [if_neg (not_lt.2 h0)]
        have hr : (F64.sqrt (.fin q hq)).val = rndQ (F64.sqrtApprox q) := by
          rw [e] at hf ⊢
          by_cases hb : |rndQ (F64.sqrtApprox q)| < pow2 1024
          · exact (F64.round_finite hb).2
          · rw [F64.round_overflow hb] at hf; cases hf
        rw [hr] at hne heq ⊢
        obtain ⟨a, ha'⟩ := (fmt_rndQ (F64.sqrtApprox q)).mult
        obtain ⟨b, hb⟩ := hF'.mult
        have hmid : (rndQ (F64.sqrtApprox q) + f) / 2 = ((a + b : Int) : ℚ) * pow2 (-1075) := by
          rw [ha', hb, show (-1074 : Int) = -1075 + 1 from rfl, pow2_succ]; push_cast; ring
        have hroot : Real.sqrt q = (((rndQ (F64.sqrtApprox q) + f) / 2 : ℚ) : ℝ) := by
          rcases abs_eq_abs.1 heq with h | h
          · exact absurd (by exact_mod_cast (sub_left_injective h : (f : ℝ) = _)) hne
          · push_cast
            have : (F64.val (F64.fin q hq)) = q := rfl
            rw [this] at h
            linarith
        have hex := sqrtApprox_exact h0 hmid hroot
        have htie := rndQ_tie (x := F64.sqrtApprox q) hF' hne (by
          have h1 : f - F64.sqrtApprox q = -(rndQ (F64.sqrtApprox q) - F64.sqrtApprox q) := by
            generalize rndQ (F64.sqrtApprox q) = r at *
            rw [hex]; ring
          rw [h1, abs_neg])
        simpa only [pow2_eq] using htie
      · intro hz
        have : q = 0 := hz
        subst this
        show F64.sqrt F64.zero = F64.zero
        decide +kernel
    · show (if q < 0 then F64.nan else _) = _
      exact if_pos h

/-- **C81** `sqrt` of the others. -/
theorem C81_sqrt_special : F64.nan.sqrt = .nan ∧ (F64.inf true).sqrt = .nan ∧ (F64.inf false).sqrt = .inf false := ⟨rfl, rfl, rfl⟩

theorem ext_fin {a : F64} (h : a.isFinite = true) : ext a = (((a.val : ℚ) : ℝ) : EReal) := by
  rcases a with _ | _ | _ | ⟨q, hq⟩
  · cases h
  · cases h
  · simp [ext]
  · rfl

theorem ext_key {a b : F64} (ha : a.isNaN = false) (hb : b.isNaN = false) : ext a < ext b ↔ a.key < b.key := by
  have hc : ∀ x : F64, x.isNaN = false → x = .inf true ∨ x = .inf false ∨ x.isFinite = true := by
    rintro (_ | (_ | _) | _ | _) h <;> simp at h ⊢
  have hfin : ∀ x : F64, x.isFinite = true → ext x ≠ ⊥ ∧ ext x ≠ ⊤ ∧ x.cls = 0 := by
    intro x hx
    rw [ext_fin hx]
    exact ⟨EReal.coe_ne_bot _, EReal.coe_ne_top _, F64.cls_of_finite hx⟩
  have hb0 : ext (.inf true) = ⊥ := rfl
  have ht0 : ext (.inf false) = ⊤ := rfl
  have c1 : (F64.inf true).cls = -1 := rfl
  have c2 : (F64.inf false).cls = 1 := rfl
  rcases hc a ha with rfl | rfl | h1 <;> rcases hc b hb with rfl | rfl | h2
  · simp
  · simp [hb0, ht0, F64.key, Prod.Lex.toLex_lt_toLex, c1, c2]
  · obtain ⟨x1, x2, x3⟩ := hfin b h2
    simp [hb0, F64.key, Prod.Lex.toLex_lt_toLex, c1, x3, bot_lt_iff_ne_bot, x1]
  · simp [hb0, ht0, F64.key, Prod.Lex.toLex_lt_toLex, c1, c2]
  · simp
  · obtain ⟨x1, x2, x3⟩ := hfin b h2
    simp [ht0, F64.key, Prod.Lex.toLex_lt_toLex, c2, x3]
  · obtain ⟨x1, x2, x3⟩ := hfin a h1
    simp [hb0, F64.key, Prod.Lex.toLex_lt_toLex, c1, x3]
  · obtain ⟨x1, x2, x3⟩ := hfin a h1
    simp [ht0, F64.key, Prod.Lex.toLex_lt_toLex, c2, x3, lt_top_iff_ne_top, x2]
  · rw [F64.key_lt_finite h1 h2, ext_fin h1, ext_fin h2, EReal.coe_lt_coe_iff, Rat.cast_lt]

/-- **C81** Comparisons are those of the extended real line; with NaN they are false. -/
theorem C81_compare (a b : F64) :
    (a.isNaN = false → b.isNaN = false →
      (a.lt b = true ↔ ext a < ext b) ∧ (a.le b = true ↔ ext a ≤ ext b) ∧ (a.feq b = true ↔ ext a = ext b) ∧
      a.partialCmp b = some (if ext a < ext b then .lt else if ext b < ext a then .gt else .eq)) ∧
    (a.isNaN = true ∨ b.isNaN = true → a.lt b = false ∧ a.le b = false ∧ a.feq b = false ∧ a.partialCmp b = none) := by
  refine ⟨fun ha hb => ?_, fun h => ?_⟩
  · have k1 := ext_key ha hb
    have k2 := ext_key hb ha
    have k3 : a.key = b.key ↔ ext a = ext b := by
      rw [le_antisymm_iff, le_antisymm_iff, ← not_lt, ← not_lt, ← not_lt, ← not_lt, k1, k2]
    refine ⟨?_, ?_, ?_, ?_⟩
    · rw [F64.lt_iff, k1]; simp [ha, hb]
    · rw [F64.le_iff, ← not_lt, ← not_lt, k2]; simp [ha, hb]
    · rw [F64.feq_iff, k3]; simp [ha, hb]
    · unfold F64.partialCmp
      simp only [ha, hb, k1, k2]
      simp only [Bool.or_self, Bool.false_eq_true, if_false]
      split_ifs <;> rfl
  · rcases h with h | h <;> simp [F64.lt, F64.le, F64.feq, F64.partialCmp, h]

theorem floor_rep {q : ℚ} (h : Rep q) : Rep (⌊q⌋ : Int) := by
  refine ⟨floor_fmt h.1, ?_⟩
  obtain ⟨m, e, hm, he, rfl⟩ := h.1
  rcases le_or_gt 0 e with h0 | h0
  · obtain ⟨z, hz, -⟩ := pow2_int h0
    have : (m : ℚ) * pow2 e = ((m * z : Int) : ℚ) := by rw [hz]; push_cast; rfl
    have h2 := h.2
    rw [this] at h2 ⊢
    rwa [Int.floor_intCast]
  · have h1 : pow2 e ≤ 1 := by rw [← pow2_zero]; exact pow2_le.2 h0.le
    have hp := pow2_pos e
    have hm' : |(m : ℚ)| < 2 ^ 53 := by exact_mod_cast hm
    have hb : |(m : ℚ) * pow2 e| < 2 ^ 53 := by
      rw [abs_mul, abs_of_pos hp]
      exact (mul_le_of_le_one_right (abs_nonneg _) h1).trans_lt hm'
    obtain ⟨b1, b2⟩ := abs_lt.1 hb
    have h3 : |(⌊(m : ℚ) * pow2 e⌋ : Int)| ≤ 2 ^ 53 := by
      rw [abs_le]
      constructor
      · refine Int.le_floor.2 ?_
        push_cast; linarith
      · refine le_of_lt (Int.floor_lt.2 ?_)
        push_cast; linarith
    exact (rep_int h3).2

/-- **C81** Conversions: from `usize`, to `usize` (truncated, saturating, NaN to 0), to an integral float, and the random
numbers in `[0, 1)`. -/
theorem C81_convert (n k : Nat) (a : F64) (hk : k < 2 ^ 53) :
    Rounds n false (F64.ofNat n) ∧
    (a.isNaN = true → a.toUsize = 0) ∧ (a.isNaN = false → ext a < 0 → a.toUsize = 0) ∧
    (a.isFinite = true → 0 ≤ a.val → a.val < 2 ^ 64 → (a.toUsize : ℤ) = ⌊a.val⌋) ∧
    (a.isNaN = false → (((2 : ℝ) ^ 64 : ℝ) : EReal) ≤ ext a → a.toUsize = 2 ^ 64 - 1) ∧
    (a.isFinite = true → a.floor.isFinite = true ∧ a.floor.val = ⌊a.val⌋) ∧
    ((F64.unit k).isFinite = true ∧ (F64.unit k).val = (k : ℚ) / 2 ^ 53) := by
  refine ⟨rounds_round false n, ?_, ?_, ?_, ?_, ?_, ?_⟩
  · rintro h
    rw [F64.isNaN_iff] at h; rw [h]; rfl
  · intro hn h
    rcases a with _ | (_ | _) | _ | ⟨q, hq⟩
    · cases hn
    · simp [ext] at h
    · rfl
    · rfl
    · have h' : q < 0 := by
        simp only [ext] at h
        exact_mod_cast h
      rw [F64.toUsize_finite rfl]
      have : ⌊q⌋ < 0 := Int.floor_lt.2 (by simpa using h')
      simp [Int.toNat_of_nonpos this.le]
  · intro hf h0 h1
    rw [F64.toUsize_finite hf]
    have h2 : (0 : ℤ) ≤ ⌊a.val⌋ := Int.floor_nonneg.2 h0
    have h3 : ⌊a.val⌋ < 2 ^ 64 := Int.floor_lt.2 (by push_cast; exact h1)
    omega
  · intro hn h
    rcases a with _ | (_ | _) | _ | ⟨q, hq⟩
    · cases hn
    · rfl
    · simp [ext] at h
    · simp only [ext] at h
      exfalso
      have : ((2 : ℝ) ^ 64) ≤ 0 := by exact_mod_cast h
      norm_num at this
    · simp only [ext, EReal.coe_le_coe_iff] at h
      have h' : (2 : ℚ) ^ 64 ≤ q := by exact_mod_cast h
      rw [F64.toUsize_finite rfl]
      have : (2 : ℤ) ^ 64 ≤ ⌊q⌋ := Int.le_floor.2 (by push_cast; exact h')
      show min ⌊q⌋.toNat (2 ^ 64 - 1) = _
      omega
  · intro hf
    rcases a with _ | (_ | _) | _ | ⟨q, hq⟩
    · cases hf
    · cases hf
    · cases hf
    · exact ⟨rfl, by simp [F64.floor]⟩
    · exact F64.round_rep (floor_rep hq)
  · refine F64.round_rep ?_
    have e : (k : ℚ) / 2 ^ 53 = ((k : ℤ) : ℚ) * pow2 (-53) := by
      rw [pow2_eq, zpow_neg, div_eq_mul_inv]; norm_cast
    have hk' : |(k : ℤ)| < 2 ^ 53 := by rw [abs_of_nonneg (by positivity)]; exact_mod_cast hk
    refine ⟨⟨k, -53, hk', by norm_num, e⟩, ?_⟩
    rw [e, abs_mul, abs_of_pos (pow2_pos _)]
    have h1 : |((k : ℤ) : ℚ)| < pow2 53 := by
      rw [pow2_eq]; exact_mod_cast hk'
    calc |((k : ℤ) : ℚ)| * pow2 (-53) < pow2 53 * pow2 (-53) := mul_lt_mul_of_pos_right h1 (pow2_pos _)
      _ = pow2 0 := by rw [← pow2_add]; norm_num
      _ < pow2 1024 := pow2_lt.2 (by norm_num)

/-! ### Examples -/

-- 0.1 + 0.2 is not 0.3, and is what the specification says
example : (F64.lit (1 / 10)).add (F64.lit (2 / 10)) ≠ F64.lit (3 / 10) ∧
    Rounds ((F64.lit (1 / 10)).val + (F64.lit (2 / 10)).val) false ((F64.lit (1 / 10)).add (F64.lit (2 / 10))) :=
  ⟨by decide +kernel, by
    have h := (C81_operations (F64.lit (1 / 10)) (F64.lit (2 / 10)) (by decide +kernel) (by decide +kernel)).1
    rwa [show ((F64.lit (1 / 10)).signBit && (F64.lit (2 / 10)).signBit) = false by decide +kernel] at h⟩

-- a tie: 2^53 + 1 is as near to 2^53 as to 2^53 + 2 and becomes 2^53, 2^53 + 3 becomes 2^53 + 4
example : Rounds ((2 : ℚ) ^ 53 + 1) false (F64.lit (2 ^ 53)) ∧ Rounds ((2 : ℚ) ^ 53 + 3) false (F64.lit (2 ^ 53 + 4)) := by
  constructor
  · have h : F64.lit (2 ^ 53) = F64.round false (2 ^ 53 + 1) := by decide +kernel
    rw [h]; exact rounds_round _ _
  · have h : F64.lit (2 ^ 53 + 4) = F64.round false (2 ^ 53 + 3) := by decide +kernel
    rw [h]; exact rounds_round _ _

-- the square root of 2, of -0.0 and of -1
example : (F64.lit 2).sqrt = F64.lit (6369051672525773 / 2 ^ 52) ∧ F64.nzero.sqrt = .nzero ∧ F64.one.neg.sqrt = .nan := by
  decide +kernel
example : Nearest (Real.sqrt (F64.lit 2).val) (F64.lit 2).sqrt.val :=
  ((C81_sqrt (F64.lit 2) (by decide +kernel)).1 (by decide +kernel)).2.1

-- -0.0 and 0.0 are different but equal
example : F64.nzero ≠ F64.zero ∧ F64.nzero.feq F64.zero = true ∧ F64.nan.feq F64.nan = false := by decide +kernel

-- saturating conversions
example : (F64.lit (10 ^ 20)).toUsize = 2 ^ 64 - 1 ∧ (F64.lit (-5 / 2)).toUsize = 0 ∧ (F64.lit (5 / 2)).toUsize = 2 ∧
    (F64.lit (-5 / 2)).floor = F64.lit (-3) := by decide +kernel

end RG.Props
