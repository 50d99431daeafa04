import Verif.Float.F64
import Mathlib.Data.Rat.Floor
import Mathlib.Algebra.Order.Floor.Ring

/-!
# Facts about `F64`

Order, rounding and the sign/bound behaviour of the arithmetic operations. No definition of the model here.
-/

namespace RG
namespace F64

@[simp] theorem isNaN_nan : isNaN nan = true := rfl
@[simp] theorem isNaN_inf (s : Bool) : isNaN (inf s) = false := rfl
@[simp] theorem isNaN_nzero : isNaN nzero = false := rfl
@[simp] theorem isNaN_fin (q : ℚ) (h : Rep q) : isNaN (fin q h) = false := rfl
@[simp] theorem isFinite_nan : isFinite nan = false := rfl
@[simp] theorem isFinite_inf (s : Bool) : isFinite (inf s) = false := rfl
@[simp] theorem isFinite_nzero : isFinite nzero = true := rfl
@[simp] theorem isFinite_fin (q : ℚ) (h : Rep q) : isFinite (fin q h) = true := rfl
@[simp] theorem val_fin (q : ℚ) (h : Rep q) : val (fin q h) = q := rfl
@[simp] theorem val_nzero : val nzero = 0 := rfl
@[simp] theorem val_zero : val zero = 0 := rfl
@[simp] theorem val_one : val one = 1 := rfl
@[simp] theorem isFinite_zero : isFinite zero = true := rfl
@[simp] theorem isFinite_one : isFinite one = true := rfl

theorem isNaN_of_finite {a : F64} (h : a.isFinite = true) : a.isNaN = false := by
  cases a <;> simp_all

theorem isNaN_iff {a : F64} : a.isNaN = true ↔ a = nan := by
  cases a <;> simp

theorem cls_of_finite {a : F64} (h : a.isFinite = true) : a.cls = 0 := by
  cases a <;> simp_all [cls]

theorem rep_val (a : F64) : Rep a.val := by
  cases a with
  | fin q h => exact h
  | _ => exact rep_zero

theorem fmt_val (a : F64) : Fmt a.val := (rep_val a).1

/-! ### Order -/

theorem lt_iff {a b : F64} : a.lt b = true ↔ a.isNaN = false ∧ b.isNaN = false ∧ a.key < b.key := by
  simp [lt, and_assoc]

theorem le_iff {a b : F64} : a.le b = true ↔ a.isNaN = false ∧ b.isNaN = false ∧ a.key ≤ b.key := by
  simp [le, and_assoc]

theorem feq_iff {a b : F64} : a.feq b = true ↔ a.isNaN = false ∧ b.isNaN = false ∧ a.key = b.key := by
  simp [feq, and_assoc]

theorem key_finite {a : F64} (h : a.isFinite = true) : a.key = toLex (0, a.val) := by
  simp [key, cls_of_finite h]

theorem key_lt_finite {a b : F64} (ha : a.isFinite = true) (hb : b.isFinite = true) :
    a.key < b.key ↔ a.val < b.val := by
  rw [key_finite ha, key_finite hb, Prod.Lex.toLex_lt_toLex]; simp

theorem key_le_finite {a b : F64} (ha : a.isFinite = true) (hb : b.isFinite = true) :
    a.key ≤ b.key ↔ a.val ≤ b.val := by
  rw [key_finite ha, key_finite hb, Prod.Lex.toLex_le_toLex]; simp

theorem key_eq_finite {a b : F64} (ha : a.isFinite = true) (hb : b.isFinite = true) :
    a.key = b.key ↔ a.val = b.val := by
  rw [key_finite ha, key_finite hb]; simp

theorem lt_finite {a b : F64} (ha : a.isFinite = true) (hb : b.isFinite = true) :
    a.lt b = true ↔ a.val < b.val := by
  rw [lt_iff, key_lt_finite ha hb]; simp [isNaN_of_finite ha, isNaN_of_finite hb]

theorem le_finite {a b : F64} (ha : a.isFinite = true) (hb : b.isFinite = true) :
    a.le b = true ↔ a.val ≤ b.val := by
  rw [le_iff, key_le_finite ha hb]; simp [isNaN_of_finite ha, isNaN_of_finite hb]

theorem le_refl {a : F64} (h : a.isNaN = false) : a.le a = true := by simp [le_iff, h]

theorem lt_irrefl (a : F64) : a.lt a = false := by simp [lt]

theorem le_trans {a b c : F64} (h1 : a.le b = true) (h2 : b.le c = true) : a.le c = true := by
  rw [le_iff] at *; exact ⟨h1.1, h2.2.1, _root_.le_trans h1.2.2 h2.2.2⟩

theorem lt_trans {a b c : F64} (h1 : a.lt b = true) (h2 : b.lt c = true) : a.lt c = true := by
  rw [lt_iff] at *; exact ⟨h1.1, h2.2.1, _root_.lt_trans h1.2.2 h2.2.2⟩

theorem lt_of_lt_of_le {a b c : F64} (h1 : a.lt b = true) (h2 : b.le c = true) : a.lt c = true := by
  rw [lt_iff] at *; rw [le_iff] at h2; exact ⟨h1.1, h2.2.1, _root_.lt_of_lt_of_le h1.2.2 h2.2.2⟩

theorem lt_of_le_of_lt {a b c : F64} (h1 : a.le b = true) (h2 : b.lt c = true) : a.lt c = true := by
  rw [lt_iff] at *; rw [le_iff] at h1; exact ⟨h1.1, h2.2.1, _root_.lt_of_le_of_lt h1.2.2 h2.2.2⟩

theorem le_of_lt {a b : F64} (h : a.lt b = true) : a.le b = true := by
  rw [lt_iff] at h; rw [le_iff]; exact ⟨h.1, h.2.1, h.2.2.le⟩

theorem le_of_not_lt {a b : F64} (ha : a.isNaN = false) (hb : b.isNaN = false) (h : b.lt a = false) :
    a.le b = true := by
  rw [le_iff]; refine ⟨ha, hb, ?_⟩
  simpa [lt, ha, hb] using h

theorem lt_of_not_le {a b : F64} (ha : a.isNaN = false) (hb : b.isNaN = false) (h : b.le a = false) :
    a.lt b = true := by
  rw [lt_iff]; refine ⟨ha, hb, ?_⟩
  simpa [le, ha, hb] using h

theorem le_total {a b : F64} (ha : a.isNaN = false) (hb : b.isNaN = false) : a.le b = true ∨ b.le a = true := by
  rcases _root_.le_total a.key b.key with h | h
  · exact Or.inl (le_iff.2 ⟨ha, hb, h⟩)
  · exact Or.inr (le_iff.2 ⟨hb, ha, h⟩)

theorem not_lt_iff_le {a b : F64} (ha : a.isNaN = false) (hb : b.isNaN = false) :
    a.lt b = false ↔ b.le a = true := by
  simp [lt, le, ha, hb]

theorem lt_nan_left (b : F64) : lt nan b = false := rfl
theorem lt_nan_right (a : F64) : lt a nan = false := by simp [lt]
theorem le_nan_left (b : F64) : le nan b = false := rfl
theorem le_nan_right (a : F64) : le a nan = false := by simp [le]

theorem lt_of_nan_left {a b : F64} (h : a.isNaN = true) : a.lt b = false := by simp [lt, h]
theorem lt_of_nan_right {a b : F64} (h : b.isNaN = true) : a.lt b = false := by simp [lt, h]
theorem not_nan_left_of_lt {a b : F64} (h : a.lt b = true) : a.isNaN = false := (lt_iff.1 h).1
theorem not_nan_right_of_lt {a b : F64} (h : a.lt b = true) : b.isNaN = false := (lt_iff.1 h).2.1
theorem not_nan_left_of_le {a b : F64} (h : a.le b = true) : a.isNaN = false := (le_iff.1 h).1
theorem not_nan_right_of_le {a b : F64} (h : a.le b = true) : b.isNaN = false := (le_iff.1 h).2.1

/-- A value between two finite ones is finite. -/
theorem finite_of_between {a x b : F64} (ha : a.isFinite = true) (hb : b.isFinite = true)
    (h1 : a.le x = true) (h2 : x.le b = true) : x.isFinite = true := by
  cases x with
  | fin q h => rfl
  | nzero => rfl
  | nan => simp [le] at h1
  | inf s =>
    exfalso
    rw [le_iff] at h1 h2
    cases s with
    | true =>
      have := h1.2.2
      rw [key_finite ha, key, Prod.Lex.toLex_le_toLex] at this
      simp [cls] at this
    | false =>
      have := h2.2.2
      rw [key_finite hb, key, Prod.Lex.toLex_le_toLex] at this
      simp [cls] at this

/-! ### Rounding -/

theorem round_finite {s : Bool} {q : ℚ} (h : |rndQ q| < pow2 1024) :
    (round s q).isFinite = true ∧ (round s q).val = rndQ q := by
  unfold round
  rw [dif_pos h]
  split
  · rename_i h'; exact ⟨rfl, by simp [h'.1]⟩
  · exact ⟨rfl, rfl⟩

theorem round_overflow {s : Bool} {q : ℚ} (h : ¬ |rndQ q| < pow2 1024) : round s q = inf (q < 0) := by
  unfold round; rw [dif_neg h]

theorem round_ne_nan (s : Bool) (q : ℚ) : (round s q).isNaN = false := by
  unfold round
  split
  · split <;> rfl
  · rfl

theorem abs_rndQ_le {q B : ℚ} (hB : Fmt B) (h : |q| ≤ B) : |rndQ q| ≤ B := by
  rw [abs_le] at *
  exact ⟨le_rndQ hB.neg h.1, rndQ_le hB h.2⟩

/-- A rational of magnitude at most a representable number does not overflow. -/
theorem round_of_abs_le {s : Bool} {q B : ℚ} (hB : Rep B) (h : |q| ≤ B) :
    (round s q).isFinite = true ∧ (round s q).val = rndQ q := by
  apply round_finite
  refine lt_of_le_of_lt' ?_ (abs_rndQ_le hB.1 h)
  exact (le_abs_self B).trans_lt hB.2
where
  lt_of_le_of_lt' {a b c : ℚ} (h1 : b < c) (h2 : a ≤ b) : a < c := _root_.lt_of_le_of_lt h2 h1

/-- Rounding an exactly representable value. -/
theorem round_rep {s : Bool} {q : ℚ} (h : Rep q) : (round s q).isFinite = true ∧ (round s q).val = q := by
  have := round_finite (s := s) (q := q) (by rw [rndQ_of_fmt h.1]; exact h.2)
  rwa [rndQ_of_fmt h.1] at this

theorem ofNat_exact {n : Nat} (h : n ≤ 2 ^ 53) : (ofNat n).isFinite = true ∧ (ofNat n).val = n :=
  round_rep (rep_nat h)

theorem rep_pow2_le {k : Int} (h : -1074 ≤ k) (h' : k ≤ 1023) : Rep (pow2 k) := rep_pow2 h (by omega)

theorem ofNat_finite {n : Nat} (h : n < 2 ^ 64) :
    (ofNat n).isFinite = true ∧ (ofNat n).val = rndQ n := by
  refine round_of_abs_le (rep_pow2_le (k := 64) (by norm_num) (by norm_num)) ?_
  have : pow2 64 = ((2 ^ 64 : Nat) : ℚ) := pow2_natCast 64
  rw [this, abs_of_nonneg (by positivity)]
  exact_mod_cast h.le

theorem le_ofNat_val {n k : Nat} (hn : n < 2 ^ 64) (hk : k ≤ 2 ^ 53) (h : k ≤ n) : (k : ℚ) ≤ (ofNat n).val := by
  rw [(ofNat_finite hn).2]
  exact le_rndQ (rep_nat hk).1 (by exact_mod_cast h)

/-- `round` of a non-negative exact result is non-negative (possibly `+∞`). -/
theorem round_nonneg {s : Bool} {q : ℚ} (h : 0 ≤ q) : zero.le (round s q) = true := by
  by_cases ho : |rndQ q| < pow2 1024
  · obtain ⟨h1, h2⟩ := round_finite (s := s) ho
    rw [le_finite rfl h1, h2]
    exact rndQ_nonneg h
  · rw [round_overflow ho]
    have : decide (q < 0) = false := by simpa using h
    rw [this]
    rw [le_iff]
    refine ⟨rfl, rfl, ?_⟩
    rw [key, key, Prod.Lex.toLex_le_toLex]
    left; simp [cls, zero]

/-! ### Arithmetic on finite values -/

theorem neg_finite {a : F64} (h : a.isFinite = true) : a.neg.isFinite = true ∧ a.neg.val = - a.val := by
  cases a with
  | fin q hq =>
    have : neg (fin q hq) = if q = 0 then nzero else fin (-q) hq.neg := rfl
    rw [this]
    split
    · rename_i h0; simp [h0]
    · simp
  | nzero => exact ⟨rfl, by simp [neg]⟩
  | nan => simp at h
  | inf s => simp at h

theorem add_finite {a b : F64} (ha : a.isFinite = true) (hb : b.isFinite = true) :
    add a b = round (a.signBit && b.signBit) (a.val + b.val) := by
  cases a <;> cases b <;> first | rfl | (exact absurd ha Bool.false_ne_true) | (exact absurd hb Bool.false_ne_true)

theorem sub_finite {a b : F64} (ha : a.isFinite = true) (hb : b.isFinite = true) :
    sub a b = round (a.signBit && b.neg.signBit) (a.val - b.val) := by
  rw [sub, add_finite ha (neg_finite hb).1, (neg_finite hb).2, sub_eq_add_neg]

theorem mul_finite {a b : F64} (ha : a.isFinite = true) (hb : b.isFinite = true) :
    mul a b = round (a.signBit ^^ b.signBit) (a.val * b.val) := by
  cases a <;> cases b <;> first | rfl | (exact absurd ha Bool.false_ne_true) | (exact absurd hb Bool.false_ne_true)

theorem div_finite' {a b : F64} (ha : a.isFinite = true) (hb : b.isFinite = true) :
    div a b = if b.val = 0 then (if a.val = 0 then nan else inf (a.signBit ^^ b.signBit))
      else round (a.signBit ^^ b.signBit) (a.val / b.val) := by
  cases a <;> cases b <;>
    first | rfl | (exact absurd ha Bool.false_ne_true) | (exact absurd hb Bool.false_ne_true)

theorem div_finite {a b : F64} (ha : a.isFinite = true) (hb : b.isFinite = true) (h0 : b.val ≠ 0) :
    div a b = round (a.signBit ^^ b.signBit) (a.val / b.val) := by
  rw [div_finite' ha hb, if_neg h0]

theorem div_zero_zero {a b : F64} (ha : a.isFinite = true) (hb : b.isFinite = true) (ha0 : a.val = 0)
    (hb0 : b.val = 0) : div a b = nan := by
  rw [div_finite' ha hb, if_pos hb0, if_pos ha0]

@[simp] theorem add_nan_left (b : F64) : add nan b = nan := by cases b <;> rfl
@[simp] theorem add_nan_right (a : F64) : add a nan = nan := by cases a <;> rfl
@[simp] theorem neg_nan : neg nan = nan := rfl
@[simp] theorem sub_nan_left (b : F64) : sub nan b = nan := by simp [sub]
@[simp] theorem sub_nan_right (a : F64) : sub a nan = nan := by simp [sub]
@[simp] theorem mul_nan_left (b : F64) : mul nan b = nan := by cases b <;> rfl
@[simp] theorem mul_nan_right (a : F64) : mul a nan = nan := by cases a <;> rfl
@[simp] theorem div_nan_left (b : F64) : div nan b = nan := by cases b <;> rfl
@[simp] theorem div_nan_right (a : F64) : div a nan = nan := by cases a <;> rfl
@[simp] theorem sqrt_nan : sqrt nan = nan := rfl

/-- Non-negative (including `-0.0` and `+∞`), not NaN. -/
theorem nonneg_cases {a : F64} (h : zero.le a = true) : a = inf false ∨ (a.isFinite = true ∧ 0 ≤ a.val) := by
  cases a with
  | nan => simp [le] at h
  | nzero => right; simp
  | fin q hq => right; rw [le_finite rfl rfl] at h; simpa using h
  | inf s =>
    left
    cases s with
    | false => rfl
    | true =>
      rw [le_iff] at h
      have := h.2.2
      rw [key, key, Prod.Lex.toLex_le_toLex] at this
      simp [cls, zero] at this

theorem zero_le_inf : zero.le (inf false) = true := by
  rw [le_iff]; refine ⟨rfl, rfl, ?_⟩
  rw [key, key, Prod.Lex.toLex_le_toLex]; left; simp [cls, zero]

theorem zero_le_finite {a : F64} (h : a.isFinite = true) : zero.le a = true ↔ 0 ≤ a.val := by
  rw [le_finite rfl h]; simp

/-- A sum of non-negative values is non-negative (not NaN). -/
theorem add_nonneg {a b : F64} (ha : zero.le a = true) (hb : zero.le b = true) : zero.le (add a b) = true := by
  rcases nonneg_cases ha with rfl | ⟨ha1, ha2⟩
  · rcases nonneg_cases hb with rfl | ⟨hb1, hb2⟩
    · exact zero_le_inf
    · have : add (inf false) b = inf false := by
        cases b <;> first | rfl | (exact absurd hb1 Bool.false_ne_true)
      rw [this]; exact zero_le_inf
  · rcases nonneg_cases hb with rfl | ⟨hb1, hb2⟩
    · have : add a (inf false) = inf false := by
        cases a <;> first | rfl | (exact absurd ha1 Bool.false_ne_true)
      rw [this]; exact zero_le_inf
    · rw [add_finite ha1 hb1]; exact round_nonneg (by linarith)

theorem sqrt_nonneg {a : F64} (ha : zero.le a = true) : zero.le (sqrt a) = true := by
  rcases nonneg_cases ha with rfl | ⟨ha1, ha2⟩
  · exact zero_le_inf
  · cases a with
    | nan => simp at ha1
    | inf s => simp at ha1
    | nzero => simpa [sqrt] using ha
    | fin q hq =>
      have hq' : ¬ q < 0 := by simpa using ha2
      simp only [sqrt, if_neg hq']
      refine round_nonneg ?_
      unfold sqrtApprox
      simp only
      split <;> positivity

/-! ### Literals -/

theorem lit_zero : lit 0 = zero := by decide +kernel
theorem lit_one : lit 1 = one := by decide +kernel
theorem ofNat_zero : ofNat 0 = zero := by decide +kernel
theorem ofNat_one : ofNat 1 = one := by decide +kernel

end F64
end RG
