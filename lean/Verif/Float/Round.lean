import Mathlib.Data.Rat.Floor
import Mathlib.Algebra.Order.Field.Power
import Mathlib.Tactic.Ring
import Mathlib.Tactic.Linarith
import Mathlib.Tactic.FieldSimp
import Mathlib.Tactic.Positivity
import Mathlib.Tactic.NormNum

/-!
# Rounding of rationals to binary64

The set of finite IEEE-754 binary64 numbers and round-to-nearest, ties-to-even, over exact rationals.
Nothing in this file models `/repo`; it models the `f64` arithmetic the Rust compiler gives the code.
-/

namespace RG

/-- `2^k` for an integer `k`. -/
def pow2 : Int → ℚ
  | .ofNat n => ((2 ^ n : Nat) : ℚ)
  | .negSucc n => mkRat 1 (2 ^ (n + 1))

theorem pow2_eq (k : Int) : pow2 k = (2 : ℚ) ^ k := by
  cases k with
  | ofNat n => simp [pow2]
  | negSucc n =>
    simp only [pow2, zpow_negSucc, Rat.mkRat_eq_div]
    push_cast; simp

theorem pow2_pos (k : Int) : 0 < pow2 k := by rw [pow2_eq]; positivity

theorem pow2_ne (k : Int) : pow2 k ≠ 0 := (pow2_pos k).ne'

theorem pow2_add (a b : Int) : pow2 (a + b) = pow2 a * pow2 b := by
  simp only [pow2_eq]; exact zpow_add₀ (by norm_num) a b

theorem pow2_sub (a b : Int) : pow2 (a - b) = pow2 a / pow2 b := by
  simp only [pow2_eq]; exact zpow_sub₀ (by norm_num) a b

theorem pow2_le {a b : Int} : pow2 a ≤ pow2 b ↔ a ≤ b := by
  simp only [pow2_eq]; exact zpow_le_zpow_iff_right₀ (by norm_num)

theorem pow2_lt {a b : Int} : pow2 a < pow2 b ↔ a < b := by
  simp only [pow2_eq]; exact zpow_lt_zpow_iff_right₀ (by norm_num)

theorem pow2_natCast (n : Nat) : pow2 n = ((2 ^ n : Nat) : ℚ) := rfl

theorem pow2_zero : pow2 0 = 1 := by simp [pow2_eq]
theorem pow2_one : pow2 1 = 2 := by simp [pow2_eq]

theorem pow2_succ (a : Int) : pow2 (a + 1) = 2 * pow2 a := by rw [pow2_add, pow2_one]; ring

/-- For `k ≥ 0`, `2^k` is an integer. -/
theorem pow2_int {k : Int} (h : 0 ≤ k) : ∃ z : Int, pow2 k = z ∧ z = 2 ^ k.toNat := by
  obtain ⟨n, rfl⟩ := Int.eq_ofNat_of_zero_le h
  exact ⟨2 ^ n, by rw [pow2_natCast]; push_cast; rfl, by simp⟩

/-! ### Binary logarithm -/

/-- Floor of the binary logarithm of `|q|`, for `q ≠ 0`. -/
def flog2 (q : ℚ) : Int :=
  let k : Int := (Nat.log2 q.num.natAbs : Int) - Nat.log2 q.den
  if pow2 k ≤ |q| then k else k - 1

theorem flog2_neg (q : ℚ) : flog2 (-q) = flog2 q := by
  simp [flog2]

theorem abs_eq_div (q : ℚ) : |q| = (q.num.natAbs : ℚ) / (q.den : ℚ) := by
  conv_lhs => rw [← Rat.num_div_den q]
  rw [abs_div, Nat.abs_cast]
  congr 1
  rw [Nat.cast_natAbs, Int.cast_abs]

theorem flog2_spec {q : ℚ} (hq : q ≠ 0) : pow2 (flog2 q) ≤ |q| ∧ |q| < pow2 (flog2 q + 1) := by
  have hn : q.num.natAbs ≠ 0 := by simpa using hq
  have hd : q.den ≠ 0 := q.den_nz
  have n1 : (2 : ℚ) ^ (Nat.log2 q.num.natAbs) ≤ q.num.natAbs := by exact_mod_cast Nat.log2_self_le hn
  have n2 : (q.num.natAbs : ℚ) < 2 ^ (Nat.log2 q.num.natAbs + 1) := by exact_mod_cast Nat.lt_log2_self
  have d1 : (2 : ℚ) ^ (Nat.log2 q.den) ≤ q.den := by exact_mod_cast Nat.log2_self_le hd
  have d2 : (q.den : ℚ) < 2 ^ (Nat.log2 q.den + 1) := by exact_mod_cast Nat.lt_log2_self
  have dpos : (0 : ℚ) < q.den := by exact_mod_cast Nat.pos_of_ne_zero hd
  have npos : (0 : ℚ) < q.num.natAbs := by exact_mod_cast Nat.pos_of_ne_zero hn
  set a := Nat.log2 q.num.natAbs with ha
  set b := Nat.log2 q.den with hb
  have hab := abs_eq_div q
  have lo : pow2 ((a : Int) - b - 1) ≤ |q| := by
    rw [hab, le_div_iff₀ dpos]
    have e : pow2 ((a : Int) - b - 1) * 2 ^ (b + 1) = 2 ^ a := by
      have : (2 : ℚ) ^ (b + 1) = pow2 ((b : Int) + 1) := by rw [pow2_eq]; norm_cast
      rw [this, ← pow2_add]
      rw [show ((a : Int) - b - 1 + (b + 1)) = (a : Int) by ring, pow2_eq]; norm_cast
    calc pow2 ((a : Int) - b - 1) * q.den ≤ pow2 ((a : Int) - b - 1) * 2 ^ (b + 1) := by
          gcongr; exact (pow2_pos _).le
      _ = 2 ^ a := e
      _ ≤ _ := n1
  have hi : |q| < pow2 ((a : Int) - b + 1) := by
    rw [hab, div_lt_iff₀ dpos]
    have e : pow2 ((a : Int) - b + 1) * 2 ^ b = 2 ^ (a + 1) := by
      have : (2 : ℚ) ^ b = pow2 (b : Int) := by rw [pow2_eq]; norm_cast
      rw [this, ← pow2_add]
      rw [show ((a : Int) - b + 1 + b) = (a : Int) + 1 by ring, pow2_eq]; norm_cast
    calc (q.num.natAbs : ℚ) < 2 ^ (a + 1) := n2
      _ = pow2 ((a : Int) - b + 1) * 2 ^ b := e.symm
      _ ≤ pow2 ((a : Int) - b + 1) * q.den := by
          gcongr; exact (pow2_pos _).le
  unfold flog2
  simp only [← ha, ← hb]
  split
  · rename_i h; exact ⟨h, hi⟩
  · rename_i h
    refine ⟨lo, ?_⟩
    rw [show (a : Int) - b - 1 + 1 = (a : Int) - b by ring]
    exact not_le.mp h

theorem flog2_unique {q : ℚ} {k : Int} (h1 : pow2 k ≤ |q|) (h2 : |q| < pow2 (k + 1)) : flog2 q = k := by
  have hq : q ≠ 0 := by
    rintro rfl; simp at h1; exact absurd h1 (not_le.mpr (pow2_pos k))
  obtain ⟨h3, h4⟩ := flog2_spec hq
  have := pow2_lt.1 (h1.trans_lt h4)
  have := pow2_lt.1 (h3.trans_lt h2)
  omega

theorem flog2_lt_of_abs_lt {q : ℚ} (hq : q ≠ 0) {k : Int} (h : |q| < pow2 k) : flog2 q < k :=
  pow2_lt.1 ((flog2_spec hq).1.trans_lt h)

theorem le_flog2_of_le_abs {q : ℚ} {k : Int} (h : pow2 k ≤ |q|) : k ≤ flog2 q := by
  have hq : q ≠ 0 := by
    rintro rfl; simp at h; exact absurd h (not_le.mpr (pow2_pos k))
  have := pow2_lt.1 (h.trans_lt (flog2_spec hq).2)
  omega

theorem flog2_mono {x y : ℚ} (hx : x ≠ 0) (h : |x| ≤ |y|) : flog2 x ≤ flog2 y :=
  le_flog2_of_le_abs ((flog2_spec hx).1.trans h)

/-! ### Round half to even on integers -/

/-- Nearest integer, ties to even. -/
def rne (x : ℚ) : Int :=
  let f := ⌊x⌋
  let r := x - f
  if r < 1 / 2 then f else if 1 / 2 < r then f + 1 else if f % 2 = 0 then f else f + 1

theorem rne_intCast (z : Int) : rne z = z := by
  simp [rne]

theorem rne_floor_or (x : ℚ) : rne x = ⌊x⌋ ∨ rne x = ⌊x⌋ + 1 := by
  unfold rne; dsimp only; split_ifs <;> simp

theorem rne_err (x : ℚ) : |(rne x : ℚ) - x| ≤ 1 / 2 := by
  have h1 := Int.floor_le x
  have h2 := Int.lt_floor_add_one x
  unfold rne; dsimp only
  split_ifs <;> rw [abs_le] <;> push_cast <;> constructor <;> linarith

theorem rne_mono {x y : ℚ} (h : x ≤ y) : rne x ≤ rne y := by
  have hf : ⌊x⌋ ≤ ⌊y⌋ := Int.floor_mono h
  rcases lt_or_eq_of_le hf with hlt | heq
  · rcases rne_floor_or x with hx | hx <;> rcases rne_floor_or y with hy | hy <;> omega
  · unfold rne; dsimp only; rw [← heq]
    split_ifs <;> first | omega | linarith

theorem rne_le {x : ℚ} {z : Int} (h : x ≤ z) : rne x ≤ z := by
  have := rne_mono h; rwa [rne_intCast] at this

theorem le_rne {x : ℚ} {z : Int} (h : (z : ℚ) ≤ x) : z ≤ rne x := by
  have := rne_mono h; rwa [rne_intCast] at this

theorem rne_neg (x : ℚ) : rne (-x) = - rne x := by
  by_cases hz : (⌊x⌋ : ℚ) = x
  · rw [← hz, ← Int.cast_neg, rne_intCast, rne_intCast]
  · have h1 : (⌊x⌋ : ℚ) < x := lt_of_le_of_ne (Int.floor_le x) hz
    have h2 := Int.lt_floor_add_one x
    have hfl : ⌊-x⌋ = -⌊x⌋ - 1 := by
      rw [Int.floor_eq_iff]; push_cast; constructor <;> linarith
    unfold rne; dsimp only
    rw [hfl]; push_cast
    split_ifs <;> first | omega | linarith

/-! ### Rounding to the binary64 grid -/

/-- Exponent of the last place of the binary64 grid around `q`. -/
def cexp (q : ℚ) : Int := max (flog2 q - 52) (-1074)

/-- Round to nearest, ties to even, with 53 bits of precision and gradual underflow, but unbounded upwards. -/
def rndQ (q : ℚ) : ℚ := if q = 0 then 0 else rne (q / pow2 (cexp q)) * pow2 (cexp q)

/-- Numbers on the binary64 grid, unbounded upwards: `m * 2^e` with `|m| < 2^53` and `e ≥ -1074`. -/
def Fmt (q : ℚ) : Prop := ∃ m e : Int, |m| < 2 ^ 53 ∧ -1074 ≤ e ∧ q = m * pow2 e

/-- Finite binary64 values. -/
def Rep (q : ℚ) : Prop := Fmt q ∧ |q| < pow2 1024

theorem fmt_zero : Fmt 0 := ⟨0, 0, by norm_num, by norm_num, by simp⟩

theorem rep_zero : Rep 0 := ⟨fmt_zero, by simpa using pow2_pos _⟩

theorem Fmt.neg {q : ℚ} (h : Fmt q) : Fmt (-q) := by
  obtain ⟨m, e, hm, he, rfl⟩ := h
  exact ⟨-m, e, by simpa using hm, he, by push_cast; ring⟩

theorem Rep.neg {q : ℚ} (h : Rep q) : Rep (-q) := ⟨h.1.neg, by simpa using h.2⟩

/-- The mantissa may also be exactly `2^53`. -/
theorem fmt_of_le {m e : Int} (hm : |m| ≤ 2 ^ 53) (he : -1074 ≤ e) : Fmt (m * pow2 e) := by
  rcases lt_or_eq_of_le hm with h | h
  · exact ⟨m, e, h, he, rfl⟩
  · rcases (abs_eq (by norm_num)).1 h with h | h
    · exact ⟨2 ^ 52, e + 1, by norm_num, by omega, by rw [h, pow2_succ]; push_cast; ring⟩
    · exact ⟨-2 ^ 52, e + 1, by norm_num, by omega, by rw [h, pow2_succ]; push_cast; ring⟩

theorem fmt_pow2 {k : Int} (h : -1074 ≤ k) : Fmt (pow2 k) := ⟨1, k, by norm_num, h, by simp⟩

theorem rep_pow2 {k : Int} (h : -1074 ≤ k) (h' : k < 1024) : Rep (pow2 k) :=
  ⟨fmt_pow2 h, by rw [abs_of_pos (pow2_pos k)]; exact pow2_lt.2 h'⟩

theorem fmt_int {z : Int} (h : |z| ≤ 2 ^ 53) : Fmt z := by
  have := fmt_of_le (e := 0) h (by norm_num); simpa [pow2_zero] using this

theorem rep_int {z : Int} (h : |z| ≤ 2 ^ 53) : Rep z := by
  refine ⟨fmt_int h, ?_⟩
  have h1 : |(z : ℚ)| ≤ pow2 53 := by
    rw [show (53 : Int) = ((53 : Nat) : Int) from rfl, pow2_natCast]; exact_mod_cast h
  exact h1.trans_lt (pow2_lt.2 (by norm_num))

theorem rep_nat {n : Nat} (h : n ≤ 2 ^ 53) : Rep n := by
  have := rep_int (z := n) (by rw [abs_of_nonneg (by positivity)]; exact_mod_cast h)
  simpa using this

theorem cexp_neg (q : ℚ) : cexp (-q) = cexp q := by simp [cexp, flog2_neg]

theorem rndQ_zero : rndQ 0 = 0 := by simp [rndQ]

theorem rndQ_neg (q : ℚ) : rndQ (-q) = - rndQ q := by
  unfold rndQ
  by_cases h : q = 0
  · simp [h]
  · have h' : -q ≠ 0 := by simpa using h
    rw [if_neg h, if_neg h', cexp_neg, neg_div, rne_neg]; push_cast; ring

theorem fmt_rndQ (q : ℚ) : Fmt (rndQ q) := by
  unfold rndQ
  split
  · exact fmt_zero
  · rename_i hq
    refine fmt_of_le ?_ (le_max_right _ _)
    have h2 := (flog2_spec hq).2
    have hc : flog2 q - 52 ≤ cexp q := le_max_left _ _
    have hb : |q / pow2 (cexp q)| ≤ ((2 ^ 53 : Int) : ℚ) := by
      rw [abs_div, abs_of_pos (pow2_pos _), div_le_iff₀ (pow2_pos _)]
      have : ((2 ^ 53 : Int) : ℚ) = pow2 53 := by
        rw [pow2_eq]; norm_num
      rw [this, ← pow2_add]
      exact h2.le.trans (pow2_le.2 (by omega))
    obtain ⟨h3, h4⟩ := abs_le.1 hb
    rw [abs_le]
    exact ⟨le_rne (by push_cast at h3 ⊢; exact h3), rne_le h4⟩

/-- If `f` is on the grid and not a multiple of the last place at `x`, it is below the binade of `x`. -/
theorem fmt_mult_or {f : ℚ} (x : ℚ) (hf : Fmt f) :
    (∃ z : Int, f = z * pow2 (cexp x)) ∨ (|f| < pow2 (flog2 x) ∧ cexp x ≤ flog2 x) := by
  obtain ⟨m, e, hm, he, rfl⟩ := hf
  rcases le_or_gt (cexp x) e with h | h
  · left
    obtain ⟨z, hz, -⟩ := pow2_int (k := e - cexp x) (by omega)
    refine ⟨m * z, ?_⟩
    push_cast
    rw [← hz, mul_assoc, ← pow2_add]; congr 2; ring
  · right
    have hc : cexp x = flog2 x - 52 := by unfold cexp at h ⊢; omega
    refine ⟨?_, by omega⟩
    rw [abs_mul, abs_of_pos (pow2_pos e)]
    have h1 : |(m : ℚ)| < pow2 53 := by
      rw [pow2_eq]; norm_num; exact_mod_cast hm
    calc |(m : ℚ)| * pow2 e < pow2 53 * pow2 e := by gcongr; exact pow2_pos e
      _ = pow2 (53 + e) := (pow2_add _ _).symm
      _ ≤ pow2 (flog2 x) := pow2_le.2 (by omega)

theorem pow2_flog2_mult (x : ℚ) (h : cexp x ≤ flog2 x) : ∃ z : Int, pow2 (flog2 x) = z * pow2 (cexp x) := by
  obtain ⟨z, hz, -⟩ := pow2_int (k := flog2 x - cexp x) (by omega)
  exact ⟨z, by rw [← hz, ← pow2_add]; congr 1; ring⟩

theorem rndQ_le_mult {x : ℚ} {z : Int} (h : x ≤ z * pow2 (cexp x)) : rndQ x ≤ z * pow2 (cexp x) := by
  unfold rndQ
  split
  · rename_i h0; rwa [← h0]
  · gcongr
    · exact (pow2_pos _).le
    · exact rne_le (by rwa [div_le_iff₀ (pow2_pos _)])

/-- Rounding does not cross a grid number from below. -/
theorem rndQ_le {x f : ℚ} (hf : Fmt f) (h : x ≤ f) : rndQ x ≤ f := by
  by_cases hx : x = 0
  · subst hx; rwa [rndQ_zero]
  rcases fmt_mult_or x hf with ⟨z, rfl⟩ | ⟨hlt, hce⟩
  · exact rndQ_le_mult h
  · have hs := (flog2_spec hx).1
    have hneg : x < 0 := by
      by_contra hc
      rw [abs_of_nonneg (not_lt.1 hc)] at hs
      have := (abs_lt.1 hlt).2
      linarith
    rw [abs_of_neg hneg] at hs
    obtain ⟨z, hz⟩ := pow2_flog2_mult x hce
    have h2 : rndQ x ≤ ((-z : Int) : ℚ) * pow2 (cexp x) := by
      apply rndQ_le_mult
      push_cast
      rw [neg_mul, ← hz]; linarith
    push_cast at h2
    rw [neg_mul, ← hz] at h2
    have := (abs_lt.1 hlt).1
    linarith

/-- Rounding does not cross a grid number from above. -/
theorem le_rndQ {x f : ℚ} (hf : Fmt f) (h : f ≤ x) : f ≤ rndQ x := by
  have := rndQ_le hf.neg (neg_le_neg h)
  rw [rndQ_neg] at this; linarith

/-- Grid numbers are not changed by rounding. -/
theorem rndQ_of_fmt {q : ℚ} (h : Fmt q) : rndQ q = q :=
  le_antisymm (rndQ_le h le_rfl) (le_rndQ h le_rfl)

/-- Rounding is monotone. -/
theorem rndQ_mono {x y : ℚ} (h : x ≤ y) : rndQ x ≤ rndQ y := by
  have pos : ∀ {x y : ℚ}, 0 < x → x ≤ y → rndQ x ≤ rndQ y := by
    intro x y hx hxy
    have hy : 0 < y := hx.trans_le hxy
    have hl : flog2 x ≤ flog2 y := flog2_mono hx.ne' (by rw [abs_of_pos hx, abs_of_pos hy]; exact hxy)
    by_cases hc : cexp x = cexp y
    · unfold rndQ
      rw [if_neg hx.ne', if_neg hy.ne', hc]
      have : (rne (x / pow2 (cexp y)) : ℚ) ≤ rne (y / pow2 (cexp y)) := by
        exact_mod_cast rne_mono (by gcongr; exact (pow2_pos _).le)
      gcongr
      exact (pow2_pos _).le
    · have h1 : flog2 x < flog2 y ∧ -1074 ≤ flog2 y := by unfold cexp at hc; omega
      have h2 : x ≤ pow2 (flog2 y) := by
        have := (flog2_spec hx.ne').2
        rw [abs_of_pos hx] at this
        exact this.le.trans (pow2_le.2 (by omega))
      have h3 : pow2 (flog2 y) ≤ y := by
        have := (flog2_spec hy.ne').1
        rwa [abs_of_pos hy] at this
      exact (rndQ_le (fmt_pow2 h1.2) h2).trans (le_rndQ (fmt_pow2 h1.2) h3)
  rcases lt_or_ge 0 x with hx | hx
  · exact pos hx h
  · rcases lt_or_ge y 0 with hy | hy
    · have := pos (neg_pos.2 hy) (neg_le_neg h)
      rw [rndQ_neg, rndQ_neg] at this; linarith
    · exact (rndQ_le fmt_zero hx).trans (le_rndQ fmt_zero hy)

theorem rndQ_nonneg {x : ℚ} (h : 0 ≤ x) : 0 ≤ rndQ x := le_rndQ fmt_zero h
theorem rndQ_nonpos {x : ℚ} (h : x ≤ 0) : rndQ x ≤ 0 := rndQ_le fmt_zero h

theorem rndQ_err (x : ℚ) : |rndQ x - x| ≤ pow2 (cexp x) / 2 := by
  unfold rndQ
  split
  · rename_i h; subst h; rw [sub_self, abs_zero]; have := pow2_pos (cexp 0); linarith
  · have h := rne_err (x / pow2 (cexp x))
    have e : (rne (x / pow2 (cexp x)) : ℚ) * pow2 (cexp x) - x
        = ((rne (x / pow2 (cexp x)) : ℚ) - x / pow2 (cexp x)) * pow2 (cexp x) := by
      field_simp [pow2_ne]
    rw [e, abs_mul, abs_of_pos (pow2_pos _)]
    have := pow2_pos (cexp x)
    nlinarith

/-- Relative error bound for normal numbers: `|rnd x - x| ≤ 2^-53 |x|`. -/
theorem rndQ_rel_err {x : ℚ} (h : pow2 (-1022) ≤ |x|) : |rndQ x - x| ≤ pow2 (-53) * |x| := by
  have hx : x ≠ 0 := by
    rintro rfl; simp at h; exact absurd h (not_le.mpr (pow2_pos _))
  have hl : -1022 ≤ flog2 x := le_flog2_of_le_abs h
  have hc : cexp x = flog2 x - 52 := by unfold cexp; omega
  refine (rndQ_err x).trans ?_
  rw [hc]
  have h1 := (flog2_spec hx).1
  have h2 : pow2 (flog2 x - 52) / 2 = pow2 (-53) * pow2 (flog2 x) := by
    rw [← pow2_add, show (flog2 x - 52) = (-53 + flog2 x) + 1 by ring, pow2_succ]; ring
  rw [h2]
  gcongr
  exact (pow2_pos _).le

/-- Multiplying by a power of two keeps a number on the grid, as long as it does not underflow. -/
theorem Fmt.mul_pow2 {q : ℚ} (h : Fmt q) {k : Int} (hk : 0 ≤ k) : Fmt (q * pow2 k) := by
  obtain ⟨m, e, hm, he, rfl⟩ := h
  exact ⟨m, e + k, hm, by omega, by rw [pow2_add]; ring⟩

/-- Every grid number is a multiple of `2^-1074`. -/
theorem Fmt.mult {q : ℚ} (h : Fmt q) : ∃ z : Int, q = z * pow2 (-1074) := by
  obtain ⟨m, e, hm, he, rfl⟩ := h
  obtain ⟨z, hz, -⟩ := pow2_int (k := e + 1074) (by omega)
  refine ⟨m * z, ?_⟩
  push_cast; rw [← hz, mul_assoc, ← pow2_add]; congr 2; ring

/-- A multiple of `2^-1074` of magnitude at most `2^-1021` is on the grid: sums that small are exact. -/
theorem fmt_of_small_mult {z : Int} (h : |(z : ℚ) * pow2 (-1074)| ≤ pow2 (-1021)) : Fmt (z * pow2 (-1074)) := by
  refine fmt_of_le ?_ le_rfl
  rw [abs_mul, abs_of_pos (pow2_pos _), show (-1021 : Int) = 53 + (-1074) by norm_num, pow2_add] at h
  have := le_of_mul_le_mul_right h (pow2_pos _)
  rw [pow2_eq] at this
  norm_num at this
  exact_mod_cast this

attribute [irreducible] pow2 rndQ

end RG
