import Verif.Float.Round
import Mathlib.Data.Prod.Lex

/-!
# `f64`

A model of Rust's `f64` (IEEE-754 binary64, round-to-nearest-even): NaN (payloads and sign ignored), infinities,
signed zeros and finite values. `fin q` holds a finite value, `fin 0` being `+0.0`; `nzero` is `-0.0`.
-/

namespace RG

inductive F64 where
  | nan
  | inf (neg : Bool)
  | nzero
  | fin (q : ℚ) (h : Rep q)

namespace F64

instance : DecidableEq F64 := fun a b =>
  match a, b with
  | nan, nan => isTrue rfl
  | inf s, inf t => if h : s = t then isTrue (h ▸ rfl) else isFalse (fun e => h (by injection e))
  | nzero, nzero => isTrue rfl
  | fin q _, fin q' _ => if h : q = q' then isTrue (by subst h; rfl) else isFalse (fun e => h (by injection e))
  | nan, inf _ => isFalse (fun e => by cases e)
  | nan, nzero => isFalse (fun e => by cases e)
  | nan, fin _ _ => isFalse (fun e => by cases e)
  | inf _, nan => isFalse (fun e => by cases e)
  | inf _, nzero => isFalse (fun e => by cases e)
  | inf _, fin _ _ => isFalse (fun e => by cases e)
  | nzero, nan => isFalse (fun e => by cases e)
  | nzero, inf _ => isFalse (fun e => by cases e)
  | nzero, fin _ _ => isFalse (fun e => by cases e)
  | fin _ _, nan => isFalse (fun e => by cases e)
  | fin _ _, inf _ => isFalse (fun e => by cases e)
  | fin _ _, nzero => isFalse (fun e => by cases e)

/-- The rational value of a finite number (0 for the others). -/
def val : F64 → ℚ
  | fin q _ => q
  | _ => 0

/-- -1 for `-∞`, 1 for `+∞`, 0 otherwise. -/
def cls : F64 → Int
  | inf true => -1
  | inf false => 1
  | _ => 0

/-- `f64::is_nan`. -/
def isNaN : F64 → Bool
  | nan => true
  | _ => false

/-- `f64::is_finite`: neither infinite nor NaN. -/
def isFinite : F64 → Bool
  | fin _ _ => true
  | nzero => true
  | _ => false

/-- Sign bit (false for NaN). -/
def signBit : F64 → Bool
  | inf s => s
  | nzero => true
  | fin q _ => q < 0
  | nan => false

/-- Position of a non-NaN value on the extended line `-∞ < rationals < +∞`. -/
def key (x : F64) : ℤ ×ₗ ℚ := toLex (x.cls, x.val)

/-- `a < b` (false if either is NaN). -/
def lt (a b : F64) : Bool := !a.isNaN && !b.isNaN && decide (a.key < b.key)

/-- `a <= b` (false if either is NaN). -/
def le (a b : F64) : Bool := !a.isNaN && !b.isNaN && decide (a.key ≤ b.key)

/-- `a == b` of `f64`: NaN is different from everything, `-0.0 == 0.0`. -/
def feq (a b : F64) : Bool := !a.isNaN && !b.isNaN && decide (a.key = b.key)

/-- `f64::partial_cmp`. -/
def partialCmp (a b : F64) : Option Ordering :=
  if a.isNaN || b.isNaN then none
  else if a.key < b.key then some .lt
  else if b.key < a.key then some .gt
  else some .eq

/-- Correctly rounded value of an exact rational; `neg` is the sign given to a zero result. -/
def round (neg : Bool) (q : ℚ) : F64 :=
  if h : |rndQ q| < pow2 1024 then
    (if rndQ q = 0 ∧ neg = true then nzero else fin (rndQ q) ⟨fmt_rndQ q, h⟩)
  else inf (q < 0)

/-- A decimal literal (the compiler rounds it correctly), or an exact non-negative value to be rounded. -/
def lit (q : ℚ) : F64 := round false q

/-- `n as f64`. -/
def ofNat (n : Nat) : F64 := round false n

def zero : F64 := fin 0 rep_zero
def one : F64 := fin 1 (by have := rep_nat (n := 1) (by norm_num); simpa using this)

/-- Unary minus. -/
def neg : F64 → F64
  | nan => nan
  | inf s => inf (!s)
  | nzero => zero
  | fin q h => if q = 0 then nzero else fin (-q) h.neg

/-- `a + b`. -/
def add (a b : F64) : F64 :=
  match a, b with
  | nan, _ => nan
  | _, nan => nan
  | inf s, inf t => if s = t then inf s else nan
  | inf s, _ => inf s
  | _, inf t => inf t
  | a, b => round (a.signBit && b.signBit) (a.val + b.val)

/-- `a - b`. -/
def sub (a b : F64) : F64 := add a b.neg

/-- `a * b`. -/
def mul (a b : F64) : F64 :=
  match a, b with
  | nan, _ => nan
  | _, nan => nan
  | inf s, inf t => inf (s ^^ t)
  | inf s, b => if b.val = 0 then nan else inf (s ^^ b.signBit)
  | a, inf t => if a.val = 0 then nan else inf (a.signBit ^^ t)
  | a, b => round (a.signBit ^^ b.signBit) (a.val * b.val)

/-- `a / b`. -/
def div (a b : F64) : F64 :=
  match a, b with
  | nan, _ => nan
  | _, nan => nan
  | inf _, inf _ => nan
  | inf s, b => inf (s ^^ b.signBit)
  | a, inf t => if a.signBit ^^ t then nzero else zero
  | a, b =>
    if b.val = 0 then (if a.val = 0 then nan else inf (a.signBit ^^ b.signBit))
    else round (a.signBit ^^ b.signBit) (a.val / b.val)

/-- Integer square root, bit by bit: the largest `x` with `x = r + (bits below 2^k)` and `x * x ≤ n`. -/
def isqrtAux (n : Nat) : Nat → Nat → Nat
  | 0, r => r
  | k + 1, r => isqrtAux n k (if (r + 2 ^ k) * (r + 2 ^ k) ≤ n then r + 2 ^ k else r)

/-- `⌊√n⌋`. -/
def isqrt (n : Nat) : Nat := isqrtAux n (Nat.log2 n / 2 + 1) 0

theorem isqrtAux_spec (n k r : Nat) (h1 : r * r ≤ n) (h2 : n < (r + 2 ^ k) * (r + 2 ^ k)) :
    isqrtAux n k r * isqrtAux n k r ≤ n ∧ n < (isqrtAux n k r + 1) * (isqrtAux n k r + 1) := by
  induction k generalizing r with
  | zero => exact ⟨h1, by simpa [isqrtAux] using h2⟩
  | succ k ih =>
    unfold isqrtAux
    split
    · rename_i h
      refine ih _ h ?_
      have : r + 2 ^ k + 2 ^ k = r + 2 ^ (k + 1) := by rw [pow_succ]; ring
      rwa [this]
    · rename_i h; exact ih _ h1 (by omega)

theorem isqrt_spec (n : Nat) : isqrt n * isqrt n ≤ n ∧ n < (isqrt n + 1) * (isqrt n + 1) := by
  refine isqrtAux_spec n _ 0 (by simp) ?_
  have h1 : n < 2 ^ (Nat.log2 n + 1) := Nat.lt_log2_self
  have h2 : (0 + 2 ^ (Nat.log2 n / 2 + 1)) * (0 + 2 ^ (Nat.log2 n / 2 + 1)) = 2 ^ (2 * (Nat.log2 n / 2 + 1)) := by
    rw [Nat.zero_add, ← pow_add]; congr 1; ring
  rw [h2]
  exact h1.trans_le (Nat.pow_le_pow_right (by norm_num) (by omega))

/-- Scale used by `sqrtApprox`. -/
def sqrtScale : Nat := 1100

/-- A rational that rounds to the same binary64 value as `√q`: the integer square root of `q` scaled by `4^1100`,
with a sticky bit when inexact. (`sqrtApprox_spec` in `Verif/Float/Sqrt.lean` relates it to the real square root.) -/
def sqrtApprox (q : ℚ) : ℚ :=
  let s := q * (4 : ℚ) ^ sqrtScale
  let r := isqrt ⌊s⌋.toNat
  if ((r * r : Nat) : ℚ) = s then (r : ℚ) / 2 ^ sqrtScale
  else (2 * r + 1 : ℚ) / 2 ^ (sqrtScale + 1)

/-- `f64::sqrt` (correctly rounded). -/
def sqrt : F64 → F64
  | nan => nan
  | inf true => nan
  | inf false => inf false
  | nzero => nzero
  | fin q _ => if q < 0 then nan else round false (sqrtApprox q)

/-- `x as usize`: truncation, saturating, NaN to 0 (64-bit `usize`). -/
def toUsize : F64 → Nat
  | nan => 0
  | inf true => 0
  | inf false => 2 ^ 64 - 1
  | nzero => 0
  | fin q _ => min ⌊q⌋.toNat (2 ^ 64 - 1)

/-- `f64::floor`. -/
def floor : F64 → F64
  | fin q _ => round (q < 0) (⌊q⌋ : ℚ)
  | x => x

/-- `rng.gen::<f64>()` for the draw `k < 2^53`: the value `k / 2^53` (rand 0.8 `Standard` for `f64`). -/
def unit (k : Nat) : F64 := round false ((k : ℚ) / 2 ^ 53)

attribute [irreducible] round

end F64

/-- The arithmetic used by the numerical code of `/repo`, so that the same definitions can be read at `F64` (what the
code does) and at an exact ordered field (what it would do without rounding). -/
class Arith (α : Type) where
  /-- `n as f64` -/
  ofNat : Nat → α
  /-- literals -/
  lit : ℚ → α
  add : α → α → α
  sub : α → α → α
  mul : α → α → α
  div : α → α → α
  lt : α → α → Bool
  le : α → α → Bool

namespace Arith
scoped infixl:65 " +ₐ " => Arith.add
scoped infixl:65 " -ₐ " => Arith.sub
scoped infixl:70 " *ₐ " => Arith.mul
scoped infixl:70 " /ₐ " => Arith.div
scoped infix:50 " <ₐ " => Arith.lt
scoped infix:50 " ≤ₐ " => Arith.le
end Arith

instance : Arith F64 where
  ofNat := F64.ofNat
  lit := F64.lit
  add := F64.add
  sub := F64.sub
  mul := F64.mul
  div := F64.div
  lt := F64.lt
  le := F64.le

/-- Exact arithmetic in an ordered field. -/
noncomputable instance (priority := low) exactArith (K : Type) [Field K] [LinearOrder K] : Arith K where
  ofNat n := n
  lit q := q
  add := (· + ·)
  sub := (· - ·)
  mul := (· * ·)
  div := (· / ·)
  lt a b := decide (a < b)
  le a b := decide (a ≤ b)

end RG
