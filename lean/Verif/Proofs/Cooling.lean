import Verif.Proofs.Wheel
import Verif.Proofs.Spread
import Verif.Proofs.Random

/-! Helper lemmas: wheels with infinite weights, and temperatures that are multiplied again and again. -/

namespace RG
open Arith Prog

namespace F64

theorem inf_add_nonneg {a : F64} (h : zero.le a = true) : (inf false).add a = inf false ∧ a.add (inf false) = inf false := by
  cases a with
  | nan => rw [le_nan_right] at h; cases h
  | inf s => cases s with
    | true => revert h; decide +kernel
    | false => exact ⟨rfl, rfl⟩
  | nzero => exact ⟨rfl, rfl⟩
  | fin q hq => exact ⟨rfl, rfl⟩

theorem inf_le_iff {a : F64} : (inf false).le a = true ↔ a = inf false := by
  constructor
  · intro h
    rw [le_iff] at h
    have h3 := h.2.2
    rw [key, key, Prod.Lex.toLex_le_toLex] at h3
    cases a with
    | nan => have := h.2.1; simp [isNaN] at this
    | inf s => cases s with
      | true => simp [cls] at h3
      | false => rfl
    | nzero => simp [cls] at h3
    | fin q hq => simp [cls] at h3
  · rintro rfl; decide +kernel

theorem unit_mul_inf (k : Nat) (hk : k < 2 ^ 53) : (unit k).mul (inf false) = if k = 0 then nan else inf false := by
  obtain ⟨u1, u2⟩ := unit_val hk.le
  have hs : (unit k).signBit = false ∨ k = 0 := by
    rcases Nat.eq_zero_or_pos k with h | h
    · exact Or.inr h
    · left
      cases hu : unit k with
      | nan => rfl
      | inf s => rw [hu] at u1; cases u1
      | nzero =>
        rw [hu] at u2
        have : (0 : ℚ) < (k : ℚ) / 2 ^ 53 := by positivity
        rw [← u2] at this
        exact absurd this (_root_.lt_irrefl _)
      | fin q hq =>
        rw [hu] at u2
        have : 0 ≤ q := by rw [show q = (k : ℚ) / 2 ^ 53 from u2]; positivity
        simpa [signBit] using this
  split
  · rename_i h; subst h; decide +kernel
  · rename_i h
    have hv : (unit k).val ≠ 0 := by rw [u2]; positivity
    rcases hs with hs | hs
    · cases hu : unit k with
      | nan => rw [hu] at u1; cases u1
      | inf s => rw [hu] at u1; cases u1
      | nzero => rw [hu] at hv; exact absurd rfl hv
      | fin q hq =>
        rw [hu] at hv hs
        show (if (fin q hq).val = 0 then nan else inf ((fin q hq).signBit ^^ false)) = _
        rw [if_neg hv, hs]
        rfl
    · exact absurd hs h

end F64

theorem foldl_inf (l : List F64) (hl : ∀ x ∈ l, F64.zero.le x = true) : l.foldl F64.add (F64.inf false) = F64.inf false := by
  induction l with
  | nil => rfl
  | cons x l ih =>
    rw [List.foldl_cons, (F64.inf_add_nonneg (hl x (by simp))).1]
    exact ih fun y hy => hl y (List.mem_cons_of_mem _ hy)

theorem foldl_mem_inf (l : List F64) (hl : ∀ x ∈ l, F64.zero.le x = true) (hi : F64.inf false ∈ l) (z : F64) (hz : F64.zero.le z = true) :
    l.foldl F64.add z = F64.inf false := by
  induction l generalizing z with
  | nil => cases hi
  | cons x l ih =>
    rw [List.foldl_cons]
    have hl' := fun y hy => hl y (List.mem_cons_of_mem _ hy)
    rcases List.mem_cons.1 hi with h | h
    · rw [← h, (F64.inf_add_nonneg hz).2]
      exact foldl_inf l hl'
    · exact ih hl' h _ (F64.add_nonneg hz (hl x (by simp)))

/-- A sum of numbers that are not negative, one of which is infinite, is infinite however it is bracketed. -/
theorem treeSum_inf {l : List F64} {s : F64} (h : TreeSum l s) (hl : ∀ x ∈ l, F64.zero.le x = true) (hi : F64.inf false ∈ l) :
    s = F64.inf false := by
  have hz' : ∀ z, z = F64.zero ∨ z = F64.nzero → F64.zero.le z = true := by
    rintro z (rfl | rfl) <;> decide +kernel
  induction h with
  | leaf z hz l => exact foldl_mem_inf l hl hi z (hz' z hz)
  | @node z hz l1 l2 s1 s2 t1 t2 ih1 ih2 =>
    have g1 : ∀ x ∈ l1, F64.zero.le x = true := fun x hx => hl x (List.mem_append_left _ hx)
    have g2 : ∀ x ∈ l2, F64.zero.le x = true := fun x hx => hl x (List.mem_append_right _ hx)
    rcases List.mem_append.1 hi with h | h
    · rw [ih1 g1 h, (F64.inf_add_nonneg (hz' z hz)).2, (F64.inf_add_nonneg (treeSum_nonneg t2 g2)).1]
    · rw [ih2 g2 h, (F64.inf_add_nonneg (F64.add_nonneg (hz' z hz) (treeSum_nonneg t1 g1))).2]

theorem add_zeros {a b : F64} (ha : a.isFinite = true ∧ a.val = 0) (hb : b.isFinite = true ∧ b.val = 0) :
    (a.add b).isFinite = true ∧ (a.add b).val = 0 := by
  rw [F64.add_finite ha.1 hb.1, ha.2, hb.2, add_zero]
  exact F64.round_rep rep_zero

theorem foldl_zeros (l : List F64) (hl : ∀ x ∈ l, x = F64.zero) (z : F64) (hz : z.isFinite = true ∧ z.val = 0) :
    (l.foldl F64.add z).isFinite = true ∧ (l.foldl F64.add z).val = 0 := by
  induction l generalizing z with
  | nil => exact hz
  | cons x l ih =>
    rw [List.foldl_cons]
    exact ih (fun y hy => hl y (List.mem_cons_of_mem _ hy)) _ (add_zeros hz (by rw [hl x (by simp)]; exact ⟨rfl, rfl⟩))

theorem treeSum_zeros {l : List F64} {s : F64} (h : TreeSum l s) (hl : ∀ x ∈ l, x = F64.zero) : s.isFinite = true ∧ s.val = 0 := by
  have hz' : ∀ z, z = F64.zero ∨ z = F64.nzero → z.isFinite = true ∧ z.val = 0 := by
    rintro z (rfl | rfl) <;> exact ⟨rfl, rfl⟩
  induction h with
  | leaf z hz l => exact foldl_zeros l hl z (hz' z hz)
  | node z hz t1 t2 ih1 ih2 =>
    exact add_zeros (add_zeros (hz' z hz) (ih1 fun x hx => hl x (List.mem_append_left _ hx)))
      (ih2 fun x hx => hl x (List.mem_append_right _ hx))

/-- The wheel if the total is infinite: `m` is the first position at which the running sum is infinite. -/
theorem wheelIndex_inf (ws : List F64) (m : Nat) (hm : m < ws.length) (hlt : ∀ i, i < m → runningSum (lit 0) ws i ≠ F64.inf false)
    (hat : runningSum (lit 0) ws m = F64.inf false) (k : Nat) (hk : k < 2 ^ 53) :
    wheelIndex ws (F64.inf false) (F64.unit k) = .ok (if k = 0 then ws.length - 1 else m) := by
  have hne : ws ≠ [] := by rintro rfl; simp at hm
  obtain ⟨j, hj, h1, h2, h3⟩ := wheelIndex_spec ws (F64.inf false) (F64.unit k) hne
  rw [hj]
  have e : (F64.unit k *ₐ F64.inf false : F64) = if k = 0 then F64.nan else F64.inf false := F64.unit_mul_inf k hk
  rw [e] at h2 h3
  congr 1
  split at h2
  · rename_i h0
    rw [if_pos h0] at h3 ⊢
    rcases h3 with h3 | h3
    · have : F64.le F64.nan (runningSum (lit 0) ws j) = true := h3
      rw [F64.le_nan_left] at this; cases this
    · omega
  · rename_i h0
    rw [if_neg h0] at h3 ⊢
    have hle : ∀ i, F64.le (F64.inf false) (runningSum (lit 0) ws i) = true ↔ runningSum (lit 0) ws i = F64.inf false := fun i =>
      F64.inf_le_iff
    rcases Nat.lt_trichotomy j m with h | h | h
    · rcases h3 with h3 | h3
      · exact absurd ((hle j).1 h3) (hlt j h)
      · omega
    · exact h
    · have : F64.le (F64.inf false) (runningSum (lit 0) ws m) = false := h2 m h
      rw [(hle m).2 hat] at this; cases this

/-- The wheel if all weights are zero: the first position. -/
theorem wheelIndex_zeros (w : F64) (ws : List F64) (hw : w = F64.zero) (total : F64) (ht : total.isFinite = true ∧ total.val = 0) (k : Nat)
    (hk : k < 2 ^ 53) : wheelIndex (w :: ws) total (F64.unit k) = .ok 0 := by
  obtain ⟨j, hj, h1, h2, h3⟩ := wheelIndex_spec (w :: ws) total (F64.unit k) (by simp)
  rw [hj]
  congr 1
  by_contra h0
  have := h2 0 (by omega)
  obtain ⟨u1, -⟩ := F64.unit_val hk.le
  have e : (F64.unit k *ₐ total : F64) = F64.round ((F64.unit k).signBit ^^ total.signBit) 0 := by
    show (F64.unit k).mul total = _
    rw [F64.mul_finite u1 ht.1, ht.2, mul_zero]
  have e' : runningSum (lit 0 : F64) (w :: ws) 0 = F64.zero := by
    subst hw
    show (F64.lit 0).add F64.zero = F64.zero
    decide +kernel
  rw [e, e'] at this
  have h : F64.le (F64.round ((F64.unit k).signBit ^^ total.signBit) 0) F64.zero = true := by
    generalize ((F64.unit k).signBit ^^ total.signBit) = b
    cases b <;> decide +kernel
  have this : F64.le (F64.round ((F64.unit k).signBit ^^ total.signBit) 0) F64.zero = false := this
  rw [h] at this
  cases this

/-- The draws of a program that takes one of two values according to whether the draw is zero. -/
theorem expect_zero_or (n : Nat) (hn : 0 < n) (g : Res Nat → ℚ) (a b : ℚ) (h0 : g (.ok 0) = a) (h1 : ∀ k, 0 < k → k < n → g (.ok k) = b) :
    (uniform n).expect g = (a + (n - 1) * b) / n := by
  rw [expect_uniform n hn]
  congr 1
  obtain ⟨m, rfl⟩ : ∃ m, n = m + 1 := ⟨n - 1, by omega⟩
  rw [Finset.sum_range_succ', h0, Finset.sum_congr rfl fun k hk => h1 (k + 1) (by omega) (by have := Finset.mem_range.1 hk; omega),
    Finset.sum_const, Finset.card_range, nsmul_eq_mul]
  push_cast
  ring

/-- The temperature after `n` preparations. -/
def temperatures (c T : F64) : Nat → F64
  | 0 => T
  | n + 1 => (temperatures c T n).mul c

/-- The sign of a product of numbers without sign. -/
theorem round_signBit {q : ℚ} (h : 0 ≤ q) : (F64.round false q).signBit = false := by
  unfold F64.round
  split
  · rw [if_neg (by simp)]
    simp only [F64.signBit, decide_eq_false_iff_not, not_lt]
    exact rndQ_nonneg h
  · simpa [F64.signBit] using h

theorem temperatures_step {c T : F64} (hT : T.isFinite = true) (h0 : T.signBit = false) (hc : c.isFinite = true) (hc0 : 0 < c.val)
    (hc1 : c.val < 1) : (T.mul c).isFinite = true ∧ (T.mul c).signBit = false ∧ 0 ≤ (T.mul c).val ∧ (T.mul c).val ≤ T.val ∧
      (T.mul c).val ≤ max (pow2 (-1022)) (T.val * (c.val * (1 + pow2 (-53)))) := by
  have hTv : 0 ≤ T.val := by
    cases T with
    | nan => exact le_refl _
    | inf s => exact le_refl _
    | nzero => exact le_refl _
    | fin q hq => simpa [F64.signBit] using h0
  have hcs : c.signBit = false := by
    cases c with
    | nan => rfl
    | inf s => cases hc
    | nzero => exact absurd hc0 (lt_irrefl _)
    | fin q hq =>
      have : 0 < q := hc0
      simpa [F64.signBit] using this.le
  have h1 : 0 ≤ T.val * c.val := mul_nonneg hTv hc0.le
  have h2 : T.val * c.val ≤ T.val := by nlinarith
  rw [F64.mul_finite hT hc, h0, hcs]
  have hr := F64.round_of_abs_le (s := false ^^ false) (F64.rep_val T) (show |T.val * c.val| ≤ T.val by rwa [abs_of_nonneg h1])
  obtain ⟨f1, f2⟩ := hr
  refine ⟨f1, round_signBit h1, ?_, ?_, ?_⟩
  · rw [f2]; exact rndQ_nonneg h1
  · rw [f2]; exact rndQ_le (F64.rep_val T).1 h2
  · rw [f2]
    rcases le_total (pow2 (-1022)) (T.val * c.val) with h | h
    · refine le_max_of_le_right ?_
      have := rndQ_rel_err (x := T.val * c.val) (by rwa [abs_of_nonneg h1])
      rw [abs_of_nonneg h1] at this
      have := (abs_le.1 this).2
      linarith
    · exact le_max_of_le_left (rndQ_le (fmt_pow2 (by norm_num)) h)

theorem temperatures_spec {c T : F64} (hT : T.isFinite = true) (h0 : T.signBit = false) (hc : c.isFinite = true) (hc0 : 0 < c.val)
    (hc1 : c.val < 1) (n : Nat) : (temperatures c T n).isFinite = true ∧ (temperatures c T n).signBit = false ∧
      0 ≤ (temperatures c T n).val ∧
      (temperatures c T n).val ≤ max (pow2 (-1022)) (T.val * (c.val * (1 + pow2 (-53))) ^ n) := by
  have hpos : 0 ≤ c.val * (1 + pow2 (-53)) := mul_nonneg hc0.le (by have := pow2_pos (-53); linarith)
  induction n with
  | zero =>
    refine ⟨hT, h0, ?_, ?_⟩
    · show 0 ≤ T.val
      cases T with
      | nan => exact le_refl _
      | inf s => exact le_refl _
      | nzero => exact le_refl _
      | fin q hq => simpa [F64.signBit] using h0
    · rw [pow_zero, mul_one]; exact le_max_right _ _
  | succ n ih =>
    obtain ⟨i1, i2, i3, i4⟩ := ih
    obtain ⟨s1, s2, s3, s4, s5⟩ := temperatures_step i1 i2 hc hc0 hc1
    refine ⟨s1, s2, s3, ?_⟩
    rcases le_max_iff.1 i4 with h | h
    · exact le_max_of_le_left (s4.trans h)
    · rcases le_max_iff.1 s5 with g | g
      · exact le_max_of_le_left g
      · refine le_max_of_le_right (g.trans ?_)
        have := mul_le_mul_of_nonneg_right h hpos
        rw [mul_assoc, ← pow_succ] at this
        exact this

theorem cooling_factor {c : F64} (hc1 : c.val < 1) : c.val * (1 + pow2 (-53)) < 1 := by
  have h := fmt_gap (F64.rep_val F64.one).1 (F64.rep_val c).1 (show (1 : ℚ) ≠ c.val from hc1.ne') (k := 0) (by rw [pow2_zero]; exact (abs_one).ge)
  rw [show F64.one.val = 1 from rfl, abs_of_pos (by linarith), show (0 : Int) - 53 = -53 from rfl] at h
  have := pow2_pos (-53)
  nlinarith

theorem res_bind_ok {α β : Type} {r : Res α} {f : α → Res β} {b : β} (h : (r >>= f) = .ok b) : ∃ a, r = .ok a ∧ f a = .ok b := by
  cases r with
  | ok a => exact ⟨a, rfl, h⟩
  | panic => cases h
  | diverge => cases h

end RG
