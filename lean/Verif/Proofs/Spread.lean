import Verif.Proofs.StatsF64
import Verif.Float.Sqrt

/-! When the spread computed by Welford's algorithm in `f64` is zero (`stats.rs:145-149, 232-235`). -/

namespace RG
open Arith

/-- Different grid numbers differ by at least half a unit in the last place of the larger one. -/
theorem fmt_gap {u v : ℚ} (hu : Fmt u) (hv : Fmt v) (hne : u ≠ v) {k : Int} (hk : pow2 k ≤ |u|) :
    pow2 (k - 53) ≤ |u - v| := by
  have hu0 : u ≠ 0 := by
    rintro rfl; simp at hk; exact absurd hk (not_le.2 (pow2_pos _))
  have hl : k ≤ flog2 u := le_flog2_of_le_abs hk
  obtain ⟨s1, s2⟩ := flog2_spec hu0
  have hp : pow2 (k - 53) ≤ pow2 (flog2 u - 53) := pow2_le.2 (by omega)
  rcases fmt_mult_or u hu with ⟨zu, ezu⟩ | ⟨h, -⟩
  swap
  · exact absurd s1 (not_le.2 h)
  rcases fmt_mult_or u hv with ⟨zv, ezv⟩ | ⟨h, hc⟩
  · have hz : (1 : ℚ) ≤ |((zu - zv : Int) : ℚ)| := by
      have : zu - zv ≠ 0 := by
        intro h0
        apply hne
        rw [ezu, ezv, show zu = zv by omega]
      exact_mod_cast Int.one_le_abs this
    have e : u - v = ((zu - zv : Int) : ℚ) * pow2 (cexp u) := by
      push_cast; linarith
    rw [e, abs_mul, abs_of_pos (pow2_pos _)]
    have hce : flog2 u - 53 ≤ cexp u := by unfold cexp; omega
    have := pow2_le.2 hce
    nlinarith [pow2_pos (cexp u)]
  · have h1 := fmt_lt_pow2 hv h
    have h2 : pow2 (flog2 u) = 2 ^ 53 * pow2 (flog2 u - 53) := by
      have : pow2 53 = 2 ^ 53 := by rw [pow2_eq]; norm_num
      rw [← this, ← pow2_add]; congr 1; ring
    have h3 := abs_sub_abs_le_abs_sub u v
    linarith

theorem abs_rndQ (q : ℚ) : |rndQ q| = rndQ |q| := by
  rcases le_total 0 q with h | h
  · rw [abs_of_nonneg h, abs_of_nonneg (rndQ_nonneg h)]
  · rw [abs_of_nonpos h, abs_of_nonpos (rndQ_nonpos h), rndQ_neg]

theorem le_abs_rndQ {q f : ℚ} (hf : Fmt f) (h : f ≤ |q|) : f ≤ |rndQ q| := by
  rw [abs_rndQ]; exact le_rndQ hf h

theorem abs_rndQ_lt {q : ℚ} {k : Int} (hk : -1074 ≤ k) (h : |rndQ q| < pow2 k) : |q| < pow2 k := by
  by_contra hc
  exact absurd (le_abs_rndQ (fmt_pow2 hk) (not_lt.1 hc)) (not_le.2 h)

/-- The increment of the average. -/
theorem increment_bounds {d N : ℚ} (hd : pow2 (-400) ≤ |d|) (hN : 2 ≤ N) (hN' : N ≤ pow2 64) :
    |rndQ (rndQ d / N) - d / N| ≤ |d| / 20 := by
  have hN0 : (0 : ℚ) < N := by linarith
  have hd' : pow2 (-1022) ≤ |d| := (pow2_le.2 (by norm_num)).trans hd
  have h1 := rndQ_rel_err hd'
  have h2 : pow2 (-400) ≤ |rndQ d| := le_abs_rndQ (fmt_pow2 (by norm_num)) hd
  have h3 : pow2 (-1022) ≤ |rndQ d / N| := by
    rw [abs_div, abs_of_pos hN0, le_div_iff₀ hN0]
    calc pow2 (-1022) * N ≤ pow2 (-1022) * pow2 64 := by
          exact mul_le_mul_of_nonneg_left hN' (pow2_pos _).le
      _ = pow2 (-958) := by rw [← pow2_add]; norm_num
      _ ≤ pow2 (-400) := pow2_le.2 (by norm_num)
      _ ≤ _ := h2
  have h4 := rndQ_rel_err h3
  have hp : pow2 (-53) ≤ 1 / 100 := by rw [pow2_eq]; norm_num
  have hp0 := pow2_pos (-53)
  have hd0 := abs_nonneg d
  have h5 : |rndQ d - d| ≤ |d| / 100 := h1.trans (by nlinarith)
  have h6 : |rndQ d| ≤ |d| + |d| / 100 := by
    have := abs_sub_abs_le_abs_sub (rndQ d) d; linarith
  have h7 : |rndQ d / N| ≤ |d| := by
    rw [abs_div, abs_of_pos hN0, div_le_iff₀ hN0]; nlinarith
  have h8 : |rndQ (rndQ d / N) - rndQ d / N| ≤ |d| / 100 := h4.trans (by nlinarith [abs_nonneg (rndQ d / N)])
  have h9 : |rndQ d / N - d / N| ≤ |d| / 100 := by
    rw [← sub_div, abs_div, abs_of_pos hN0, div_le_iff₀ hN0]; nlinarith
  calc |rndQ (rndQ d / N) - d / N| = |(rndQ (rndQ d / N) - rndQ d / N) + (rndQ d / N - d / N)| := by congr 1; ring
    _ ≤ |d| / 100 + |d| / 100 := (abs_add_le _ _).trans (add_le_add h8 h9)
    _ ≤ |d| / 20 := by linarith

/-- The new average. -/
def stepAvg (a x N : ℚ) : ℚ := rndQ (a + rndQ (rndQ (x - a) / N))

/-- From the third sample on, the new average is different from a sample different from the old average. -/
theorem stepAvg_ne {a x N : ℚ} (ha : Fmt a) (hd : pow2 (-400) ≤ |x - a|) (hN : 3 ≤ N) (hN' : N ≤ pow2 64) :
    stepAvg a x N ≠ x := by
  intro h
  have hpos : 0 < |x - a| := (pow2_pos _).trans_le hd
  have h1 := increment_bounds hd (by linarith) hN'
  set η := rndQ (rndQ (x - a) / N)
  have h2 := rndQ_nearest (a + η) ha
  rw [show rndQ (a + η) = x from h] at h2
  rw [show a - (a + η) = -η by ring, abs_neg, show x - (a + η) = (x - a) - η by ring] at h2
  have h3 : |(x - a) / N| ≤ |x - a| / 3 := by
    rw [abs_div, abs_of_pos (by linarith : (0 : ℚ) < N)]
    exact div_le_div_of_nonneg_left hpos.le (by norm_num) hN
  have h4 : |η| ≤ |x - a| / 3 + |x - a| / 20 := by
    have := abs_sub_abs_le_abs_sub η ((x - a) / N); linarith
  have h5 := abs_sub_abs_le_abs_sub (x - a) η
  linarith

/-- Neither is the second, if the two samples are not close. -/
theorem stepAvg_ne_of_far {a x N : ℚ} (hd : pow2 (-400) ≤ |x - a|) (hN : 2 ≤ N) (hN' : N ≤ pow2 64)
    (hfar : pow2 (-50) * |x| ≤ |x - a|) : stepAvg a x N ≠ x := by
  intro h
  have hpos : 0 < |x - a| := (pow2_pos _).trans_le hd
  have h1 := increment_bounds hd hN hN'
  set η := rndQ (rndQ (x - a) / N)
  have h3 : |(x - a) / N| ≤ |x - a| / 2 := by
    rw [abs_div, abs_of_pos (by linarith : (0 : ℚ) < N)]
    exact div_le_div_of_nonneg_left hpos.le (by norm_num) hN
  have h4 : |η| ≤ |x - a| / 2 + |x - a| / 20 := by
    have := abs_sub_abs_le_abs_sub η ((x - a) / N); linarith
  have h5 := abs_sub_abs_le_abs_sub (x - a) η
  have h6 : |(x - a) - η| = |rndQ (a + η) - (a + η)| := by
    rw [show rndQ (a + η) = x from h]; congr 1; ring
  rcases lt_or_ge |a + η| (pow2 (-1022)) with hy | hy
  · have h7 := rndQ_nearest (a + η) fmt_zero
    rw [zero_sub, abs_neg] at h7
    have h8 : pow2 (-1022) ≤ pow2 (-400) / 4 := by
      have : pow2 (-400) = 4 * pow2 (-402) := by
        rw [show (-400 : Int) = -402 + 1 + 1 by norm_num, pow2_succ, pow2_succ]; ring
      have := pow2_le.2 (show (-1022 : Int) ≤ -402 by norm_num)
      linarith
    linarith
  · have h7 := rndQ_rel_err hy
    have h8 : |a + η| ≤ |x| + |(x - a) - η| := by
      rw [show a + η = x - ((x - a) - η) by ring]; exact abs_sub _ _
    have hp : pow2 (-53) ≤ 1 / 100 := by rw [pow2_eq]; norm_num
    have hp0 := pow2_pos (-53)
    have hp2 : pow2 (-50) = 8 * pow2 (-53) := by rw [pow2_eq, pow2_eq]; norm_num
    rw [hp2] at hfar
    nlinarith [abs_nonneg x, abs_nonneg ((x - a) - η)]

/-- If the new average is not the sample, it differs from it noticeably. -/
theorem stepAvg_gap {a x N : ℚ} (hx : Fmt x) (hd : pow2 (-400) ≤ |x - a|) (hN : 2 ≤ N) (hN' : N ≤ pow2 64)
    (hne : stepAvg a x N ≠ x) : pow2 (-456) ≤ |x - stepAvg a x N| := by
  have hpos : 0 < |x - a| := (pow2_pos _).trans_le hd
  have h1 := increment_bounds hd hN hN'
  have hF : Fmt (stepAvg a x N) := fmt_rndQ _
  have h3 : |(x - a) / N| ≤ |x - a| / 2 := by
    rw [abs_div, abs_of_pos (by linarith : (0 : ℚ) < N)]
    exact div_le_div_of_nonneg_left hpos.le (by norm_num) hN
  rcases lt_or_ge |x| (pow2 (-403)) with hsmall | hbig
  · have hbig : pow2 (-403) ≤ |stepAvg a x N| := by
      by_contra hc
      have hc' := abs_rndQ_lt (by norm_num) (not_le.1 hc)
      set η := rndQ (rndQ (x - a) / N)
      have h4 : |η| ≤ |x - a| / 2 + |x - a| / 20 := by
        have := abs_sub_abs_le_abs_sub η ((x - a) / N); linarith
      have h5 : |x - a| ≤ |x| + |a + η| + |η| := by
        rw [show x - a = x - (a + η) + η by ring]
        exact (abs_add_le _ _).trans (add_le_add (abs_sub _ _) le_rfl)
      have h6 : pow2 (-400) = 8 * pow2 (-403) := by
        rw [show (-400 : Int) = -403 + 1 + 1 + 1 by norm_num, pow2_succ, pow2_succ, pow2_succ]; ring
      have := pow2_pos (-403)
      linarith
    have := fmt_gap hF hx hne hbig
    rw [abs_sub_comm]
    exact (pow2_le.2 (by norm_num)).trans this
  · exact fmt_gap hx hF (Ne.symm hne) hbig

namespace F64

theorem le_round {s : Bool} {q : ℚ} {k : Int} (hk : -1074 ≤ k) (hk' : k < 1024) (h : pow2 k ≤ q) :
    (fin (pow2 k) (rep_pow2 hk hk')).le (round s q) = true := by
  by_cases ho : |rndQ q| < pow2 1024
  · obtain ⟨h1, h2⟩ := round_finite (s := s) ho
    rw [le_finite rfl h1, h2]
    exact le_rndQ (fmt_pow2 hk) h
  · rw [round_overflow ho]
    have : decide (q < 0) = false := by simpa using (pow2_pos k).le.trans h
    rw [this]
    rw [le_iff]
    refine ⟨rfl, rfl, ?_⟩
    rw [key, key, Prod.Lex.toLex_le_toLex]
    left; simp [cls]

theorem inf_ge {c : F64} (hc : c.isFinite = true) : c.le (inf false) = true := by
  rw [le_iff]
  refine ⟨isNaN_of_finite hc, rfl, ?_⟩
  rw [key_finite hc, key, Prod.Lex.toLex_le_toLex]; left; simp [cls]

/-- `2^k` as a number. -/
def p2 (k : Int) (h : -1074 ≤ k) (h' : k < 1024) : F64 := fin (pow2 k) (rep_pow2 h h')

theorem p2_le_cases {k : Int} {h : -1074 ≤ k} {h' : k < 1024} {a : F64} (ha : (p2 k h h').le a = true) :
    a = inf false ∨ (a.isFinite = true ∧ pow2 k ≤ a.val) := by
  have h0 : zero.le a = true := le_trans (by rw [le_finite rfl rfl]; exact (pow2_pos k).le) ha
  rcases nonneg_cases h0 with h1 | ⟨h1, h2⟩
  · exact Or.inl h1
  · right
    rw [le_finite rfl h1] at ha
    exact ⟨h1, ha⟩

theorem p2_le_add {k : Int} {h : -1074 ≤ k} {h' : k < 1024} {a b : F64} (ha : zero.le a = true) (hb : zero.le b = true)
    (hor : (p2 k h h').le a = true ∨ (p2 k h h').le b = true) : (p2 k h h').le (add a b) = true := by
  rcases nonneg_cases ha with rfl | ⟨ha1, ha2⟩
  · rcases nonneg_cases hb with rfl | ⟨hb1, hb2⟩
    · exact inf_ge rfl
    · have : add (inf false) b = inf false := by
        cases b <;> first | rfl | (exact absurd hb1 Bool.false_ne_true)
      rw [this]; exact inf_ge rfl
  · rcases nonneg_cases hb with rfl | ⟨hb1, hb2⟩
    · have : add a (inf false) = inf false := by
        cases a <;> first | rfl | (exact absurd ha1 Bool.false_ne_true)
      rw [this]; exact inf_ge rfl
    · rw [add_finite ha1 hb1]
      refine le_round h h' ?_
      rcases hor with hor | hor
      · rw [le_finite rfl ha1] at hor
        have : pow2 k ≤ a.val := hor
        linarith
      · rw [le_finite rfl hb1] at hor
        have : pow2 k ≤ b.val := hor
        linarith

theorem ofNat_le {n : Nat} (h : n < 2 ^ 64) : (ofNat n).val ≤ pow2 64 := by
  rw [(ofNat_finite h).2]
  refine rndQ_le (fmt_pow2 (by norm_num)) ?_
  have : pow2 64 = ((2 ^ 64 : Nat) : ℚ) := pow2_natCast 64
  rw [this]
  exact_mod_cast h.le

/-- The values computed in one step. -/
theorem welford_val {x a : F64} {n : Nat} (hx : x.isFinite = true) (ha : a.isFinite = true)
    (hx' : |x.val| < pow2 1023) (ha' : |a.val| < pow2 1023) (hn : 2 ≤ n) (hn' : n < 2 ^ 64) :
    let a' := add a (div (sub x a) (ofNat n))
    |a'.val| < pow2 1023 ∧ a'.val = stepAvg a.val x.val (ofNat n).val ∧
      ∃ s, mul (sub x a) (sub x a') = round s (rndQ (x.val - a.val) * rndQ (x.val - a'.val)) := by
  intro a'
  obtain ⟨w1, w2, -⟩ := welford_step hx ha hx' ha' hn hn'
  have ha'' : |a'.val| < pow2 1023 := by
    rw [abs_lt] at *
    rcases w2 with h | h <;> constructor <;> linarith [h.1, h.2, hx'.1, hx'.2, ha'.1, ha'.2]
  have hsub := round_of_abs_le (s := x.signBit && a.neg.signBit) rep_max
    (sub_no_overflow (fmt_val x) (fmt_val a) hx' ha')
  rw [← sub_finite hx ha] at hsub
  obtain ⟨hdf, hdv⟩ := hsub
  have hN : (2 : ℚ) ≤ (ofNat n).val := by
    have := le_ofNat_val (k := 2) hn' (by norm_num) hn; simpa using this
  have hNf := (ofNat_finite hn').1
  have hq : |(sub x a).val / (ofNat n).val| ≤ |(sub x a).val| := by
    rw [abs_div, abs_of_pos (show 0 < (ofNat n).val by linarith), div_le_iff₀ (by linarith)]
    nlinarith [abs_nonneg (sub x a).val]
  have hdiv := round_of_abs_le (s := (sub x a).signBit ^^ (ofNat n).signBit) (B := |(sub x a).val|) (by
    rcases abs_choice (sub x a).val with h | h <;> rw [h]
    · exact rep_val _
    · exact (rep_val _).neg) hq
  rw [← div_finite hdf hNf (by linarith)] at hdiv
  obtain ⟨hyf, hyv⟩ := hdiv
  have hsub2 := round_of_abs_le (s := x.signBit && a'.neg.signBit) rep_max
    (sub_no_overflow (fmt_val x) (fmt_val a') hx' ha'')
  rw [← sub_finite hx w1] at hsub2
  refine ⟨ha'', ?_, ⟨_, by rw [mul_finite hdf hsub2.1, hdv, hsub2.2]⟩⟩
  have hadd : a' = round (a.signBit && (div (sub x a) (ofNat n)).signBit) (a.val + (div (sub x a) (ofNat n)).val) :=
    add_finite ha hyf
  by_cases hb : |rndQ (a.val + (div (sub x a) (ofNat n)).val)| < pow2 1024
  · rw [hadd, (round_finite hb).2, hyv, hdv]; rfl
  · have : a'.isFinite = true := w1
    rw [hadd, round_overflow hb] at this
    cases this

theorem round_zero (s : Bool) : (round s 0).isFinite = true ∧ (round s 0).val = 0 := round_rep rep_zero

/-- The term added to the sum of squares is zero if the new average is the sample. -/
theorem term_zero {x a : F64} {n : Nat} (hx : x.isFinite = true) (ha : a.isFinite = true)
    (hx' : |x.val| < pow2 1023) (ha' : |a.val| < pow2 1023) (hn : 2 ≤ n) (hn' : n < 2 ^ 64)
    (h : (add a (div (sub x a) (ofNat n))).val = x.val) :
    (mul (sub x a) (sub x (add a (div (sub x a) (ofNat n))))).isFinite = true ∧
      (mul (sub x a) (sub x (add a (div (sub x a) (ofNat n))))).val = 0 := by
  obtain ⟨-, -, s, hs⟩ := welford_val hx ha hx' ha' hn hn'
  rw [hs, h, sub_self, rndQ_zero, mul_zero]
  exact round_zero s

/-- Otherwise it is noticeably positive. -/
theorem term_pos {x a : F64} {n : Nat} (hx : x.isFinite = true) (ha : a.isFinite = true)
    (hx' : |x.val| < pow2 1023) (ha' : |a.val| < pow2 1023) (hn : 2 ≤ n) (hn' : n < 2 ^ 64)
    (hd : pow2 (-400) ≤ |x.val - a.val|) (h : (add a (div (sub x a) (ofNat n))).val ≠ x.val) :
    (p2 (-856) (by norm_num) (by norm_num)).le (mul (sub x a) (sub x (add a (div (sub x a) (ofNat n))))) = true := by
  obtain ⟨-, e, s, hs⟩ := welford_val hx ha hx' ha' hn hn'
  obtain ⟨-, w2, -⟩ := welford_step hx ha hx' ha' hn hn'
  have hN : (2 : ℚ) ≤ (ofNat n).val := by
    have := le_ofNat_val (k := 2) hn' (by norm_num) hn; simpa using this
  have hg := stepAvg_gap (fmt_val x) hd hN (ofNat_le hn') (by rwa [← e])
  rw [← e] at hg
  rw [hs]
  refine le_round (by norm_num) (by norm_num) ?_
  set a' := add a (div (sub x a) (ofNat n))
  have h1 := le_abs_rndQ (fmt_pow2 (by norm_num)) hd
  have h2 := le_abs_rndQ (fmt_pow2 (by norm_num)) hg
  have h3 : 0 ≤ rndQ (x.val - a.val) * rndQ (x.val - a'.val) := by
    rcases w2 with h | h
    · exact mul_nonneg (rndQ_nonneg (by linarith)) (rndQ_nonneg (by linarith))
    · exact mul_nonneg_of_nonpos_of_nonpos (rndQ_nonpos (by linarith)) (rndQ_nonpos (by linarith))
  rw [← abs_of_nonneg h3, abs_mul, show (-856 : Int) = -400 + -456 by norm_num, pow2_add]
  exact mul_le_mul h1 h2 (pow2_pos _).le (abs_nonneg _)

end F64

namespace Stats

/-- The average of two samples is the second one, and all the others are equal to it. -/
def Flat (a b : F64) (rest : List F64) : Prop :=
  (collect [a, b]).avg.val = b.val ∧ ∀ x ∈ rest, x.val = b.val

theorem record_fields (s : Stats F64) (y : F64) (h : s.count ≠ 0) :
    (s.record y).avg = s.avg.add ((y.sub s.avg).div (F64.ofNat (s.count + 1))) ∧
    (s.record y).sumSquared = s.sumSquared.add ((y.sub s.avg).mul
      (y.sub (s.avg.add ((y.sub s.avg).div (F64.ofNat (s.count + 1)))))) := by
  rw [record_sumSquared _ _ h, record_avg _ _ h]
  exact ⟨rfl, rfl⟩

theorem avg_bound (x : F64) (xs : List F64)
    (hfin : ∀ y ∈ x :: xs, y.isFinite = true ∧ |y.val| < pow2 1023) (hlen : (x :: xs).length < 2 ^ 64) :
    |(collect (x :: xs)).avg.val| < pow2 1023 := by
  obtain ⟨h1, h2, h3, -⟩ := collect_f64_inv x xs hfin hlen
  have hx := hfin x (by simp)
  have hmin := hfin _ (List.mem_of_getElem? (collect_firstMin x (F64.isNaN_of_finite hx.1) xs).1)
  have hmax := hfin _ (List.mem_of_getElem? (collect_firstMax x (F64.isNaN_of_finite hx.1) xs).1)
  rw [F64.le_finite hmin.1 h1] at h2
  rw [F64.le_finite h1 hmax.1] at h3
  have h4 := hmin.2
  have h5 := hmax.2
  rw [abs_lt] at *
  constructor <;> linarith [h4.1, h5.2]

/-- Samples far enough apart to be told apart by squares. -/
def Apart (l : List F64) : Prop := ∀ x ∈ l, ∀ y ∈ l, x.val ≠ y.val → pow2 (-400) ≤ |x.val - y.val|

theorem spread_inv (a b : F64) (rest : List F64)
    (hfin : ∀ y ∈ a :: b :: rest, y.isFinite = true ∧ |y.val| < pow2 1023) (hlen : (a :: b :: rest).length < 2 ^ 64)
    (hap : Apart (a :: b :: rest)) :
    (Flat a b rest → (collect (a :: b :: rest)).avg.val = b.val ∧ (collect (a :: b :: rest)).sumSquared.isFinite = true ∧
      (collect (a :: b :: rest)).sumSquared.val = 0) ∧
    (¬ Flat a b rest →
      (F64.p2 (-856) (by norm_num) (by norm_num)).le (collect (a :: b :: rest)).sumSquared = true) := by
  induction rest using List.reverseRecOn with
  | nil =>
    have ha := hfin a (by simp)
    have hb := hfin b (by simp)
    obtain ⟨e1, e2⟩ := record_fields (collect [a]) b (collect_count_ne a [])
    have hc : (collect [a]).count = 1 := rfl
    have hav : (collect [a]).avg = a := rfl
    have hsum : (collect [a]).sumSquared = F64.zero := F64.lit_zero
    rw [hc, hav] at e1 e2
    rw [hsum] at e2
    have e : collect [a, b] = (collect [a]).record b := collect_concat [a] b
    rw [← e] at e1 e2
    constructor
    · rintro ⟨hf, -⟩
      refine ⟨hf, ?_⟩
      rw [e1] at hf
      obtain ⟨t1, t2⟩ := F64.term_zero hb.1 ha.1 hb.2 ha.2 le_rfl (by norm_num) hf
      rw [e2, F64.add_finite rfl t1, t2]
      simpa using F64.round_zero _
    · intro hf
      have hne : (collect [a, b]).avg.val ≠ b.val := fun h => hf ⟨h, by simp⟩
      rw [e1] at hne
      have hab : b.val ≠ a.val := by
        intro h0
        apply hne
        rw [(F64.welford_val hb.1 ha.1 hb.2 ha.2 le_rfl (by norm_num)).2.1, h0, stepAvg]
        simp [rndQ_zero, rndQ_of_fmt (F64.fmt_val a)]
      have hp := F64.term_pos hb.1 ha.1 hb.2 ha.2 le_rfl (by norm_num) (hap b (by simp) a (by simp) hab) hne
      rw [e2]
      exact F64.p2_le_add (F64.le_refl rfl) (F64.le_trans (by rw [F64.le_finite rfl rfl]; exact (pow2_pos _).le) hp)
        (Or.inr hp)
  | append_singleton ys y ih =>
    have hy := hfin y (by simp)
    have hsubs : ∀ z ∈ a :: b :: ys, z ∈ a :: b :: (ys ++ [y]) := by
      intro z hz
      simp only [List.mem_cons, List.mem_append] at hz ⊢; tauto
    have hlen' : (a :: b :: ys).length + 1 < 2 ^ 64 := by simpa using hlen
    have hfin' : ∀ z ∈ a :: b :: ys, z.isFinite = true ∧ |z.val| < pow2 1023 := fun z hz => hfin z (hsubs z hz)
    obtain ⟨ih1, ih2⟩ := ih hfin' (by omega) (fun u hu v hv => hap u (hsubs u hu) v (hsubs v hv))
    have hav := avg_bound a (b :: ys) hfin' (by omega)
    obtain ⟨av1, -, -, av4⟩ := collect_f64_inv a (b :: ys) hfin' (by omega)
    have hcount := collect_count (a :: b :: ys)
    have hc := collect_count_ne a (b :: ys)
    have e : collect (a :: b :: (ys ++ [y])) = (collect (a :: b :: ys)).record y := collect_concat (a :: b :: ys) y
    obtain ⟨e1, e2⟩ := record_fields (collect (a :: b :: ys)) y hc
    rw [← e] at e1 e2
    set s := collect (a :: b :: ys) with hs
    have hn : 3 ≤ s.count + 1 := by
      rw [hcount]; simp
    have hn64 : s.count + 1 < 2 ^ 64 := by omega
    obtain ⟨w1, w2, w3⟩ := F64.welford_step (n := s.count + 1) hy.1 av1 hy.2 hav (by omega) hn64
    constructor
    · rintro ⟨f1, f2⟩
      obtain ⟨i1, i2, i3⟩ := ih1 ⟨f1, fun x hx => f2 x (by simp [hx])⟩
      have hyb : y.val = b.val := f2 y (by simp)
      have hval := (F64.welford_val (n := s.count + 1) hy.1 av1 hy.2 hav (by omega) hn64).2.1
      have havg : (s.avg.add ((y.sub s.avg).div (F64.ofNat (s.count + 1)))).val = y.val := by
        rw [hval, i1, hyb, stepAvg]
        simp [rndQ_zero, rndQ_of_fmt (F64.fmt_val b)]
      obtain ⟨t1, t2⟩ := F64.term_zero (n := s.count + 1) hy.1 av1 hy.2 hav (by omega) hn64 havg
      refine ⟨by rw [e1, havg, hyb], ?_⟩
      rw [e2, F64.add_finite i2 t1, i3, t2]
      simpa using F64.round_zero _
    · intro hf
      rw [e2]
      refine F64.p2_le_add av4 w3 ?_
      by_cases hfl : Flat a b ys
      · right
        obtain ⟨i1, -, -⟩ := ih1 hfl
        have hyb : y.val ≠ b.val := by
          intro h0
          refine hf ⟨hfl.1, fun x hx => ?_⟩
          rcases List.mem_append.1 hx with h | h
          · exact hfl.2 x h
          · rw [List.mem_singleton] at h; rw [h, h0]
        have hgap := hap y (by simp) b (by simp) hyb
        rw [← i1] at hgap
        refine F64.term_pos (n := s.count + 1) hy.1 av1 hy.2 hav (by omega) hn64 hgap ?_
        rw [(F64.welford_val (n := s.count + 1) hy.1 av1 hy.2 hav (by omega) hn64).2.1]
        have hN : (3 : ℚ) ≤ (F64.ofNat (s.count + 1)).val := by
          have := F64.le_ofNat_val (k := 3) hn64 (by norm_num) hn; simpa using this
        exact stepAvg_ne (F64.fmt_val _) hgap hN (F64.ofNat_le hn64)
      · exact Or.inl (ih2 hfl)

/-- The sum of squares does not overflow. -/
theorem sum_bound (x : F64) (xs : List F64) (hfin : ∀ y ∈ x :: xs, y.isFinite = true ∧ |y.val| ≤ pow2 450)
    (hlen : (x :: xs).length ≤ 2 ^ 53) :
    (collect (x :: xs)).sumSquared.isFinite = true ∧ 0 ≤ (collect (x :: xs)).sumSquared.val ∧
      (collect (x :: xs)).sumSquared.val ≤ ((x :: xs).length : ℚ) * pow2 902 := by
  have h450 : pow2 450 < pow2 1023 := pow2_lt.2 (by norm_num)
  have hfin0 : ∀ y ∈ x :: xs, y.isFinite = true ∧ |y.val| < pow2 1023 := fun y hy =>
    ⟨(hfin y hy).1, (hfin y hy).2.trans_lt h450⟩
  induction xs using List.reverseRecOn with
  | nil =>
    have : (collect [x]).sumSquared = F64.zero := F64.lit_zero
    rw [this]
    refine ⟨rfl, le_rfl, ?_⟩
    have := pow2_pos 902
    simpa using this.le
  | append_singleton ys y ih =>
    have hy := hfin y (by simp)
    have hy0 := hfin0 y (by simp)
    have hsubs : ∀ z ∈ x :: ys, z ∈ x :: (ys ++ [y]) := by
      intro z hz
      simp only [List.mem_cons, List.mem_append] at hz ⊢; tauto
    have hlen' : (x :: ys).length + 1 ≤ 2 ^ 53 := by simpa using hlen
    have hfin' : ∀ z ∈ x :: ys, z.isFinite = true ∧ |z.val| < pow2 1023 := fun z hz => hfin0 z (hsubs z hz)
    obtain ⟨i1, i2, i3⟩ := ih (fun z hz => hfin z (hsubs z hz)) (by omega) hfin'
    obtain ⟨av1, av2, av3, -⟩ := collect_f64_inv x ys hfin' (by omega)
    have hav := avg_bound x ys hfin' (by omega)
    have hx0 := hfin' x (by simp)
    have hmin := collect_firstMin x (F64.isNaN_of_finite hx0.1) ys
    have hmax := collect_firstMax x (F64.isNaN_of_finite hx0.1) ys
    have hminf := hfin _ (hsubs _ (List.mem_of_getElem? hmin.1))
    have hmaxf := hfin _ (hsubs _ (List.mem_of_getElem? hmax.1))
    have hcount := collect_count (x :: ys)
    have hc := collect_count_ne x ys
    have e : collect (x :: (ys ++ [y])) = (collect (x :: ys)).record y := collect_concat (x :: ys) y
    obtain ⟨-, e2⟩ := record_fields (collect (x :: ys)) y hc
    rw [← e] at e2
    set s := collect (x :: ys) with hs
    rw [F64.le_finite hminf.1 av1] at av2
    rw [F64.le_finite av1 hmaxf.1] at av3
    have hab : |s.avg.val| ≤ pow2 450 := by
      have h1 := hminf.2
      have h2 := hmaxf.2
      rw [abs_le] at *
      constructor <;> linarith [h1.1, h2.2]
    have hn : 2 ≤ s.count + 1 := by omega
    have hn64 : s.count + 1 < 2 ^ 64 := by rw [hcount]; omega
    obtain ⟨w1, w2, w3⟩ := F64.welford_step (n := s.count + 1) hy.1 av1 hy0.2 hav hn hn64
    obtain ⟨-, -, sg, hsg⟩ := F64.welford_val (n := s.count + 1) hy.1 av1 hy0.2 hav hn hn64
    set a' := s.avg.add ((y.sub s.avg).div (F64.ofNat (s.count + 1)))
    have ha' : |a'.val| ≤ pow2 450 := by
      have h1 := hy.2
      rw [abs_le] at *
      rcases w2 with h | h <;> constructor <;> linarith [h.1, h.2, h1.1, h1.2, hab.1, hab.2]
    have p451 : pow2 451 = 2 * pow2 450 := pow2_succ 450
    have hb : ∀ v : ℚ, |v| ≤ pow2 450 → |rndQ (y.val - v)| ≤ pow2 451 := fun v hv => by
      refine F64.abs_rndQ_le (fmt_pow2 (by norm_num)) ((abs_sub _ _).trans ?_)
      rw [p451]; linarith [hy.2]
    have hprod : |rndQ (y.val - s.avg.val) * rndQ (y.val - a'.val)| ≤ pow2 902 := by
      rw [abs_mul, show (902 : Int) = 451 + 451 by norm_num, pow2_add]
      exact mul_le_mul (hb _ hab) (hb _ ha') (abs_nonneg _) (pow2_pos _).le
    obtain ⟨t1, t2⟩ := F64.round_of_abs_le (s := sg) (rep_pow2 (by norm_num) (by norm_num)) hprod
    have t3 := F64.abs_rndQ_le (fmt_pow2 (by norm_num)) hprod
    rw [← hsg] at t1 t2
    rw [← t2] at t3
    have t4 : 0 ≤ ((y.sub s.avg).mul (y.sub a')).val := by
      rwa [F64.zero_le_finite t1] at w3
    rw [abs_of_nonneg t4] at t3
    rw [e2, F64.add_finite i1 t1]
    have hl : ((x :: (ys ++ [y])).length : ℚ) = ((x :: ys).length : ℚ) + 1 := by
      have : (x :: (ys ++ [y])).length = (x :: ys).length + 1 := by simp
      rw [this]; push_cast; ring
    have hB : Rep (((x :: (ys ++ [y])).length : ℚ) * pow2 902) := by
      have hle : (((x :: (ys ++ [y])).length : Nat) : ℚ) ≤ 2 ^ 53 := by exact_mod_cast hlen
      refine ⟨?_, ?_⟩
      · have := fmt_of_le (m := ((x :: (ys ++ [y])).length : Nat)) (e := 902)
          (by rw [abs_of_nonneg (Int.natCast_nonneg _)]; exact_mod_cast hlen) (by norm_num)
        simpa using this
      · rw [abs_of_nonneg (mul_nonneg (Nat.cast_nonneg _) (pow2_pos _).le)]
        have h53 : pow2 53 = 2 ^ 53 := by rw [pow2_eq]; norm_num
        calc ((x :: (ys ++ [y])).length : ℚ) * pow2 902 ≤ pow2 53 * pow2 902 := by
              rw [h53]; exact mul_le_mul_of_nonneg_right hle (pow2_pos _).le
          _ = pow2 955 := by rw [← pow2_add]; norm_num
          _ < pow2 1024 := pow2_lt.2 (by norm_num)
    have hsum0 : 0 ≤ s.sumSquared.val + ((y.sub s.avg).mul (y.sub a')).val := by linarith
    have hsumB : s.sumSquared.val + ((y.sub s.avg).mul (y.sub a')).val ≤ ((x :: (ys ++ [y])).length : ℚ) * pow2 902 := by
      rw [hl]; linarith
    obtain ⟨r1, r2⟩ := F64.round_of_abs_le (s := s.sumSquared.signBit && ((y.sub s.avg).mul (y.sub a')).signBit) hB
      (by rw [abs_of_nonneg hsum0]; exact hsumB)
    refine ⟨r1, ?_, ?_⟩
    · rw [r2]; exact rndQ_nonneg hsum0
    · rw [r2]; exact rndQ_le hB.1 hsumB

end Stats

namespace F64

theorem div_ofNat_zero {a : F64} {n : Nat} (ha : a.isFinite = true) (h0 : a.val = 0) (hn : 1 ≤ n) (hn' : n < 2 ^ 64) :
    (div a (ofNat n)).isFinite = true ∧ (div a (ofNat n)).val = 0 := by
  have hN : (1 : ℚ) ≤ (ofNat n).val := by
    have := le_ofNat_val (k := 1) hn' (by norm_num) hn; simpa using this
  rw [div_finite ha (ofNat_finite hn').1 (by linarith), h0, zero_div]
  exact round_zero _

theorem div_ofNat_p2 {a : F64} {n : Nat} (ha : (p2 (-856) (by norm_num) (by norm_num)).le a = true) (hn : 1 ≤ n)
    (hn' : n < 2 ^ 64) : (p2 (-920) (by norm_num) (by norm_num)).le (div a (ofNat n)) = true := by
  have hN : (1 : ℚ) ≤ (ofNat n).val := by
    have := le_ofNat_val (k := 1) hn' (by norm_num) hn; simpa using this
  have hNf := (ofNat_finite hn').1
  rcases p2_le_cases ha with rfl | ⟨h1, h2⟩
  · have h0 := div_nonneg (n := n) zero_le_inf hn hn'
    have : div (inf false) (ofNat n) = inf (false ^^ (ofNat n).signBit) := by
      generalize ofNat n = b at *
      cases b <;> first | rfl | (exact absurd hNf Bool.false_ne_true)
    rw [this] at h0 ⊢
    rcases nonneg_cases h0 with h | ⟨h, -⟩
    · rw [h]; exact inf_ge rfl
    · cases h
  · rw [div_finite h1 hNf (by linarith)]
    refine le_round (by norm_num) (by norm_num) ?_
    rw [le_div_iff₀ (by linarith)]
    calc pow2 (-920) * (ofNat n).val ≤ pow2 (-920) * pow2 64 := mul_le_mul_of_nonneg_left (ofNat_le hn') (pow2_pos _).le
      _ = pow2 (-856) := by rw [← pow2_add]; norm_num
      _ ≤ a.val := h2

theorem div_ofNat_finite {a : F64} {n : Nat} (ha : a.isFinite = true) (hn : 1 ≤ n) (hn' : n < 2 ^ 64) :
    (div a (ofNat n)).isFinite = true := by
  have hN : (1 : ℚ) ≤ (ofNat n).val := by
    have := le_ofNat_val (k := 1) hn' (by norm_num) hn; simpa using this
  rw [div_finite ha (ofNat_finite hn').1 (by linarith)]
  refine (round_of_abs_le (B := |a.val|) ?_ ?_).1
  · rcases abs_choice a.val with h | h <;> rw [h]
    · exact rep_val _
    · exact (rep_val _).neg
  · rw [abs_div, abs_of_pos (show 0 < (ofNat n).val by linarith)]
    exact div_le_self (abs_nonneg _) hN

theorem sqrt_zero {a : F64} (ha : a.isFinite = true) (h0 : a.val = 0) : (sqrt a).isFinite = true ∧ (sqrt a).val = 0 := by
  cases a with
  | nan => cases ha
  | inf s => cases ha
  | nzero => exact ⟨rfl, rfl⟩
  | fin q hq =>
    have : q = 0 := h0
    subst this
    have : sqrt (fin 0 hq) = zero := by
      have e : (fin 0 hq) = zero := rfl
      rw [e]; decide +kernel
    rw [this]; exact ⟨rfl, rfl⟩

theorem sqrt_finite {a : F64} (ha : a.isFinite = true) (h0 : 0 ≤ a.val) : (sqrt a).isFinite = true := by
  cases a with
  | nan => cases ha
  | inf s => cases ha
  | nzero => rfl
  | fin q hq =>
    have h0' : 0 ≤ q := h0
    have e : sqrt (fin q hq) = round false (sqrtApprox q) := by
      show (if q < 0 then nan else round false (sqrtApprox q)) = _
      rw [if_neg (not_lt.2 h0')]
    rw [e]
    have hs : sqrtApprox q ≤ pow2 600 := by
      have h1 := (sqrtApprox_spec h0' (2 ^ 1700)).2.2
      have e1 : ((2 ^ 1700 : Nat) : ℚ) / 2 ^ sqrtScale = pow2 600 := by
        rw [pow2_eq, show (600 : Int) = ((600 : Nat) : Int) from rfl, zpow_natCast, Nat.cast_pow, Nat.cast_ofNat,
          show sqrtScale = 1100 from rfl, div_eq_iff (pow_ne_zero _ (by norm_num)), ← pow_add]
      rw [e1] at h1
      refine h1 ?_
      have h2 : pow2 600 ^ 2 = pow2 1200 := by rw [sq, ← pow2_add]; norm_num
      rw [h2]
      exact (le_abs_self q).trans (hq.2.le.trans (pow2_le.2 (by norm_num)))
    refine (round_of_abs_le (rep_pow2 (k := 600) (by norm_num) (by norm_num)) ?_).1
    rwa [abs_of_nonneg (sqrtApprox_nonneg' q)]

theorem sqrt_p2 {a : F64} (ha : (p2 (-920) (by norm_num) (by norm_num)).le a = true) :
    (p2 (-460) (by norm_num) (by norm_num)).le (sqrt a) = true := by
  rcases p2_le_cases ha with rfl | ⟨h1, h2⟩
  · exact inf_ge rfl
  · cases a with
    | nan => cases h1
    | inf s => cases h1
    | nzero => exact absurd h2 (not_le.2 (pow2_pos _))
    | fin q hq =>
      have h2' : pow2 (-920) ≤ q := h2
      have h0' : 0 ≤ q := (pow2_pos _).le.trans h2'
      have e : sqrt (fin q hq) = round false (sqrtApprox q) := by
        show (if q < 0 then nan else round false (sqrtApprox q)) = _
        rw [if_neg (not_lt.2 h0')]
      rw [e]
      refine le_round (by norm_num) (by norm_num) ?_
      have h1 := (sqrtApprox_spec h0' (2 ^ 640)).1.2
      have e1 : ((2 ^ 640 : Nat) : ℚ) / 2 ^ sqrtScale = pow2 (-460) := by
        rw [pow2_eq, zpow_neg, show (460 : Int) = ((460 : Nat) : Int) from rfl, zpow_natCast, Nat.cast_pow, Nat.cast_ofNat,
          show sqrtScale = 640 + 460 from rfl, pow_add, div_mul_eq_div_div, div_self (pow_ne_zero _ (by norm_num)), one_div]
      rw [e1] at h1
      refine h1 ?_
      rw [sq, ← pow2_add]; norm_num; exact h2'

end F64
end RG
