import Verif.Proofs.Stats

/-! Rounding-error reasoning for Welford's algorithm at `F64` (`stats.rs:145-149, 232-235`). -/

namespace RG
open Arith

theorem fmt_lt_pow2 {q : ℚ} (h : Fmt q) {k : Int} (hq : |q| < pow2 k) :
    |q| ≤ (2 ^ 53 - 1) * pow2 (k - 53) := by
  obtain ⟨m, e, hm, he, rfl⟩ := h
  rw [abs_mul, abs_of_pos (pow2_pos e)] at *
  by_cases hek : e ≤ k - 53
  · have h1 : (|(m : ℚ)|) ≤ 2 ^ 53 - 1 := by
      have : |m| ≤ 2 ^ 53 - 1 := by omega
      exact_mod_cast this
    have h2 := pow2_le.2 hek
    have h3 := pow2_pos e
    nlinarith [abs_nonneg (m : ℚ)]
  · obtain ⟨z, hz, hz'⟩ := pow2_int (k := e - (k - 53)) (by omega)
    have e1 : pow2 e = z * pow2 (k - 53) := by rw [← hz, ← pow2_add]; congr 1; ring
    have hp := pow2_pos (k - 53)
    have e2 : pow2 k = 2 ^ 53 * pow2 (k - 53) := by
      have : pow2 53 = 2 ^ 53 := by rw [pow2_eq]; norm_num
      rw [← this, ← pow2_add]; congr 1; ring
    have hz0 : (0 : ℚ) ≤ z := by rw [hz']; positivity
    rw [e1] at hq ⊢
    rw [e2, ← mul_assoc] at hq
    have h4 : |(m : ℚ)| * z < 2 ^ 53 := lt_of_mul_lt_mul_right hq hp.le
    rw [← mul_assoc]
    refine mul_le_mul_of_nonneg_right ?_ hp.le
    have h5 : (|m| * z : ℤ) < 2 ^ 53 := by exact_mod_cast h4
    have h6 : (|m| * z : ℤ) ≤ 2 ^ 53 - 1 := by omega
    exact_mod_cast h6

/-- The largest finite magnitude. -/
theorem rep_max : Rep ((2 ^ 53 - 1) * pow2 971) := by
  refine ⟨⟨2 ^ 53 - 1, 971, by norm_num, by norm_num, by push_cast; ring⟩, ?_⟩
  have hp := pow2_pos 971
  have : pow2 1024 = 2 ^ 53 * pow2 971 := by
    have : pow2 53 = 2 ^ 53 := by rw [pow2_eq]; norm_num
    rw [← this, ← pow2_add]; congr 1
  rw [this, abs_of_pos (mul_pos (by norm_num) hp)]
  linarith

theorem sub_no_overflow {x a : ℚ} (hx : Fmt x) (ha : Fmt a) (hx' : |x| < pow2 1023) (ha' : |a| < pow2 1023) :
    |x - a| ≤ (2 ^ 53 - 1) * pow2 971 := by
  have h1 := fmt_lt_pow2 hx hx'
  have h2 := fmt_lt_pow2 ha ha'
  have h3 : pow2 971 = 2 * pow2 (1023 - 53) := by rw [← pow2_succ]; norm_num
  have h4 := abs_sub x a
  rw [h3]
  linarith

/-- The increment of the running mean never passes the new sample. -/
theorem welford_step_le {x a N : ℚ} (hx : Fmt x) (ha : Fmt a) (hN : 2 ≤ N) (h : a ≤ x) :
    0 ≤ rndQ (rndQ (x - a) / N) ∧ rndQ (rndQ (x - a) / N) ≤ x - a := by
  have hd : 0 ≤ x - a := by linarith
  have hδ := rndQ_nonneg hd
  refine ⟨rndQ_nonneg (by positivity), ?_⟩
  by_cases hf : Fmt (x - a)
  · rw [rndQ_of_fmt hf]
    refine rndQ_le hf ?_
    rw [div_le_iff₀ (by linarith)]
    nlinarith
  · obtain ⟨z1, hz1⟩ := hx.mult
    obtain ⟨z2, hz2⟩ := ha.mult
    have hz : x - a = ((z1 - z2 : ℤ) : ℚ) * pow2 (-1074) := by rw [hz1, hz2]; push_cast; ring
    have hbig : pow2 (-1021) < |x - a| := by
      by_contra hcon
      push Not at hcon
      rw [hz] at hcon hf
      exact hf (fmt_of_small_mult hcon)
    have hne : x - a ≠ 0 := by
      intro h0; rw [h0] at hf; exact hf fmt_zero
    obtain ⟨s1, s2⟩ := flog2_spec hne
    have hk : -1021 ≤ flog2 (x - a) := le_flog2_of_le_abs hbig.le
    rw [abs_of_nonneg hd] at s1 s2
    set k := flog2 (x - a)
    have h1 : rndQ (x - a) ≤ pow2 (k + 1) := rndQ_le (fmt_pow2 (by omega)) s2.le
    rw [pow2_succ] at h1
    have hp := pow2_pos k
    have h2 : rndQ (x - a) / N ≤ pow2 k := by
      rw [div_le_iff₀ (by linarith)]
      nlinarith
    exact (rndQ_le (fmt_pow2 (by omega)) h2).trans s1

namespace F64

/-- One step of Welford's algorithm in `f64`: the new average lies between the old one and the sample, and the term
added to the sum of squares is not negative (and not NaN). -/
theorem welford_step {x a : F64} {n : Nat} (hx : x.isFinite = true) (ha : a.isFinite = true)
    (hx' : |x.val| < pow2 1023) (ha' : |a.val| < pow2 1023) (hn : 2 ≤ n) (hn' : n < 2 ^ 64) :
    let a' := add a (div (sub x a) (ofNat n))
    a'.isFinite = true ∧ ((a.val ≤ a'.val ∧ a'.val ≤ x.val) ∨ (x.val ≤ a'.val ∧ a'.val ≤ a.val)) ∧
      zero.le (mul (sub x a) (sub x a')) = true := by
  intro a'
  have hsub := round_of_abs_le (s := x.signBit && a.neg.signBit) rep_max
    (sub_no_overflow (fmt_val x) (fmt_val a) hx' ha')
  rw [← sub_finite hx ha] at hsub
  obtain ⟨hdf, hdv⟩ := hsub
  have hN : (2 : ℚ) ≤ (ofNat n).val := by
    have := le_ofNat_val (k := 2) hn' (by norm_num) hn; simpa using this
  have hNf := (ofNat_finite hn').1
  set N := (ofNat n).val
  set d := sub x a with hd
  have hq : |d.val / N| ≤ |d.val| := by
    rw [abs_div, abs_of_pos (show 0 < N by linarith), div_le_iff₀ (by linarith)]
    nlinarith [abs_nonneg d.val]
  have hdiv := round_of_abs_le (s := d.signBit ^^ (ofNat n).signBit) (B := |d.val|) (by
    rcases abs_choice d.val with h | h <;> rw [h]
    · exact rep_val d
    · exact (rep_val d).neg) hq
  rw [← div_finite hdf hNf (by show N ≠ 0; linarith)] at hdiv
  obtain ⟨hyf, hyv⟩ := hdiv
  have hadd : a' = round (a.signBit && (div d (ofNat n)).signBit) (a.val + (div d (ofNat n)).val) :=
    add_finite ha hyf
  have hyv' : (div d (ofNat n)).val = rndQ (rndQ (x.val - a.val) / N) := by rw [hyv, hdv]
  have main : (a.val ≤ x.val → a'.isFinite = true ∧ a.val ≤ a'.val ∧ a'.val ≤ x.val) ∧
      (x.val ≤ a.val → a'.isFinite = true ∧ x.val ≤ a'.val ∧ a'.val ≤ a.val) := by
    constructor
    · intro hax
      obtain ⟨h1, h2⟩ := welford_step_le (fmt_val x) (fmt_val a) hN hax
      rw [← hyv'] at h1 h2
      have l1 : a.val ≤ rndQ (a.val + (div d (ofNat n)).val) := le_rndQ (fmt_val a) (by linarith)
      have l2 : rndQ (a.val + (div d (ofNat n)).val) ≤ x.val := rndQ_le (fmt_val x) (by linarith)
      have hr := round_finite (s := a.signBit && (div d (ofNat n)).signBit)
        (q := a.val + (div d (ofNat n)).val) (by
          have hp : pow2 1023 < pow2 1024 := pow2_lt.2 (by norm_num)
          rw [abs_lt] at hx' ha' ⊢
          constructor <;> linarith [hx'.1, hx'.2, ha'.1, ha'.2])
      rw [← hadd] at hr
      rw [hr.2]; exact ⟨hr.1, l1, l2⟩
    · intro hxa
      obtain ⟨h1, h2⟩ := welford_step_le (fmt_val x).neg (fmt_val a).neg hN (neg_le_neg hxa)
      have e1 : -x.val - -a.val = -(x.val - a.val) := by ring
      rw [e1, rndQ_neg, neg_div, rndQ_neg, ← hyv'] at h1 h2
      have l1 : rndQ (a.val + (div d (ofNat n)).val) ≤ a.val := rndQ_le (fmt_val a) (by linarith)
      have l2 : x.val ≤ rndQ (a.val + (div d (ofNat n)).val) := le_rndQ (fmt_val x) (by linarith)
      have hr := round_finite (s := a.signBit && (div d (ofNat n)).signBit)
        (q := a.val + (div d (ofNat n)).val) (by
          have hp : pow2 1023 < pow2 1024 := pow2_lt.2 (by norm_num)
          rw [abs_lt] at hx' ha' ⊢
          constructor <;> linarith [hx'.1, hx'.2, ha'.1, ha'.2])
      rw [← hadd] at hr
      rw [hr.2]; exact ⟨hr.1, l2, l1⟩
  have hfin : a'.isFinite = true ∧
      ((a.val ≤ a'.val ∧ a'.val ≤ x.val) ∨ (x.val ≤ a'.val ∧ a'.val ≤ a.val)) := by
    rcases _root_.le_total a.val x.val with h | h
    · exact ⟨(main.1 h).1, Or.inl (main.1 h).2⟩
    · exact ⟨(main.2 h).1, Or.inr (main.2 h).2⟩
  refine ⟨hfin.1, hfin.2, ?_⟩
  have ha'' : |a'.val| < pow2 1023 := by
    rw [abs_lt] at *
    rcases hfin.2 with h | h <;> constructor <;> linarith [h.1, h.2, hx'.1, hx'.2, ha'.1, ha'.2]
  have hsub2 := round_of_abs_le (s := x.signBit && a'.neg.signBit) rep_max
    (sub_no_overflow (fmt_val x) (fmt_val a') hx' ha'')
  rw [← sub_finite hx hfin.1] at hsub2
  rw [mul_finite hdf hsub2.1]
  refine round_nonneg ?_
  rw [hdv, hsub2.2]
  rcases hfin.2 with h | h
  · exact mul_nonneg (rndQ_nonneg (by linarith)) (rndQ_nonneg (by linarith))
  · exact mul_nonneg_of_nonpos_of_nonpos (rndQ_nonpos (by linarith)) (rndQ_nonpos (by linarith))

theorem div_nonneg {a : F64} {n : Nat} (ha : zero.le a = true) (hn : 1 ≤ n) (hn' : n < 2 ^ 64) :
    zero.le (div a (ofNat n)) = true := by
  have hN : (1 : ℚ) ≤ (ofNat n).val := by
    have := le_ofNat_val (k := 1) hn' (by norm_num) hn; simpa using this
  have hNf := (ofNat_finite hn').1
  rcases nonneg_cases ha with rfl | ⟨h1, h2⟩
  · have : div (inf false) (ofNat n) = inf (false ^^ (ofNat n).signBit) := by
      generalize ofNat n = b at *
      cases b <;> first | rfl | (exact absurd hNf Bool.false_ne_true)
    rw [this]
    have : (ofNat n).signBit = false := by
      generalize ofNat n = b at *
      cases b with
      | fin q h => simp [signBit] at *; linarith
      | nzero => simp at hN; norm_num at hN
      | nan => simp at hNf
      | inf s => simp at hNf
    rw [this]; exact zero_le_inf
  · rw [div_finite h1 hNf (by linarith)]
    exact round_nonneg (by positivity)

end F64

namespace Stats

/-- Invariant of the running statistics at `F64`. -/
theorem collect_f64_inv (x : F64) (xs : List F64)
    (hfin : ∀ y ∈ x :: xs, y.isFinite = true ∧ |y.val| < pow2 1023) (hlen : (x :: xs).length < 2 ^ 64) :
    (collect (x :: xs)).avg.isFinite = true ∧
    (collect (x :: xs)).min.le (collect (x :: xs)).avg = true ∧
    (collect (x :: xs)).avg.le (collect (x :: xs)).max = true ∧
    F64.zero.le (collect (x :: xs)).sumSquared = true := by
  induction xs using List.reverseRecOn with
  | nil =>
    have := (hfin x (by simp)).1
    refine ⟨this, ?_, ?_, ?_⟩
    · exact F64.le_refl (F64.isNaN_of_finite this)
    · exact F64.le_refl (F64.isNaN_of_finite this)
    · have : (collect [x]).sumSquared = F64.lit 0 := rfl
      rw [this, F64.lit_zero]
      exact F64.le_refl rfl
  | append_singleton ys y ih =>
    have hy := hfin y (by simp)
    have hx := hfin x (by simp)
    have hlen' : (x :: ys).length + 1 < 2 ^ 64 := by simpa using hlen
    obtain ⟨ih1, ih2, ih3, ih4⟩ := ih (fun z hz => hfin z (by
      simp only [List.mem_cons, List.mem_append] at hz ⊢; tauto)) (by omega)
    have hc := collect_count_ne x ys
    have hcount := collect_count (x :: ys)
    have hmin := collect_firstMin x (F64.isNaN_of_finite hx.1) ys
    have hmax := collect_firstMax x (F64.isNaN_of_finite hx.1) ys
    set s := collect (x :: ys) with hs
    have hminf := hfin s.min (by
      have := List.mem_of_getElem? hmin.1
      simp only [List.mem_cons, List.mem_append] at this ⊢; tauto)
    have hmaxf := hfin s.max (by
      have := List.mem_of_getElem? hmax.1
      simp only [List.mem_cons, List.mem_append] at this ⊢; tauto)
    have hav : |s.avg.val| < pow2 1023 := by
      rw [F64.le_finite hminf.1 ih1] at ih2
      rw [F64.le_finite ih1 hmaxf.1] at ih3
      have h1 := hminf.2
      have h2 := hmaxf.2
      rw [abs_lt] at *
      constructor <;> linarith [h1.1, h2.2]
    obtain ⟨w1, w2, w3⟩ := F64.welford_step (n := s.count + 1) hy.1 ih1 hy.2 hav (by omega) (by omega)
    rw [← List.cons_append, collect_concat, ← hs, record_sumSquared _ _ hc, record_min _ _ hc, record_max _ _ hc,
      record_avg _ _ hc]
    simp only [Arith.add, Arith.sub, Arith.mul, Arith.div, Arith.ofNat, Arith.lt] at *
    set a' := s.avg.add ((y.sub s.avg).div (F64.ofNat (s.count + 1))) with ha'
    rw [F64.le_finite hminf.1 ih1] at ih2
    rw [F64.le_finite ih1 hmaxf.1] at ih3
    refine ⟨w1, ?_, ?_, F64.add_nonneg ih4 w3⟩
    · split
      · rename_i hl
        rw [F64.lt_finite hy.1 hminf.1] at hl
        rw [F64.le_finite hy.1 w1]
        rcases w2 with h | h <;> linarith [h.1, h.2]
      · rename_i hl
        rw [F64.lt_finite hy.1 hminf.1] at hl
        rw [F64.le_finite hminf.1 w1]
        rcases w2 with h | h <;> linarith [h.1, h.2]
    · split
      · rename_i hl
        rw [F64.lt_finite hmaxf.1 hy.1] at hl
        rw [F64.le_finite w1 hy.1]
        rcases w2 with h | h <;> linarith [h.1, h.2]
      · rename_i hl
        rw [F64.lt_finite hmaxf.1 hy.1] at hl
        rw [F64.le_finite w1 hmaxf.1]
        rcases w2 with h | h <;> linarith [h.1, h.2]

end Stats
end RG
