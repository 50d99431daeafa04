import Verif.FloatText

/-! Helper lemmas about the text of an `f64`. -/

set_option exponentiation.threshold 1100

namespace RG.FloatText
open RG

theorem pow10_eq (k : Int) : pow10 k = (10 : ℚ) ^ k := by
  cases k with
  | ofNat n => simp [pow10]
  | negSucc n => simp [pow10, zpow_negSucc]

theorem pow10_pos (k : Int) : 0 < pow10 k := by rw [pow10_eq]; positivity

theorem floor_spec (q : ℚ) (hq : 0 ≤ q) (e : Int) :
    (((q / pow10 e).floor.toNat : Nat) : ℚ) * pow10 e ≤ q ∧ q < (((q / pow10 e).floor.toNat + 1 : Nat) : ℚ) * pow10 e := by
  have hp := pow10_pos e
  have h0 : 0 ≤ (q / pow10 e).floor := by
    have : 0 ≤ q / pow10 e := by positivity
    exact Int.floor_nonneg.2 this
  have hc : (((q / pow10 e).floor.toNat : Nat) : ℚ) = ((q / pow10 e).floor : ℚ) := by
    have := Int.toNat_of_nonneg h0
    exact_mod_cast this
  have h1 : (((q / pow10 e).floor : Int) : ℚ) ≤ q / pow10 e := Int.floor_le (q / pow10 e)
  have h2 : q / pow10 e < (((q / pow10 e).floor : Int) : ℚ) + 1 := Int.lt_floor_add_one (q / pow10 e)
  rw [le_div_iff₀ hp] at h1
  rw [div_lt_iff₀ hp] at h2
  push_cast
  rw [hc]
  exact ⟨h1, h2⟩

/-- If some multiple of `10^e` is read as `q`, one of the two next to `q` is. -/
theorem next_to (q : ℚ) (hq : 0 ≤ q) (hf : Fmt q) (e : Int) (n : Nat) (h : rndQ (n * pow10 e) = q) :
    (n ≤ (q / pow10 e).floor.toNat → rndQ ((q / pow10 e).floor.toNat * pow10 e) = q) ∧
    ((q / pow10 e).floor.toNat < n → rndQ (((q / pow10 e).floor.toNat + 1 : Nat) * pow10 e) = q) := by
  obtain ⟨h1, h2⟩ := floor_spec q hq e
  have hp := pow10_pos e
  constructor
  · intro hn
    apply le_antisymm
    · exact rndQ_le hf h1
    · conv_lhs => rw [← h]
      refine rndQ_mono (mul_le_mul_of_nonneg_right ?_ hp.le)
      exact_mod_cast hn
  · intro hn
    apply le_antisymm
    · conv_rhs => rw [← h]
      refine rndQ_mono (mul_le_mul_of_nonneg_right ?_ hp.le)
      exact_mod_cast hn
    · exact le_rndQ hf h2.le

theorem floor_exact (q : ℚ) (hq : 0 ≤ q) (hf : Fmt q) : (((q / pow10 (-1074)).floor.toNat : Nat) : ℚ) * pow10 (-1074) = q := by
  obtain ⟨z, hz⟩ := hf.mult
  have he : q / pow10 (-1074) = ((z * 5 ^ 1074 : Int) : ℚ) := by
    rw [hz, pow10_eq, pow2_eq]
    push_cast
    rw [zpow_neg, zpow_neg, div_inv_eq_mul, mul_assoc]
    congr 1
    have : (10 : ℚ) = 2 * 5 := by norm_num
    rw [this, mul_zpow, inv_mul_cancel_left₀ (by positivity)]
    norm_cast
  have h0 : 0 ≤ z * 5 ^ 1074 := by
    have : (0 : ℚ) ≤ ((z * 5 ^ 1074 : Int) : ℚ) := by rw [← he]; exact div_nonneg hq (pow10_pos _).le
    exact_mod_cast this
  have hfl : (q / pow10 (-1074)).floor = z * 5 ^ 1074 := by
    rw [he]; exact Int.floor_intCast (R := ℚ) (z * 5 ^ 1074)
  rw [hfl]
  have : (((z * 5 ^ 1074).toNat : Nat) : ℚ) = ((z * 5 ^ 1074 : Int) : ℚ) := by
    exact_mod_cast congrArg (fun i : Int => (i : ℚ)) (Int.toNat_of_nonneg h0)
  rw [this, ← he, div_mul_cancel₀ _ (pow10_pos _).ne']

theorem shortest_spec (up : Bool) (q : ℚ) (hq : 0 ≤ q) (hf : Fmt q) (fuel : Nat) (e : Int) (he : e - fuel = -1074) :
    rndQ ((shortest up q fuel e).1 * pow10 (shortest up q fuel e).2) = q ∧ (shortest up q fuel e).2 ≤ e ∧
    (∀ e' n, (shortest up q fuel e).2 < e' → e' ≤ e → rndQ ((n : Nat) * pow10 e') ≠ q) ∧
    (∀ n : Nat, rndQ (n * pow10 (shortest up q fuel e).2) = q →
      |(shortest up q fuel e).1 * pow10 (shortest up q fuel e).2 - q| ≤ |n * pow10 (shortest up q fuel e).2 - q|) := by
  induction fuel generalizing e with
  | zero =>
    have he : e = -1074 := by simpa using he
    subst he
    simp only [shortest]
    rw [floor_exact q hq hf]
    refine ⟨rndQ_of_fmt hf, le_refl _, fun e' n h1 h2 => by omega, fun n _ => by simp⟩
  | succ fuel ih =>
    obtain ⟨h1, h2⟩ := floor_spec q hq e
    have hp := pow10_pos e
    have hno : ∀ r : Nat × Int, r.2 = e → ∀ e' n, r.2 < e' → e' ≤ e → rndQ ((n : Nat) * pow10 e') ≠ q := by
      intro r hr e' n h3 h4; omega
    -- how far away a multiple is
    have hfar : ∀ n : Nat, (n ≤ (q / pow10 e).floor.toNat →
          q - ((q / pow10 e).floor.toNat : Nat) * pow10 e ≤ |n * pow10 e - q|) ∧
        ((q / pow10 e).floor.toNat < n → (((q / pow10 e).floor.toNat + 1 : Nat) : ℚ) * pow10 e - q ≤ |n * pow10 e - q|) := by
      intro n
      constructor
      · intro hn
        have : (n : ℚ) * pow10 e ≤ ((q / pow10 e).floor.toNat : Nat) * pow10 e :=
          mul_le_mul_of_nonneg_right (by exact_mod_cast hn) hp.le
        rw [abs_sub_comm]
        exact le_trans (by linarith) (le_abs_self _)
      · intro hn
        have : (((q / pow10 e).floor.toNat + 1 : Nat) : ℚ) * pow10 e ≤ (n : ℚ) * pow10 e :=
          mul_le_mul_of_nonneg_right (by exact_mod_cast hn) hp.le
        exact le_trans (by linarith) (le_abs_self _)
    have hb : |((q / pow10 e).floor.toNat : Nat) * pow10 e - q| = q - ((q / pow10 e).floor.toNat : Nat) * pow10 e := by
      rw [abs_sub_comm]; exact abs_of_nonneg (by linarith)
    have ha : |(((q / pow10 e).floor.toNat + 1 : Nat) : ℚ) * pow10 e - q| =
        (((q / pow10 e).floor.toNat + 1 : Nat) : ℚ) * pow10 e - q := abs_of_nonneg (by linarith)
    rw [shortest]
    generalize hN : (q / pow10 e).floor.toNat = N at *
    split
    · rename_i hlow
      split
      · rename_i hup
        refine ⟨hup.1, le_refl _, hno _ rfl, fun n hn => ?_⟩
        simp only
        rw [ha]
        rcases le_or_gt n N with h | h
        · refine le_trans ?_ ((hfar n).1 h)
          rcases hup.2 with h3 | ⟨h3, -⟩
          · exact h3.le
          · exact h3.le
        · exact (hfar n).2 h
      · rename_i hup
        refine ⟨hlow, le_refl _, hno _ rfl, fun n hn => ?_⟩
        simp only
        rw [hb]
        rcases le_or_gt n N with h | h
        · exact (hfar n).1 h
        · refine le_trans ?_ ((hfar n).2 h)
          by_contra hc
          have h5 := (next_to q hq hf e n hn).2 (by rw [hN]; exact h)
          rw [hN] at h5
          exact hup ⟨h5, Or.inl (not_le.1 hc)⟩
    · rename_i hlow
      split
      · rename_i hup
        refine ⟨hup, le_refl _, hno _ rfl, fun n hn => ?_⟩
        simp only
        rw [ha]
        rcases le_or_gt n N with h | h
        · exact absurd (hN ▸ (next_to q hq hf e n hn).1 (by rw [hN]; exact h)) hlow
        · exact (hfar n).2 h
      · rename_i hup
        obtain ⟨i1, i2, i3, i4⟩ := ih (e - 1) (by push_cast at he ⊢; omega)
        refine ⟨i1, by omega, fun e' n h3 h4 => ?_, i4⟩
        rcases eq_or_lt_of_le h4 with rfl | h4
        · intro hc
          rcases le_or_gt n N with h | h
          · exact hlow (hN ▸ (next_to q hq hf e' n hc).1 (by rw [hN]; exact h))
          · exact hup (hN ▸ (next_to q hq hf e' n hc).2 (by rw [hN]; exact h))
        · exact i3 e' n h3 (by omega)

/-! ### Digits -/

theorem toDigits_head (n : Nat) : ∃ c cs, Nat.toDigits 10 n = c :: cs ∧ c.isDigit = true := by
  cases h : Nat.toDigits 10 n with
  | nil => exact absurd h Nat.toDigits_ne_nil
  | cons c cs => exact ⟨c, cs, rfl, Nat.isDigit_of_mem_toDigits (by norm_num) (by norm_num) (h ▸ List.mem_cons_self)⟩

theorem decimal_head (n p : Nat) : ∃ c cs, decimal n p = c :: cs ∧ c.isDigit = true := by
  obtain ⟨c, cs, h, hc⟩ := toDigits_head (n / 10 ^ p)
  exact ⟨c, _, by rw [decimal, h, List.cons_append], hc⟩

theorem toDigits_isDigit (n : Nat) : ∀ c ∈ Nat.toDigits 10 n, c.isDigit = true := fun _ h =>
  Nat.isDigit_of_mem_toDigits (by norm_num) (by norm_num) h

theorem padded_isDigit (p n : Nat) : ∀ c ∈ padded p n, c.isDigit = true := by
  intro c hc
  rw [padded, List.mem_append] at hc
  rcases hc with hc | hc
  · rw [List.eq_of_mem_replicate hc]; rfl
  · exact toDigits_isDigit n c hc

theorem padded_length (p n : Nat) (hp : 0 < p) (h : n < 10 ^ p) : (padded p n).length = p := by
  have := (Nat.length_toDigits_le_iff (b := 10) (by norm_num) hp).2 h
  simp [padded]
  omega

theorem padded_value (p n : Nat) : Nat.ofDigitChars 10 (padded p n) 0 = n := by
  rw [padded, Nat.ofDigitChars_append, Nat.ofDigitChars_replicate_zero]
  simp

end RG.FloatText
