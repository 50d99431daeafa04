import Verif.Props.LinearBias
import Verif.Props.OddBoltzmann

/-!
# C139 — Linear selection with a huge bias in `f64`

The square of a bias of at least `2^512` in absolute value overflows.
-/

namespace RG.Props
open RG RG.Prog Arith

theorem inf_sub_cases (x : F64) : (F64.inf false).sub x = .nan ∨ (F64.inf false).sub x = .inf false := by
  cases x with
  | nan => exact .inl rfl
  | inf s => cases s with
    | true => exact .inr rfl
    | false => exact .inl rfl
  | nzero => exact .inr rfl
  | fin q h =>
    right
    show F64.add _ (if q = 0 then F64.nzero else F64.fin (-q) h.neg) = _
    split <;> rfl

theorem huge_square {b : F64} (hf : b.isFinite = true) (h : pow2 512 ≤ |b.val|) : b.mul b = .inf false := by
  have hq : pow2 1024 ≤ b.val * b.val := by
    have h1 : pow2 1024 = pow2 512 * pow2 512 := by rw [← pow2_add]; norm_num
    rw [h1, ← abs_mul_abs_self b.val]
    exact mul_le_mul h h (pow2_pos _).le (abs_nonneg _)
  have h2 : pow2 1024 ≤ rndQ (b.val * b.val) := le_rndQ (fmt_pow2 (by norm_num)) hq
  rw [F64.mul_finite hf hf, F64.round_overflow (not_lt.2 (h2.trans (le_abs_self _)))]
  congr 1
  exact decide_eq_false (not_lt.2 ((pow2_pos _).le.trans hq))

theorem sub_inf_finite {b : F64} (hf : b.isFinite = true) : b.sub (.inf false) = .inf true := by
  cases b <;> first | rfl | exact absurd hf Bool.false_ne_true

/-- With an infinite square, the gap is NaN or minus infinity. -/
theorem gap_cases {b : F64} (hf : b ≠ .inf false) (h : b.mul b = .inf false) (u : F64) :
    linGap b u = .nan ∨ linGap b u = .inf true := by
  unfold linGap
  rw [h]
  rcases inf_sub_cases (((F64.lit 4).mul (b.sub (F64.lit 1))).mul u) with e | e <;> rw [e]
  · left
    cases b <;> rfl
  · show b.sub (.inf false) = _ ∨ b.sub (.inf false) = _
    cases b with
    | nan => exact .inl rfl
    | inf s => cases s with
      | true => exact .inr rfl
      | false => exact absurd rfl hf
    | nzero => exact .inr rfl
    | fin q h => exact .inr rfl

theorem ofNat_pos {n : Nat} (hn : 0 < n) (h : n < 2 ^ 64) : 0 < (F64.ofNat n).val := by
  have := F64.le_ofNat_val h (k := 1) (by norm_num) hn
  push_cast at this
  linarith

theorem ofNat_mul_neg {n : Nat} (hn : 0 < n) (h : n < 2 ^ 64) : (F64.ofNat n).mul (.inf true) = .inf true := by
  have hp := ofNat_pos hn h
  have hs := signBit_of_pos hp
  revert hp hs
  cases F64.ofNat n with
  | fin q hq =>
    intro hp hs
    show (if q = 0 then F64.nan else F64.inf (decide (q < 0) ^^ true)) = _
    rw [if_neg (show q ≠ 0 from ne_of_gt hp)]
    have : decide (q < 0) = false := hs
    rw [this]; rfl
  | _ => intro hp _; exact absurd hp (lt_irrefl _)

theorem half_neg : (F64.inf true).div (F64.lit 2) = .inf true := by decide +kernel

/-- The offset, when the gap is NaN or minus infinity. -/
theorem offset_cases {b : F64} {n : Nat} (hn : 0 < n) (hn' : n < 2 ^ 64) {u : F64}
    (h : linGap b u = .nan ∨ linGap b u = .inf true) :
    (⟨b⟩ : LinearSelection F64).offset n u = .nan ∨
      (⟨b⟩ : LinearSelection F64).offset n u = (F64.inf true).div (b.sub (F64.lit 1)) := by
  rw [offset_f64]
  rcases h with h | h
  · left
    show (((F64.ofNat n).mul (linGap b u)).div (F64.lit 2)).div (b.sub (F64.lit 1)) = _
    rw [h]
    have e : (F64.ofNat n).mul .nan = .nan := by cases F64.ofNat n <;> rfl
    rw [e]; rfl
  · right
    show (((F64.ofNat n).mul (linGap b u)).div (F64.lit 2)).div (b.sub (F64.lit 1)) = _
    rw [h, ofNat_mul_neg hn hn', half_neg]

theorem select_of_zero {b : F64} {n : Nat} (hn : 0 < n) {u : F64} (h : F64.toUsize ((⟨b⟩ : LinearSelection F64).offset n u) = 0) :
    (⟨b⟩ : LinearSelection F64).selectIndex F64.toUsize n u = .ok (n - 1) := by
  rw [selectIndex_lt (by rw [h]; exact hn), h, Nat.sub_zero]

/-- **C139** In `f64`: with an infinite bias of either sign, always the fittest is selected. -/
theorem C139_infinite (s : Bool) (n : Nat) (hn : 0 < n) (hn' : n < 2 ^ 64) (u : F64) :
    (⟨F64.inf s⟩ : LinearSelection F64).selectIndex F64.toUsize n u = .ok (n - 1) := by
  apply select_of_zero hn
  have e : (F64.inf s).sub (F64.lit 1) = .inf s := by cases s <;> decide +kernel
  have key : (⟨F64.inf s⟩ : LinearSelection F64).offset n u = .nan := by
    rw [offset_f64]
    show (((F64.ofNat n).mul (linGap (.inf s) u)).div (F64.lit 2)).div ((F64.inf s).sub (F64.lit 1)) = _
    rw [e]
    cases s with
    | true =>
      rcases gap_cases (b := .inf true) (by intro h; cases h) rfl u with g | g <;> rw [g]
      · have e : (F64.ofNat n).mul .nan = .nan := by cases F64.ofNat n <;> rfl
        rw [e]; rfl
      · rw [ofNat_mul_neg hn hn', half_neg]; rfl
    | false =>
      have g : linGap (.inf false) u = .nan := by
        unfold linGap
        show (F64.inf false).sub (F64.sqrt ((F64.inf false).sub _)) = _
        rcases inf_sub_cases (((F64.lit 4).mul ((F64.inf false).sub (F64.lit 1))).mul u) with e | e <;> rw [e] <;> rfl
      rw [g]
      have e : (F64.ofNat n).mul .nan = .nan := by cases F64.ofNat n <;> rfl
      rw [e]; rfl
  rw [key]; rfl

theorem sub_lit_one {b : F64} (hf : b.isFinite = true) : b.sub (F64.lit 1) = F64.round b.signBit (b.val - 1) := by
  have h1 : (F64.lit 1).isFinite = true ∧ (F64.lit 1).val = 1 ∧ (F64.lit 1).neg.signBit = true := by decide +kernel
  rw [F64.sub_finite hf h1.1, h1.2.1, h1.2.2, Bool.and_true]

theorem inf_sub_round {s : Bool} {q : ℚ} (h : q ≤ 0) : (F64.inf false).sub (F64.round s q) = .inf false := by
  by_cases hq : |rndQ q| < pow2 1024
  · have := (F64.round_finite (s := s) hq).1
    revert this
    cases F64.round s q with
    | fin r hr =>
      intro _
      show F64.add _ (if r = 0 then F64.nzero else F64.fin (-r) hr.neg) = _
      split <;> rfl
    | nzero => intro _; rfl
    | nan => intro h; exact absurd h Bool.false_ne_true
    | inf t => intro h; exact absurd h Bool.false_ne_true
  · have h0 : q < 0 := by
      refine lt_of_le_of_ne h ?_
      rintro rfl
      rw [rndQ_zero, abs_zero] at hq
      exact hq (pow2_pos _)
    rw [F64.round_overflow hq, decide_eq_true h0]
    rfl

/-- **C139** In `f64`: with a finite bias of at least `2^512`, always the fittest is selected. -/
theorem C139_huge (b : F64) (hf : b.isFinite = true) (hb : pow2 512 ≤ b.val) (n : Nat) (hn : 0 < n) (hn' : n < 2 ^ 64) (u : F64) :
    (⟨b⟩ : LinearSelection F64).selectIndex F64.toUsize n u = .ok (n - 1) := by
  apply select_of_zero hn
  have hg := gap_cases (b := b) (by rintro rfl; exact absurd hf Bool.false_ne_true)
    (huge_square hf (hb.trans (le_abs_self _))) u
  rcases offset_cases hn hn' hg with e | e <;> rw [e]
  · rfl
  · have h1 : 1 < b.val := lt_of_lt_of_le (by rw [show (1 : ℚ) = pow2 0 from by rw [pow2_eq]; norm_num]; exact pow2_lt.2 (by norm_num)) hb
    have hs : (b.sub (F64.lit 1)).signBit = false := by
      rw [sub_lit_one hf, signBit_of_pos (a := b) (by linarith)]
      exact signBit_round (fun h => absurd h (by linarith)) (fun _ => rfl)
    revert hs
    cases b.sub (F64.lit 1) with
    | nan => intro _; rfl
    | inf s => intro _; rfl
    | nzero => intro h; exact absurd h (by decide)
    | fin q hq =>
      intro h
      have : (F64.inf true).div (.fin q hq) = .inf (true ^^ (F64.fin q hq).signBit) := rfl
      rw [this, h]; rfl

/-- **C139** In `f64`: with a bias between `-2^1020` and `-2^512`, every selection panics. -/
theorem C139_panics (b : F64) (hf : b.isFinite = true) (h1 : - pow2 1020 ≤ b.val) (h2 : b.val ≤ - pow2 512) (n : Nat) (hn : 0 < n)
    (hn' : n < 2 ^ 64) (u : F64) (hu : u.isFinite = true) (hu0 : 0 ≤ u.val) :
    (⟨b⟩ : LinearSelection F64).selectIndex F64.toUsize n u = .panic := by
  have p512 := pow2_pos 512
  have p1 : (1 : ℚ) ≤ pow2 1020 := by
    rw [show (1 : ℚ) = pow2 0 from by rw [pow2_eq]; norm_num]; exact pow2_le.2 (by norm_num)
  have p21 : pow2 1021 = 2 * pow2 1020 := by
    rw [show (1021 : Int) = 1 + 1020 by norm_num, pow2_add]; congr 1; rw [pow2_eq]; norm_num
  have p23 : pow2 1023 = 4 * pow2 1021 := by
    rw [show (1023 : Int) = 2 + 1021 by norm_num, pow2_add]; congr 1; rw [pow2_eq]; norm_num
  obtain ⟨c1, c2⟩ := F64.round_of_abs_le (s := b.signBit) (q := b.val - 1) (rep_pow2 (k := 1021) (by norm_num) (by norm_num))
    (abs_le.2 ⟨by linarith, by linarith⟩)
  rw [← sub_lit_one hf] at c1 c2
  have c3 : (b.sub (F64.lit 1)).val ≤ - pow2 512 := by
    rw [c2]; exact rndQ_le (fmt_pow2 (by norm_num)).neg (by linarith)
  have c4 : - pow2 1021 ≤ (b.sub (F64.lit 1)).val := by
    rw [c2]; exact le_rndQ (fmt_pow2 (by norm_num)).neg (by linarith)
  obtain ⟨d1, d2⟩ := F64.round_of_abs_le (s := (F64.lit 4).signBit ^^ (b.sub (F64.lit 1)).signBit)
    (q := (F64.lit 4).val * (b.sub (F64.lit 1)).val) (rep_pow2 (k := 1023) (by norm_num) (by norm_num))
    (by rw [lit4.2]; exact abs_le.2 ⟨by linarith, by linarith [pow2_pos 1021]⟩)
  rw [← F64.mul_finite lit4.1 c1] at d1 d2
  have d3 : ((F64.lit 4).mul (b.sub (F64.lit 1))).val ≤ 0 := by
    rw [d2, lit4.2]; exact rndQ_nonpos (by linarith)
  have hsq := huge_square hf (show pow2 512 ≤ |b.val| by rw [abs_of_neg (by linarith)]; linarith)
  have hg : linGap b u = .inf true := by
    unfold linGap
    rw [hsq, F64.mul_finite d1 hu, inf_sub_round (mul_nonpos_of_nonpos_of_nonneg d3 hu0)]
    exact sub_inf_finite hf
  have ho : (⟨b⟩ : LinearSelection F64).offset n u = .inf false := by
    rw [offset_f64]
    show (((F64.ofNat n).mul (linGap b u)).div (F64.lit 2)).div (b.sub (F64.lit 1)) = _
    rw [hg, ofNat_mul_neg hn hn', half_neg]
    have hs := signBit_of_neg (show (b.sub (F64.lit 1)).val < 0 by linarith)
    revert c1 hs
    cases b.sub (F64.lit 1) with
    | nan => intro h; exact absurd h Bool.false_ne_true
    | inf t => intro h; exact absurd h Bool.false_ne_true
    | nzero => intro _ _; rfl
    | fin q hq =>
      intro _ h
      show F64.inf (true ^^ (F64.fin q hq).signBit) = _
      rw [h]; rfl
  apply selectIndex_ge
  rw [ho]
  show n ≤ 2 ^ 64 - 1
  omega

theorem unit_nonneg {k : Nat} (hk : k < 2 ^ 53) : (F64.unit k).isFinite = true ∧ 0 ≤ (F64.unit k).val := by
  have hq : (0 : ℚ) ≤ (k : ℚ) / 2 ^ 53 := by positivity
  have hq1 : (k : ℚ) / 2 ^ 53 ≤ 1 := by
    rw [div_le_one (by positivity)]; exact_mod_cast hk.le
  obtain ⟨h1, h2⟩ := F64.round_of_abs_le (s := false) (q := (k : ℚ) / 2 ^ 53) (rep_pow2 (k := 0) (by norm_num) (by norm_num))
    (by rw [abs_of_nonneg hq, pow2_eq]; simpa using hq1)
  exact ⟨h1, by show 0 ≤ (F64.round false _).val; rw [h2]; exact rndQ_nonneg hq⟩

/-- **C139** So `select` does nothing but panic then, for every random source. -/
theorem C139_select_panics {I : Type} [Individual I] (b : F64) (hf : b.isFinite = true) (h1 : - pow2 1020 ≤ b.val)
    (h2 : b.val ≤ - pow2 512) (p : Population I) (hp : p.individuals ≠ []) (hp' : p.individuals.length < 2 ^ 64) (r : Res (Nat × I)) :
    ((LinearSelection.new b).select p).yields r ↔ r = .panic := by
  have hpan : ∀ k, k < 2 ^ 53 → (LinearSelection.new b).selectIndex F64.toUsize p.len (F64.unit k) = .panic := fun k hk =>
    C139_panics b hf h1 h2 p.len (List.length_pos_of_ne_nil hp) hp' _ (unit_nonneg hk).1 (unit_nonneg hk).2
  unfold LinearSelection.select
  rw [yields_bind]
  constructor
  · rintro (⟨u, hu, h⟩ | ⟨hu, -⟩ | ⟨hu, -⟩)
    · obtain ⟨k, hk, e⟩ := (yields_genF64 _).1 hu
      cases e
      rw [hpan k hk] at h
      exact h
    · obtain ⟨k, hk, e⟩ := (yields_genF64 _).1 hu
      cases e
    · obtain ⟨k, hk, e⟩ := (yields_genF64 _).1 hu
      cases e
  · rintro rfl
    refine Or.inl ⟨_, (yields_genF64 _).2 ⟨0, by norm_num, rfl⟩, ?_⟩
    rw [hpan 0 (by norm_num)]
    rfl

/-! ### Examples -/

/-- The bias `-2^600`. -/
def hugeBias : F64 := (F64.lit (pow2 600)).neg

theorem hugeBias_facts : hugeBias.isFinite = true ∧ hugeBias.val = - pow2 600 := by
  obtain ⟨h1, h2⟩ := F64.round_rep (s := false) (rep_pow2 (k := 600) (by norm_num) (by norm_num))
  have := F64.neg_finite h1
  exact ⟨this.1, by rw [← h2]; exact this.2⟩

/-- With it, ten individuals cannot be selected from; the draw is one half. -/
example : (⟨hugeBias⟩ : LinearSelection F64).selectIndex F64.toUsize 10 (F64.lit (1 / 2)) = .panic :=
  C139_panics _ hugeBias_facts.1 (by rw [hugeBias_facts.2]; exact neg_le_neg (pow2_le.2 (by norm_num)))
    (by rw [hugeBias_facts.2]; exact neg_le_neg (pow2_le.2 (by norm_num))) 10 (by norm_num) (by norm_num) _
    (by decide +kernel) (by decide +kernel)

/-- With minus infinity, however, the fittest is selected. -/
example : (⟨F64.inf true⟩ : LinearSelection F64).selectIndex F64.toUsize 10 (F64.lit (1 / 2)) = .ok 9 :=
  C139_infinite true 10 (by norm_num) (by norm_num) _

end RG.Props
