import Verif.Props.Cooling

/-!
# C138 — Boltzmann selection with any temperature and cooling rate

`BoltzmannSelection::new` rejects only a cooling rate of zero (`selection.rs:252-259`). Here is what the selector does with a negative
temperature, a negative cooling rate, an infinite temperature and NaN.
-/

set_option linter.unusedSectionVars false

namespace RG.Props
open RG RG.Prog Arith
variable {I : Type} [Individual I]

/-- A selector prepared for the populations one after the other. -/
def preparedFor (env : NumEnv) (s : BoltzmannSelection F64) (seen : List (Population I)) : BoltzmannSelection F64 :=
  seen.foldl (fun s p => s.prepare env p) s

theorem preparedFor_fields (env : NumEnv) (seen : List (Population I)) : ∀ s : BoltzmannSelection F64,
    (preparedFor env s seen).coolingRate = s.coolingRate ∧
    (preparedFor env s seen).temperature = temperatures s.coolingRate s.temperature seen.length := by
  induction seen using List.reverseRecOn with
  | nil => exact fun s => ⟨rfl, rfl⟩
  | append_singleton l p ih =>
    intro s
    obtain ⟨h1, h2⟩ := ih s
    have e : preparedFor env s (l ++ [p]) = (preparedFor env s l).prepare env p := by simp [preparedFor, List.foldl_append]
    refine ⟨by rw [e]; exact h1, ?_⟩
    rw [e, (C43_prepare env _ p).1, h1, h2, List.length_append]
    rfl

/-! ### NaN -/

theorem temperatures_nan {c T : F64} (h : T = .nan ∨ c = .nan) : ∀ n, temperatures c T (n + 1) = .nan := by
  have hm : ∀ a : F64, a.mul .nan = .nan := fun a => by cases a <;> rfl
  intro n
  rcases h with rfl | rfl
  · induction n with
    | zero => rfl
    | succ n ih => show (temperatures c .nan (n + 1)).mul c = .nan; rw [ih]; rfl
  · exact hm _

theorem runningSum_nan (ws : List F64) (hw : ∀ w ∈ ws, w = .nan) (m : Nat) (hne : ws ≠ []) : runningSum (lit 0) ws m = F64.nan := by
  obtain ⟨w, ws, rfl⟩ := List.exists_cons_of_ne_nil hne
  have hn : ∀ l : List F64, l.foldl F64.add .nan = .nan := fun l => by
    induction l with
    | nil => rfl
    | cons a l ih => exact ih
  have h0 : ∀ a : F64, a.add .nan = .nan := fun a => by cases a <;> rfl
  unfold runningSum
  rw [List.take_succ_cons, List.foldl_cons, hw w (by simp)]
  show List.foldl F64.add (F64.add (lit 0) .nan) _ = _
  rw [h0]
  exact hn _

/-- **C138** If the temperature or the cooling rate is NaN, the last individual of the population, a fittest one, is always selected. -/
theorem C138_nan (env : NumEnv) (hexp : env.exp .nan = .nan) (s : BoltzmannSelection F64) (h : s.temperature = .nan ∨ s.coolingRate = .nan)
    (seen : List (Population I)) (hseen : seen ≠ []) (p : Population I) (hp : p.individuals ≠ []) :
    Always (fun r => r.1 + 1 = p.individuals.length ∧ p.individuals[r.1]? = some r.2) ((preparedFor env s seen).select env p) := by
  have hT : (preparedFor env s seen).temperature = .nan := by
    rw [(preparedFor_fields env seen s).2]
    obtain ⟨n, hn⟩ := Nat.exists_eq_succ_of_ne_zero (mt List.length_eq_zero_iff.1 hseen)
    rw [hn]
    exact temperatures_nan h n
  have hd : ∀ f : F64, f.div .nan = .nan := fun f => by cases f <;> rfl
  intro r hr
  obtain ⟨k, j, x, -, rfl, hx, -, -, hpick⟩ := (C43_select env _ p hp r).1 hr
  refine ⟨_, rfl, ?_, hx⟩
  rcases hpick with hpick | hpick
  · rw [runningSum_nan _ (fun w hw => ?_) j (by simpa using hp)] at hpick
    · have : ∀ a : F64, a.le .nan = false := fun a => by cases a <;> rfl
      exact absurd ((this _).symm.trans hpick) (by decide)
    · obtain ⟨y, -, rfl⟩ := List.mem_map.1 hw
      rw [hT, hd, hexp]
  · simpa using hpick

/-! ### Infinity -/

/-- **C138** If the temperature has become infinite, of either sign, all individuals of finite fitness are selected alike, up to rounding. It stays
infinite. -/
theorem C138_infinite (env : NumEnv) (henv : env.LawfulSum) (h1 : env.exp F64.zero = F64.one) (h2 : env.exp F64.nzero = F64.one)
    (s : BoltzmannSelection F64) (b : Bool) (hT : s.temperature.mul s.coolingRate = .inf b) (p : Population I) (hlen : p.individuals.length ≤ 2 ^ 40)
    (hf : ∀ x ∈ p.individuals, (fitness x).isFinite = true) (i : Nat) (hi : i < p.individuals.length) :
    |((s.prepare env p).select env p).prob (fun r => r.1 = i) - 1 / p.individuals.length| ≤ p.individuals.length / 2 ^ 49 ∧
    (s.coolingRate ≠ .nan → s.coolingRate.val ≠ 0 ∨ s.coolingRate.isFinite = false →
      ∃ b', (s.prepare env p).temperature.mul (s.prepare env p).coolingRate = .inf b') := by
  have hw1 : ∀ x ∈ p.individuals, env.exp ((fitness x).div (s.temperature.mul s.coolingRate)) = F64.one := fun x hx => by
    have hfx := hf x hx
    rw [hT]
    revert hfx
    generalize fitness x = f
    intro hfx
    have key : f.div (.inf b) = F64.zero ∨ f.div (.inf b) = F64.nzero := by
      have e : f.div (.inf b) = if f.signBit ^^ b then F64.nzero else F64.zero := by cases f <;> first | rfl | cases hfx
      rw [e]
      split <;> simp
    rcases key with e | e <;> rw [e] <;> assumption
  have hmap : p.individuals.map (fun x => env.exp ((fitness x).div (s.temperature.mul s.coolingRate))) =
      List.replicate p.individuals.length F64.one := by
    rw [← List.map_const']
    exact List.map_congr_left hw1
  have hsum : ((List.replicate p.individuals.length F64.one).map F64.val).sum = p.individuals.length := by simp
  have hn : 1 ≤ p.individuals.length := by omega
  constructor
  · have h := C43_f64_probability env henv s p _ (fun _ => rfl) (by
      rw [hmap]
      refine ⟨fun w hw => ?_, ?_, ?_, by simpa using hlen⟩
      · rw [List.eq_of_mem_replicate hw]; exact ⟨rfl, by decide +kernel⟩
      · rw [hsum]
        exact (zpow_le_one_of_nonpos₀ (by norm_num) (by norm_num)).trans (by exact_mod_cast hn)
      · rw [hsum]
        refine le_trans (show (p.individuals.length : ℚ) ≤ 2 ^ 40 by exact_mod_cast hlen) ?_
        rw [← zpow_natCast]
        exact zpow_le_zpow_right₀ (by norm_num) (by norm_num)) i hi
    have e1 : (p.individuals.map fun x => (env.exp ((fitness x).div (s.temperature.mul s.coolingRate))).val).sum = p.individuals.length := by
      rw [← hsum, ← hmap, List.map_map]
      rfl
    rw [e1, hw1 _ (List.getElem_mem hi)] at h
    exact h
  · intro hn0 hc0
    rw [(C43_prepare env s p).1, (C43_prepare env s p).2.1, hT]
    revert hn0 hc0
    generalize s.coolingRate = c
    intro hn0 hc0
    cases c with
    | nan => exact absurd rfl hn0
    | inf t => exact ⟨_, rfl⟩
    | nzero => rcases hc0 with h | h <;> simp at h
    | fin q hq =>
      have hq0 : q ≠ 0 := by rcases hc0 with h | h; exact h; cases h
      refine ⟨b ^^ (decide (q < 0)), ?_⟩
      simp [F64.mul, F64.signBit, hq0]

/-- The number after one. -/
theorem next_one {q : ℚ} (h : Fmt q) (h1 : 1 < q) : 1 + pow2 (-52) ≤ q := by
  obtain ⟨m, e, hm, -, rfl⟩ := h
  have hp := pow2_pos e
  have hm0 : (0 : ℚ) < m := by
    by_contra hc
    have := mul_nonpos_of_nonpos_of_nonneg (not_lt.1 hc) hp.le
    linarith
  have he : -52 ≤ e := by
    by_contra hc
    have h2 : pow2 e ≤ pow2 (-53) := pow2_le.2 (by omega)
    have h3 : (m : ℚ) ≤ 2 ^ 53 := by
      have := (abs_lt.1 hm).2.le
      exact_mod_cast this
    have h4 : pow2 (-53) * 2 ^ 53 = 1 := by decide +kernel
    nlinarith [mul_le_mul h3 h2 hp.le (by positivity)]
  obtain ⟨k, rfl⟩ : ∃ k : Nat, e = k + -52 := ⟨(e + 52).toNat, by omega⟩
  have hk : (m : ℚ) * pow2 (k + -52) = ((m * 2 ^ k : Int) : ℚ) * pow2 (-52) := by
    rw [pow2_add, pow2_natCast]
    push_cast
    ring
  rw [hk] at h1 ⊢
  have h5 : (2 : ℚ) ^ 52 * pow2 (-52) = 1 := by decide +kernel
  have hq := pow2_pos (-52)
  have h6 : (2 : ℚ) ^ 52 < ((m * 2 ^ k : Int) : ℚ) := by
    rw [← h5] at h1
    exact lt_of_mul_lt_mul_right h1 hq.le
  have h7 : (2 : ℚ) ^ 52 + 1 ≤ ((m * 2 ^ k : Int) : ℚ) := by
    have : (2 : Int) ^ 52 < m * 2 ^ k := by exact_mod_cast h6
    exact_mod_cast Int.add_one_le_iff.2 this
  have := mul_le_mul_of_nonneg_right h7 hq.le
  rw [add_mul, h5, one_mul] at this
  exact this

/-- One preparation with a cooling rate above one in absolute value. -/
theorem heats_step {c a : F64} (hc : c.isFinite = true) (hc1 : 1 < |c.val|) (ha : a.isFinite = true) (hal : pow2 (-1022) ≤ |a.val|) :
    (∃ b, a.mul c = .inf b) ∨ (a.mul c).isFinite = true ∧ |a.val| * (1 + pow2 (-54)) ≤ |(a.mul c).val| := by
  rw [F64.mul_finite ha hc]
  by_cases ho : |rndQ (a.val * c.val)| < pow2 1024
  · right
    obtain ⟨h1, h2⟩ := F64.round_finite (s := a.signBit ^^ c.signBit) ho
    refine ⟨h1, ?_⟩
    rw [h2]
    have hcg : 1 + pow2 (-52) ≤ |c.val| := by
      have hfc : Fmt |c.val| := by
        rcases abs_choice c.val with e | e <;> rw [e]
        · exact F64.fmt_val c
        · exact (F64.fmt_val c).neg
      exact next_one hfc hc1
    have hx : |a.val| ≤ |a.val * c.val| := by
      rw [abs_mul]
      nlinarith [abs_nonneg a.val]
    have hr := rndQ_rel_err (x := a.val * c.val) (hal.trans hx)
    have h3 : |a.val * c.val| - |rndQ (a.val * c.val)| ≤ pow2 (-53) * |a.val * c.val| :=
      (abs_sub_abs_le_abs_sub _ _).trans (by rw [abs_sub_comm]; exact hr)
    have h4 : |a.val| * (1 + pow2 (-52)) ≤ |a.val * c.val| := by
      rw [abs_mul]
      exact mul_le_mul_of_nonneg_left hcg (abs_nonneg _)
    have e1 : pow2 (-52) = 4 * pow2 (-54) := by rw [show (-52 : Int) = -54 + 1 + 1 by norm_num, pow2_succ, pow2_succ]; ring
    have e2 : pow2 (-53) = 2 * pow2 (-54) := by rw [show (-53 : Int) = -54 + 1 by norm_num, pow2_succ]
    have hp : 0 < pow2 (-54) := pow2_pos _
    have hp1 : pow2 (-54) ≤ 1 / 8 := by
      have : pow2 (-54) ≤ pow2 (-3) := pow2_le.2 (by norm_num)
      exact this.trans (by decide +kernel)
    have h5 : |a.val * c.val| * (1 - pow2 (-53)) ≤ |rndQ (a.val * c.val)| := by linarith
    refine le_trans ?_ h5
    have h6 : |a.val| * (1 + pow2 (-52)) * (1 - pow2 (-53)) ≤ |a.val * c.val| * (1 - pow2 (-53)) :=
      mul_le_mul_of_nonneg_right h4 (by rw [e2]; linarith)
    refine le_trans ?_ h6
    rw [mul_assoc]
    refine mul_le_mul_of_nonneg_left ?_ (abs_nonneg _)
    rw [e1, e2]
    nlinarith
  · exact Or.inl ⟨_, F64.round_overflow ho⟩

/-- **C138** With a cooling rate above one in absolute value, a temperature of at least `2^-1022` in absolute value becomes infinite. -/
theorem C138_heats (c T : F64) (hc : c.isFinite = true) (hc1 : 1 < |c.val|) (hT : T.isFinite = true) (hT0 : pow2 (-1022) ≤ |T.val|) :
    ∃ N, ∀ n, N ≤ n → ∃ b, temperatures c T n = .inf b := by
  have hstay : ∀ n b, temperatures c T n = .inf b → ∃ b', temperatures c T (n + 1) = .inf b' := fun n b h => by
    show ∃ b', (temperatures c T n).mul c = .inf b'
    rw [h]
    cases c with
    | nan => cases hc
    | inf => cases hc
    | nzero => simp at hc1; linarith
    | fin q hq =>
      have hq0 : q ≠ 0 := fun e => by simp [e] at hc1; linarith
      exact ⟨b ^^ (decide (q < 0)), by simp [F64.mul, F64.signBit, hq0]⟩
  have hgrow : ∀ n, (∃ b, temperatures c T n = .inf b) ∨
      (temperatures c T n).isFinite = true ∧ |T.val| * (1 + pow2 (-54)) ^ n ≤ |(temperatures c T n).val| := fun n => by
    induction n with
    | zero => exact Or.inr ⟨hT, by simp [temperatures]⟩
    | succ n ih =>
      rcases ih with ⟨b, hb⟩ | ⟨h1, h2⟩
      · exact Or.inl (hstay n b hb)
      · have h3 : |T.val| ≤ |T.val| * (1 + pow2 (-54)) ^ n :=
          le_mul_of_one_le_right (abs_nonneg _) (one_le_pow₀ (by linarith [pow2_pos (-54)]))
        rcases heats_step hc hc1 h1 (hT0.trans (h3.trans h2)) with h | ⟨h4, h5⟩
        · exact Or.inl h
        · refine Or.inr ⟨h4, le_trans ?_ h5⟩
          rw [pow_succ, ← mul_assoc]
          exact mul_le_mul_of_nonneg_right h2 (by linarith [pow2_pos (-54)])
  obtain ⟨N, hN⟩ := pow_unbounded_of_one_lt (pow2 1024 / |T.val|) (show 1 < 1 + pow2 (-54) by linarith [pow2_pos (-54)])
  have hTp : 0 < |T.val| := lt_of_lt_of_le (pow2_pos _) hT0
  have h0 : ∃ b, temperatures c T N = .inf b := by
    rcases hgrow N with h | ⟨-, h⟩
    · exact h
    · have h1 := (F64.rep_val (temperatures c T N)).2
      rw [div_lt_iff₀ hTp] at hN
      linarith [mul_comm |T.val| ((1 + pow2 (-54)) ^ N)]
  refine ⟨N, fun n hn => ?_⟩
  induction n, hn using Nat.le_induction with
  | base => exact h0
  | succ n _ ih => obtain ⟨b, hb⟩ := ih; exact hstay n b hb

/-- **C138** The smallest positive temperature does not change with the cooling rate 0.95, nor with 1.2. -/
theorem C138_stalls (n : Nat) :
    temperatures (F64.lit (95 / 100)) (.fin (pow2 (-1074)) (rep_pow2 (by norm_num) (by norm_num))) n =
      .fin (pow2 (-1074)) (rep_pow2 (by norm_num) (by norm_num)) ∧
    temperatures (F64.lit (12 / 10)) (.fin (pow2 (-1074)) (rep_pow2 (by norm_num) (by norm_num))) n =
      .fin (pow2 (-1074)) (rep_pow2 (by norm_num) (by norm_num)) := by
  induction n with
  | zero => exact ⟨rfl, rfl⟩
  | succ n ih =>
    refine ⟨?_, ?_⟩
    · show (temperatures _ _ n).mul _ = _
      rw [ih.1]
      decide +kernel
    · show (temperatures _ _ n).mul _ = _
      rw [ih.2]
      decide +kernel

/-! ### Signs -/

theorem signBit_of_neg {a : F64} (h : a.val < 0) : a.signBit = true := by
  cases a with
  | fin q hq => exact decide_eq_true h
  | _ => exact absurd h (lt_irrefl _)

theorem signBit_of_pos {a : F64} (h : 0 < a.val) : a.signBit = false := by
  cases a with
  | fin q hq => exact decide_eq_false (not_lt.2 (le_of_lt h))
  | _ => exact absurd h (lt_irrefl _)

theorem signBit_round {b : Bool} {q : ℚ} (h1 : q < 0 → b = true) (h2 : 0 < q → b = false) : (F64.round b q).signBit = b := by
  unfold F64.round
  split
  · split
    · rename_i h
      exact h.2.symm
    · rename_i h
      show decide (rndQ q < 0) = b
      cases b with
      | false => exact decide_eq_false (not_lt.2 (rndQ_nonneg (not_lt.1 fun hq => by cases h1 hq)))
      | true =>
        refine decide_eq_true (lt_of_le_of_ne (rndQ_nonpos (not_lt.1 fun hq => by cases h2 hq)) fun h0 => h ⟨h0, rfl⟩)
  · rename_i h
    show decide (q < 0) = b
    have hq : q ≠ 0 := fun e => h (by rw [e, rndQ_zero, abs_zero]; exact pow2_pos _)
    rcases lt_or_gt_of_ne hq with hq | hq
    · rw [h1 hq]; exact decide_eq_true hq
    · rw [h2 hq]; exact decide_eq_false (not_lt.2 (le_of_lt hq))

theorem signBit_mul {a b : F64} (h : a.mul b ≠ .nan) : (a.mul b).signBit = (a.signBit ^^ b.signBit) := by
  have hfin : a.isFinite = true → b.isFinite = true → (a.mul b).signBit = (a.signBit ^^ b.signBit) := fun ha hb => by
    rw [F64.mul_finite ha hb]
    refine signBit_round (fun hq => ?_) fun hq => ?_
    · rcases mul_neg_iff.1 hq with ⟨h1, h2⟩ | ⟨h1, h2⟩
      · rw [signBit_of_pos h1, signBit_of_neg h2]; rfl
      · rw [signBit_of_neg h1, signBit_of_pos h2]; rfl
    · rcases mul_pos_iff.1 hq with ⟨h1, h2⟩ | ⟨h1, h2⟩
      · rw [signBit_of_pos h1, signBit_of_pos h2]; rfl
      · rw [signBit_of_neg h1, signBit_of_neg h2]; rfl
  cases a with
  | nan => exact absurd rfl h
  | inf s =>
    cases b with
    | nan => exact absurd rfl h
    | inf t => rfl
    | nzero => exact absurd rfl h
    | fin q hq =>
      by_cases h0 : q = 0
      · exact absurd (by simp [F64.mul, h0]) h
      · simp [F64.mul, F64.signBit, h0]
  | nzero =>
    cases b with
    | nan => exact absurd rfl h
    | inf t => exact absurd rfl h
    | nzero => exact hfin rfl rfl
    | fin q hq => exact hfin rfl rfl
  | fin q hq =>
    cases b with
    | nan => exact absurd rfl h
    | inf t =>
      by_cases h0 : q = 0
      · exact absurd (by simp [F64.mul, h0]) h
      · simp [F64.mul, F64.signBit, h0]
    | nzero => exact hfin rfl rfl
    | fin q' hq' => exact hfin rfl rfl

/-- **C138** With a negative cooling rate the temperature changes its sign at every preparation, with a positive one it never does (unless it has
become NaN). -/
theorem C138_sign (c T : F64) : ∀ n, temperatures c T n ≠ .nan →
    (temperatures c T n).signBit = (T.signBit ^^ (c.signBit && decide (n % 2 = 1))) := by
  intro n
  induction n with
  | zero => intro _; simp [temperatures]
  | succ n ih =>
    intro h
    have h' : temperatures c T n ≠ .nan := fun e => h (by show (temperatures c T n).mul c = .nan; rw [e]; rfl)
    show ((temperatures c T n).mul c).signBit = _
    rw [signBit_mul h, ih h']
    rcases Nat.mod_two_eq_zero_or_one n with e | e <;> cases T.signBit <;> cases c.signBit <;> simp [e, Nat.add_mod]

/-! ### Preferences -/

theorem round_mono {b b' : Bool} {x y : ℚ} (h : x ≤ y) : (F64.round b x).le (F64.round b' y) = true := by
  rw [F64.le_iff]
  refine ⟨F64.round_ne_nan _ _, F64.round_ne_nan _ _, ?_⟩
  have hm := rndQ_mono h
  by_cases hx : |rndQ x| < pow2 1024
  · obtain ⟨x1, x2⟩ := F64.round_finite (s := b) hx
    by_cases hy : |rndQ y| < pow2 1024
    · obtain ⟨y1, y2⟩ := F64.round_finite (s := b') hy
      rw [F64.key_le_finite x1 y1, x2, y2]
      exact hm
    · rw [F64.round_overflow hy, F64.key_finite x1]
      have hy0 : ¬ y < 0 := fun hy0 => hy (by
        have := rndQ_nonpos hy0.le
        rw [abs_of_nonpos this]
        rw [abs_of_nonpos (hm.trans this)] at hx
        linarith)
      rw [decide_eq_false hy0]
      show toLex ((0 : ℤ), _) ≤ toLex ((1 : ℤ), (0 : ℚ))
      rw [Prod.Lex.toLex_le_toLex]
      exact Or.inl (by norm_num)
  · rw [F64.round_overflow hx]
    by_cases hx0 : x < 0
    · rw [decide_eq_true hx0]
      by_cases hy : |rndQ y| < pow2 1024
      · obtain ⟨y1, y2⟩ := F64.round_finite (s := b') hy
        rw [F64.key_finite y1]
        show toLex ((-1 : ℤ), (0 : ℚ)) ≤ toLex ((0 : ℤ), _)
        rw [Prod.Lex.toLex_le_toLex]
        exact Or.inl (by norm_num)
      · rw [F64.round_overflow hy]
        by_cases hy0 : y < 0
        · rw [decide_eq_true hy0]
        · rw [decide_eq_false hy0]
          show toLex ((-1 : ℤ), (0 : ℚ)) ≤ toLex ((1 : ℤ), (0 : ℚ))
          rw [Prod.Lex.toLex_le_toLex]
          exact Or.inl (by norm_num)
    · have hx1 := rndQ_nonneg (not_lt.1 hx0)
      have hy : ¬ |rndQ y| < pow2 1024 := fun hy => hx (by
        rw [abs_of_nonneg hx1]
        rw [abs_of_nonneg (hx1.trans hm)] at hy
        linarith)
      rw [F64.round_overflow hy, decide_eq_false hx0, decide_eq_false (fun h0 => hx0 (h.trans_lt h0))]

/-- `exp` is monotone. -/
def ExpMono (exp : F64 → F64) : Prop := ∀ a b, a.le b = true → (exp a).le (exp b) = true

/-- **C138** At a finite temperature other than zero, of individuals `x` and `y` with finite fitness, `y` not fitter than `x`: if the temperature is
positive, `y` has at most the weight of `x`; if it is negative, at least. -/
theorem C138_weight (exp : F64 → F64) (hexp : ExpMono exp) (T f g : F64) (hT : T.isFinite = true) (hf : f.isFinite = true) (hg : g.isFinite = true)
    (hle : g.val ≤ f.val) :
    (0 < T.val → (exp (g.div T)).le (exp (f.div T)) = true) ∧ (T.val < 0 → (exp (f.div T)).le (exp (g.div T)) = true) := by
  constructor
  · intro h
    rw [F64.div_finite hf hT h.ne', F64.div_finite hg hT h.ne']
    exact hexp _ _ (round_mono (div_le_div_of_nonneg_right hle h.le))
  · intro h
    rw [F64.div_finite hf hT h.ne, F64.div_finite hg hT h.ne]
    exact hexp _ _ (round_mono (div_le_div_of_nonpos_of_le h.le hle))

/-- **C138** After `k` preparations, the last of them for `p`: if the temperature is positive, an individual is selected at most `n / 2^48` less
often than one that is not fitter; if it is negative, at most that much more often. Which it is, is told by the signs of the first temperature and the
cooling rate and by the parity of `k`. -/
theorem C138_preference (env : NumEnv) (henv : env.LawfulSum) (hexp : ExpMono env.exp) (T c w : F64) (seen : List (Population I)) (p : Population I)
    (hT : (temperatures c T (seen.length + 1)).isFinite = true) (h0 : (temperatures c T (seen.length + 1)).val ≠ 0)
    (hf : ∀ x ∈ p.individuals, (fitness x).isFinite = true)
    (hw : FairWeights (p.individuals.map fun x => env.exp ((fitness x).div (temperatures c T (seen.length + 1)))))
    (i j : Nat) (hi : i < p.individuals.length) (hj : j < p.individuals.length) (hle : (fitness p.individuals[i]).val ≤ (fitness p.individuals[j]).val) :
    let pr := fun m => ((preparedFor env ⟨T, c, w⟩ (seen ++ [p])).select env p).prob (fun r => r.1 = m)
    if (T.signBit ^^ (c.signBit && decide ((seen.length + 1) % 2 = 1))) = true then pr j ≤ pr i + p.individuals.length / 2 ^ 48
    else pr i ≤ pr j + p.individuals.length / 2 ^ 48 := by
  intro pr
  set s := preparedFor env (⟨T, c, w⟩ : BoltzmannSelection F64) seen with hs
  obtain ⟨e1, e2⟩ := preparedFor_fields env seen (⟨T, c, w⟩ : BoltzmannSelection F64)
  have e3 : s.temperature.mul s.coolingRate = temperatures c T (seen.length + 1) := by rw [hs, e1, e2]; rfl
  have e4 : preparedFor env (⟨T, c, w⟩ : BoltzmannSelection F64) (seen ++ [p]) = s.prepare env p := by
    simp [hs, preparedFor, List.foldl_append]
  have hsign := C138_sign c T (seen.length + 1) (fun e => by rw [e] at hT; cases hT)
  rw [← e3] at hw hT h0
  have hpr : ∀ m (hm : m < p.individuals.length), |pr m - (env.exp ((fitness p.individuals[m]).div (s.temperature.mul s.coolingRate))).val /
      (p.individuals.map fun x => (env.exp ((fitness x).div (s.temperature.mul s.coolingRate))).val).sum| ≤ p.individuals.length / 2 ^ 49 :=
    fun m hm => by
      show |((preparedFor env ⟨T, c, w⟩ (seen ++ [p])).select env p).prob (fun r => r.1 = m) - _| ≤ _
      rw [e4]
      exact C43_f64_probability env henv s p _ (fun _ => rfl) hw m hm
  have hpos : 0 < (p.individuals.map fun x => (env.exp ((fitness x).div (s.temperature.mul s.coolingRate))).val).sum := by
    have := hw.2.1
    rw [List.map_map] at this
    exact lt_of_lt_of_le (zpow_pos (by norm_num) _) this
  have hfin : ∀ m (hm : m < p.individuals.length), (env.exp ((fitness p.individuals[m]).div (s.temperature.mul s.coolingRate))).isFinite = true :=
    fun m hm => (hw.1 _ (List.mem_map.2 ⟨_, List.getElem_mem hm, rfl⟩)).1
  obtain ⟨w1, w2⟩ := C138_weight env.exp hexp (s.temperature.mul s.coolingRate) (fitness p.individuals[j]) (fitness p.individuals[i]) hT
    (hf _ (List.getElem_mem hj)) (hf _ (List.getElem_mem hi)) hle
  have e : (p.individuals.length : ℚ) / 2 ^ 48 = p.individuals.length / 2 ^ 49 + p.individuals.length / 2 ^ 49 := by ring
  have a1 := abs_le.1 (hpr i hi)
  have a2 := abs_le.1 (hpr j hj)
  rw [← hsign, ← e3]
  rcases lt_or_gt_of_ne h0 with h | h
  · rw [if_pos (signBit_of_neg h), e]
    have := div_le_div_of_nonneg_right ((F64.le_finite (hfin j hj) (hfin i hi)).1 (w2 h)) hpos.le
    linarith [a1.1, a2.2]
  · rw [if_neg (by rw [signBit_of_pos h]; decide), e]
    have := div_le_div_of_nonneg_right ((F64.le_finite (hfin i hi) (hfin j hj)).1 (w1 h)) hpos.le
    linarith [a1.2, a2.1]

/-! ### Examples -/

/-- NaN as cooling rate: accepted, and the last of three individuals is always selected. -/
example : BoltzmannSelection.new (F64.lit 100) .nan = .ok ⟨F64.lit 100, .nan, F64.zero⟩ ∧
    Always (fun r => r.1 + 1 = 3 ∧ numPop.individuals[r.1]? = some r.2)
      ((preparedFor exEnv ⟨F64.lit 100, .nan, F64.zero⟩ [numPop]).select exEnv numPop) :=
  ⟨rfl, C138_nan exEnv rfl _ (Or.inr rfl) [numPop] (by simp) numPop (by decide)⟩

/-- An infinite temperature. -/
example : |(((⟨.inf false, F64.lit (95 / 100), F64.zero⟩ : BoltzmannSelection F64).prepare stepEnv numPop).select stepEnv numPop).prob
    (fun r => r.1 = 0) - 1 / 3| ≤ 3 / 2 ^ 49 := by
  have h := (C138_infinite stepEnv stepEnv_lawful (by decide +kernel) (by decide +kernel) ⟨.inf false, F64.lit (95 / 100), F64.zero⟩ false
    (by decide +kernel) numPop (by decide) (by decide +kernel) 0 (by decide)).1
  simpa [numPop] using h

/-- Started at temperature 1 with the "cooling" rate 1.5. -/
example : ∃ N, ∀ n, N ≤ n → ∃ b, temperatures (F64.lit (3 / 2)) (F64.lit 1) n = .inf b :=
  C138_heats _ _ (by decide +kernel) (by decide +kernel) (by decide +kernel) (by
    rw [show |(F64.lit 1).val| = pow2 0 by decide +kernel]; exact pow2_le.2 (by norm_num))

/-- A monotone function of two values. -/
def stairEnv : NumEnv := ⟨fun x => if F64.zero.le x = true then F64.lit 2 else F64.lit 1, fun l => l.foldl F64.add F64.zero⟩

theorem stairEnv_mono : ExpMono stairEnv.exp := by
  intro a b h
  show F64.le (if F64.zero.le a = true then F64.lit 2 else F64.lit 1) (if F64.zero.le b = true then F64.lit 2 else F64.lit 1) = true
  by_cases ha : F64.zero.le a = true
  · rw [if_pos ha, if_pos (F64.le_trans ha h)]; decide +kernel
  · rw [if_neg ha]
    split <;> decide +kernel

/-- Two individuals of fitness -2 and 5. -/
def mixedPop : Population Num := { numPop with individuals := [num (-2), num 5] }

/-- With the cooling rate -1, after the first preparation the fitter individual is not selected more often. -/
example : ((preparedFor stairEnv ⟨F64.lit 1, F64.lit (-1), F64.zero⟩ [mixedPop]).select stairEnv mixedPop).prob (fun r => r.1 = 1) ≤
    ((preparedFor stairEnv ⟨F64.lit 1, F64.lit (-1), F64.zero⟩ [mixedPop]).select stairEnv mixedPop).prob (fun r => r.1 = 0) + 2 / 2 ^ 48 := by
  have h := C138_preference stairEnv (fun l => TreeSum.leaf _ (Or.inl rfl) l) stairEnv_mono (F64.lit 1) (F64.lit (-1)) F64.zero [] mixedPop
    (by decide +kernel) (by decide +kernel) (by decide +kernel) (by
      refine ⟨by decide +kernel, ?_, ?_, by decide⟩
      · refine le_trans ?_ (show (1 : ℚ) ≤ _ by decide +kernel)
        exact zpow_le_one_of_nonpos₀ (by norm_num) (by norm_num)
      · refine le_trans (show _ ≤ (2 : ℚ) ^ (4 : Int) by decide +kernel) ?_
        exact zpow_le_zpow_right₀ (by norm_num) (by norm_num)) 0 1 (by decide) (by decide) (by decide +kernel)
  rw [if_pos (by decide +kernel)] at h
  simpa [mixedPop] using h

end RG.Props
