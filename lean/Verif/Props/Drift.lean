import Verif.Proofs.Drift
import Verif.Props.OneMaxOps
import Mathlib.Algebra.Order.Archimedean.Basic
import Mathlib.Tactic.FieldSimp

/-!
# Property C98: repeated duplicate mutation loses the variety of the genes

`benchMutation .duplicate k g` is `k` duplicate mutations of the genome `g`, one after the other, as in the benchmark
`benchmarks.rs:96-101`. The draws are assumed uniform and independent.
-/

namespace RG.Props
open RG RG.Prog
set_option linter.unusedSectionVars false
variable {G : Type} [DecidableEq G]

theorem average_eq {α : Type} (p : Prog α) (F : α → ℚ) : average p F = p.expect (onOk F) := by
  unfold average
  congr 1

theorem prob_eq_onOk {α : Type} (p : Prog α) (P : α → Prop) [DecidablePred P] :
    p.prob P = p.expect (onOk fun a => if P a then 1 else 0) := by
  unfold prob
  congr 1

/-- **C98** The expected number of copies of a gene never changes: a duplicate mutation favours no gene. -/
theorem C98_expected (k : Nat) (g : List G) (v : G) :
    average (benchMutation .duplicate k g) (fun g' => (g'.count v : ℚ)) = g.count v := by
  rw [average_eq]
  by_cases hn : g.length < 2
  · have : benchMutation .duplicate k g = pure g := by
      induction k with
      | zero => rfl
      | succ k ih => rw [benchMutation, C37_short _ g hn, bind_pure_left]; exact ih
    rw [this]; rfl
  · exact drift_count k g v (by omega)

/-- **C98** The expected number of pairs of positions with different genes shrinks by the same factor
`1 - 2 / (n (n - 1))` with every mutation. -/
theorem C98_variety (k : Nat) (g : List G) (hn : 2 ≤ g.length) :
    average (benchMutation .duplicate k g) (fun g' => (differing g' : ℚ)) =
      differing g * (1 - 2 / (g.length * (g.length - 1) : ℚ)) ^ k := by
  rw [average_eq]
  exact drift_differing k g hn

example : differing [5, 6, 5] = 4 ∧ average (benchMutation .duplicate 1 [5, 6, 5]) (fun g' => (differing g' : ℚ)) = 4 * (2 / 3) := by
  decide +kernel

/-- **C98** So sooner or later all genes are equal: the probability that they are not, after `k` mutations, lies between
two multiples of `(1 - 2 / (n (n - 1))) ^ k`. -/
theorem C98_uniform (k : Nat) (g : List G) (hn : 2 ≤ g.length) :
    differing g / (g.length * (g.length - 1) : ℚ) * (1 - 2 / (g.length * (g.length - 1) : ℚ)) ^ k ≤
        (benchMutation .duplicate k g).prob (fun g' => ¬ AllEqual g') ∧
      (benchMutation .duplicate k g).prob (fun g' => ¬ AllEqual g') ≤
        differing g / (2 * (g.length - 1) : ℚ) * (1 - 2 / (g.length * (g.length - 1) : ℚ)) ^ k := by
  have hn' : (2 : ℚ) ≤ g.length := by exact_mod_cast hn
  have h := drift_differing k g hn
  have h0 : (0 : ℚ) < 2 * (g.length - 1) := by linarith
  have h1 : (0 : ℚ) < g.length * (g.length - 1) := by nlinarith
  have key : ∀ r, (benchMutation .duplicate k g).yields r →
      onOk (fun g' => (differing g' : ℚ)) r ≤ g.length * (g.length - 1) * onOk (fun g' => if ¬ AllEqual g' then (1 : ℚ) else 0) r ∧
      2 * (g.length - 1 : ℚ) * onOk (fun g' => if ¬ AllEqual g' then (1 : ℚ) else 0) r ≤ onOk (fun g' => (differing g' : ℚ)) r := by
    intro r hr
    obtain ⟨g', rfl, hl⟩ := benchMutation_length .duplicate k g r hr
    simp only [onOk]
    by_cases hu : AllEqual g'
    · rw [differing_zero g' hu]; simp [hu]
    · rw [if_pos hu, mul_one, mul_one, ← hl]
      refine ⟨differing_le g', ?_⟩
      unfold AllEqual at hu
      push Not at hu
      obtain ⟨x, hx, y, hy, hxy⟩ := hu
      exact le_differing g' x y hx hy hxy
  have ha := expect_mono _ _ _ fun r hr => (key r hr).1
  have hb := expect_mono _ _ _ fun r hr => (key r hr).2
  rw [expect_mul_left, ← prob_eq_onOk, h] at ha
  rw [expect_mul_left, ← prob_eq_onOk, h] at hb
  constructor
  · rw [div_mul_eq_mul_div, div_le_iff₀ h1]; linarith
  · rw [div_mul_eq_mul_div, le_div_iff₀ h0]; linarith

/-- **C98** Which gene wins: the probability that after `k` mutations all genes are `v` is at most the share that `v` had at the
beginning, and short of it by at most the probability that the genes are not yet all equal. -/
theorem C98_winner (k : Nat) (g : List G) (v : G) (hn : 2 ≤ g.length) :
    (benchMutation .duplicate k g).prob (fun g' => ∀ x ∈ g', x = v) ≤ g.count v / g.length ∧
      g.count v / g.length ≤ (benchMutation .duplicate k g).prob (fun g' => ∀ x ∈ g', x = v) +
        (benchMutation .duplicate k g).prob (fun g' => ¬ AllEqual g') := by
  have hn' : (2 : ℚ) ≤ g.length := by exact_mod_cast hn
  have h := drift_count k g v hn
  have key : ∀ r, (benchMutation .duplicate k g).yields r →
      g.length * onOk (fun g' => if ∀ x ∈ g', x = v then (1 : ℚ) else 0) r ≤ onOk (fun g' => (g'.count v : ℚ)) r ∧
      onOk (fun g' => (g'.count v : ℚ)) r ≤ g.length * (onOk (fun g' => if ∀ x ∈ g', x = v then (1 : ℚ) else 0) r +
        onOk (fun g' => if ¬ AllEqual g' then (1 : ℚ) else 0) r) := by
    intro r hr
    obtain ⟨g', rfl, hl⟩ := benchMutation_length .duplicate k g r hr
    simp only [onOk]
    rw [← hl]
    have hc : (g'.count v : ℚ) ≤ g'.length := by exact_mod_cast List.count_le_length
    by_cases hv : ∀ x ∈ g', x = v
    · have : g'.count v = g'.length := List.count_eq_length.2 fun x hx => (hv x hx).symm
      have hl0 : (0 : ℚ) ≤ g'.length := by positivity
      rw [if_pos hv, this]
      exact ⟨by linarith, by split <;> nlinarith⟩
    · rw [if_neg hv]
      refine ⟨by simp, ?_⟩
      by_cases hu : AllEqual g'
      · have : g'.count v = 0 := List.count_eq_zero.2 fun hm => hv fun x hx => hu x hx v hm
        rw [this]; simp [hu]
      · simpa [hu] using hc
  have ha := expect_mono _ _ _ fun r hr => (key r hr).1
  have hb := expect_mono _ _ _ fun r hr => (key r hr).2
  rw [expect_mul_left, ← prob_eq_onOk, h] at ha
  rw [expect_mul_left, expect_add, ← prob_eq_onOk, ← prob_eq_onOk, h] at hb
  constructor
  · rw [le_div_iff₀ (by linarith)]; linarith
  · rw [div_le_iff₀ (by linarith)]; linarith

/-- **C98** In the limit the genes are all equal, and the probability of each winner is the share it had at the beginning. -/
theorem C98_limit (g : List G) (v : G) (hn : 2 ≤ g.length) (ε : ℚ) (hε : 0 < ε) : ∃ K, ∀ k ≥ K,
    (benchMutation .duplicate k g).prob (fun g' => ¬ AllEqual g') < ε ∧
      |(benchMutation .duplicate k g).prob (fun g' => ∀ x ∈ g', x = v) - g.count v / g.length| < ε := by
  have hn' : (2 : ℚ) ≤ g.length := by exact_mod_cast hn
  have h1 : (2 : ℚ) ≤ g.length * (g.length - 1) := by nlinarith
  set ρ : ℚ := 1 - 2 / (g.length * (g.length - 1) : ℚ) with hρ
  have hρ0 : 0 ≤ ρ := by
    have : 2 / (g.length * (g.length - 1) : ℚ) ≤ 1 := (div_le_one (by linarith)).2 h1
    linarith
  have hρ1 : ρ < 1 := by
    have : 0 < 2 / (g.length * (g.length - 1) : ℚ) := div_pos (by norm_num) (by linarith)
    linarith
  set C : ℚ := differing g / (2 * (g.length - 1) : ℚ) with hC
  have hC0 : 0 ≤ C := div_nonneg (by positivity) (by linarith)
  obtain ⟨K, hK⟩ := exists_pow_lt_of_lt_one (show 0 < ε / (C + 1) from div_pos hε (by linarith)) hρ1
  refine ⟨K, fun k hk => ?_⟩
  have hb : (benchMutation .duplicate k g).prob (fun g' => ¬ AllEqual g') < ε := by
    refine (C98_uniform k g hn).2.trans_lt ?_
    have hp : ρ ^ k ≤ ρ ^ K := pow_le_pow_of_le_one hρ0 hρ1.le hk
    have h3 := (lt_div_iff₀ (show 0 < C + 1 by linarith)).1 (hp.trans_lt hK)
    have h4 : 0 ≤ ρ ^ k := pow_nonneg hρ0 k
    nlinarith
  obtain ⟨w1, w2⟩ := C98_winner k g v hn
  exact ⟨hb, by rw [abs_lt]; constructor <;> linarith⟩

example : (benchMutation .duplicate 2 [5, 6]).prob (fun g' => ∀ x ∈ g', x = 5) = 1 / 2 := by decide +kernel

/-- **C98** The genes that are left were there before, and no gene that is gone comes back. -/
theorem C98_no_new_gene (k : Nat) (g : List G) :
    Always (fun g' => g'.length = g.length ∧ ∀ x ∈ g', x ∈ g) (benchMutation .duplicate k g) := fun r hr => by
  obtain ⟨g', rfl, h⟩ := benchMutation_length .duplicate k g r hr
  obtain ⟨g'', e, h'⟩ := benchMutation_subset k g _ hr
  cases e
  exact ⟨g', rfl, h, h'⟩

/-- After `m + 1` steps of the factor `1 - 1 / (m + 1)` at most one half is left. -/
theorem pow_halves (m j k : Nat) (hm : 0 < m) (hk : (m + 1) * j ≤ k) : (1 - 1 / ((m : ℕ) + 1) : ℚ) ^ k ≤ 1 / 2 ^ j := by
  have hm' : (0 : ℚ) < m := by exact_mod_cast hm
  have hinv : (0 : ℚ) < 1 / m := by positivity
  have e : (1 - 1 / ((m : ℕ) + 1) : ℚ) = (1 + 1 / (m : ℚ))⁻¹ := by
    have : (m : ℚ) + 1 ≠ 0 := by linarith
    field_simp
    ring
  have hb : (2 : ℚ) ≤ (1 + 1 / (m : ℚ)) ^ (m + 1) := by
    have h := one_add_mul_le_pow (show (-2 : ℚ) ≤ 1 / m by linarith) (m + 1)
    have h1 : ((m + 1 : ℕ) : ℚ) * (1 / m) = 1 + 1 / m := by push_cast; field_simp
    linarith
  have h0 : (0 : ℚ) < (1 + 1 / (m : ℚ))⁻¹ := by positivity
  have h1 : (1 + 1 / (m : ℚ))⁻¹ ≤ 1 := inv_le_one_of_one_le₀ (by linarith)
  rw [e]
  calc _ ≤ (1 + 1 / (m : ℚ))⁻¹ ^ ((m + 1) * j) := pow_le_pow_of_le_one h0.le h1 hk
    _ = ((1 + 1 / (m : ℚ))⁻¹ ^ (m + 1)) ^ j := pow_mul _ _ _
    _ ≤ (1 / 2) ^ j := by
      refine pow_le_pow_left₀ (pow_nonneg h0.le _) ?_ _
      rw [inv_pow, one_div (2 : ℚ)]
      exact inv_anti₀ (by norm_num) hb
    _ = 1 / 2 ^ j := by rw [div_pow, one_pow]

/-- **C98** The benchmark of `MutationStrategy::Duplicate` starts with 1000 different genes, but after ten million mutations it
measures a genome of equal genes, with probability more than 0.9995. -/
theorem C98_benchmark (k : Nat) (hk : 10 ^ 7 ≤ k) :
    9995 / 10000 < (benchMutation .duplicate k (List.range 1000)).prob (fun g' => AllEqual g') := by
  have hl : (List.range 1000).length = 1000 := List.length_range
  have hu := (C98_uniform k (List.range 1000) (by rw [hl]; norm_num)).2
  have hd := differing_le (List.range 1000)
  rw [hl] at hu hd
  have hsum : (benchMutation .duplicate k (List.range 1000)).prob (fun g' => AllEqual g') +
      (benchMutation .duplicate k (List.range 1000)).prob (fun g' => ¬ AllEqual g') = 1 :=
    prob_add_not_of_always _ _ ((benchMutation_length .duplicate k (List.range 1000)).mono fun _ _ => trivial)
  have h0 : (0 : ℚ) ≤ 1 - 2 / ((1000 : ℕ) * ((1000 : ℕ) - 1)) := by norm_num
  have hk' : (1 - 2 / ((1000 : ℕ) * ((1000 : ℕ) - 1)) : ℚ) ^ k ≤ 1 / 2 ^ 20 := by
    have e : (1 - 2 / ((1000 : ℕ) * ((1000 : ℕ) - 1)) : ℚ) = 1 - 1 / ((499499 : ℕ) + 1) := by norm_num
    rw [e]
    exact pow_halves 499499 20 k (by omega) (by omega)
  have hq : (0 : ℚ) ≤ (1 - 2 / ((1000 : ℕ) * ((1000 : ℕ) - 1)) : ℚ) ^ k := pow_nonneg h0 _
  have hc : (differing (List.range 1000) : ℚ) / (2 * ((1000 : ℕ) - 1)) ≤ 500 := by
    rw [div_le_iff₀ (by norm_num)]
    refine hd.trans (by norm_num)
  have hc0 : (0 : ℚ) ≤ (differing (List.range 1000) : ℚ) / (2 * ((1000 : ℕ) - 1)) := div_nonneg (Nat.cast_nonneg _) (by norm_num)
  have := mul_le_mul hc hk' hq (by norm_num)
  have h5 : (500 : ℚ) * (1 / 2 ^ 20) < 5 / 10000 := by norm_num
  linarith

/-- **C98** OneMax uses this mutation: on average it does not change the number of ones. -/
theorem C98_onemax (x : OneMax) : average (OneMax.mutate x) (fun y => (y.genome.count true : ℚ)) = x.genome.count true := by
  rw [average_eq]
  have h := C98_expected 1 x.genome true
  rw [average_eq] at h
  rw [← h]
  unfold OneMax.mutate benchMutation
  rw [expect_bind, expect_bind]
  refine congrArg _ (funext fun r => ?_)
  cases r <;> rfl

end RG.Props
