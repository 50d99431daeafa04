import Verif.Bench
import Verif.Proofs.StatsError
import Verif.Props.Distribution
import Mathlib.Tactic.LinearCombination
import Mathlib.Algebra.Group.Nat.Even

/-!
# The benchmarks: helpers
-/

namespace RG
open RG Prog Arith F64
variable {G : Type}

/-! ### Genetic operators -/

theorem shuffle_always {G : Type} (l : List G) : Always (fun l' => l'.Perm l) (shuffle l) := by
  intro r hr
  exact (yields_shuffle l r).1 hr

theorem always_benchCrossover [DecidableEq G] (lt : G → G → Bool) (ords : Nat → Nat → List G → List G) (fuel : Nat)
    (s : CrossoverStrategy) (g1 g2 : List G) (P : List G → Prop) (h : ∀ k, Always P (s.crossover lt (ords k) fuel g1 g2)) (times : Nat) :
    Always (fun offs => offs.length = times ∧ ∀ off ∈ offs, P off) (benchCrossover lt ords fuel s g1 g2 times) := by
  induction times with
  | zero => simp [benchCrossover]
  | succ t ih =>
    unfold benchCrossover
    rw [always_bind]
    refine (h t).mono fun off hoff => ?_
    rw [always_bind]
    refine ih.mono fun offs hoffs => ?_
    rw [always_pure]
    exact ⟨by simp [hoffs.1], by simpa using ⟨hoff, hoffs.2⟩⟩

theorem always_benchMutation (s : MutationStrategy) (P : List G → Prop) (h : ∀ g, P g → Always P (s.mutate g)) (times : Nat) (g : List G)
    (hg : P g) : Always P (benchMutation s times g) := by
  induction times generalizing g with
  | zero => simpa [benchMutation] using hg
  | succ t ih =>
    unfold benchMutation
    rw [always_bind]
    exact (h g hg).mono fun g' hg' => ih g' hg'

/-! ### Statistics -/

theorem rep_half {z : Int} (h : |z| ≤ 2 ^ 53) : Rep ((z : ℚ) / 2) := by
  have e : (z : ℚ) / 2 = z * pow2 (-1) := by rw [pow2_eq, zpow_neg_one]; ring
  refine ⟨e ▸ fmt_of_le h (by norm_num), ?_⟩
  have h1 : |(z : ℚ)| ≤ 2 ^ 53 := by exact_mod_cast h
  have h2 : (2 : ℚ) ^ 53 ≤ pow2 1024 := by
    rw [show (2 : ℚ) ^ 53 = pow2 53 by rw [pow2_eq]; norm_num]
    exact pow2_le.2 (by norm_num)
  rw [abs_div, abs_two]
  linarith [show (0 : ℚ) < 2 ^ 53 by norm_num]

/-- The sum of squared deviations of `0, …, n - 1`. -/
def squares (n : Nat) : ℚ := (n - 1) * n * (n + 1) / 12

theorem half_even (n : Nat) : ∃ m : Nat, 2 * m = n * (n + 1) := by
  obtain ⟨m, hm⟩ := Nat.even_mul_succ_self n
  exact ⟨m, by omega⟩

theorem tet (n : Nat) : ∃ m : Nat, (6 * m : ℚ) = (n - 1) * n * (n + 1) := by
  induction n with
  | zero => exact ⟨0, by norm_num⟩
  | succ n ih =>
    obtain ⟨m, hm⟩ := ih
    obtain ⟨t, ht⟩ := half_even n
    have ht' : (2 * t : ℚ) = n * (n + 1) := by exact_mod_cast ht
    exact ⟨m + t, by push_cast; linear_combination hm + 3 * ht'⟩

/-- What the benchmark of `Stats` has computed after `n` samples. -/
structure BenchInv (n : Nat) (s : Stats F64) : Prop where
  count : s.count = n
  min : s.min = F64.ofNat 0
  argMin : s.argMin = 0
  max : s.max = F64.ofNat (n - 1)
  argMax : s.argMax = n - 1
  avgFin : s.avg.isFinite = true
  avgVal : s.avg.val = (n - 1 : ℚ) / 2
  sumFin : s.sumSquared.isFinite = true
  sumPos : 0 ≤ s.sumSquared.val
  sumNear : |s.sumSquared.val - squares n| ≤ n / 2 ^ 52 * squares n
  sumExact : (n - 1 : ℚ) * n * (n + 1) ≤ 6 * 2 ^ 53 → s.sumSquared.val = squares n

theorem squares_succ (n : Nat) : squares (n + 1) = squares n + n * (n + 1) / 4 := by
  unfold squares; push_cast; ring

theorem squares_nonneg (n : Nat) (h : 1 ≤ n) : 0 ≤ squares n := by
  have : (1 : ℚ) ≤ n := by exact_mod_cast h
  unfold squares
  have : (0 : ℚ) ≤ n - 1 := by linarith
  positivity

theorem squares_le (n : Nat) (h1 : 1 ≤ n) (h : n ≤ 2 ^ 26 + 1) : squares n ≤ 2 ^ 80 := by
  have h1' : (1 : ℚ) ≤ n := by exact_mod_cast h1
  have h' : (n : ℚ) ≤ 2 ^ 26 + 1 := by exact_mod_cast h
  unfold squares
  have a : (n - 1 : ℚ) * n ≤ 2 ^ 26 * (2 ^ 26 + 1) := mul_le_mul (by linarith) h' (by linarith) (by norm_num)
  have b : (n - 1 : ℚ) * n * (n + 1) ≤ 2 ^ 26 * (2 ^ 26 + 1) * (2 ^ 26 + 2) :=
    mul_le_mul a (by linarith) (by linarith) (by norm_num)
  have : (2 : ℚ) ^ 26 * (2 ^ 26 + 1) * (2 ^ 26 + 2) ≤ 12 * 2 ^ 80 := by norm_num
  linarith

theorem benchInv_step (n : Nat) (hn : 1 ≤ n) (hn' : n ≤ 2 ^ 26) (s : Stats F64) (h : BenchInv n s) :
    BenchInv (n + 1) (s.record (F64.ofNat n)) := by
  have hc : s.count ≠ 0 := by rw [h.count]; omega
  have hx := ofNat_exact (n := n) (by omega)
  have h0 := ofNat_exact (n := 0) (by norm_num)
  have hm := ofNat_exact (n := n - 1) (by omega)
  have hN := ofNat_exact (n := n + 1) (by omega)
  have hnq : (1 : ℚ) ≤ n := by exact_mod_cast hn
  have hnq' : (n : ℚ) ≤ 2 ^ 26 := by exact_mod_cast hn'
  have hlt0 : (F64.ofNat n).lt (F64.ofNat 0) = false := by
    rw [← Bool.not_eq_true, lt_finite hx.1 h0.1, hx.2, h0.2]; push_cast; linarith
  have hltm : (F64.ofNat (n - 1)).lt (F64.ofNat n) = true := by
    rw [lt_finite hm.1 hx.1, hx.2, hm.2, Nat.cast_sub hn]; push_cast; linarith
  -- the deviation from the old average
  have hd : (F64.sub (F64.ofNat n) s.avg).isFinite = true ∧ (F64.sub (F64.ofNat n) s.avg).val = (n + 1 : ℚ) / 2 := by
    rw [sub_finite hx.1 h.avgFin, hx.2, h.avgVal]
    have e : (n : ℚ) - (n - 1) / 2 = ((n + 1 : Int) : ℚ) / 2 := by push_cast; ring
    have := round_rep (s := (F64.ofNat n).signBit && s.avg.neg.signBit) (rep_half (z := (n + 1 : Int)) (by rw [abs_of_nonneg (by omega)]; omega))
    rw [e]; simpa using this
  have hq : (F64.div (F64.sub (F64.ofNat n) s.avg) (F64.ofNat (n + 1))).isFinite = true ∧
      (F64.div (F64.sub (F64.ofNat n) s.avg) (F64.ofNat (n + 1))).val = 1 / 2 := by
    rw [div_finite hd.1 hN.1 (by rw [hN.2]; push_cast; linarith), hd.2, hN.2]
    have e : (n + 1 : ℚ) / 2 / ((n + 1 : Nat) : ℚ) = ((1 : Int) : ℚ) / 2 := by
      push_cast; field_simp
    rw [e]
    simpa using round_rep (rep_half (z := 1) (by norm_num))
  have ha : (s.record (F64.ofNat n)).avg.isFinite = true ∧ (s.record (F64.ofNat n)).avg.val = (n : ℚ) / 2 := by
    rw [Stats.record_avg s _ hc, h.count]
    show (F64.add s.avg (F64.div (F64.sub (F64.ofNat n) s.avg) (F64.ofNat (n + 1)))).isFinite = true ∧
      (F64.add s.avg (F64.div (F64.sub (F64.ofNat n) s.avg) (F64.ofNat (n + 1)))).val = _
    rw [add_finite h.avgFin hq.1, h.avgVal, hq.2]
    have e : (n - 1 : ℚ) / 2 + 1 / 2 = ((n : Int) : ℚ) / 2 := by push_cast; ring
    rw [e]
    simpa using round_rep (rep_half (z := (n : Int)) (by rw [abs_of_nonneg (by omega)]; omega))
  have hd' : (F64.sub (F64.ofNat n) (s.record (F64.ofNat n)).avg).isFinite = true ∧
      (F64.sub (F64.ofNat n) (s.record (F64.ofNat n)).avg).val = (n : ℚ) / 2 := by
    rw [sub_finite hx.1 ha.1, hx.2, ha.2]
    have e : (n : ℚ) - n / 2 = ((n : Int) : ℚ) / 2 := by push_cast; ring
    rw [e]
    simpa using round_rep (rep_half (z := (n : Int)) (by rw [abs_of_nonneg (by omega)]; omega))
  -- the term added to the sum of squares
  obtain ⟨t, ht⟩ := half_even n
  have ht' : (2 * t : ℚ) = n * (n + 1) := by exact_mod_cast ht
  have htb : t ≤ 2 ^ 52 := by
    have : n * (n + 1) ≤ 2 ^ 26 * (2 ^ 26 + 1) := Nat.mul_le_mul hn' (by omega)
    have : 2 ^ 26 * (2 ^ 26 + 1) ≤ 2 * 2 ^ 52 := by norm_num
    omega
  have hterm : (F64.mul (F64.sub (F64.ofNat n) s.avg) (F64.sub (F64.ofNat n) (s.record (F64.ofNat n)).avg)).isFinite = true ∧
      (F64.mul (F64.sub (F64.ofNat n) s.avg) (F64.sub (F64.ofNat n) (s.record (F64.ofNat n)).avg)).val = n * (n + 1) / 4 := by
    rw [mul_finite hd.1 hd'.1, hd.2, hd'.2]
    have e : (n + 1 : ℚ) / 2 * (n / 2) = ((t : Int) : ℚ) / 2 := by push_cast; linear_combination -ht' / 4
    have e' : (n : ℚ) * (n + 1) / 4 = ((t : Int) : ℚ) / 2 := by push_cast; linear_combination -ht' / 4
    rw [e, e']
    exact round_rep (rep_half (z := (t : Int)) (by rw [abs_of_nonneg (by omega)]; omega))
  set u := F64.mul (F64.sub (F64.ofNat n) s.avg) (F64.sub (F64.ofNat n) (s.record (F64.ofNat n)).avg) with hu
  have hS : (s.record (F64.ofNat n)).sumSquared = F64.add s.sumSquared u := Stats.record_sumSquared s _ hc
  have hSadd := add_finite h.sumFin hterm.1
  have hT := squares_nonneg n hn
  have hT' := squares_nonneg (n + 1) (by omega)
  have hle := squares_le (n + 1) (by omega) (by omega)
  have hc52 : (n : ℚ) / 2 ^ 52 ≤ 1 := by rw [div_le_one (by norm_num)]; linarith [show (2 : ℚ) ^ 26 ≤ 2 ^ 52 by norm_num]
  have hnear := abs_le.1 h.sumNear
  have hmul : (n : ℚ) / 2 ^ 52 * squares n ≤ squares n := mul_le_of_le_one_left hT hc52
  have hupos : 0 ≤ u.val := by rw [hterm.2]; positivity
  have hsucc := squares_succ n
  rw [← hterm.2] at hsucc
  have hSv : (F64.add s.sumSquared u).isFinite = true ∧ (F64.add s.sumSquared u).val = rndQ (s.sumSquared.val + u.val) := by
    rw [hSadd]
    refine round_of_abs_le (rep_pow2_le (k := 82) (by norm_num) (by norm_num)) ?_
    rw [abs_of_nonneg (by linarith [h.sumPos]), show pow2 82 = 2 ^ 82 by rw [pow2_eq]; norm_num]
    have : (2 : ℚ) ^ 82 = 4 * 2 ^ 80 := by norm_num
    linarith [hnear.2]
  refine ⟨by rw [Stats.record_count, h.count], ?_, ?_, ?_, ?_, ha.1, by rw [ha.2]; push_cast; ring, hS ▸ hSv.1, ?_, ?_, ?_⟩
  · rw [Stats.record_min s _ hc, h.min]; exact if_neg (Bool.eq_false_iff.1 hlt0)
  · rw [Stats.record_argMin s _ hc, h.min, h.argMin]; exact if_neg (Bool.eq_false_iff.1 hlt0)
  · rw [Stats.record_max s _ hc, h.max]; exact if_pos hltm
  · rw [Stats.record_argMax s _ hc, h.max, h.count]; exact if_pos hltm
  · rw [hS, hSv.2]; exact rndQ_nonneg (by linarith [h.sumPos])
  · rw [hS, hSv.2]
    have hr := rnd_near_sum (fmt_val s.sumSquared) (fmt_val u)
    rw [abs_of_nonneg (show 0 ≤ s.sumSquared.val + u.val by linarith [h.sumPos])] at hr
    have h1 : s.sumSquared.val + u.val ≤ 2 * squares (n + 1) := by linarith [hnear.2]
    have h2 : |s.sumSquared.val + u.val - squares (n + 1)| ≤ n / 2 ^ 52 * squares (n + 1) := by
      rw [hsucc, show s.sumSquared.val + u.val - (squares n + u.val) = s.sumSquared.val - squares n by ring]
      refine h.sumNear.trans (mul_le_mul_of_nonneg_left (by linarith) (by positivity))
    have h3 : (1 : ℚ) / 2 ^ 53 * (s.sumSquared.val + u.val) ≤ 1 / 2 ^ 52 * squares (n + 1) := by
      have : (1 : ℚ) / 2 ^ 52 = 1 / 2 ^ 53 * 2 := by norm_num
      rw [this, mul_assoc]
      exact mul_le_mul_of_nonneg_left h1 (by positivity)
    have h4 := abs_sub_le (rndQ (s.sumSquared.val + u.val)) (s.sumSquared.val + u.val) (squares (n + 1))
    have h5 : ((n + 1 : Nat) : ℚ) / 2 ^ 52 * squares (n + 1) = n / 2 ^ 52 * squares (n + 1) + 1 / 2 ^ 52 * squares (n + 1) := by
      push_cast; ring
    rw [h5]; linarith
  · intro he
    rw [hS, hSv.2]
    have hle' : (n - 1 : ℚ) * n * (n + 1) ≤ 6 * 2 ^ 53 := by
      refine le_trans ?_ he
      push_cast
      nlinarith [mul_nonneg (show (0 : ℚ) ≤ n by linarith) (show (0 : ℚ) ≤ n + 1 by linarith)]
    rw [h.sumExact hle', ← hsucc]
    refine rndQ_of_fmt ?_
    obtain ⟨m, hm⟩ := tet (n + 1)
    rw [← hm] at he
    have hm53 : (m : ℚ) ≤ 2 ^ 53 := by linarith
    have e : squares (n + 1) = ((m : Int) : ℚ) / 2 := by unfold squares; push_cast at hm ⊢; linear_combination -hm / 12
    rw [e]
    refine (rep_half (z := (m : Int)) ?_).1
    rw [abs_of_nonneg (by omega)]
    exact_mod_cast hm53

theorem benchInv (n : Nat) (hn : 1 ≤ n) (hn' : n ≤ 2 ^ 26 + 1) : BenchInv n (benchStats n) := by
  induction n, hn using Nat.le_induction with
  | base =>
    have h0 := ofNat_exact (n := 0) (by norm_num)
    have hz : (F64.lit 0).isFinite = true ∧ (F64.lit 0).val = 0 := by decide +kernel
    refine ⟨rfl, rfl, rfl, rfl, rfl, h0.1, ?_, hz.1, hz.2.ge, ?_, fun _ => ?_⟩
    · refine h0.2.trans ?_; norm_num
    · show |(F64.lit 0).val - squares 1| ≤ _
      rw [hz.2]; norm_num [squares]
    · show (F64.lit 0).val = squares 1
      rw [hz.2]; norm_num [squares]
  | succ n hn ih =>
    have : benchStats (n + 1) = (benchStats n).record (F64.ofNat n) := by
      unfold benchStats
      rw [List.range_succ, List.map_append, List.map_singleton, Stats.collect_concat]
    rw [this]
    exact benchInv_step n hn (by omega) _ (ih (by omega))

end RG
