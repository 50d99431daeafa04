import Verif.Proofs.Bench
import Verif.Props.Drift

/-!
# Property C97: the benchmarks (`benches/benchmarks.rs`)

How often criterion calls the measured closures is a parameter (`times`), as is the length of the genomes (1000 in the code).
-/

namespace RG.Props
open RG RG.Prog

/-- **C97** The parents of the crossover benchmarks are two arrangements of `0, …, n - 1`, each pair with the same probability. -/
theorem C97_parents (n : Nat) :
    Always (fun p => p.1.Perm (List.range n) ∧ p.2.Perm (List.range n)) (benchParents n) ∧
      ∀ g1 g2 : List Nat, g1.Perm (List.range n) → g2.Perm (List.range n) →
        (benchParents n).prob (fun p => p = (g1, g2)) = 1 / (n.factorial : ℚ) ^ 2 := by
  constructor
  · unfold benchParents
    rw [always_bind]
    refine (shuffle_always _).mono fun g1 h1 => ?_
    rw [always_bind]
    refine (shuffle_always _).mono fun g2 h2 => ?_
    rw [always_pure]
    exact ⟨h1, h2⟩
  · intro g1 g2 h1 h2
    have e1 := C33_shuffle_uniform (List.range n) g1 List.nodup_range h1
    have e2 := C33_shuffle_uniform (List.range n) g2 List.nodup_range h2
    rw [List.length_range] at e1 e2
    have key : ∀ a : List Nat, (shuffle (List.range n) >>= fun b => pure (a, b) : Prog (List Nat × List Nat)).expect
        (onOk fun p => if p = (g1, g2) then 1 else 0) = 1 / (n.factorial : ℚ) * if a = g1 then 1 else 0 := by
      intro a
      rw [expect_bind]
      by_cases ha : a = g1
      · rw [if_pos ha, mul_one, ← e2, prob_eq_onOk]
        refine expect_congr _ _ _ fun r _ => ?_
        cases r <;> simp [ha, onOk]
      · rw [if_neg ha, mul_zero]
        refine (expect_congr _ _ (fun _ => 0) fun r _ => ?_).trans (expect_const _ _)
        cases r <;> simp [ha, onOk]
    rw [prob_eq_onOk]
    unfold benchParents
    rw [expect_bind]
    refine (expect_congr _ _ (fun r => 1 / (n.factorial : ℚ) * onOk (fun a => if a = g1 then (1 : ℚ) else 0) r) fun r _ => ?_).trans ?_
    · cases r with
      | ok a => exact key a
      | panic => simp [onOk]
      | diverge => simp [onOk]
    · rw [expect_mul_left, ← prob_eq_onOk, e1]; field_simp

example : (benchParents 2).prob (fun p => p = ([1, 0], [0, 1])) = 1 / 4 := by decide +kernel

/-- **C97** No crossover benchmark panics or hangs: the parents are never empty, every call ends with an offspring of the parents'
length, which is an arrangement of `0, …, n - 1` unless the strategy is `SinglePoint`. -/
theorem C97_crossover (n : Nat) (hn : 1 ≤ n) (lt : Nat → Nat → Bool) (ords : Nat → Nat → List Nat → List Nat)
    (hord : ∀ t k l, (ords t k l).Perm l) (fuel : Nat) (hf : n < fuel) (s : CrossoverStrategy) (times : Nat) :
    Always (fun offs => offs.length = times ∧ ∀ off ∈ offs, off.length = n ∧ (s ≠ .singlePoint → off.Perm (List.range n)))
      (do let (g1, g2) ← benchParents n; benchCrossover lt ords fuel s g1 g2 times) := by
  rw [always_bind]
  refine (C97_parents n).1.mono ?_
  rintro ⟨g1, g2⟩ ⟨h1, h2⟩
  have l1 : g1.length = n := by simpa using h1.length_eq
  have l2 : g2.length = n := by simpa using h2.length_eq
  have hne : g1 ≠ [] := by intro h; subst h; simp at l1; omega
  refine always_benchCrossover lt ords fuel s g1 g2 _ (fun k => ?_) times
  by_cases hs : s = .singlePoint
  · subst hs
    intro r hr
    obtain ⟨j, hj, rfl⟩ := (C30_single_point lt (ords k) fuel g1 g2 (l1.trans l2.symm) hne r).1 hr
    exact ⟨_, rfl, by simp; omega, fun h => absurd rfl h⟩
  · refine (C30_permutation lt (ords k) (hord k) s hs g1 g2 (h1.nodup_iff.2 List.nodup_range) (h2.trans h1.symm) hne fuel
      (by omega)).mono fun off hoff => ?_
    exact ⟨by rw [hoff.length_eq, l1], fun _ => hoff.trans h1⟩

/-- **C97** With no genes five of the seven crossover benchmarks would panic at the first call. -/
theorem C97_crossover_empty (lt : Nat → Nat → Bool) (ords : Nat → Nat → List Nat → List Nat) (fuel : Nat) (s : CrossoverStrategy)
    (times : Nat) (r : Res (List (List Nat))) :
    (do let (g1, g2) ← benchParents 0; benchCrossover lt ords fuel s g1 g2 (times + 1)).yields r ↔
      if s = .generalizedPartition2 ∨ s = .cycle then r = .ok (List.replicate (times + 1) []) else r = .panic := by
  have hp : benchParents 0 = pure ([], []) := rfl
  have hg : ∀ t, s = .generalizedPartition2 ∨ s = .cycle →
      benchCrossover lt ords fuel s [] [] t = pure (List.replicate t []) := by
    intro t hs
    induction t with
    | zero => rfl
    | succ t ih => rcases hs with rfl | rfl <;> unfold benchCrossover <;> rw [ih] <;> rfl
  rw [hp, pure_bind]
  show (benchCrossover lt ords fuel s [] [] (times + 1)).yields r ↔ _
  split
  · next hs => rw [hg _ hs, yields_pure]
  · next hs =>
    unfold benchCrossover
    have : s.crossover lt (ords times) fuel [] [] = done .panic := by
      cases s <;> simp at hs <;> rfl
    rw [this, yields_bind]
    simp

/-- **C97** No mutation benchmark panics. The genome keeps its length; all but `Duplicate` keep it an arrangement of `0, …, n - 1`,
and `Duplicate` keeps its genes among these. -/
theorem C97_mutation (n : Nat) (s : MutationStrategy) (times : Nat) :
    Always (fun g => g.length = n ∧ (∀ x ∈ g, x < n) ∧ (s ≠ .duplicate → g.Perm (List.range n)))
      (benchMutation s times (List.range n)) := by
  by_cases hs : s = .duplicate
  · have h1 := always_benchMutation s (fun g => g.length = n)
      (fun g hg => (C37_length s g).mono fun _ h => h.trans hg) times (List.range n) (by simp)
    intro r hr
    obtain ⟨g, rfl, hl⟩ := h1 r hr
    refine ⟨g, rfl, hl, fun x hx => ?_, fun h => absurd hs h⟩
    subst hs
    obtain ⟨g', e, hg'⟩ := C98_no_new_gene times (List.range n) _ hr
    cases e
    simpa using hg'.2 x hx
  · have h2 := always_benchMutation s (fun g => g.Perm (List.range n))
      (fun g hg => (C37_permutation s hs g).mono fun _ h => h.trans hg) times (List.range n) (List.Perm.refl _)
    refine h2.mono fun g hg => ⟨by simpa using hg.length_eq, fun x hx => ?_, fun _ => hg⟩
    simpa using hg.mem_iff.1 hx

/-- **C97** What the benchmark of `Stats` computes for `0, …, n - 1`: count, minimum, maximum and their positions, and exactly the
average `(n - 1) / 2`. -/
theorem C97_stats (n : Nat) (hn : 1 ≤ n) (hn' : n ≤ 2 ^ 26) :
    (benchStats n).getCount = n ∧ (benchStats n).getMin = some (F64.ofNat 0) ∧ (benchStats n).getArgMin = some 0 ∧
      (benchStats n).getMax = some (F64.ofNat (n - 1)) ∧ (benchStats n).getArgMax = some (n - 1) ∧
      ∃ av, (benchStats n).getAvg = some av ∧ av.isFinite = true ∧ av.val = (n - 1 : ℚ) / 2 := by
  have h := benchInv n hn (by omega)
  have hc : (benchStats n).count ≠ 0 := by rw [h.count]; omega
  refine ⟨h.count, ?_, ?_, ?_, ?_, _, Stats.getAvg_of hc, h.avgFin, h.avgVal⟩
  · rw [Stats.getMin_of hc, h.min]
  · rw [Stats.getArgMin_of hc, h.argMin]
  · rw [Stats.getMax_of hc, h.max]
  · rw [Stats.getArgMax_of hc, h.argMax]

/-- **C97** The variance it computes is the number `n * (n + 1) / 12` rounded once as long as `(n - 1) * n * (n + 1)` is at most
`6 * 2 ^ 53` (`n` up to 378000), and off by a share of at most `(n + 2) / 2 ^ 52` in any case. -/
theorem C97_variance (n : Nat) (hn : 2 ≤ n) (hn' : n ≤ 2 ^ 26) :
    ∃ vr, (benchStats n).getVar = some vr ∧ vr.isFinite = true ∧
      |vr.val - n * (n + 1) / 12| ≤ (n + 2) / 2 ^ 52 * (n * (n + 1) / 12) ∧
      ((n - 1 : ℚ) * n * (n + 1) ≤ 6 * 2 ^ 53 → vr.val = (F64.lit (n * (n + 1) / 12)).val) := by
  have h := benchInv n (by omega) (by omega)
  have hc : (benchStats n).count ≠ 0 := by rw [h.count]; omega
  have hnq : (2 : ℚ) ≤ n := by exact_mod_cast hn
  have hnq' : (n : ℚ) ≤ 2 ^ 26 := by exact_mod_cast hn'
  have hN := F64.ofNat_exact (n := n - 1) (by omega)
  have hNv : (F64.ofNat (n - 1)).val = (n - 1 : ℚ) := by rw [hN.2, Nat.cast_sub (by omega)]; norm_num
  have hn1 : (0 : ℚ) < n - 1 := by linarith
  have hvar : PopulatedStats.var ⟨benchStats n⟩ = F64.div (benchStats n).sumSquared (F64.ofNat (n - 1)) := by
    unfold PopulatedStats.var
    rw [if_pos (by show (benchStats n).count > 1; rw [h.count]; omega)]
    show F64.div _ (F64.ofNat ((benchStats n).count - 1)) = _
    rw [h.count]
  have hT := squares_nonneg n (by omega)
  have hTle := squares_le n (by omega) (by omega)
  have hTe : squares n / (n - 1) = n * (n + 1) / 12 := by unfold squares; field_simp
  have hnear := abs_le.1 h.sumNear
  have hc52 : (n : ℚ) / 2 ^ 52 ≤ 1 := by rw [div_le_one (by norm_num)]; linarith [show (2 : ℚ) ^ 26 ≤ 2 ^ 52 by norm_num]
  have hmul : (n : ℚ) / 2 ^ 52 * squares n ≤ squares n := mul_le_of_le_one_left hT hc52
  set S := (benchStats n).sumSquared.val with hS
  have hdiv : (F64.div (benchStats n).sumSquared (F64.ofNat (n - 1))).isFinite = true ∧
      (F64.div (benchStats n).sumSquared (F64.ofNat (n - 1))).val = rndQ (S / (n - 1)) := by
    rw [F64.div_finite h.sumFin hN.1 (by rw [hNv]; linarith), hNv]
    refine F64.round_of_abs_le (F64.rep_pow2_le (k := 82) (by norm_num) (by norm_num)) ?_
    rw [abs_of_nonneg (div_nonneg h.sumPos hn1.le), show pow2 82 = 2 ^ 82 by rw [pow2_eq]; norm_num]
    refine (div_le_self h.sumPos (by linarith)).trans ?_
    have : (2 : ℚ) ^ 82 = 4 * 2 ^ 80 := by norm_num
    linarith [hnear.2]
  refine ⟨_, (Stats.getVar_of hc).trans (congrArg some hvar), hdiv.1, ?_, fun he => ?_⟩
  · rw [hdiv.2]
    set V : ℚ := n * (n + 1) / 12 with hV
    have hVpos : 1 / 2 ≤ V := by rw [hV]; nlinarith
    have h1 : |S / (n - 1) - V| ≤ n / 2 ^ 52 * V := by
      rw [← hTe, ← sub_div, abs_div, abs_of_pos hn1, ← mul_div_assoc, div_le_div_iff_of_pos_right hn1]
      exact h.sumNear
    have h1' := abs_le.1 h1
    have hVm : (n : ℚ) / 2 ^ 52 * V ≤ 1 / 2 * V := mul_le_mul_of_nonneg_right (by
      rw [div_le_iff₀ (by norm_num)]; linarith [show (2 : ℚ) ^ 26 ≤ 1 / 2 * 2 ^ 52 by norm_num]) (by linarith)
    have h2 := rndQ_rel_err (x := S / (n - 1)) (by
      rw [abs_of_nonneg (div_nonneg h.sumPos hn1.le)]
      refine (pow2_le.2 (show (-1022 : Int) ≤ -2 by norm_num)).trans ?_
      rw [show pow2 (-2) = 1 / 4 by rw [pow2_eq]; norm_num]
      linarith [h1'.1])
    rw [abs_of_nonneg (div_nonneg h.sumPos hn1.le), show pow2 (-53) = 1 / 2 ^ 53 by rw [pow2_eq, zpow_neg]; norm_num] at h2
    have h3 : (1 : ℚ) / 2 ^ 53 * (S / (n - 1)) ≤ 1 / 2 ^ 53 * (2 * V) := mul_le_mul_of_nonneg_left (by linarith [h1'.2]) (by norm_num)
    have h4 := abs_sub_le (rndQ (S / (n - 1))) (S / (n - 1)) V
    have h5 : ((n : ℚ) + 2) / 2 ^ 52 * V = n / 2 ^ 52 * V + 1 / 2 ^ 53 * (2 * V) + 1 / 2 ^ 52 * V := by ring
    have h6 : (0 : ℚ) ≤ 1 / 2 ^ 52 * V := by positivity
    linarith
  · rw [hdiv.2, hS, h.sumExact he, hTe]
    refine ((F64.round_of_abs_le (s := false) (F64.rep_pow2_le (k := 82) (by norm_num) (by norm_num)) ?_).2).symm
    rw [abs_of_nonneg (by positivity), show pow2 82 = 2 ^ 82 by rw [pow2_eq]; norm_num]
    nlinarith

/-- **C97** With the million samples of the code: average 499999.5, variance within 20 of 83333416666.67. -/
theorem C97_million : (benchStats 1000000).getCount = 1000000 ∧ (benchStats 1000000).getArgMax = some 999999 ∧
    (∃ av, (benchStats 1000000).getAvg = some av ∧ av.val = 499999.5) ∧
    ∃ vr, (benchStats 1000000).getVar = some vr ∧ |vr.val - 250000250000 / 3| ≤ 20 := by
  obtain ⟨h1, -, -, -, h5, av, h6, -, h7⟩ := C97_stats 1000000 (by norm_num) (by norm_num)
  obtain ⟨vr, h8, -, h9, -⟩ := C97_variance 1000000 (by norm_num) (by norm_num)
  refine ⟨h1, h5, ⟨av, h6, by rw [h7]; norm_num⟩, vr, h8, ?_⟩
  push_cast at h9
  have e : (1000000 : ℚ) * (1000000 + 1) / 12 = 250000250000 / 3 := by norm_num
  rw [e] at h9
  exact h9.trans (by norm_num)

/-- **C97** Without samples there are no statistics. -/
theorem C97_stats_empty : (benchStats 0).getCount = 0 ∧ (benchStats 0).getMin = none ∧ (benchStats 0).getMax = none ∧
    (benchStats 0).getAvg = none ∧ (benchStats 0).getVar = none := ⟨rfl, rfl, rfl, rfl, rfl⟩

example : ∃ av, (benchStats 5).getAvg = some av ∧ av.val = 2 := by
  obtain ⟨-, -, -, -, -, av, h, -, hv⟩ := C97_stats 5 (by norm_num) (by norm_num)
  exact ⟨av, h, by rw [hv]; norm_num⟩

end RG.Props
