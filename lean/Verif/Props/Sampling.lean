import Mathlib.Analysis.Complex.ExponentialBounds
import Verif.Proofs.Sampling
import Verif.Props.Wheel
import Verif.Props.Population

/-!
# Property C85: the frequencies of repeated selections

The unit tests of the selectors make 100 000 selections from ten individuals and demand that the frequencies be within 0.01 of the
probabilities. Here: the same for any program that selects, any number of selections, and any tolerance, with a bound on the
probability of failure, and the six tests themselves (with random draws in place of a fixed seed).
-/

set_option linter.unusedSectionVars false

namespace RG.Props
open RG RG.Prog
variable {I : Type} [Individual I]

theorem collectLoop_step {c : List Nat} {n i : Nat} (hi : i < c.length) (hc : ∀ x ∈ c, x + (n + 1) < 2 ^ 32) :
    index c i = .ok (c.getD i 0) ∧ u32Add (c.getD i 0) 1 = .ok (c.getD i 0 + 1) := by
  have hg : c.getD i 0 = c[i] := by simp [List.getD_eq_getElem?_getD, hi]
  have := hc c[i] (List.getElem_mem hi)
  refine ⟨?_, ?_⟩
  · unfold index
    rw [List.getElem?_eq_getElem hi, hg]; rfl
  · unfold u32Add
    rw [hg, if_pos (by omega)]

theorem collectLoop_set {c : List Nat} {n i : Nat} (hi : i < c.length) (hc : ∀ x ∈ c, x + (n + 1) < 2 ^ 32) :
    ∀ x ∈ c.set i (c.getD i 0 + 1), x + n < 2 ^ 32 := by
  have hg : c.getD i 0 = c[i] := by simp [List.getD_eq_getElem?_getD, hi]
  intro x hx
  rcases List.mem_or_eq_of_mem_set hx with h | h
  · have := hc x h; omega
  · have := hc c[i] (List.getElem_mem hi); omega

theorem collectLoop_bind (select : Prog (Nat × I)) {c : List Nat} {n : Nat} (r : Nat × I) (hi : r.1 < c.length)
    (hc : ∀ x ∈ c, x + (n + 1) < 2 ^ 32) :
    (Prog.lift (index c r.1) >>= fun x => Prog.lift (u32Add x 1) >>= fun x => collectLoop select n (c.set r.1 x)) =
      collectLoop select n (c.set r.1 (c.getD r.1 0 + 1)) := by
  obtain ⟨h1, h2⟩ := collectLoop_step hi hc
  rw [h1, Prog.lift_ok, Prog.bind_pure_left, h2, Prog.lift_ok, Prog.bind_pure_left]

theorem sum_set_succ (c : List Nat) (i : Nat) (hi : i < c.length) : (c.set i (c.getD i 0 + 1)).sum = c.sum + 1 := by
  induction c generalizing i with
  | nil => simp at hi
  | cons x c ih =>
    cases i with
    | zero => simp; omega
    | succ i =>
      have := ih i (by simpa using hi)
      simp only [List.set_cons_succ, List.sum_cons, List.getD_cons_succ]
      omega

/-- **C85** (overflow) The counters are 32-bit numbers: the loop panics exactly when one of them would reach `2^32`, here for
a program that always selects the same individual. -/
theorem C85_overflow (x : I) (N c : Nat) (hc : c < 2 ^ 32) :
    collectLoop (pure (0, x)) N [c] = if c + N < 2 ^ 32 then pure [c + N] else Prog.done .panic := by
  induction N generalizing c with
  | zero => rw [Nat.add_zero, if_pos hc]; rfl
  | succ N ih =>
    unfold collectLoop
    rw [Prog.bind_pure_left]
    show (Prog.lift (.ok c) >>= fun c' => Prog.lift (u32Add c' 1) >>= fun c' => collectLoop (pure (0, x)) N [c']) = _
    rw [Prog.lift_ok, Prog.bind_pure_left]
    unfold u32Add
    by_cases h : c + 1 < 2 ^ 32
    · rw [if_pos h, Prog.lift_ok, Prog.bind_pure_left, ih (c + 1) h, show c + 1 + N = c + (N + 1) by omega]
    · rw [if_neg h, if_neg (by omega)]; rfl

example (x : I) : collectLoop (pure (0, x)) (2 ^ 32) [0] = Prog.done .panic ∧
    collectLoop (pure (0, x)) (2 ^ 32 - 1) [0] = pure [2 ^ 32 - 1] :=
  ⟨by rw [C85_overflow x _ 0 (by decide)]; rfl, by rw [C85_overflow x _ 0 (by decide)]; rfl⟩

/-- **C85** (totals) If the selections are from `n` individuals, then `N < 2^32` of them give `n` counts that add up to `N`. -/
theorem C85_totals (select : Prog (Nat × I)) (n N : Nat) (hs : Always (fun r => r.1 < n) select) (hN : N < 2 ^ 32) :
    Always (fun c => c.length = n ∧ c.sum = N) (collectLoop select N (List.replicate n 0)) := by
  have key : ∀ m (c : List Nat), c.length = n → (∀ x ∈ c, x + m < 2 ^ 32) →
      Always (fun c' => c'.length = n ∧ c'.sum = c.sum + m) (collectLoop select m c) := by
    intro m
    induction m with
    | zero =>
      intro c hc _ r hr
      obtain rfl : r = .ok c := hr
      exact ⟨c, rfl, hc, rfl⟩
    | succ m ih =>
      intro c hc hb
      unfold collectLoop
      rw [always_bind]
      intro r hr
      obtain ⟨a, rfl, ha⟩ := hs r hr
      refine ⟨a, rfl, ?_⟩
      beta_reduce
      rw [collectLoop_bind select a (by omega) hb]
      have := ih (c.set a.1 (c.getD a.1 0 + 1)) (by simpa using hc) (collectLoop_set (by omega) hb)
      rw [sum_set_succ c a.1 (by omega)] at this
      rwa [show c.sum + (m + 1) = c.sum + 1 + m by omega]
  have := key N (List.replicate n 0) (by simp) (fun x hx => by rw [List.eq_of_mem_replicate hx]; omega)
  simpa using this

/-- The count of the individual `i`, as a number; 0 if there are no counts. -/
def countOf (i : Nat) : Res (List Nat) → ℚ
  | .ok c => (c.getD i 0 : Nat)
  | _ => 0

/-- **C85** (expectation) The expected count is `N` times the probability. -/
theorem C85_expected (select : Prog (Nat × I)) (n N : Nat) (hs : Always (fun r => r.1 < n) select) (hN : N < 2 ^ 32)
    (i : Nat) (hi : i < n) :
    (collectLoop select N (List.replicate n 0)).expect (countOf i) = N * select.prob (fun r => r.1 = i) := by
  have key : ∀ m (c : List Nat), c.length = n → (∀ x ∈ c, x + m < 2 ^ 32) →
      (collectLoop select m c).expect (countOf i) = (c.getD i 0 : Nat) + m * select.prob (fun r => r.1 = i) := by
    intro m
    induction m with
    | zero => intro c _ _; simp [collectLoop, countOf]
    | succ m ih =>
      intro c hc hb
      unfold collectLoop
      rw [expect_bind]
      rw [expect_congr _ _ (fun r => ((c.getD i 0 : Nat) + m * select.prob (fun r => r.1 = i)) +
        (match r with | .ok a => if a.1 = i then 1 else 0 | _ => 0))]
      · rw [expect_add, expect_const, show (select.expect fun r => match r with | .ok a => if a.1 = i then (1 : ℚ) else 0 | _ => 0) =
          select.prob (fun r => r.1 = i) from by unfold prob; congr 1; funext r; cases r <;> rfl]
        push_cast
        ring
      · intro r hr
        obtain ⟨a, rfl, ha⟩ := hs r hr
        show (Prog.lift (index c a.1) >>= fun x => Prog.lift (u32Add x 1) >>= fun x =>
          collectLoop select m (c.set a.1 x)).expect (countOf i) = _
        rw [collectLoop_bind select a (by omega) hb, ih _ (by simpa using hc) (collectLoop_set (by omega) hb)]
        show _ = _ + (if a.1 = i then (1 : ℚ) else 0)
        by_cases h : a.1 = i
        · subst h
          rw [if_pos rfl, show (c.set a.1 (c.getD a.1 0 + 1)).getD a.1 0 = c.getD a.1 0 + 1 by
            simp [List.getD_eq_getElem?_getD, show a.1 < c.length by omega]]
          push_cast; ring
        · rw [if_neg h, show (c.set a.1 (c.getD a.1 0 + 1)).getD i 0 = c.getD i 0 by
            simp [List.getD_eq_getElem?_getD, h]]
          ring
  have := key N (List.replicate n 0) (by simp) (fun x hx => by rw [List.eq_of_mem_replicate hx]; omega)
  rw [this]
  simp [List.getD_eq_getElem?_getD, hi]

theorem prob_exists_le {α : Type} (p : Prog α) (n : Nat) (P : Nat → α → Prop) [∀ i, DecidablePred (P i)] (x : ℝ)
    (h : ∀ i, i < n → (p.prob (P i) : ℝ) ≤ x) : (p.prob (fun a => ∃ i, i < n ∧ P i a) : ℝ) ≤ n * x := by
  induction n with
  | zero =>
    rw [prob_eq_zero _ _ (by rintro a _ ⟨i, hi, _⟩; omega)]
    simp
  | succ n ih =>
    have h1 := ih fun i hi => h i (by omega)
    have h2 := h n (by omega)
    have h3 : p.prob (fun a => ∃ i, i < n + 1 ∧ P i a) ≤ p.prob (fun a => ∃ i, i < n ∧ P i a) + p.prob (P n) := by
      unfold prob
      rw [← expect_add]
      refine expect_mono _ _ _ fun r _ => ?_
      cases r with
      | ok a =>
        dsimp only
        by_cases hn : P n a
        · rw [if_pos ⟨n, by omega, hn⟩, if_pos hn]
          split <;> norm_num
        · rw [if_neg hn, add_zero]
          refine le_of_eq (if_congr ⟨?_, ?_⟩ rfl rfl)
          · rintro ⟨i, hi, hP⟩
            refine ⟨i, ?_, hP⟩
            rcases Nat.lt_or_ge i n with h | h
            · exact h
            · obtain rfl : i = n := by omega
              exact absurd hP hn
          · rintro ⟨i, hi, hP⟩
            exact ⟨i, by omega, hP⟩
      | panic => simp
      | diverge => simp
    have h3' : (p.prob (fun a => ∃ i, i < n + 1 ∧ P i a) : ℝ) ≤ p.prob (fun a => ∃ i, i < n ∧ P i a) + p.prob (P n) := by
      exact_mod_cast h3
    push_cast
    linarith

/-- A numerical bound on the exponential function. -/
theorem exp_neg_le {x : ℝ} (k : Nat) (h : (k : ℝ) ≤ x) : Real.exp (-x) ≤ 1 / (27 / 10) ^ k := by
  have h1 : (27 / 10 : ℝ) ^ k ≤ Real.exp x := by
    refine le_trans (pow_le_pow_left₀ (by norm_num) (le_trans (by norm_num) Real.exp_one_gt_d9.le) k) ?_
    rw [← Real.exp_nat_mul, mul_one]
    exact Real.exp_le_exp.2 h
  rw [Real.exp_neg, ← one_div]
  exact one_div_le_one_div_of_le (by positivity) h1

/-- **C85** (concentration) Whatever the program that selects, the probability that one of the `n` frequencies is `δ` or more
away from the probability is at most `2 n exp(-2 N δ²)`. -/
theorem C85_concentration (select : Prog (Nat × I)) (n N : Nat) (δ : ℚ) (hδ : 0 ≤ δ) :
    ((collectLoop select N (List.replicate n 0)).prob (fun c => ∃ i, i < n ∧
      N * δ ≤ |((c.getD i 0 : Nat) : ℚ) - N * select.prob (fun r => r.1 = i)|) : ℝ) ≤ 2 * n * Real.exp (-2 * N * (δ : ℝ) ^ 2) := by
  refine (prob_exists_le _ n _ (2 * Real.exp (-2 * N * (δ : ℝ) ^ 2)) fun i hi => ?_).trans (le_of_eq (by ring))
  have hz : (List.replicate n 0).getD i 0 = 0 := by simp [List.getD_eq_getElem?_getD, hi]
  have hδ' : (0 : ℝ) ≤ (δ : ℝ) := by exact_mod_cast hδ
  have hup := collectLoop_tail select i N (List.replicate n 0) hz δ 1 (Or.inl rfl)
    (fun c => N * δ ≤ ((c.getD i 0 : Nat) : ℚ) - N * select.prob (fun r => r.1 = i)) hδ' (fun c h => by
      rw [one_mul]
      exact_mod_cast h)
  have hlo := collectLoop_tail select i N (List.replicate n 0) hz δ (-1) (Or.inr rfl)
    (fun c => N * δ ≤ -(((c.getD i 0 : Nat) : ℚ) - N * select.prob (fun r => r.1 = i))) hδ' (fun c h => by
      rw [neg_one_mul]
      exact_mod_cast h)
  have hor : (collectLoop select N (List.replicate n 0)).prob (fun c =>
        N * δ ≤ |((c.getD i 0 : Nat) : ℚ) - N * select.prob (fun r => r.1 = i)|) ≤
      (collectLoop select N (List.replicate n 0)).prob
        (fun c => N * δ ≤ ((c.getD i 0 : Nat) : ℚ) - N * select.prob (fun r => r.1 = i)) +
      (collectLoop select N (List.replicate n 0)).prob
        (fun c => N * δ ≤ -(((c.getD i 0 : Nat) : ℚ) - N * select.prob (fun r => r.1 = i))) := by
    unfold prob
    rw [← expect_add]
    refine expect_mono _ _ _ fun r _ => ?_
    cases r with
    | ok c =>
      dsimp only
      split
      · rename_i h
        rcases le_abs.1 h with h | h
        · rw [if_pos h]; split <;> norm_num
        · rw [if_pos h]; split <;> norm_num
      · split <;> split <;> norm_num
    | panic => simp
    | diverge => simp
  have hor' : ((collectLoop select N (List.replicate n 0)).prob (fun c =>
        N * δ ≤ |((c.getD i 0 : Nat) : ℚ) - N * select.prob (fun r => r.1 = i)|) : ℝ) ≤
      (collectLoop select N (List.replicate n 0)).prob
        (fun c => N * δ ≤ ((c.getD i 0 : Nat) : ℚ) - N * select.prob (fun r => r.1 = i)) +
      (collectLoop select N (List.replicate n 0)).prob
        (fun c => N * δ ≤ -(((c.getD i 0 : Nat) : ℚ) - N * select.prob (fun r => r.1 = i))) := by
    exact_mod_cast hor
  linarith

/-- **C85** (frequencies) So with probability at least `1 - 2 n exp(-2 N δ²)` all frequencies are within `δ` of the
probabilities. -/
theorem C85_frequencies (select : Prog (Nat × I)) (n N : Nat) (hs : Always (fun r => r.1 < n) select) (hN : N < 2 ^ 32)
    (hN0 : N ≠ 0) (δ : ℚ) (hδ : 0 ≤ δ) :
    1 - 2 * n * Real.exp (-2 * N * (δ : ℝ) ^ 2) ≤ ((collectLoop select N (List.replicate n 0)).prob (fun c => ∀ i, i < n →
      |((c.getD i 0 : Nat) : ℚ) / N - select.prob (fun r => r.1 = i)| < δ) : ℝ) := by
  have hc := C85_concentration select n N δ hδ
  have ht := C85_totals select n N hs hN
  have hn := prob_add_not_of_always (collectLoop select N (List.replicate n 0)) (fun c => ∃ i, i < n ∧
      N * δ ≤ |((c.getD i 0 : Nat) : ℚ) - N * select.prob (fun r => r.1 = i)|) ht
  have hm := prob_mono (collectLoop select N (List.replicate n 0)) (fun c => ¬ ∃ i, i < n ∧
      N * δ ≤ |((c.getD i 0 : Nat) : ℚ) - N * select.prob (fun r => r.1 = i)|)
    (fun c => ∀ i, i < n → |((c.getD i 0 : Nat) : ℚ) / N - select.prob (fun r => r.1 = i)| < δ) (fun c _ h i hi => by
      have hNq : (0 : ℚ) < N := by exact_mod_cast Nat.pos_of_ne_zero hN0
      have h' : ¬ (N * δ ≤ |((c.getD i 0 : Nat) : ℚ) - N * select.prob (fun r => r.1 = i)|) := fun h' => h ⟨i, hi, h'⟩
      rw [not_le] at h'
      rw [show ((c.getD i 0 : Nat) : ℚ) / N - select.prob (fun r => r.1 = i) =
        (((c.getD i 0 : Nat) : ℚ) - N * select.prob (fun r => r.1 = i)) / N by field_simp, abs_div, abs_of_pos hNq, div_lt_iff₀ hNq]
      linarith)
  have h1 : ((collectLoop select N (List.replicate n 0)).prob (fun c => ∃ i, i < n ∧
      N * δ ≤ |((c.getD i 0 : Nat) : ℚ) - N * select.prob (fun r => r.1 = i)|) : ℝ) +
      ((collectLoop select N (List.replicate n 0)).prob (fun c => ¬ ∃ i, i < n ∧
      N * δ ≤ |((c.getD i 0 : Nat) : ℚ) - N * select.prob (fun r => r.1 = i)|) : ℝ) = 1 := by exact_mod_cast hn
  have h2 : ((collectLoop select N (List.replicate n 0)).prob (fun c => ¬ ∃ i, i < n ∧
      N * δ ≤ |((c.getD i 0 : Nat) : ℚ) - N * select.prob (fun r => r.1 = i)|) : ℝ) ≤
      ((collectLoop select N (List.replicate n 0)).prob (fun c => ∀ i, i < n →
      |((c.getD i 0 : Nat) : ℚ) / N - select.prob (fun r => r.1 = i)| < δ) : ℝ) := by exact_mod_cast hm
  linarith

-- ten thousand draws from three individuals by rank: with probability at least 0.999, each frequency is within 0.1 of the probability
example : (999 / 1000 : ℝ) ≤ ((collectLoop (rankSelect numPop) 10000 (List.replicate numPop.individuals.length 0)).prob
    (fun c => ∀ i, i < numPop.individuals.length →
      |((c.getD i 0 : Nat) : ℚ) / (10000 : Nat) - (rankSelect numPop).prob (fun r => r.1 = i)| < (1 / 10 : ℚ)) : ℝ) := by
  have hs : Always (fun r => r.1 < numPop.individuals.length) (rankSelect numPop) := fun r hr => by
    obtain ⟨a, h, ha⟩ := C38_member ⟨id, fun _ => F64.zero⟩ numPop (by decide) (by decide) .rank trivial (by simp) (by decide) r hr
    exact ⟨a, h, ha.1⟩
  refine le_trans ?_ (C85_frequencies (rankSelect numPop) numPop.individuals.length 10000 hs (by norm_num) (by norm_num) (1 / 10) (by norm_num))
  have := exp_neg_le (x := 200) 19 (by norm_num)
  have hn : numPop.individuals.length = 3 := by decide
  have e : -2 * ((10000 : Nat) : ℝ) * (((1 / 10 : ℚ) : ℚ) : ℝ) ^ 2 = -200 := by push_cast; norm_num
  rw [e, hn]
  have h2 : (1 : ℝ) / (27 / 10) ^ 19 ≤ 1 / 10000 := by norm_num
  push_cast
  linarith

/-! ### The unit tests -/

theorem testIndividuals_facts :
    (testIndividuals.all fun x => !x.fit.isNaN) = true ∧
    (testIndividuals.Pairwise fun a b => a.fit.lt b.fit = true) ∧
    (testIndividuals.IsChain fun a b => b.fit.feq a.fit = false) := by
  decide +kernel

/-- The population of the tests. -/
def testPopulation : Population Mock := ⟨testIndividuals, 0, 0, ⟨Stats.collect (testIndividuals.map fitness)⟩⟩

theorem testPopulation_eq (sort : List Mock → List Mock) (hs : LawfulSort sort) : createTestPopulation sort = .ok testPopulation := by
  obtain ⟨h1, h2, h3⟩ := testIndividuals_facts
  rw [List.all_eq_true] at h1
  have hsort : sort testIndividuals = testIndividuals := by
    refine List.Perm.eq_of_pairwise (le := fun a b : Mock => compareFitness a b ≠ .gt) ?_ (hs.sorted _ fun x hx => by have := h1 x hx; rw [Bool.not_eq_true'] at this; exact this) ?_ (hs.perm _)
    · have : ∀ a ∈ testIndividuals, ∀ b ∈ testIndividuals, compareFitness a b ≠ .gt → compareFitness b a ≠ .gt → a = b := by decide +kernel
      exact fun a b ha hb hab hba => this a ((hs.perm _).mem_iff.1 ha) b hb hab hba
    · exact h2.imp fun {a b} h => by
        have : compareFitness a b = .lt := compareFitness_lt.2 h
        rw [this]; decide
  unfold createTestPopulation Population.tryFrom
  rw [Population.new_eq hs, hsort, dedup_of_chain _ h3]
  rfl

/-- The assertions of the tests, apart from the rounding in them: all frequencies are within 0.01 of the expected ones. -/
def Within (expected : Nat → ℚ) (c : List Nat) : Prop := ∀ i, i < 10 → |((c.getD i 0 : Nat) : ℚ) / 100000 - expected i| < 1 / 100

instance (expected : Nat → ℚ) : DecidablePred (Within expected) := fun c => by unfold Within; infer_instance

theorem collectSamples_prob (env : NumEnv) (sort : List Mock → List Mock) (hs : LawfulSort sort) (s : Selector) (P : List Nat → Prop)
    [DecidablePred P] : (collectSamples env sort s).prob (fun r => P r.2) =
      (collectLoop ((s.prepare env testPopulation).select env testPopulation) 100000 (List.replicate 10 0)).prob P := by
  unfold collectSamples
  rw [testPopulation_eq sort hs, Prog.lift_ok, Prog.bind_pure_left]
  exact prob_bind_pure _ _ _ (fun a _ => rfl) _ 

theorem samples_always (env : NumEnv) (s : Selector) (hr : s.InRange) (hl : ∀ b, s = .linear b → SafeBias b.bias) :
    Always (fun r => r.1 < 10) ((s.prepare env testPopulation).select env testPopulation) := by
  have h : testPopulation.individuals.length = 10 := by decide
  have hm := C38_member env testPopulation (by decide) (by rw [h]; norm_num) (s.prepare env testPopulation)
    (by cases s <;> exact hr) (by
      intro b hb
      cases s with
      | linear s => cases hb; exact hl _ rfl
      | _ => cases hb) (by intro _; rw [h]; norm_num)
  intro r hr
  obtain ⟨a, ha, hm⟩ := hm r hr
  exact ⟨a, ha, by rw [← h]; exact hm.1⟩

theorem samples_frequencies (env : NumEnv) (s : Selector) (hr : s.InRange) (hl : ∀ b, s = .linear b → SafeBias b.bias) (δ : ℚ)
    (hδ : 0 ≤ δ) (k : Nat) (hk : k ≤ 200000 * δ ^ 2) :
    1 - 20 / (27 / 10) ^ k ≤ (collectLoop ((s.prepare env testPopulation).select env testPopulation) 100000 (List.replicate 10 0)).prob
      (fun c => ∀ i : Nat, i < 10 → |((c.getD i 0 : Nat) : ℚ) / (100000 : Nat) -
        ((s.prepare env testPopulation).select env testPopulation).prob (fun r => r.1 = i)| < δ) := by
  have h := C85_frequencies _ 10 100000 (samples_always env s hr hl) (by norm_num) (by norm_num) δ hδ
  have hk' : (k : ℝ) ≤ 200000 * (δ : ℝ) ^ 2 := by exact_mod_cast hk
  have he := exp_neg_le (x := 200000 * (δ : ℝ) ^ 2) k hk'
  have e : -2 * ((100000 : Nat) : ℝ) * (δ : ℝ) ^ 2 = -(200000 * (δ : ℝ) ^ 2) := by push_cast; ring
  rw [e] at h
  have h2 : (1 - 20 / (27 / 10) ^ k : ℝ) ≤ _ := le_trans (by
    have : (20 : ℝ) / (27 / 10) ^ k = 20 * (1 / (27 / 10) ^ k) := by ring
    rw [this]; push_cast; linarith) h
  rw [← Rat.cast_le (K := ℝ)]
  refine le_trans (le_of_eq ?_) h2
  push_cast
  rfl

theorem samples_within (env : NumEnv) (sort : List Mock → List Mock) (hs : LawfulSort sort) (s : Selector) (hr : s.InRange)
    (hl : ∀ b, s = .linear b → SafeBias b.bias) (expected : Nat → ℚ)
    (he : ∀ i, i < 10 → |((s.prepare env testPopulation).select env testPopulation).prob (fun r => r.1 = i) - expected i| ≤ 1 / 10 ^ 4) :
    1 - 1 / 10 ^ 6 ≤ (collectSamples env sort s).prob (fun r => Within expected r.2) := by
  rw [collectSamples_prob env sort hs]
  have hf := samples_frequencies env s hr hl (99 / 10000) (by norm_num) 19 (by norm_num)
  refine le_trans (le_trans (by norm_num) hf) ?_
  refine prob_mono _ _ _ fun c _ h i hi => ?_
  have h1 := h i hi
  have h2 := he i hi
  rw [abs_lt] at h1 ⊢
  rw [abs_le] at h2
  push_cast at h1
  constructor <;> linarith

/-- **C85** (tests) The tests of tournament, roulette wheel, rank, elitist and Boltzmann selection pass with probability at least
`1 - 10^-6` when the draws are random (for Boltzmann: if `exp` is between 1 and 2 on the scaled fitness values, which are between
0 and 0.18). -/
theorem C85_tests (env : NumEnv) (henv : env.LawfulSum) (sort : List Mock → List Mock) (hs : LawfulSort sort)
    (hexp : ∀ x ∈ testIndividuals, (env.exp (x.fit.div (F64.lit 5))).isFinite = true ∧ 1 ≤ (env.exp (x.fit.div (F64.lit 5))).val ∧
      (env.exp (x.fit.div (F64.lit 5))).val ≤ 2) :
    1 - 1 / 10 ^ 6 ≤ (collectSamples env sort (.tournament ⟨2⟩)).prob (fun r => Within
      (fun i => (1 - ((i : ℚ) / 10) ^ 2) - (1 - (((i : ℚ) + 1) / 10) ^ 2)) r.2) ∧
    1 - 1 / 10 ^ 6 ≤ (collectSamples env sort (.rouletteWheel .new)).prob (fun r => Within
      (fun i => (testIndividuals.map fun x => x.fit.val).getD i 0 / (testIndividuals.map fun x => x.fit.val).sum) r.2) ∧
    1 - 1 / 10 ^ 6 ≤ (collectSamples env sort .rank).prob (fun r => Within (fun i => ((i : ℚ) + 1) / 55) r.2) ∧
    1 - 1 / 10 ^ 6 ≤ (collectSamples env sort (.elitist ⟨F64.lit (7 / 10)⟩)).prob (fun r => Within
      (fun i => if 7 ≤ i then 1 / 3 else 0) r.2) ∧
    1 - 1 / 10 ^ 6 ≤ (collectSamples env sort (.boltzmann ⟨F64.lit 5, F64.lit 1, F64.zero⟩)).prob (fun r => Within
      (fun i => (testIndividuals.map fun x => (env.exp (x.fit.div (F64.lit 5))).val).getD i 0 /
        (testIndividuals.map fun x => (env.exp (x.fit.div (F64.lit 5))).val).sum) r.2) := by
  have hlen : testPopulation.individuals.length = 10 := by decide
  refine ⟨samples_within env sort hs (.tournament ⟨2⟩) (by unfold Selector.InRange; decide) (by intro b h; cases h) _ fun i hi => ?_,
    samples_within env sort hs (.rouletteWheel .new) trivial (by intro b h; cases h) _ fun i hi => ?_,
    samples_within env sort hs .rank trivial (by intro b h; cases h) _ fun i hi => ?_,
    samples_within env sort hs (.elitist ⟨F64.lit (7 / 10)⟩) (by unfold Selector.InRange; decide +kernel) (by intro b h; cases h) _ fun i hi => ?_,
    samples_within env sort hs (.boltzmann ⟨F64.lit 5, F64.lit 1, F64.zero⟩) (by unfold Selector.InRange; decide +kernel) (by intro b h; cases h) _ fun i hi => ?_⟩
  · have := C39_probability ⟨2⟩ (by decide) testPopulation i (by omega)
    rw [show (Selector.prepare env testPopulation (.tournament ⟨2⟩)).select env testPopulation =
      (⟨2⟩ : TournamentSelection).select testPopulation from rfl, this, hlen]
    rw [show (((i : ℚ) + 1) ^ 2 - (i : ℚ) ^ 2) / ((10 : Nat) : ℚ) ^ 2 -
      ((1 - ((i : ℚ) / 10) ^ 2) - (1 - (((i : ℚ) + 1) / 10) ^ 2)) = 0 by push_cast; ring]
    norm_num
  · have hfair : FairWeights (testPopulation.individuals.map fitness) := by
      refine ⟨by decide +kernel, ?_, ?_, by decide⟩
      · refine le_trans ?_ (show (1 : ℚ) ≤ _ by decide +kernel)
        exact zpow_le_one_of_nonpos₀ (by norm_num) (by norm_num)
      · refine le_trans (show _ ≤ (2 : ℚ) ^ (4 : Int) by decide +kernel) ?_
        exact zpow_le_zpow_right₀ (by norm_num) (by norm_num)
    have h := C42_f64_probability env henv .new testPopulation hfair i (by omega)
    have h10 : (testPopulation.individuals.length : ℚ) / 2 ^ 49 ≤ 1 / 10 ^ 4 := by rw [hlen]; norm_num
    have e : (testIndividuals.map fun x => x.fit.val).getD i 0 = (fitness testPopulation.individuals[i]).val := by
      rw [List.getD_eq_getElem?_getD, List.getElem?_map, List.getElem?_eq_getElem (show i < testIndividuals.length from by
        have : testIndividuals.length = 10 := hlen
        omega)]
      rfl
    rw [e]
    exact h.trans h10
  · have := C40_probability testPopulation (by omega) i (by omega)
    rw [show (Selector.prepare env testPopulation .rank).select env testPopulation = rankSelect testPopulation from rfl, this, hlen]
    norm_num
  · obtain ⟨b, hb, -, h1, h2⟩ := C41_uniform ⟨F64.lit (7 / 10)⟩ (by decide +kernel) testPopulation (by decide) (by rw [hlen]; norm_num)
    rw [hlen] at hb h1
    have hb7 : b = 7 := by rw [hb]; decide +kernel
    subst hb7
    rw [show (Selector.prepare env testPopulation (.elitist ⟨F64.lit (7 / 10)⟩)).select env testPopulation =
      (⟨F64.lit (7 / 10)⟩ : ElitistSelection).select testPopulation from rfl]
    by_cases h : 7 ≤ i
    · rw [if_pos h, h1 i h hi]
      norm_num
    · rw [if_neg h, prob_eq_zero _ _ fun r hr hri => h2 i r (by omega) hr hri]
      norm_num
  · have ht : (F64.lit 5).mul (F64.lit 1) = F64.lit 5 := by decide +kernel
    have hfair : FairWeights (testPopulation.individuals.map fun x => env.exp ((fitness x).div (F64.lit 5))) := by
      have hsum : ∀ (l : List Mock) (f : Mock → F64), (∀ x ∈ l, 1 ≤ (f x).val ∧ (f x).val ≤ 2) →
          (l.length : ℚ) ≤ ((l.map f).map F64.val).sum ∧ ((l.map f).map F64.val).sum ≤ 2 * l.length := by
        intro l f hf
        induction l with
        | nil => simp
        | cons x l ih =>
          have h1 := hf x (by simp)
          have h2 := ih fun y hy => hf y (by simp [hy])
          simp only [List.map_cons, List.sum_cons, List.length_cons]
          push_cast
          constructor <;> linarith [h1.1, h1.2, h2.1, h2.2]
      obtain ⟨s1, s2⟩ := hsum testPopulation.individuals (fun x => env.exp ((fitness x).div (F64.lit 5))) fun x hx => (hexp x hx).2
      rw [hlen] at s1 s2
      refine ⟨?_, ?_, ?_, by rw [List.length_map, hlen]; norm_num⟩
      · intro w hw
        obtain ⟨x, hx, rfl⟩ := List.mem_map.1 hw
        exact ⟨(hexp x hx).1, le_trans (by norm_num) (hexp x hx).2.1⟩
      · refine le_trans (le_trans ?_ (show (1 : ℚ) ≤ ((10 : Nat) : ℚ) by norm_num)) s1
        exact zpow_le_one_of_nonpos₀ (by norm_num) (by norm_num)
      · refine le_trans (s2.trans (show _ ≤ (2 : ℚ) ^ (5 : Int) by norm_num)) ?_
        exact zpow_le_zpow_right₀ (by norm_num) (by norm_num)
    have h := C43_f64_probability env henv ⟨F64.lit 5, F64.lit 1, F64.zero⟩ testPopulation
      (fun x => env.exp ((fitness x).div (F64.lit 5))) (fun x => by rw [ht]) hfair i (by omega)
    have h10 : (testPopulation.individuals.length : ℚ) / 2 ^ 49 ≤ 1 / 10 ^ 4 := by rw [hlen]; norm_num
    have e : (testIndividuals.map fun x => (env.exp (x.fit.div (F64.lit 5))).val).getD i 0 =
        (env.exp ((fitness testPopulation.individuals[i]).div (F64.lit 5))).val := by
      rw [List.getD_eq_getElem?_getD, List.getElem?_map, List.getElem?_eq_getElem (show i < testIndividuals.length from by
        have : testIndividuals.length = 10 := hlen
        omega)]
      rfl
    rw [e]
    exact h.trans h10

-- an environment with a sequential sum, an `exp` that meets the condition, and a sort
example : 1 - 1 / 10 ^ 6 ≤ (collectSamples ⟨fun x => x.add F64.one, fun l => l.foldl F64.add F64.zero⟩ refSort .rank).prob
    (fun r => Within (fun i => ((i : ℚ) + 1) / 55) r.2) :=
  (C85_tests ⟨fun x => x.add F64.one, fun l => l.foldl F64.add F64.zero⟩ (fun l => .leaf F64.zero (Or.inl rfl) l) refSort refSort_lawful
    (by decide +kernel)).2.2.1

/-- The assertions of the test of linear selection: from each individual to the next, the frequency falls by less than 0.01. -/
def NeverFalls (c : List Nat) : Prop := ∀ i, i + 1 < 10 → ((c.getD i 0 : Nat) : ℚ) / 100000 < ((c.getD (i + 1) 0 : Nat) : ℚ) / 100000 + 1 / 100

instance : DecidablePred NeverFalls := fun c =>
  decidable_of_iff (∀ i : Nat, i < 9 → ((c.getD i 0 : Nat) : ℚ) / 100000 < ((c.getD (i + 1) 0 : Nat) : ℚ) / 100000 + 1 / 100)
    ⟨fun h i hi => h i (by omega), fun h i hi => h i (by omega)⟩

/-- **C85** (tests) The test of linear selection passes with probability at least 0.999. -/
theorem C85_test_linear (env : NumEnv) (sort : List Mock → List Mock) (hs : LawfulSort sort) :
    1 - 1 / 10 ^ 3 ≤ (collectSamples env sort (.linear ⟨F64.lit (5 / 4)⟩)).prob (fun r => NeverFalls r.2) := by
  have hlen : testPopulation.individuals.length = 10 := by decide
  have hv : (F64.lit (5 / 4)).isFinite = true ∧ (F64.lit (5 / 4)).val = 5 / 4 := by decide +kernel
  rw [collectSamples_prob env sort hs]
  have hf := samples_frequencies env (.linear ⟨F64.lit (5 / 4)⟩) trivial (by
    intro b hb; cases hb; exact C44_safe_bias.1 (5 / 4) (by simp)) (749 / 100000) (by norm_num) 11 (by norm_num)
  refine le_trans (le_trans (by norm_num) hf) ?_
  refine prob_mono _ _ _ fun c _ h i hi => ?_
  have h1 := h i (by omega)
  have h2 := h (i + 1) hi
  have p1 := C84_probability (F64.lit (5 / 4)) hv.1 (by rw [hv.2]; norm_num) (by rw [hv.2]; norm_num) testPopulation (by rw [hlen]; norm_num)
    i (by omega)
  have p2 := C84_probability (F64.lit (5 / 4)) hv.1 (by rw [hv.2]; norm_num) (by rw [hv.2]; norm_num) testPopulation (by rw [hlen]; norm_num)
    (i + 1) (by omega)
  rw [hlen, hv.2] at p1 p2
  rw [show (Selector.prepare env testPopulation (.linear ⟨F64.lit (5 / 4)⟩)).select env testPopulation =
    (⟨F64.lit (5 / 4)⟩ : LinearSelection F64).select testPopulation from rfl] at h1 h2
  rw [abs_lt] at h1 h2
  rw [abs_le] at p1 p2
  push_cast at h1 h2 p1 p2
  have hε : (1 : ℚ) / 2 ^ 47 / (5 / 4 - 1) ≤ 1 / 10 ^ 6 := by norm_num
  linarith [h1.1, h1.2, h2.1, h2.2, p1.1, p1.2, p2.1, p2.2]

example (env : NumEnv) : 1 - 1 / 10 ^ 3 ≤ (collectSamples env refSort (.linear ⟨F64.lit (5 / 4)⟩)).prob (fun r => NeverFalls r.2) :=
  C85_test_linear env refSort refSort_lawful

end RG.Props
