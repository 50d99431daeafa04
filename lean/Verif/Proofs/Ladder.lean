import Mathlib.Data.Nat.Choose.Sum
import Verif.Proofs.Convergence

/-! # Helper lemmas: climbing a ladder of fitness levels -/

set_option linter.unusedSectionVars false

namespace RG
open Prog

namespace Prog
variable {α β : Type}

/-- An observation of a sequence is at most `a`, or at most `b ≥ a` in an event of probability at most `x`. -/
theorem expect_bind_split (p : Prog α) (f : α → Prog β) (g : Res β → ℚ) (E : α → Prop) [DecidablePred E] (a b x : ℚ)
    (hg0 : g .panic ≤ a) (hg1 : g .diverge ≤ a) (hab : a ≤ b)
    (h1 : ∀ y, p.yields (.ok y) → ¬ E y → (f y).expect g ≤ a) (h2 : ∀ y, p.yields (.ok y) → E y → (f y).expect g ≤ b)
    (hx : p.prob E ≤ x) : (p >>= f).expect g ≤ a + (b - a) * x := by
  have : (p >>= f).expect g ≤ a + (b - a) * p.prob E := by
    unfold prob
    rw [expect_bind, ← expect_mul_left, ← expect_const p a, ← expect_add]
    refine expect_mono p _ _ fun r hr => ?_
    rw [expect_const]
    rcases r with y | _ | _
    · by_cases he : E y
      · have := h2 y hr he
        simp only [he, if_true]; linarith
      · have := h1 y hr he
        simp only [he, if_false]; linarith
    · simpa using hg0
    · simpa using hg1
  have := mul_le_mul_of_nonneg_left hx (sub_nonneg.2 hab)
  linarith

theorem expect_bind_le_const (p : Prog α) (f : α → Prog β) (g : Res β → ℚ) (a : ℚ) (hg0 : g .panic ≤ a) (hg1 : g .diverge ≤ a)
    (h : ∀ y, p.yields (.ok y) → (f y).expect g ≤ a) : (p >>= f).expect g ≤ a := by
  rw [expect_bind, ← expect_const p a]
  refine expect_mono p _ _ fun r hr => ?_
  rcases r with y | _ | _
  · exact h y hr
  · exact hg0
  · exact hg1

theorem prob_bind_mix (p : Prog α) (f : α → Prog β) (P : β → Prop) [DecidablePred P] (E : α → Prop) [DecidablePred E]
    (a b x : ℚ) (ha : 0 ≤ a) (hab : a ≤ b) (h1 : ∀ y, p.yields (.ok y) → ¬ E y → (f y).prob P ≤ a)
    (h2 : ∀ y, p.yields (.ok y) → E y → (f y).prob P ≤ b) (hx : p.prob E ≤ x) : (p >>= f).prob P ≤ a + (b - a) * x :=
  expect_bind_split p f _ E a b x ha ha hab h1 h2 hx

theorem mul_prob_le_bind (p : Prog α) (f : α → Prog β) (E : α → Prop) [DecidablePred E] (P : β → Prop) [DecidablePred P] (c : ℚ)
    (h : ∀ a, p.yields (.ok a) → E a → c ≤ (f a).prob P) : c * p.prob E ≤ (p >>= f).prob P := by
  have hn := fun a => prob_nonneg (f a) P
  unfold prob at *
  rw [expect_bind, ← expect_mul_left]
  refine expect_mono p _ _ fun r hr => ?_
  rcases r with a | _ | _
  · by_cases hq : E a
    · simpa [hq] using h a hr hq
    · simpa [hq] using hn a
  · simp
  · simp

end Prog

/-! ### Binomial tails -/

/-- The probability of fewer than `j` successes in `k` independent trials that each fail with probability `x`. -/
def fewSuccesses (x : ℚ) (k j : Nat) : ℚ := ∑ i ∈ Finset.range j, (k.choose i) * (1 - x) ^ i * x ^ (k - i)

theorem fewSuccesses_zero_right (x : ℚ) (k : Nat) : fewSuccesses x k 0 = 0 := by simp [fewSuccesses]

theorem fewSuccesses_zero_left (x : ℚ) (j : Nat) : fewSuccesses x 0 (j + 1) = 1 := by
  unfold fewSuccesses
  rw [Finset.sum_eq_single 0]
  · simp
  · intro i _ hi
    rw [Nat.choose_eq_zero_of_lt (by omega)]; simp
  · simp

theorem fewSuccesses_succ (x : ℚ) (k j : Nat) :
    fewSuccesses x (k + 1) (j + 1) = (1 - x) * fewSuccesses x k j + x * fewSuccesses x k (j + 1) := by
  unfold fewSuccesses
  rw [Finset.sum_range_succ', Finset.sum_range_succ' (n := j), Finset.mul_sum, mul_add, Finset.mul_sum, ← add_assoc,
    ← Finset.sum_add_distrib]
  congr 1
  · refine Finset.sum_congr rfl fun i _ => ?_
    rcases Nat.lt_or_ge k (i + 1) with hk | hk
    · rw [Nat.choose_succ_succ, Nat.choose_eq_zero_of_lt hk]
      rw [show k + 1 - (i + 1) = k - i by omega]
      push_cast; ring
    · rw [Nat.choose_succ_succ, show k + 1 - (i + 1) = k - i by omega, show k - i = (k - (i + 1)) + 1 by omega]
      push_cast; ring
  · simp only [Nat.choose_zero_right, Nat.cast_one, pow_zero, Nat.sub_zero]; ring

theorem fewSuccesses_nonneg {x : ℚ} (h0 : 0 ≤ x) (h1 : x ≤ 1) (k j : Nat) : 0 ≤ fewSuccesses x k j := by
  unfold fewSuccesses
  refine Finset.sum_nonneg fun i _ => ?_
  have : 0 ≤ 1 - x := by linarith
  positivity

theorem fewSuccesses_mono {x : ℚ} (h0 : 0 ≤ x) (h1 : x ≤ 1) (k j : Nat) : fewSuccesses x k j ≤ fewSuccesses x k (j + 1) := by
  unfold fewSuccesses
  rw [Finset.sum_range_succ]
  have : 0 ≤ 1 - x := by linarith
  have : 0 ≤ (k.choose j : ℚ) * (1 - x) ^ j * x ^ (k - j) := by positivity
  linarith

theorem fewSuccesses_succ_le {x : ℚ} (h0 : 0 ≤ x) (h1 : x ≤ 1) (k j : Nat) : fewSuccesses x (k + 1) j ≤ fewSuccesses x k j := by
  rcases j with _ | j
  · rw [fewSuccesses_zero_right, fewSuccesses_zero_right]
  · rw [fewSuccesses_succ]
    have := mul_nonneg (sub_nonneg.2 h1) (sub_nonneg.2 (fewSuccesses_mono h0 h1 k j))
    linarith

theorem sum_fewSuccesses_le {x : ℚ} (h0 : 0 ≤ x) (h1 : x < 1) (k j : Nat) :
    ∑ s ∈ Finset.range k, fewSuccesses x s j ≤ j / (1 - x) := by
  have hx : 0 < 1 - x := by linarith
  induction j with
  | zero => simp [fewSuccesses_zero_right]
  | succ j ih =>
    have e : ∑ s ∈ Finset.range (k + 1), fewSuccesses x s (j + 1) =
        (1 - x) * ∑ s ∈ Finset.range k, fewSuccesses x s j + x * ∑ s ∈ Finset.range k, fewSuccesses x s (j + 1) + 1 := by
      rw [Finset.sum_range_succ', fewSuccesses_zero_left, Finset.mul_sum, Finset.mul_sum, ← Finset.sum_add_distrib]
      simp only [fewSuccesses_succ]
    have hle : ∑ s ∈ Finset.range k, fewSuccesses x s (j + 1) ≤ ∑ s ∈ Finset.range (k + 1), fewSuccesses x s (j + 1) := by
      rw [Finset.sum_range_succ]
      have := fewSuccesses_nonneg h0 h1.le k (j + 1)
      linarith
    rw [le_div_iff₀ hx] at ih ⊢
    push_cast
    nlinarith

/-- The probability of fewer than `j` successes in `k` trials is at most `j / ((1 - x) k)`. -/
theorem fewSuccesses_le {x : ℚ} (h0 : 0 ≤ x) (h1 : x < 1) (k j : Nat) : fewSuccesses x k j * k ≤ j / (1 - x) := by
  refine le_trans ?_ (sum_fewSuccesses_le h0 h1 k j)
  have hanti : ∀ d s, fewSuccesses x (s + d) j ≤ fewSuccesses x s j := by
    intro d s
    induction d with
    | zero => exact le_rfl
    | succ d ih => exact (fewSuccesses_succ_le h0 h1.le _ _).trans ih
  have : ∑ _s ∈ Finset.range k, fewSuccesses x k j ≤ ∑ s ∈ Finset.range k, fewSuccesses x s j := by
    refine Finset.sum_le_sum fun s hs => ?_
    have := hanti (k - s) s
    rwa [show s + (k - s) = k by have := Finset.mem_range.1 hs; omega] at this
  simpa [mul_comm] using this

theorem fewSuccesses_tendsto {x : ℚ} (h0 : 0 ≤ x) (h1 : x < 1) (j : Nat) {ε : ℚ} (hε : 0 < ε) :
    ∃ K, ∀ k, K ≤ k → fewSuccesses x k j ≤ ε := by
  obtain ⟨K, hK⟩ := exists_nat_gt (j / (1 - x) / ε)
  refine ⟨K, fun k hk => ?_⟩
  by_contra hlt
  have hlt := lt_of_not_ge hlt
  have h2 := fewSuccesses_le h0 h1 k j
  rw [div_lt_iff₀ hε] at hK
  have hkq : (K : ℚ) ≤ k := by exact_mod_cast hk
  have hk0 : (0 : ℚ) ≤ K := by positivity
  nlinarith

/-! ### The loop -/

variable {I : Type} [Individual I] {Mo U A P Q : Type}

section
variable {M : EvoModel I Mo U} {alg : EvoAlgo I Mo U A P} {elite size : A → Nat} {eliteOf : P → Nat}

/-- The number of calls of `progress` so far; 0 for a run that failed. -/
def callsOf : Res (Bool × RunState I A Q) → ℚ
  | .ok r => r.2.shown.length
  | _ => 0

variable (hstd : Standard M alg elite size eliteOf) (envs : Nat → Env I) (henv : ∀ t, (envs t).Lawful)
  (hb : M.BreedsValid) (hv : ValidNotNaN I) (he : EqFitness I) (progress : Q → Population I → Prog (Bool × Q))
  (level : Nat → F64) (q : Nat → ℚ) (hq0 : ∀ i, 0 ≤ q i) (hq1 : ∀ i, q i ≤ 1) (m e n L : Nat) (hm : 2 ≤ m) (hsz : m + e ≤ n)
  (hel : 1 ≤ e) (R : RunState I A Q → Prop)
  (hR : ∀ st q', R st → R { st with q := q', shown := st.shown ++ [st.population] })
  (hstep : ∀ t st st', R st → (generationStep alg (envs t) st).yields (.ok st') → R st')
  (hbreed : ∀ t st a i, R st → GoodPop st.population → i < L → Reached (level i) st.population →
    (alg.prepare (envs t).num st.algo st.population).yields (.ok a) →
    (M.breed (envs t).num (alg.model a) st.population (alg.repro a).1).prob
      (fun c => ¬ (level (i + 1)).le (fitness c) = true) ≤ q i)

include hstd henv hb hv he hq0 hq1 hm hsz hel hR hstep hbreed

omit hq1 in
/-- After one generation the next level is reached, except with probability `q i ^ m`; the present one is reached anyway. -/
theorem ladder_step (t i : Nat) (hi : i < L) (st : RunState I A Q) (q' : Q)
    (h1 : R st) (h2 : GoodPop st.population) (h3 : elite st.algo = e) (h4 : size st.algo = n)
    (h5 : Reached (level i) st.population) (hqi : q i ≤ 1) :
    (generationStep alg (envs t) { st with q := q', shown := st.shown ++ [st.population] }).prob
      (fun st' => ¬ Reached (level (i + 1)) st'.population) ≤ q i ^ m :=
  prob_step_missed hstd (henv t) he (level (i + 1)) (q i) (hq0 i) hqi m { st with q := q', shown := st.shown ++ [st.population] } hm
    (by rw [show elite _ = e from h3, show size _ = n from h4]; exact hsz)
    fun a ha => hbreed t _ a i (hR st q' h1) h2 hi h5 ha

omit hq0 hq1 hm hsz hbreed in
/-- What a generation keeps. -/
theorem ladder_next (t i : Nat) (st st1 : RunState I A Q) (q' : Q)
    (h1 : R st) (h2 : GoodPop st.population) (h3 : elite st.algo = e) (h4 : size st.algo = n)
    (h5 : Reached (level i) st.population)
    (hs1 : (generationStep alg (envs t) { st with q := q', shown := st.shown ++ [st.population] }).yields (.ok st1)) :
    R st1 ∧ GoodPop st1.population ∧ elite st1.algo = e ∧ size st1.algo = n ∧ Reached (level i) st1.population ∧
      st1.shown = st.shown ++ [st.population] := by
  have hf := hstd.step (henv t) hs1
  exact ⟨hstep t _ _ (hR st q' h1) hs1, hf.good (henv t) hb hv h2, hf.eliteEq.trans h3, hf.sizeEq.trans h4,
    hf.reached (henv t) hb hv he h2 (by rw [show elite _ = e from h3]; exact hel) h5, hf.shown⟩

/-- The loop goes on for `fuel` generations without having climbed `j` levels. -/
theorem prob_ladder_missed (x : ℚ) (hx0 : 0 ≤ x) (hx1 : x ≤ 1) (hqx : ∀ i, i < L → q i ^ m ≤ x) (fuel t j : Nat)
    (hj : j ≤ L) (st : RunState I A Q)
    (h1 : R st) (h2 : GoodPop st.population) (h3 : elite st.algo = e) (h4 : size st.algo = n)
    (h5 : Reached (level (L - j)) st.population) :
    (evolveLoop alg envs progress fuel t st).prob (fun r => r.1 = false ∧ ¬ Reached (level L) r.2.population) ≤
      fewSuccesses x fuel j := by
  induction fuel generalizing t st j with
  | zero =>
    rcases j with _ | j
    · rw [fewSuccesses_zero_right]
      refine (prob_eq_zero _ _ ?_).le
      rintro ⟨b, s⟩ h; cases h; simpa using h5
    · rw [fewSuccesses_zero_left]; exact prob_le_one _ _
  | succ fuel ih =>
    rw [evolveLoop]
    have hnn := fewSuccesses_nonneg hx0 hx1 (fuel + 1) j
    refine prob_bind_le_const _ _ _ _ hnn fun ⟨cont, q'⟩ _ => ?_
    cases cont
    · simp only [Bool.false_eq_true, if_false]
      refine (prob_eq_zero _ _ ?_).trans_le hnn
      rintro ⟨b, s⟩ h; cases h; simp
    · simp only [if_true]
      have hnext := fun i st1 h5 hs1 => ladder_next hstd envs henv hb hv he level e n hel R hR hstep t i st st1 q' h1 h2 h3 h4 h5 hs1
      rcases j with _ | j
      · rw [fewSuccesses_zero_right]
        refine prob_bind_le_const _ _ _ _ le_rfl fun st1 hs1 => ?_
        obtain ⟨n1, n2, n3, n4, n5, -⟩ := hnext _ _ h5 hs1
        exact (ih (t + 1) 0 (by omega) st1 n1 n2 n3 n4 n5).trans_eq (fewSuccesses_zero_right _ _)
      · rw [fewSuccesses_succ]
        have hi : L - (j + 1) < L := by omega
        have hi' : L - (j + 1) + 1 = L - j := by omega
        have hst := ladder_step hstd envs henv hb hv he level q hq0 m e n L hm hsz hel R hR hstep hbreed t (L - (j + 1)) hi st q'
          h1 h2 h3 h4 h5 (hq1 _)
        rw [hi'] at hst
        have := prob_bind_mix _ (fun st1 => evolveLoop alg envs progress fuel (t + 1) st1) (fun a => a.1 = false ∧ ¬ Reached (level L) a.2.population)
          (fun st' => ¬ Reached (level (L - j)) st'.population) (fewSuccesses x fuel j) (fewSuccesses x fuel (j + 1)) x
          (fewSuccesses_nonneg hx0 hx1 _ _) (fewSuccesses_mono hx0 hx1 _ _)
          (fun st1 hs1 hr => by
            obtain ⟨n1, n2, n3, n4, -⟩ := hnext _ _ h5 hs1
            exact ih (t + 1) j (by omega) st1 n1 n2 n3 n4 (not_not.1 hr))
          (fun st1 hs1 hr => by
            obtain ⟨n1, n2, n3, n4, n5, -⟩ := hnext _ _ h5 hs1
            exact ih (t + 1) (j + 1) hj st1 n1 n2 n3 n4 n5)
          (hst.trans (hqx _ hi))
        refine le_trans this (le_of_eq ?_)
        ring

/-- If `progress` stops at the top, the loop has not ended after `fuel + 1` calls. -/
theorem prob_ladder_runs (hstop : ∀ q pop q', GoodPop pop → Reached (level L) pop → ¬ (progress q pop).yields (.ok (true, q')))
    (x : ℚ) (hx0 : 0 ≤ x) (hx1 : x ≤ 1) (hqx : ∀ i, i < L → q i ^ m ≤ x) (fuel t j : Nat)
    (hj : j ≤ L) (st : RunState I A Q)
    (h1 : R st) (h2 : GoodPop st.population) (h3 : elite st.algo = e) (h4 : size st.algo = n)
    (h5 : Reached (level (L - j)) st.population) :
    (evolveLoop alg envs progress (fuel + 1) t st).prob (fun r => r.1 = false) ≤ fewSuccesses x fuel j := by
  have hbase : ∀ fuel t (st : RunState I A Q), GoodPop st.population → Reached (level L) st.population →
      (evolveLoop alg envs progress (fuel + 1) t st).prob (fun r => r.1 = false) = 0 := by
    intro fuel t st hg hr
    refine prob_eq_zero _ _ ?_
    rintro ⟨b, s⟩ hbs hno
    rcases (yields_evolveLoop_succ _ _ _ _ _ _ _).1 hbs with ⟨q1, _, r⟩ | ⟨q1, st2, g, _⟩
    · cases r; cases hno
    · exact hstop _ _ _ hg hr g
  induction fuel generalizing t st j with
  | zero =>
    rcases j with _ | j
    · rw [fewSuccesses_zero_right, hbase _ _ _ h2 h5]
    · rw [fewSuccesses_zero_left]; exact prob_le_one _ _
  | succ fuel ih =>
    rcases j with _ | j
    · rw [fewSuccesses_zero_right, hbase _ _ _ h2 h5]
    rw [evolveLoop]
    have hnn := fewSuccesses_nonneg hx0 hx1 (fuel + 1) (j + 1)
    refine prob_bind_le_const _ _ _ _ hnn fun ⟨cont, q'⟩ _ => ?_
    cases cont
    · simp only [Bool.false_eq_true, if_false]
      refine (prob_eq_zero _ _ ?_).trans_le hnn
      rintro ⟨b, s⟩ h; cases h; simp
    · simp only [if_true]
      have hnext := fun i st1 h5 hs1 => ladder_next hstd envs henv hb hv he level e n hel R hR hstep t i st st1 q' h1 h2 h3 h4 h5 hs1
      rw [fewSuccesses_succ]
      have hi : L - (j + 1) < L := by omega
      have hi' : L - (j + 1) + 1 = L - j := by omega
      have hst := ladder_step hstd envs henv hb hv he level q hq0 m e n L hm hsz hel R hR hstep hbreed t (L - (j + 1)) hi st q'
        h1 h2 h3 h4 h5 (hq1 _)
      rw [hi'] at hst
      have := prob_bind_mix _ (fun st1 => evolveLoop alg envs progress (fuel + 1) (t + 1) st1) (fun a => a.1 = false)
        (fun st' => ¬ Reached (level (L - j)) st'.population) (fewSuccesses x fuel j) (fewSuccesses x fuel (j + 1)) x
        (fewSuccesses_nonneg hx0 hx1 _ _) (fewSuccesses_mono hx0 hx1 _ _)
        (fun st1 hs1 hr => by
          obtain ⟨n1, n2, n3, n4, -⟩ := hnext _ _ h5 hs1
          exact ih (t + 1) j (by omega) st1 n1 n2 n3 n4 (not_not.1 hr))
        (fun st1 hs1 hr => by
          obtain ⟨n1, n2, n3, n4, n5, -⟩ := hnext _ _ h5 hs1
          exact ih (t + 1) (j + 1) hj st1 n1 n2 n3 n4 n5)
        (hst.trans (hqx _ hi))
      refine le_trans this (le_of_eq ?_)
      ring

/-- The expected number of calls of `progress`, if it stops at the top. -/
theorem expect_ladder_calls (hstop : ∀ q pop q', GoodPop pop → Reached (level L) pop → ¬ (progress q pop).yields (.ok (true, q')))
    (x : Nat → ℚ) (hx1 : ∀ i, i < L → x i < 1) (hqx : ∀ i, i < L → q i ^ m ≤ x i) (fuel t i : Nat)
    (hi : i ≤ L) (st : RunState I A Q)
    (h1 : R st) (h2 : GoodPop st.population) (h3 : elite st.algo = e) (h4 : size st.algo = n)
    (h5 : Reached (level i) st.population) :
    (evolveLoop alg envs progress fuel t st).expect callsOf ≤
      st.shown.length + 1 + ∑ s ∈ Finset.Ico i L, 1 / (1 - x s) := by
  have hpos : ∀ i, 0 ≤ ∑ s ∈ Finset.Ico i L, 1 / (1 - x s) := fun i =>
    Finset.sum_nonneg fun s hs => one_div_nonneg.2 (by have := hx1 s (Finset.mem_Ico.1 hs).2; linarith)
  have hl0 : (0 : ℚ) ≤ st.shown.length := by positivity
  induction fuel generalizing t st i with
  | zero =>
    show callsOf (.ok (false, st)) ≤ _
    have := hpos i
    simp only [callsOf]; linarith
  | succ fuel ih =>
    rw [evolveLoop]
    have hp := hpos i
    refine expect_bind_le_const _ _ _ _ (by simp only [callsOf]; linarith) (by simp only [callsOf]; linarith)
      fun ⟨cont, q'⟩ hq' => ?_
    cases cont
    · simp only [Bool.false_eq_true, if_false]
      show callsOf (.ok (true, _)) ≤ _
      simp only [callsOf, List.length_append, List.length_singleton, Nat.cast_add, Nat.cast_one]
      linarith
    · simp only [if_true]
      have hnext := fun i st1 h5 hs1 => ladder_next hstd envs henv hb hv he level e n hel R hR hstep t i st st1 q' h1 h2 h3 h4 h5 hs1
      have hlt : i < L := by
        rcases Nat.lt_or_ge i L with h | h
        · exact h
        · exact absurd hq' (hstop _ _ _ h2 (by rwa [show L = i by omega]))
      have hst := ladder_step hstd envs henv hb hv he level q hq0 m e n L hm hsz hel R hR hstep hbreed t i hlt st q'
        h1 h2 h3 h4 h5 (hq1 _)
      have hsum : ∑ s ∈ Finset.Ico i L, 1 / (1 - x s) = 1 / (1 - x i) + ∑ s ∈ Finset.Ico (i + 1) L, 1 / (1 - x s) :=
        Finset.sum_eq_sum_Ico_succ_bot hlt _
      have hp1 := hpos (i + 1)
      have hxi := hx1 i hlt
      have hinv : 0 < 1 / (1 - x i) := one_div_pos.2 (by linarith)
      have hlen : ∀ st1 : RunState I A Q, st1.shown = st.shown ++ [st.population] →
          (st1.shown.length : ℚ) = st.shown.length + 1 := fun st1 h => by rw [h]; simp
      have := expect_bind_split _ (fun st1 => evolveLoop alg envs progress fuel (t + 1) st1) callsOf
        (fun st' => ¬ Reached (level (i + 1)) st'.population)
        (st.shown.length + 1 + 1 + ∑ s ∈ Finset.Ico (i + 1) L, 1 / (1 - x s))
        (st.shown.length + 1 + 1 + ∑ s ∈ Finset.Ico i L, 1 / (1 - x s)) (x i)
        (by simp only [callsOf]; linarith) (by simp only [callsOf]; linarith) (by linarith)
        (fun st1 hs1 hr => by
          obtain ⟨n1, n2, n3, n4, -, n6⟩ := hnext _ _ h5 hs1
          have := ih (t + 1) (i + 1) (by omega) st1 n1 n2 n3 n4 (not_not.1 hr) (by positivity)
          rwa [hlen st1 n6] at this)
        (fun st1 hs1 hr => by
          obtain ⟨n1, n2, n3, n4, n5, n6⟩ := hnext _ _ h5 hs1
          have := ih (t + 1) i hi st1 n1 n2 n3 n4 n5 (by positivity)
          rwa [hlen st1 n6] at this)
        (hst.trans (hqx _ hlt))
      refine le_trans this (le_of_eq ?_)
      rw [hsum]
      have : (1 - x i) ≠ 0 := by linarith
      field_simp
      ring

end

/-! ### Breeding -/

/-- If a parent with `S` is selected with probability at least `σ`, no crossover takes place with probability at least `κ`, the
mutation fires with probability at least `ρ` and then, unless the parent has the level already, reaches the level with probability
at least `δ`, breeding misses the level with probability at most `1 - σ κ ρ δ`. -/
theorem prob_breed_improves (M : EvoOps I Mo U)
    (hcs : M.canSurvive = fun _ offspring parent _ => pure ((fitness parent).le (fitness offspring)))
    (env : NumEnv) (model : Mo) (p : Population I) (r : ReproParams U) (S : I → Prop) [DecidablePred S]
    (hnan : ∀ x, S x → (fitness x).isNaN = false)
    (target : F64) (σ κ ρ δ : ℚ) (hκ0 : 0 ≤ κ) (hκ1 : κ ≤ 1) (hρ0 : 0 ≤ ρ) (hδ : 0 ≤ δ) (hδ1 : δ ≤ 1)
    (hσ : σ ≤ (r.parentSelector.select env M.selectors p).prob fun x => S x.2)
    (hκ : κ ≤ genF64.prob (fun u => ¬ u.lt r.crossoverRate = true))
    (hρ : ρ ≤ genF64.prob (fun u => u.lt r.mutationRate = true))
    (htotal : ∀ o, S o → Always (fun _ => True) (M.mutate model o >>= fun o => M.improve model o >>= fun o => M.evaluate model o))
    (hmut : ∀ o, S o → target.le (fitness o) = false → δ ≤ (M.mutate model o >>= fun o => M.improve model o >>= fun o => M.evaluate model o).prob
      (fun c => isValid c = true ∧ target.le (fitness c) = true)) :
    (defaultBreed M env model p r).prob (fun c => ¬ target.le (fitness c) = true) ≤ 1 - σ * κ * ρ * δ := by
  suffices h : σ * κ * ρ * δ ≤ (defaultBreed M env model p r).prob (fun c => target.le (fitness c) = true) by
    have := prob_add_not (defaultBreed M env model p r) (fun c => target.le (fitness c) = true)
    linarith
  rw [defaultBreed_eq]
  have hpar : σ * κ ≤ (breedParents M env p r).prob (fun ps => S ps.1 ∧ ps.2 = none) := by
    unfold breedParents
    refine le_trans ?_ (mul_prob_le_bind _ _ (fun x => S x.2) _ κ fun x _ hx => ?_)
    · rw [mul_comm]; exact mul_le_mul_of_nonneg_left hσ hκ0
    · have key : κ ≤ (if p.len > 1 then genF64 >>= fun u => pure (u.lt r.crossoverRate) else pure false : Prog Bool).prob
          (fun c => c = false) := by
        split
        · refine hκ.trans ?_
          refine prob_le_bind _ _ _ _ fun u _ hu => ?_
          simp only [Bool.not_eq_true] at hu
          simp [hu]
        · simpa using hκ1
      refine key.trans (prob_le_bind _ _ _ _ fun c _ hc => ?_)
      subst hc
      simp [hx]
  have hgoal : ∀ ps : I × Option I, S ps.1 ∧ ps.2 = none → ρ * δ ≤ (breedStart M model ps.1 ps.2 >>= fun o =>
      breedMutate M model r.mutationRate o >>= fun o => breedEnd M model p (fitterParent ps.1 ps.2) o).prob
        (fun c => target.le (fitness c) = true) := by
    rintro ⟨x, o2⟩ ⟨hx, ho⟩
    have hx : S x := hx
    cases (show o2 = none from ho)
    show ρ * δ ≤ (pure x >>= fun o => breedMutate M model r.mutationRate o >>= fun o => breedEnd M model p x o).prob _
    rw [bind_pure_left]
    unfold breedMutate
    rw [bind_assoc]
    refine le_trans ?_ (mul_prob_le_bind _ _ (fun u => u.lt r.mutationRate = true) _ δ fun u _ hu => ?_)
    · rw [mul_comm]; exact mul_le_mul_of_nonneg_left hρ hδ
    · rw [if_pos hu]
      have e : (M.mutate model x >>= fun o => breedEnd M model p x o) =
          (M.mutate model x >>= fun o => M.improve model o >>= fun o => M.evaluate model o) >>= fun c =>
            (if isValid c then M.canSurvive model c x p else pure false) >>= fun survives => pure (if survives then c else x) := by
        unfold breedEnd; simp only [bind_assoc]
      rw [e]
      cases hreached : target.le (fitness x) with
      | true =>
        refine hδ1.trans ((prob_eq_one_of_always _ _ (htotal x hx)).ge.trans (prob_le_bind _ _ (fun _ => True) _ fun c _ _ => ?_))
        rw [hcs]
        split
        · simp only [Prog.bind_pure_left, prob_pure]
          rw [if_pos]
          cases hle : (fitness x).le (fitness c) with
          | true => simpa using F64.le_trans hreached hle
          | false => simpa using hreached
        · simp only [Prog.bind_pure_left, prob_pure]
          rw [if_pos]
          simpa using hreached
      | false =>
      refine (hmut x hx hreached).trans (prob_le_bind _ _ _ _ fun c _ hc => ?_)
      obtain ⟨hc1, hc2⟩ := hc
      rw [if_pos hc1, hcs]
      simp only [Prog.bind_pure_left, prob_pure]
      rw [if_pos]
      cases hle : (fitness x).le (fitness c) with
      | true => simpa using hc2
      | false =>
        simp only [Bool.false_eq_true, if_false]
        obtain ⟨t1, t2, t3⟩ := F64.le_iff.1 hc2
        have hfn := hnan x hx
        refine F64.le_iff.2 ⟨t1, hfn, ?_⟩
        by_contra hlt
        have : (fitness x).le (fitness c) = true := F64.le_iff.2 ⟨hfn, t2, (le_of_not_ge hlt).trans t3⟩
        rw [this] at hle; cases hle
  refine le_trans ?_ (mul_prob_le_bind _ _ (fun ps => S ps.1 ∧ ps.2 = none) _ (ρ * δ) fun ps _ hps => hgoal ps hps)
  calc σ * κ * ρ * δ = ρ * δ * (σ * κ) := by ring
    _ ≤ _ := mul_le_mul_of_nonneg_left hpar (mul_nonneg hρ0 hδ)

end RG
