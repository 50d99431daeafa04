import Verif.Props.Potential
import Verif.Props.FromIndividual

/-!
# C136 — Lower bounds on the length of `run` and `evolve_individual`

C114 carries upper bounds on the number of calls of `progress` over to `run` and `evolve_individual`. Here are lower bounds, and
what C135 then says about `evolve_individual` on OneMax without crossover.
-/

set_option linter.unusedSectionVars false

namespace RG.Props
open RG RG.Prog
variable {I : Type} [Individual I] {Mo U A P Q : Type} {M : EvoModel I Mo U} {alg : EvoAlgo I Mo U A P} {elite size : A → Nat}
  {eliteOf : P → Nat} {envs : Nat → Env I}

/-- Taking the fittest individual at the end changes neither the number of calls nor whether the run has ended. -/
theorem takes_exactly (p : Prog (Bool × RunState I A Q)) (h : ∀ st, p.yields (.ok (true, st)) → st.population.WF) (B : ℚ) :
    (p >>= takeResult).expect callsIn + B * (p >>= takeResult).prob (fun r => r.1.isNone = true) =
      p.expect callsOf + B * p.prob (fun r => r.1 = false) := by
  unfold prob
  rw [expect_bind, expect_bind]
  congr 1
  · refine expect_congr _ _ _ fun r hr => ?_
    rcases r with ⟨b, st⟩ | _ | _
    · cases b
      · rfl
      · obtain ⟨f1, f2⟩ := (h st hr).fittest_ok
        unfold takeResult
        simp only [if_true]
        rw [f2, f1, lift_ok, bind_pure_left]
        rfl
    · rfl
    · rfl
  · congr 1
    refine expect_congr _ _ _ fun r hr => ?_
    rcases r with ⟨b, st⟩ | _ | _
    · cases b
      · rfl
      · obtain ⟨f1, f2⟩ := (h st hr).fittest_ok
        unfold takeResult
        simp only [if_true]
        rw [f2, f1, lift_ok, bind_pure_left]
        rfl
    · rfl
    · rfl

theorem le_expect_bind_of_always {α β : Type} (p : Prog α) (f : α → Prog β) (g : Res β → ℚ) (c : ℚ) {S : α → Prop} (h : Always S p)
    (hf : ∀ a, p.yields (.ok a) → S a → c ≤ (f a).expect g) : c ≤ (p >>= f).expect g := by
  rw [expect_bind, ← expect_const p c]
  refine expect_mono p _ _ fun r hr => ?_
  obtain ⟨a, rfl, ha⟩ := h r hr
  exact hf a hr ha

/-- What a run costs: the calls, and `B` if it has not ended. -/
def costIn (B : ℚ) : Res (Option I × RunState I A Q) → ℚ := fun r => callsIn r + B * (match r with
  | .ok a => if a.1.isNone = true then 1 else 0
  | _ => 0)

theorem expect_costIn (B : ℚ) (p : Prog (Option I × RunState I A Q)) :
    p.expect (costIn B) = p.expect callsIn + B * p.prob (fun r => r.1.isNone = true) := by
  unfold costIn prob
  rw [expect_add, expect_mul_left]
  congr 2
  exact expect_congr _ _ _ fun r _ => by cases r <;> rfl

/-- **C136** If runs from all the initial populations that can occur make at least `c` calls of `progress` on average, but for `B` times the
probability that they have not ended, then so do `run` and `evolve_individual`, which have not ended if they have returned no individual. -/
theorem C136_calls (hstd : Standard M alg elite size eliteOf) (henv : ∀ t, (envs t).Lawful) (hb : M.BreedsValid) (hv : ValidNotNaN I)
    (progress : Q → Population I → Prog (Bool × Q)) (fuel : Nat) (a : A) (p : P) (q : Q) (c B : ℚ) :
    (∀ newRandom, Always (fun init => c ≤ (evolvePopulation alg envs progress fuel a init p q).expect callsOf +
        B * (evolvePopulation alg envs progress fuel a init p q).prob (fun r => r.1 = false))
        (M.extend (alg.model a) newRandom [] (alg.initialSize p)) →
      c ≤ (runRandom M alg envs progress fuel a newRandom p q).expect callsIn +
        B * (runRandom M alg envs progress fuel a newRandom p q).prob (fun r => r.1.isNone = true)) ∧
    (∀ x, Always (fun init => c ≤ (evolvePopulation alg envs progress fuel a init p q).expect callsOf +
        B * (evolvePopulation alg envs progress fuel a init p q).prob (fun r => r.1 = false))
        (M.extendWith (alg.model a) [] (alg.initialSize p) x) →
      c ≤ (evolveIndividual M alg envs progress fuel a x p q).expect callsIn +
        B * (evolveIndividual M alg envs progress fuel a x p q).prob (fun r => r.1.isNone = true)) := by
  have key : ∀ init, c ≤ (evolvePopulation alg envs progress fuel a init p q).expect callsOf +
        B * (evolvePopulation alg envs progress fuel a init p q).prob (fun r => r.1 = false) →
      c ≤ (evolvePopulation alg envs progress fuel a init p q >>= takeResult).expect (costIn B) := fun init h => by
    rw [expect_costIn, takes_exactly _ fun st hst =>
      (ended_good hstd henv hb hv progress (fun _ => True) (fun _ _ _ _ _ => trivial) fuel a init p q st hst).1.wf]
    exact h
  constructor
  · intro newRandom h
    rw [← expect_costIn]
    exact le_expect_bind_of_always _ _ _ _ h fun init _ hi => key init hi
  · intro x h
    rw [← expect_costIn]
    exact le_expect_bind_of_always _ _ _ _ h fun init _ hi => key init hi

/-! ### OneMax without crossover -/

section
variable {envs : Nat → Env OneMax} {n : Nat} {x : OneMax}

/-- A mutant has at most one more `true` bit, and no more than fit. -/
theorem oneMax_mutants_ones (hn : n ≠ 0) (hx : x.genome.length = n) :
    Always (fun y : OneMax => y.genome.length = n ∧ ones y.genome ≤ min (ones x.genome + 1) n) (OneMax.model.mutate () x) :=
  ((oneMax_mutants hn hx).and (Q := fun y => ones y.genome ≤ ones x.genome + 1) fun y hy =>
    (oneMax_paced_mutation (ones x.genome)).mutate () 0 x y (Nat.le_refl _) hy).mono fun _ ⟨h1, h2⟩ =>
      ⟨h1, le_min h2 (h1 ▸ List.count_le_length)⟩

/-- If nearly all runs end with a result, few end without one. -/
theorem few_unended (p : Prog (Option OneMax × RunState OneMax A Q)) (g : OneMax → Bool) {ε : ℚ}
    (h : 1 - ε ≤ p.prob (fun r => r.1.any g = true)) : p.prob (fun r => r.1.isNone = true) ≤ ε := by
  have h1 := prob_add_not p (fun r => r.1.any g = true)
  have h2 := prob_mono p (fun r => r.1.isNone = true) (fun r => ¬ r.1.any g = true) fun r _ hr => by
    rw [Option.isNone_iff_eq_none.1 hr]; simp
  linarith

/-- **C136** OneMax from one genome with a `true` bit and crossover rate zero: `evolve_individual` of the genetic algorithm, stopped when the
fitness 1 is reached, calls `progress` at least `1 + (n - 1) H(n - b - 1) / (N φ)` times on average, up to any `ε` if it is given enough
time, where `b` is the number of `true` bits of the genome, `N` the population size and `φ` the mutation rate, rounded up to a multiple of
`2 ^ -53`. C114 has an upper bound. -/
theorem C136_one_max {p : GaParams} (h : OneMaxRun envs p [x] n) (a : Ga Unit Empty) (hρ : 0 < p.mutationRate.val)
    (hx : F64.zero.lt p.crossoverRate = false)
    (progress : Q → Population OneMax → Prog (Bool × Q)) (hpr : ∀ q p, p.WF → Always (fun _ => True) (progress q p))
    (hstop : ∀ q pop b q', GoodPop pop → (progress q pop).yields (.ok (b, q')) → (b = false ↔ Reached F64.one pop)) (q : Q) :
    ∀ ε : ℚ, 0 < ε → ∃ K, ∀ k, K ≤ k →
      1 + ((n : ℚ) - 1) * harmonic (n - ones x.genome - 1) / (p.populationSize * ((⌈p.mutationRate.val * 2 ^ 53⌉ : ℤ) / 2 ^ 53)) - ε ≤
        (evolveIndividual OneMax.model (ga OneMax.model) envs progress k a x p q).expect callsIn := by
  intro ε hε
  obtain ⟨h2, hn⟩ := h.bits
  have htwo := h.two
  have hlen : x.genome.length = n := h.lengths x (by simp)
  set D : ℚ := p.populationSize * ((⌈p.mutationRate.val * 2 ^ 53⌉ : ℤ) / 2 ^ 53) with hD
  have hD0 : 0 ≤ D := mul_nonneg (Nat.cast_nonneg _)
    (div_nonneg (by exact_mod_cast Int.ceil_nonneg (mul_nonneg hρ.le (by positivity))) (by positivity))
  have hB : 0 < onesTime n 0 / D + 1 := by
    have := div_nonneg (onesTime_nonneg n 0) hD0
    linarith
  obtain ⟨K, hK⟩ := (C114_oneMax h a hρ progress hpr hstop q).2.1 (ε / (onesTime n 0 / D + 1)) (div_pos hε hB)
  refine ⟨K, fun k hk => ?_⟩
  have h1 := few_unended _ _ (hK k hk)
  have h2 := (C136_calls (ga_standard OneMax.model) h.env oneMax_breedsValid validNotNaN_default progress k a p q
    (1 + ((n : ℚ) - 1) * harmonic (n - ones x.genome - 1) / D) (onesTime n 0 / D + 1)).2 x
    ((extendWith_always OneMax.model.toEvoOps () _ x ⟨hlen, le_min (Nat.le_succ _) (hlen ▸ List.count_le_length)⟩
      (oneMax_mutants_ones (by omega) hlen) p.populationSize (by omega)).mono fun init ⟨i1, i2, i3⟩ => by
        have := (C135_one_max (h.from init i1 i2 fun y hy => (i3 y hy).1) a hρ hx (min (ones x.genome + 1) n) (fun y hy => (i3 y hy).2)
          (min_le_right _ _) progress hpr (fun q pop q' hg hy => (hstop q pop false q' hg hy).1 rfl) q).1 k
        rwa [show n - min (ones x.genome + 1) n = n - ones x.genome - 1 by omega] at this)
  have h3 := mul_le_mul_of_nonneg_left h1 hB.le
  rw [mul_div_cancel₀ _ hB.ne'] at h3
  linarith

/-- **C136** The same for the adaptive algorithm when its rates are not adjusted and both ends of the crossover range are zero, with 1 for
`φ`. -/
theorem C136_one_max_aga {p : AgaParams} (h : OneMaxAga envs p [x] n) (h0 : p.adjustmentInterval = 0) (a : Aga Unit Empty)
    (hρ : 0 < p.mutationRateRange.start.val) (hx : ZeroRange p.crossoverRateRange)
    (progress : Q → Population OneMax → Prog (Bool × Q)) (hpr : ∀ q p, p.WF → Always (fun _ => True) (progress q p))
    (hstop : ∀ q pop b q', GoodPop pop → (progress q pop).yields (.ok (b, q')) → (b = false ↔ Reached F64.one pop)) (q : Q) :
    ∀ ε : ℚ, 0 < ε → ∃ K, ∀ k, K ≤ k → 1 + ((n : ℚ) - 1) * harmonic (n - ones x.genome - 1) / p.populationSize - ε ≤
      (evolveIndividual OneMax.model (aga OneMax.model) envs progress k a x p q).expect callsIn := by
  intro ε hε
  obtain ⟨h2, hn⟩ := h.bits
  have htwo := h.two
  have hlen : x.genome.length = n := h.lengths x (by simp)
  have hB : 0 < onesTime n 0 / p.populationSize + 1 := by
    have := div_nonneg (onesTime_nonneg n 0) (Nat.cast_nonneg (α := ℚ) p.populationSize)
    linarith
  obtain ⟨K, hK⟩ := (C114_oneMax_aga h h0 a hρ progress hpr hstop q).2.1 (ε / (onesTime n 0 / p.populationSize + 1)) (div_pos hε hB)
  refine ⟨K, fun k hk => ?_⟩
  have h1 := few_unended _ _ (hK k hk)
  have h2 := (C136_calls (aga_standard OneMax.model) h.env oneMax_breedsValid validNotNaN_default progress k a p q
    (1 + ((n : ℚ) - 1) * harmonic (n - ones x.genome - 1) / p.populationSize) (onesTime n 0 / p.populationSize + 1)).2 x
    ((extendWith_always OneMax.model.toEvoOps () _ x ⟨hlen, le_min (Nat.le_succ _) (hlen ▸ List.count_le_length)⟩
      (oneMax_mutants_ones (by omega) hlen) p.populationSize (by omega)).mono fun init ⟨i1, i2, i3⟩ => by
        have := (C135_one_max_aga (h.from h0 init i1 i2 fun y hy => (i3 y hy).1) a hx (min (ones x.genome + 1) n)
          (fun y hy => (i3 y hy).2) (min_le_right _ _) progress hpr (fun q pop q' hg hy => (hstop q pop false q' hg hy).1 rfl) q).1 k
        rwa [show n - min (ones x.genome + 1) n = n - ones x.genome - 1 by omega] at this)
  have h3 := mul_le_mul_of_nonneg_left h1 hB.le
  rw [mul_div_cancel₀ _ hB.ne'] at h3
  linarith

end

/-! ### Examples -/

-- from `01000` with three individuals and a mutation in one of 128: at least 313 calls on average
example : ∃ K, ∀ k, K ≤ k → 313 ≤ (evolveIndividual OneMax.model (ga OneMax.model) (fun _ => oneEnv) untilSolved k (Ga.ofModel ()) loneBit
    slowParams ()).expect callsIn := by
  have h1 : (⌈slowParams.mutationRate.val * 2 ^ 53⌉ : ℤ) = 2 ^ 46 := by decide +kernel
  have h2 : harmonic 3 = 11 / 6 := by decide +kernel
  obtain ⟨K, hK⟩ := C136_one_max slow_run (Ga.ofModel ()) (by decide +kernel) (by decide +kernel) untilSolved (fun q p w => untilSolved_always w)
    (fun q pop b q' hg hy => untilSolved_iff q pop b q' hg hy) () (1 / 2) (by norm_num)
  refine ⟨K, fun k hk => le_trans ?_ (hK k hk)⟩
  rw [h1, show 5 - ones loneBit.genome - 1 = 3 by decide +kernel, h2, show slowParams.populationSize = 3 from rfl]
  norm_num

-- the adaptive algorithm without adjustments
example : ∃ K, ∀ k, K ≤ k → 3.4 ≤ (evolveIndividual OneMax.model (aga OneMax.model) (fun _ => oneEnv) untilSolved k (Aga.ofModel ()) loneBit
    { slowAgaParams with adjustmentInterval := 0 } ()).expect callsIn := by
  have h2 : harmonic 3 = 11 / 6 := by decide +kernel
  have hr : OneMaxAga (fun _ => oneEnv) { slowAgaParams with adjustmentInterval := 0 } [loneBit] 5 :=
    { slow_aga_run with
      len := by simp
      lengths := by simp [loneBit, OneMax.ofGenome]
      seed := ⟨loneBit, by simp, by simp [loneBit, OneMax.ofGenome]⟩
      spread := Or.inl rfl }
  obtain ⟨K, hK⟩ := C136_one_max_aga hr rfl (Aga.ofModel ()) (by decide +kernel) (by unfold ZeroRange; decide +kernel) untilSolved
    (fun q p w => untilSolved_always w) (fun q pop b q' hg hy => untilSolved_iff q pop b q' hg hy) () (1 / 25) (by norm_num)
  refine ⟨K, fun k hk => le_trans ?_ (hK k hk)⟩
  rw [show 5 - ones loneBit.genome - 1 = 3 by decide +kernel, h2, show slowAgaParams.populationSize = 3 from rfl]
  norm_num

end RG.Props
