import Verif.Proofs.Potential
import Verif.Proofs.OneMaxSlow
import Verif.Props.OneMaxAga

/-!
# C135: potential functions

If a function of the population falls on average by at least (at most) a fixed amount in each generation, a run takes at most (at
least) its initial value divided by that amount.
-/

set_option linter.unusedSectionVars false

namespace RG.Props
open RG RG.Prog
variable {I : Type} [Individual I] {Mo U A P Q : Type}

/-- The state at the first call of `progress`. -/
def firstState (a : A) (pop : Population I) (q : Q) : RunState I A Q := { algo := a, population := pop, buffer := [], q, shown := [] }

/-- The state after a call of `progress`. -/
def RunState.called (st : RunState I A Q) (q' : Q) : RunState I A Q := { st with q := q', shown := st.shown ++ [st.population] }

/-- What calls of `progress` and generations keep. -/
structure Invariant (alg : EvoAlgo I Mo U A P) (envs : Nat → Env I) (R : RunState I A Q → Prop) : Prop where
  called : ∀ st q', R st → R (RunState.called st q')
  step : ∀ t st st', R st → (generationStep alg (envs t) st).yields (.ok st') → R st'

section
variable (alg : EvoAlgo I Mo U A P) (envs : Nat → Env I) (progress : Q → Population I → Prog (Bool × Q)) (R : RunState I A Q → Prop)
  (hR : Invariant alg envs R) (V : Population I → ℚ) (δ : ℚ) (hδ : 0 < δ)

include hR hδ

/-- **C135** (upper bound) A potential `V` that is not negative and falls on average by at least `δ` in every generation that takes place: from
populations with `V ≤ v`, a run makes at most `v / δ + 1` calls of `progress` on average. -/
theorem C135_upper (hV : ∀ st, R st → 0 ≤ V st.population)
    (hdrift : ∀ t st q', R st → (progress st.q st.population).yields (.ok (true, q')) →
      (generationStep alg (envs t) (RunState.called st q')).average (fun st' => V st'.population) ≤ V st.population - δ)
    (a : A) (init : List I) (p : P) (q : Q) (v : ℚ) (hv : 0 ≤ v)
    (hinit : ∀ a' pop, alg.configure a p = .ok a' → (alg.initPopulation (envs 0) a' init).yields (.ok pop) →
      R (firstState a' pop q) ∧ V pop ≤ v) (fuel : Nat) :
    (evolvePopulation alg envs progress fuel a init p q).expect callsOf ≤ v / δ + 1 := by
  rw [expect_callsOf]
  have hc : 0 ≤ v / δ + 1 := by positivity
  unfold evolvePopulation
  rw [average_bind]
  refine average_le_const _ _ _ hc fun a' ha' => ?_
  rw [average_bind]
  refine average_le_const _ _ _ hc fun pop hpop => ?_
  obtain ⟨h1, h2⟩ := hinit a' pop ((yields_lift _ _).1 ha').symm hpop
  have := potential_upper alg envs progress R V δ hδ.le hR.called hR.step hV hdrift fuel 1 (firstState a' pop q) h1
  have e : V (firstState a' pop q).population = V pop := rfl
  have e' : ((firstState a' pop q).shown.length : ℚ) = 0 := by simp [firstState]
  rw [e, e'] at this
  rw [div_add_one hδ.ne', le_div_iff₀ hδ, mul_comm]
  exact this.trans (by linarith)

variable (hpr : ∀ st, R st → Always (fun _ => True) (progress st.q st.population))
  (halw : ∀ t st, R st → Always (fun _ => True) (generationStep alg (envs t) st))
  (hstop : ∀ st q', R st → (progress st.q st.population).yields (.ok (false, q')) → V st.population ≤ 0)
  (hdrift : ∀ t st q', R st → (progress st.q st.population).yields (.ok (true, q')) →
    V st.population - δ ≤ (generationStep alg (envs t) (RunState.called st q')).average (fun st' => V st'.population))
  (a a' : A) (init : List I) (p : P) (q : Q) (v : ℚ) (hcfg : alg.configure a p = .ok a')
  (hinit : Always (fun pop => R (firstState a' pop q) ∧ v ≤ V pop) (alg.initPopulation (envs 0) a' init))

include hpr halw hstop hdrift hcfg hinit

/-- **C135** (lower bound) A potential that falls on average by at most `δ` in every generation, if `progress` stops only where it is not
positive: from populations with `v ≤ V`, the mean number of calls is at least `v / δ + 1`, but for what runs that have not ended still
have before them. -/
theorem C135_lower (fuel : Nat) :
    v / δ + 1 ≤ (evolvePopulation alg envs progress fuel a init p q).expect callsOf +
      (evolvePopulation alg envs progress fuel a init p q).average (fun r => if r.1 then 0 else V r.2.population / δ + 1) := by
  rw [expect_callsOf, ← average_add]
  have key : v + δ ≤ (evolvePopulation alg envs progress fuel a init p q).average
      (fun r => δ * ((r.2.shown.length : ℚ) + if r.1 then 0 else V r.2.population / δ + 1)) := by
    unfold evolvePopulation
    rw [hcfg]
    simp only [lift_ok, bind_pure_left]
    rw [average_bind]
    refine le_average_of_always (hinit.mono fun _ _ => trivial) _ _ fun pop hpop => ?_
    obtain ⟨h1, h2⟩ := hinit.partially pop hpop
    have := potential_lower alg envs progress R V δ hδ.le hR.called hR.step hpr halw hstop hdrift fuel 1 (firstState a' pop q) h1
    have e : V (firstState a' pop q).population = V pop := rfl
    have e' : ((firstState a' pop q).shown.length : ℚ) = 0 := by simp [firstState]
    rw [e, e'] at this
    refine le_trans (by linarith) (this.trans_eq (average_congr _ fun r _ => ?_))
    rcases r with ⟨_ | _, st⟩
    · simp only [Bool.false_eq_true, if_false]
      rw [mul_add, mul_add, mul_div_cancel₀ _ hδ.ne', mul_one]
    · simp
  rw [average_mul] at key
  rw [div_add_one hδ.ne', div_le_iff₀ hδ, mul_comm]
  exact key

/-- **C135** (lower bound, bounded potential) If `V ≤ B`, these make a difference of at most `B / δ + 1` times their probability. -/
theorem C135_lower_bounded (B : ℚ) (hB : ∀ pop, V pop ≤ B) (k : Nat) :
    v / δ + 1 ≤ (evolvePopulation alg envs progress k a init p q).expect callsOf +
      (B / δ + 1) * (evolvePopulation alg envs progress k a init p q).prob (fun r => r.1 = false) := by
  refine (C135_lower alg envs progress R hR V δ hδ hpr halw hstop hdrift a a' init p q v hcfg hinit k).trans (add_le_add_right ?_ _)
  rw [← average_indicator, ← average_mul]
  refine average_mono _ fun r _ => ?_
  rcases r with ⟨_ | _, st⟩
  · simp only [Bool.false_eq_true, if_false, if_true, mul_one]
    exact add_le_add_left (div_le_div_of_nonneg_right (hB _) hδ.le) _
  · simp

/-- **C135** (lower bound, almost sure end) If moreover the run ends almost surely, it makes at least `v / δ + 1` calls on average if it is
given enough time, up to any `ε`. -/
theorem C135_lower_limit (B : ℚ) (hB : ∀ pop, V pop ≤ B) (hB0 : 0 ≤ B)
    (hends : ∀ ε : ℚ, 0 < ε → ∃ K, ∀ k, K ≤ k → (evolvePopulation alg envs progress k a init p q).prob (fun r => r.1 = false) ≤ ε)
    (ε : ℚ) (hε : 0 < ε) : ∃ K, ∀ k, K ≤ k → v / δ + 1 - ε ≤ (evolvePopulation alg envs progress k a init p q).expect callsOf := by
  have hpos : 0 < B / δ + 1 := by positivity
  obtain ⟨K, hK⟩ := hends (ε / (B / δ + 1)) (by positivity)
  refine ⟨K, fun k hk => ?_⟩
  have := mul_le_mul_of_nonneg_left (hK k hk) hpos.le
  rw [mul_div_cancel₀ _ hpos.ne'] at this
  have := C135_lower_bounded alg envs progress R hR V δ hδ hpr halw hstop hdrift a a' init p q v hcfg hinit B hB k
  linarith

end

/-! ### OneMax without crossover -/

section
variable {alg : EvoAlgo OneMax Unit Empty A P} {elite size : A → Nat} {eliteOf : P → Nat} {okP : P → Prop} {n : Nat} {init : List OneMax}

/-- In one generation without crossovers, in which mutations take place with probability at most `φ`, the potential
`onesTime n (mostOnes pop)` falls on average by at most `N φ`. -/
theorem onesTime_drift (hstd : Standard OneMax.model alg elite size eliteOf) (halg : SafeAlgo alg okP) (h2 : 2 ≤ n) (hn : n < 2 ^ 53)
    {env : Env OneMax} (henv : env.Lawful) (φ : ℚ) (hf0 : 0 ≤ φ) (hf1 : φ ≤ 1) (st : RunState OneMax A Q)
    (hs : Safe alg elite size (fun x => x.genome.length = n ∧ ∀ b ∈ x.genome, True) st)
    (hev : ∀ x ∈ st.population.individuals, Evaluated OneMax.model x)
    (hrates : ∀ b, (alg.prepare env.num st.algo st.population).yields (.ok b) → F64.zero.lt (alg.repro b).1.crossoverRate = false ∧
      genF64.prob (fun u => u.lt (alg.repro b).1.mutationRate = true) ≤ φ) :
    onesTime n (mostOnes st.population) - size st.algo * φ ≤
      (generationStep alg env st).average (fun st' => onesTime n (mostOnes st'.population)) := by
  have hops := C63_operators (fun _ => True) n (by omega)
  have hN : (0 : ℚ) ≤ size st.algo := Nat.cast_nonneg _
  have hsafe := step_always hstd halg hops env henv st hs
  have halw : Always (fun _ => True) (generationStep alg env st) := hsafe.mono fun _ _ => trivial
  set b := mostOnes st.population with hb
  rcases Nat.lt_or_ge b n with hbn | hbn
  swap
  · rw [onesTime_end hbn]
    refine le_average_of_always halw _ _ fun st' _ => ?_
    have := onesTime_nonneg n (mostOnes st'.population)
    have := mul_nonneg hN hf0
    linarith
  set c := (n * (n - 1) : ℚ) / (b * (n - b))
  have hc0 : 0 ≤ c := onesTime_term hbn
  have hle : ∀ x ∈ st.population.individuals, ones x.genome ≤ b := fun x hx => le_mostOnes hx
  have hno : ¬ Reached (oneLevel n b) st.population := by
    rw [reached_iff_mostOnes hn hbn (fun x hx => (hs.prop x hx).1) hev]
    omega
  have hgc0 := gainChance_nonneg h2 hbn.le
  have hgc1 := gainChance_le_one h2 hbn.le
  have hstep := prob_step_unreached hstd halg hops henv (oneLevel n b) (φ * gainChance n b)
    (mul_nonneg hf0 hgc0) (mul_le_one₀ hf1 hgc0 hgc1) st hs hno fun b' hb' => by
      have hsel := (halg.prepare env.num st.algo st.population hs.sel).partially b' hb'
      have hal := breed_always hops env.num (alg.model b') st.population (alg.repro b').1 hs.wf.ne hs.len hs.prop hsel
      have hsum := prob_add_not_of_always _ (fun c => (oneLevel n b).le (fitness c) = true) hal
      suffices (OneMax.model.breed env.num (alg.model b') st.population (alg.repro b').1).prob
          (fun c => (oneLevel n b).le (fitness c) = true) ≤ φ * gainChance n b by linarith
      obtain ⟨r1, r2⟩ := hrates b' hb'
      rw [hops.breed]
      refine (C134_breed OneMax.model oneMax_members oneMax_distinct _ _ _ _
        (fun x => (x.genome.length = n ∧ ∀ b ∈ x.genome, True) ∧ Evaluated OneMax.model x) (oneLevel n b) (gainChance n b) hgc0
        (oneMax_only h2 hn hbn r1) (fun x hx => ⟨hs.prop x hx, hev x hx⟩) hno).trans ?_
      exact (mul_le_mul_of_nonneg_left r2 hgc0).trans_eq (mul_comm _ _)
  have hbern : 1 - size st.algo * (φ * gainChance n b) ≤ (1 - φ * gainChance n b) ^ size st.algo := by
    have := one_add_mul_le_pow (a := -(φ * gainChance n b)) (by have := mul_le_one₀ hf1 hgc0 hgc1; linarith) (size st.algo)
    rw [← sub_eq_add_neg] at this
    linarith
  have hsum := prob_add_not_of_always _ (fun st' : RunState OneMax A Q => Reached (oneLevel n b) st'.population) halw
  have hreach : (generationStep alg env st).prob (fun st' => Reached (oneLevel n b) st'.population) ≤
      size st.algo * (φ * gainChance n b) := by linarith
  have hmono : (generationStep alg env st).average (fun st' => onesTime n b +
      (-c) * (if Reached (oneLevel n b) st'.population then 1 else 0)) ≤
      (generationStep alg env st).average (fun st' => onesTime n (mostOnes st'.population)) := by
    refine average_mono _ fun st' hst' => ?_
    by_cases hr : Reached (oneLevel n b) st'.population
    · rw [if_pos hr]
      have hm : mostOnes st'.population ≤ b + 1 := mostOnes_le fun x hx' => by
        obtain ⟨new, m1, m2, -⟩ := (hstd.step henv hst').made
        rw [m1] at hx'
        rcases List.mem_append.1 (mem_dedup_sort henv.sort hx') with hx' | hx'
        · exact (hle x (List.mem_of_mem_drop hx')).trans (Nat.le_succ _)
        · refine (oneMax_paced_mutation b).bred (k := 0) (Or.inr ?_) (m2 x hx') hle
          obtain ⟨b', el, buf, pop, old, g1, -, -, -, rfl⟩ := (yields_generationStep _ _ _ _).1 hst'
          exact (hrates b' g1).1
      have := onesTime_anti n hm
      have := onesTime_succ hbn
      linarith
    · rw [if_neg hr]
      rw [reached_iff_mostOnes hn hbn (fun x hx => ((hsafe.partially st' hst').prop x hx).1)
        (step_evaluated hstd hops oneMax_members oneMax_distinct henv st st' hev hst')] at hr
      have := onesTime_anti n (show mostOnes st'.population ≤ b by omega)
      linarith
  refine le_trans ?_ hmono
  rw [average_add, average_const halw, average_mul, average_indicator]
  have h3 := mul_le_mul_of_nonneg_left hreach hc0
  have h4 : c * (size st.algo * (φ * gainChance n b)) ≤ size st.algo * φ := by
    have := mul_le_mul_of_nonneg_left (term_mul_chance (n := n) (b := b)) (mul_nonneg hN hf0)
    rw [mul_one] at this
    refine le_trans (le_of_eq ?_) this
    ring
  linarith

/-- The initial individuals have as many ones as those given. -/
theorem init_mostOnes {env : Env OneMax} (henv : env.Lawful) {b : Nat} (hb : ∀ x ∈ init, ones x.genome ≤ b) :
    Partially (fun pop => mostOnes pop ≤ b) (defaultInitialize OneMax.model env () init) := by
  intro pop hpop
  unfold defaultInitialize at hpop
  simp only [yields_bind_ok, yields_mapList, yields_lift] at hpop
  obtain ⟨ev, h1, h2⟩ := hpop
  obtain ⟨-, -, h3, -⟩ := Population.wf_new henv.sort h2.symm
  refine mostOnes_le fun x hx => ?_
  rw [h3] at hx
  obtain ⟨y, hy, hyx⟩ := forall₂_mem_right h1 x (List.mem_filter.1 (mem_dedup_sort henv.sort hx)).1
  have hyx : (pure (OneMax.evaluate y) : Prog OneMax).yields (.ok x) := hyx
  rw [yields_pure] at hyx
  cases hyx
  exact hb y hy

/-- What holds throughout a run without crossovers. -/
structure OnesState (alg : EvoAlgo OneMax Unit Empty A P) (elite size : A → Nat) (n N : Nat) (ok : A → Population OneMax → Prop)
    (st : RunState OneMax A Q) : Prop where
  safe : Safe alg elite size (fun x => x.genome.length = n ∧ ∀ b ∈ x.genome, True) st
  good : GoodPop st.population
  evaluated : ∀ x ∈ st.population.individuals, Evaluated OneMax.model x
  size : size st.algo = N
  ok : ok st.algo st.population

/-- An invariant `ok` that guarantees that no crossovers take place, and mutations with probability at most `φ`. -/
structure Uncrossed (alg : EvoAlgo OneMax Unit Empty A P) (ok : A → Population OneMax → Prop) (φ : ℚ) : Prop where
  rates : ∀ env a pop b, ok a pop → (alg.prepare env a pop).yields (.ok b) → F64.zero.lt (alg.repro b).1.crossoverRate = false ∧
    genF64.prob (fun u => u.lt (alg.repro b).1.mutationRate = true) ≤ φ
  next : ∀ env a pop b pop', ok a pop → (alg.prepare env a pop).yields (.ok b) → ok b pop'

variable {ok : A → Population OneMax → Prop} {φ : ℚ} {N : Nat} {envs : Nat → Env OneMax}

theorem onesState_invariant (hstd : Standard OneMax.model alg elite size eliteOf) (halg : SafeAlgo alg okP) (hn : n ≠ 0)
    (henv : ∀ t, (envs t).Lawful) (hu : Uncrossed alg ok φ) : Invariant alg envs (OnesState (Q := Q) alg elite size n N ok) where
  called st q' hs := ⟨⟨hs.safe.wf, hs.safe.len, hs.safe.prop, hs.safe.sel, hs.safe.two, hs.safe.sizeLt, hs.safe.eliteLe, fun pop hp => by
    rcases List.mem_append.1 hp with hp | hp
    · exact hs.safe.shown pop hp
    · rw [List.mem_singleton.1 hp]; exact hs.safe.prop⟩, hs.good, hs.evaluated, hs.size, hs.ok⟩
  step t st st' hs hst := by
    have hops := C63_operators (fun _ => True) n hn
    have hf := hstd.step (henv t) hst
    refine ⟨(step_always hstd halg hops (envs t) (henv t) st hs.safe).partially st' hst,
      hf.good (henv t) (breedsValid_default _ hops.breed oneMax_members oneMax_distinct) validNotNaN_default hs.good,
      step_evaluated hstd hops oneMax_members oneMax_distinct (henv t) st st' hs.evaluated hst, hf.sizeEq.trans hs.size, ?_⟩
    obtain ⟨b', el, buf, pop, old, g1, -, -, -, rfl⟩ := (yields_generationStep _ _ _ _).1 hst
    exact hu.next _ _ _ _ _ hs.ok g1

/-- The lower bounds for runs of any algorithm without crossovers. -/
theorem onesTime_run (hstd : Standard OneMax.model alg elite size eliteOf) (halg : SafeAlgo alg okP) (h2 : 2 ≤ n) (hn : n < 2 ^ 53)
    (henv : ∀ t, (envs t).Lawful) (hu : Uncrossed alg ok φ) (hf0 : 0 < φ) (hf1 : φ ≤ 1) (hN : 0 < N) (b : Nat) (hb1 : 1 ≤ b) (hbn : b ≤ n)
    (progress : Q → Population OneMax → Prog (Bool × Q)) (hpr : ∀ q p, p.WF → Always (fun _ => True) (progress q p))
    (honly : ∀ q pop q', GoodPop pop → (progress q pop).yields (.ok (false, q')) → Reached F64.one pop) (a a' : A) (p : P) (q : Q)
    (hc : alg.configure a p = .ok a')
    (hinit : Always (fun pop => OnesState alg elite size n N ok (firstState a' pop q) ∧ mostOnes pop ≤ b)
      (alg.initPopulation (envs 0) a' init)) :
    (∀ k, 1 + ((n : ℚ) - 1) * harmonic (n - b) / (N * φ) ≤ (evolvePopulation alg envs progress k a init p q).expect callsOf +
      (onesTime n 0 / (N * φ) + 1) * (evolvePopulation alg envs progress k a init p q).prob (fun r => r.1 = false)) ∧
    ((∀ ε : ℚ, 0 < ε → ∃ K, ∀ k, K ≤ k → 1 - ε ≤ (evolvePopulation alg envs progress k a init p q).prob (fun r => r.1 = true)) →
      ∀ ε : ℚ, 0 < ε → ∃ K, ∀ k, K ≤ k → 1 + ((n : ℚ) - 1) * harmonic (n - b) / (N * φ) - ε ≤
        (evolvePopulation alg envs progress k a init p q).expect callsOf) := by
  have hNq : (0 : ℚ) < N := by exact_mod_cast hN
  have hδ : 0 < N * φ := mul_pos hNq hf0
  have hops := C63_operators (fun _ => True) n (by omega)
  have hR := onesState_invariant (Q := Q) (N := N) hstd halg (by omega : n ≠ 0) henv hu
  have hinit : Always (fun pop => OnesState alg elite size n N ok (firstState a' pop q) ∧ onesTime n b ≤ onesTime n (mostOnes pop))
      (alg.initPopulation (envs 0) a' init) := hinit.mono fun pop ⟨hs, hm⟩ => ⟨hs, onesTime_anti n hm⟩
  have halw : ∀ t st, OnesState alg elite size n N ok st → Always (fun _ => True) (generationStep alg (envs t) (st : RunState OneMax A Q)) :=
    fun t st hs => (step_always hstd halg hops (envs t) (henv t) st hs.safe).mono fun _ _ => trivial
  have hstop : ∀ (st : RunState OneMax A Q) q', OnesState alg elite size n N ok st → (progress st.q st.population).yields (.ok (false, q')) →
      onesTime n (mostOnes st.population) ≤ 0 := fun st q' hs hy => by
    have hr := (reached_top (by omega) hn st.population).2 (honly _ _ _ hs.good hy)
    rw [reached_iff_mostOnes hn (by omega) (fun x hx => (hs.safe.prop x hx).1) hs.evaluated] at hr
    rw [onesTime_end (by omega)]
  have hdrift : ∀ t (st : RunState OneMax A Q) q', OnesState alg elite size n N ok st → (progress st.q st.population).yields (.ok (true, q')) →
      onesTime n (mostOnes st.population) - N * φ ≤
        (generationStep alg (envs t) (RunState.called st q')).average (fun st' => onesTime n (mostOnes st'.population)) :=
    fun t st q' hs _ => by
      have hs' := hR.called st q' hs
      have := onesTime_drift hstd halg h2 hn (henv t) φ hf0.le hf1 (RunState.called st q') hs'.safe hs'.evaluated
        fun b hb => hu.rates _ _ _ _ hs'.ok hb
      rwa [hs'.size] at this
  have hv : 1 + ((n : ℚ) - 1) * harmonic (n - b) / (N * φ) ≤ onesTime n b / (N * φ) + 1 := by
    have := div_le_div_of_nonneg_right (harmonic_le_onesTime hb1 hbn) hδ.le
    linarith
  refine ⟨fun k => hv.trans (C135_lower_bounded alg envs progress (OnesState alg elite size n N ok) hR
    (fun pop => onesTime n (mostOnes pop)) _ hδ (fun st hs => hpr _ _ hs.good.wf) halw hstop hdrift a a' init p q (onesTime n b) hc hinit
    (onesTime n 0) (fun pop => onesTime_anti n (Nat.zero_le _)) k), fun hends ε hε => ?_⟩
  obtain ⟨K, hK⟩ := C135_lower_limit alg envs progress (OnesState alg elite size n N ok) hR
    (fun pop => onesTime n (mostOnes pop)) _ hδ (fun st hs => hpr _ _ hs.good.wf) halw hstop hdrift a a' init p q (onesTime n b) hc hinit
    (onesTime n 0) (fun pop => onesTime_anti n (Nat.zero_le _)) (onesTime_nonneg _ _) (fun ε hε => by
      obtain ⟨K, hK⟩ := hends ε hε
      refine ⟨K, fun k hk => ?_⟩
      have h1 := hK k hk
      have h2 := prob_add_not (evolvePopulation alg envs progress k a init p q) (fun r => r.1 = true)
      have h3 := prob_congr (evolvePopulation alg envs progress k a init p q) (fun r => r.1 = false) (fun r => ¬ r.1 = true)
        fun r _ => by simp
      linarith) ε hε
  exact ⟨K, fun k hk => le_trans (by linarith) (hK k hk)⟩

end

section
variable {envs : Nat → Env OneMax} {p : GaParams} {init : List OneMax} {n : Nat}

theorem OneMaxRun.toGaRun (h : OneMaxRun envs p init n) (a : Ga Unit Empty) :
    GaRun OneMax.model (fun x => x.genome.length = n ∧ ∀ b ∈ x.genome, True) envs a p init :=
  (h.climbs a (fun _ => 0) (fun _ => by norm_num) fun i hi => (oneChance_bounds (by omega)).1.le).toGaRun

/-- **C135** (OneMax without crossover) If the crossover rate is zero and the initial individuals have at most `b` ones, a run over `n` bits with
populations of `N` that stops only when the fitness 1 is reached makes at least `1 + (n - 1) H(n - b) / (N φ)` calls of `progress` on
average, but for runs that have not ended; `φ` is the mutation rate, rounded up to a multiple of `2 ^ -53`. If it also stops when the
fitness 1 is reached, it does so up to any `ε` if it is given enough time. -/
theorem C135_one_max (h : OneMaxRun envs p init n) (a : Ga Unit Empty) (hρ : 0 < p.mutationRate.val) (hx : F64.zero.lt p.crossoverRate = false)
    (b : Nat) (hb : ∀ x ∈ init, ones x.genome ≤ b) (hbn : b ≤ n) (progress : Q → Population OneMax → Prog (Bool × Q))
    (hpr : ∀ q p, p.WF → Always (fun _ => True) (progress q p))
    (honly : ∀ q pop q', GoodPop pop → (progress q pop).yields (.ok (false, q')) → Reached F64.one pop) (q : Q) :
    (∀ k, 1 + ((n : ℚ) - 1) * harmonic (n - b) / (p.populationSize * ((⌈p.mutationRate.val * 2 ^ 53⌉ : ℤ) / 2 ^ 53)) ≤
      (evolvePopulation (ga OneMax.model) envs progress k a init p q).expect callsOf +
        (onesTime n 0 / (p.populationSize * ((⌈p.mutationRate.val * 2 ^ 53⌉ : ℤ) / 2 ^ 53)) + 1) *
          (evolvePopulation (ga OneMax.model) envs progress k a init p q).prob (fun r => r.1 = false)) ∧
    ((∀ q pop q', GoodPop pop → Reached F64.one pop → ¬ (progress q pop).yields (.ok (true, q'))) →
      ∀ ε : ℚ, 0 < ε → ∃ K, ∀ k, K ≤ k →
        1 + ((n : ℚ) - 1) * harmonic (n - b) / (p.populationSize * ((⌈p.mutationRate.val * 2 ^ 53⌉ : ℤ) / 2 ^ 53)) - ε ≤
          (evolvePopulation (ga OneMax.model) envs progress k a init p q).expect callsOf) := by
  have hg := h.toGaRun a
  obtain ⟨h2, hn⟩ := h.bits
  obtain ⟨r1, r2, r3⟩ := hg.rate_mem
  have hle := hg.rate_le
  have hf1 := prob_le_one genF64 (fun u => u.lt p.mutationRate = true)
  have hf := prob_fire r1 r2 r3
  rw [hf] at hle hf1
  have htwo := h.two
  have hb1 : 1 ≤ b := by
    obtain ⟨x, hx, ht⟩ := h.seed
    exact (List.count_pos_iff.2 ht).trans_le (hb x hx)
  obtain ⟨a', hc, hi⟩ := hg.first (Q := Q)
  have hu : Uncrossed (ga OneMax.model) (fun b _ => b.breeding.crossoverRate = p.crossoverRate ∧ b.breeding.mutationRate = p.mutationRate)
      ((⌈p.mutationRate.val * 2 ^ 53⌉ : ℤ) / 2 ^ 53) := by
    constructor
    · rintro env c pop d ⟨c1, c2⟩ hd
      have hd : (Ga.prepare OneMax.model env c pop).yields (.ok d) := hd
      rw [gaPrepare_eq hg.ops, yields_pure] at hd
      cases hd
      constructor
      · show F64.zero.lt c.breeding.crossoverRate = false
        rw [c1]; exact hx
      · show genF64.prob (fun u => u.lt c.breeding.mutationRate = true) ≤ _
        rw [c2]; exact hf.le
    · rintro env c pop d pop' ⟨c1, c2⟩ hd
      have hd : (Ga.prepare OneMax.model env c pop).yields (.ok d) := hd
      rw [gaPrepare_eq hg.ops, yields_pure] at hd
      cases hd
      exact ⟨c1, c2⟩
  obtain ⟨k1, k2⟩ := onesTime_run (ga_standard OneMax.model) (ga_safe hg.ops) h2 hn h.env hu (hρ.trans_le hle) hf1 (N := p.populationSize)
    (by omega) b hb1 hbn progress hpr honly a a' p q hc (((hi.and (init_evaluated (M := OneMax.model) (model := a'.model) (h.env 0))).and
      (init_mostOnes (h.env 0) hb)).mono fun pop ⟨⟨hpop, hev⟩, hm⟩ =>
      ⟨⟨(hpop q).1.safe, (hpop q).2.1, hev, (hpop q).2.2.2, (hpop q).1.cross, (hpop q).1.rate⟩, hm⟩)
  exact ⟨k1, fun hends => k2 fun ε hε => C80_ga_almost_surely h a hρ progress hpr hends q ε hε⟩

end

section
variable {envs : Nat → Env OneMax} {p : AgaParams} {init : List OneMax} {n : Nat}

/-- **C135** (OneMax without crossover) The same for the adaptive algorithm, if both ends of the crossover range are zero: as its mutation rate
varies, with 1 for `φ`. -/
theorem C135_one_max_aga (h : OneMaxAga envs p init n) (a : Aga Unit Empty) (hx : ZeroRange p.crossoverRateRange) (b : Nat)
    (hb : ∀ x ∈ init, ones x.genome ≤ b) (hbn : b ≤ n) (progress : Q → Population OneMax → Prog (Bool × Q))
    (hpr : ∀ q p, p.WF → Always (fun _ => True) (progress q p))
    (honly : ∀ q pop q', GoodPop pop → (progress q pop).yields (.ok (false, q')) → Reached F64.one pop) (q : Q) :
    (∀ k, 1 + ((n : ℚ) - 1) * harmonic (n - b) / p.populationSize ≤
      (evolvePopulation (aga OneMax.model) envs progress k a init p q).expect callsOf + (onesTime n 0 / p.populationSize + 1) *
        (evolvePopulation (aga OneMax.model) envs progress k a init p q).prob (fun r => r.1 = false)) ∧
    (0 < p.mutationRateRange.start.val →
      (∀ q pop q', GoodPop pop → Reached F64.one pop → ¬ (progress q pop).yields (.ok (true, q'))) →
      ∀ ε : ℚ, 0 < ε → ∃ K, ∀ k, K ≤ k → 1 + ((n : ℚ) - 1) * harmonic (n - b) / p.populationSize - ε ≤
        (evolvePopulation (aga OneMax.model) envs progress k a init p q).expect callsOf) := by
  have hg := (h.climbs a (fun _ => 0) (fun _ => by norm_num) fun i hi => (oneChance_bounds (by omega)).1.le).toAgaRun
  obtain ⟨h2, hn⟩ := h.bits
  have htwo := h.two
  have hb1 : 1 ≤ b := by
    obtain ⟨x, hx, ht⟩ := h.seed
    exact (List.count_pos_iff.2 ht).trans_le (hb x hx)
  obtain ⟨a', hc, hi⟩ := hg.begin (Q := Q) F64.one
  have hu : Uncrossed (aga OneMax.model) (fun b pop => b.crossoverRateRange = p.crossoverRateRange ∧
      (pop.generation = 0 ∨ F64.zero.lt b.breeding.crossoverRate = false)) 1 := by
    constructor
    · rintro env c pop d ⟨c1, c2⟩ hd
      have hd : (Aga.prepare OneMax.model env c pop).yields (.ok d) := hd
      rw [agaPrepare_eq hg.ops, yields_pure] at hd
      cases hd
      refine ⟨?_, prob_le_one _ _⟩
      show F64.zero.lt (c.adjust pop.generation pop.stats.std).breeding.crossoverRate = false
      exact adjust_zero.2.2.2 (c1 ▸ hx) c2
    · rintro env c pop d pop' ⟨c1, c2⟩ hd
      have hd : (Aga.prepare OneMax.model env c pop).yields (.ok d) := hd
      rw [agaPrepare_eq hg.ops, yields_pure] at hd
      cases hd
      refine ⟨?_, Or.inr ?_⟩
      · show (c.adjust pop.generation pop.stats.std).crossoverRateRange = _
        exact adjust_zero.2.1.trans c1
      · show F64.zero.lt (c.adjust pop.generation pop.stats.std).breeding.crossoverRate = false
        exact adjust_zero.2.2.2 (c1 ▸ hx) c2
  obtain ⟨k1, k2⟩ := onesTime_run (aga_standard OneMax.model) (aga_safe hg.ops) h2 hn h.env hu one_pos le_rfl (N := p.populationSize)
    (by omega) b hb1 hbn progress hpr honly a a' p q hc ((hi.and (Q := fun pop => pop.generation = 0 ∧ mostOnes pop ≤ b) fun pop hpop =>
      ⟨(init_wf (h.env 0) hpop).2.1, init_mostOnes (h.env 0) hb pop hpop⟩).mono fun pop ⟨hpop, h0, hm⟩ =>
      ⟨⟨(hpop q).1.safe, (hpop q).1.fine.good, (hpop q).1.fine.evaluated, (hpop q).2.2.2, (hpop q).1.ok.cross, Or.inl h0⟩, hm⟩)
  simp only [mul_one] at k1 k2
  exact ⟨k1, fun hρ hends => k2 fun ε hε => C80_aga_almost_surely h a hρ progress hpr hends q ε hε⟩

end

/-! ### Examples -/

/-- Go on for `T` generations. -/
def forGenerations (T : Nat) (q : Unit) (pop : Population OneMax) : Prog (Bool × Unit) := pure (decide (pop.generation < T), q)

-- the number of generations left falls by one in each: with the default parameters at most 1001 calls for 1000 generations
example (k : Nat) : (evolvePopulation (ga OneMax.model) (fun _ => oneEnv) (forGenerations 1000) k (Ga.ofModel ()) [loneBit] GaParams.default
    ()).expect callsOf ≤ 1001 := by
  refine (C135_upper (ga OneMax.model) (fun _ => oneEnv) (forGenerations 1000) (fun _ => True) ⟨fun _ _ _ => trivial, fun _ _ _ _ _ => trivial⟩
    (fun pop => ((1000 - pop.generation : Nat) : ℚ)) 1 one_pos (fun _ _ => Nat.cast_nonneg _) (fun t st q' _ hy => ?_) (Ga.ofModel ()) [loneBit]
    GaParams.default () 1000 (by norm_num) (fun a' pop _ hpop => ⟨trivial, ?_⟩) k).trans_eq (by norm_num)
  · have hlt : st.population.generation < 1000 := by
      have hy := (yields_pure _ _).1 hy
      simpa using congrArg Prod.fst (Res.ok.inj hy).symm
    have h1 : (1 : ℚ) ≤ ((1000 - st.population.generation : Nat) : ℚ) := by exact_mod_cast (by omega : 1 ≤ 1000 - st.population.generation)
    refine average_le_const _ _ _ (by linarith) fun st' hs => ?_
    have hg := ((ga_standard OneMax.model).step oneEnv_lawful hs).generation
    have hg : st'.population.generation = st.population.generation + 1 := hg
    rw [hg, le_sub_iff_add_le]
    exact_mod_cast (by omega : 1000 - (st.population.generation + 1) + 1 ≤ 1000 - st.population.generation)
  · exact_mod_cast (by omega : 1000 - pop.generation ≤ 1000)

/-- Three individuals, one of them kept, no crossover and a mutation in one of 128. -/
def slowParams : GaParams :=
  { GaParams.default with populationSize := 3, elitismRate := F64.lit (1 / 2), crossoverRate := F64.zero, mutationRate := F64.lit (1 / 128) }

theorem slow_run : OneMaxRun (fun _ => oneEnv) slowParams [loneBit] 5 where
  bits := by norm_num
  env _ := oneEnv_lawful
  valid := by
    unfold GaParams.Valid F64.InHalfOpenUnit F64.InClosedUnit
    decide +kernel
  strategy := Or.inr (Or.inr (Or.inr (Or.inl rfl)))
  size := by simp [slowParams]
  len := by simp
  elites := by decide +kernel
  two := by decide +kernel
  lengths := by simp [loneBit, OneMax.ofGenome]
  seed := ⟨loneBit, by simp, by simp [loneBit, OneMax.ofGenome]⟩

-- it takes at least 356 calls on average to set the other four bits
example : ∃ K, ∀ k, K ≤ k → 356 ≤ (evolvePopulation (ga OneMax.model) (fun _ => oneEnv) untilSolved k (Ga.ofModel ()) [loneBit] slowParams
    ()).expect callsOf := by
  have h1 : (⌈slowParams.mutationRate.val * 2 ^ 53⌉ : ℤ) = 2 ^ 46 := by decide +kernel
  have h2 : harmonic 4 = 25 / 12 := by decide +kernel
  obtain ⟨K, hK⟩ := (C135_one_max slow_run (Ga.ofModel ()) (by decide +kernel) (by decide +kernel) 1
    (by intro x hx; rw [List.mem_singleton.1 hx]; decide +kernel) (by norm_num) untilSolved (fun q p w => untilSolved_always w)
    (fun q pop q' hg hy => (untilSolved_iff q pop false q' hg hy).1 rfl) ()).2
    (fun q pop q' hg hr hy => by simpa using (untilSolved_iff q pop true q' hg hy).2 hr) (1 / 2) (by norm_num)
  refine ⟨K, fun k hk => le_trans ?_ (hK k hk)⟩
  rw [h1, show 5 - 1 = 4 from rfl, h2, show slowParams.populationSize = 3 from rfl]
  norm_num

/-- The same for the adaptive algorithm with its default mutation rates. -/
def slowAgaParams : AgaParams :=
  { AgaParams.default with populationSize := 3, elitismRate := F64.lit (1 / 2), crossoverRateRange := ⟨F64.zero, F64.zero⟩ }

theorem slow_aga_run : OneMaxAga (fun _ => oneEnv) slowAgaParams [loneBit, twoBits] 5 where
  bits := by norm_num
  env _ := oneEnv_lawful
  valid := by
    unfold AgaParams.Valid F64.InHalfOpenUnit F64.InClosedUnit
    decide +kernel
  strategy := Or.inr (Or.inr (Or.inr (Or.inl rfl)))
  size := by simp [slowAgaParams]
  len := by simp
  elites := by decide +kernel
  two := by decide +kernel
  lengths := by simp [loneBit, twoBits, OneMax.ofGenome]
  seed := ⟨loneBit, by simp, by simp [loneBit, OneMax.ofGenome]⟩
  crossOrder := by decide +kernel
  mutOrder := by decide +kernel
  spread := Or.inr ⟨by norm_num, loneBit, by simp, twoBits, by simp, by decide +kernel⟩

-- it takes at least 3.4 calls on average to set the other three bits
example : ∃ K, ∀ k, K ≤ k → 3.4 ≤ (evolvePopulation (aga OneMax.model) (fun _ => oneEnv) untilSolved k (Aga.ofModel ()) [loneBit, twoBits]
    slowAgaParams ()).expect callsOf := by
  have h2 : harmonic 3 = 11 / 6 := by decide +kernel
  obtain ⟨K, hK⟩ := (C135_one_max_aga slow_aga_run (Aga.ofModel ()) (by unfold ZeroRange; decide +kernel) 2
    (by simp only [List.forall_mem_cons]; exact ⟨by decide +kernel, by decide +kernel, by simp⟩) (by norm_num) untilSolved (fun q p w => untilSolved_always w)
    (fun q pop q' hg hy => (untilSolved_iff q pop false q' hg hy).1 rfl) ()).2 (by decide +kernel)
    (fun q pop q' hg hr hy => by simpa using (untilSolved_iff q pop true q' hg hy).2 hr) (1 / 25) (by norm_num)
  refine ⟨K, fun k hk => le_trans ?_ (hK k hk)⟩
  rw [show 5 - 2 = 3 from rfl, h2, show slowAgaParams.populationSize = 3 from rfl]
  norm_num

end RG.Props
