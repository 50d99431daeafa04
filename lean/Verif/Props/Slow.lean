import Verif.Props.Waiting
import Verif.Proofs.Slow

/-!
# C134: how fast a run can be

The counterpart of C133: if only mutations lead to a level, and rarely, a run takes long.
-/

set_option linter.unusedSectionVars false

namespace RG.Props
open RG RG.Prog
variable {I : Type} [Individual I] {Mo U A P Q : Type}

/-- An offspring that is not at the level unless it is mutated, and then with probability at most `δ`. -/
def Remote (M : EvoModel I Mo U) (model : Mo) (target : F64) (δ : ℚ) (o : I) : Prop :=
  Partially (fun c => ¬ target.le (fitness c) = true) (M.improve model o >>= fun o => M.evaluate model o) ∧
  (M.mutate model o >>= fun o => M.improve model o >>= fun o => M.evaluate model o).prob (fun c => target.le (fitness c) = true) ≤ δ

/-- Only mutations lead to the level, with probability at most `δ`: individuals with the property `Pr` that are below the level and,
unless the crossover rate is zero, offspring of two of them are remote from it. -/
structure OnlyMutation (M : EvoModel I Mo U) (model : Mo) (Pr : I → Prop) (target : F64) (δ : ℚ) (crossoverRate : F64) : Prop where
  copy : ∀ x, Pr x → ¬ target.le (fitness x) = true → Remote M model target δ x
  cross : F64.zero.lt crossoverRate = true → ∀ x y, Pr x → Pr y → ¬ target.le (fitness x) = true → ¬ target.le (fitness y) = true →
    Partially (Remote M model target δ) (M.crossover model x y)

/-- **C134** (breeding) Then breeding from a population below the level reaches it with probability at most `f δ`, where `f` is the
probability that the mutation takes place. -/
theorem C134_breed (M : EvoModel I Mo U) (hs : M.selectors.ReturnsMembers) (hd : M.selectors.DistinctMembers) (env : NumEnv) (model : Mo)
    (p : Population I) (r : ReproParams U) (Pr : I → Prop) (target : F64) (δ : ℚ) (hδ : 0 ≤ δ) (h : OnlyMutation M model Pr target δ r.crossoverRate)
    (hPr : ∀ x ∈ p.individuals, Pr x) (hno : ¬ Reached target p) :
    (defaultBreed M.toEvoOps env model p r).prob (fun c => target.le (fitness c) = true) ≤
      δ * genF64.prob (fun u => u.lt r.mutationRate = true) := by
  have hbelow : ∀ x ∈ p.individuals, ¬ target.le (fitness x) = true := fun x hx ht => hno ⟨x, hx, ht⟩
  have h0 : 0 ≤ δ * genF64.prob (fun u => u.lt r.mutationRate = true) := mul_nonneg hδ (prob_nonneg _ _)
  rw [defaultBreed_eq]
  refine prob_bind_le_const _ _ _ _ h0 fun ⟨p1, p2⟩ hps => ?_
  obtain ⟨m1, m2⟩ := ((yields_breedParents M.toEvoOps env p r p1 p2).1 hps).mem hs hd
  have mf : fitterParent p1 p2 ∈ p.individuals := (isFittestParent_iff.2 rfl).mem m1 fun b hb => (m2 b hb).1
  set fp := fitterParent p1 p2 with hfp
  refine prob_bind_le_const _ _ _ _ h0 fun o ho => ?_
  have ho : Remote M model target δ o := by
    rcases p2 with _ | b
    · rw [show o = p1 from Res.ok.inj ho]; exact h.copy _ (hPr _ m1) (hbelow _ m1)
    · have hfire : F64.zero.lt r.crossoverRate = true := by
        cases (yields_breedParents M.toEvoOps env p r p1 (some b)).1 hps with
        | pair _ _ hf _ => exact canFire_iff_pos.1 hf
      exact h.cross hfire _ _ (hPr _ m1) (hPr _ (m2 b rfl).1) (hbelow _ m1) (hbelow _ (m2 b rfl).1) _ ho
  have e : ∀ q : Prog I, (q >>= fun o => breedEnd M.toEvoOps model p fp o) =
      (q >>= fun o => M.improve model o >>= fun o => M.evaluate model o) >>= fun c =>
        (if isValid c then M.canSurvive model c fp p else pure false) >>= fun survives => pure (if survives then c else fp) := fun q => by
    unfold breedEnd; simp only [bind_assoc]
  have key : ∀ q : Prog I, (q >>= fun o => breedEnd M.toEvoOps model p fp o).prob (fun c => target.le (fitness c) = true) ≤
      (q >>= fun o => M.improve model o >>= fun o => M.evaluate model o).prob (fun c => target.le (fitness c) = true) := fun q => by
    rw [e]
    refine (prob_bind_le _ _ _ (fun c => target.le (fitness c) = true) 1 (fun _ _ _ => prob_le_one _ _) ?_).trans_eq (one_mul _)
    intro c _ hc
    refine prob_eq_zero _ _ fun c' hc' => ?_
    obtain ⟨b, -, hc'⟩ := (yields_bind_ok _ _ _).1 hc'
    have hc' : c' = if b then c else fp := Res.ok.inj hc'
    rw [hc']
    cases b
    · exact hbelow _ mf
    · exact hc
  unfold breedMutate
  rw [bind_assoc]
  refine (prob_bind_le _ _ _ (fun u => u.lt r.mutationRate = true) δ (fun u _ hu => ?_) fun u _ hu => ?_).trans ?_
  · rw [if_pos hu]
    exact (key _).trans ho.2
  · rw [if_neg hu]
    refine le_antisymm ((key _).trans_eq ?_) (prob_nonneg _ _)
    refine prob_eq_zero _ _ fun c hc => ho.1 c ?_
    rwa [bind_pure_left] at hc
  · exact le_rfl

section
variable {M : EvoModel I Mo U} {Pr : I → Prop} {envs : Nat → Env I} {init : List I} {target : F64} {δ : ℚ}

/-- The initial population is below the level, if no initial individual is at it once evaluated. -/
theorem init_unreached {env : Env I} (henv : env.Lawful) {model : Mo}
    (h : ∀ x ∈ init, Partially (fun e => ¬ target.le (fitness e) = true) (M.evaluate model x)) :
    Partially (fun pop => ¬ Reached target pop) (defaultInitialize M env model init) := by
  intro pop hpop
  unfold defaultInitialize at hpop
  simp only [yields_bind_ok, yields_mapList, yields_lift] at hpop
  obtain ⟨ev, h1, h2⟩ := hpop
  obtain ⟨-, -, h3, -⟩ := Population.wf_new henv.sort h2.symm
  rintro ⟨x, hx, ht⟩
  rw [h3] at hx
  obtain ⟨y, hy, hyx⟩ := forall₂_mem_right h1 x (List.mem_filter.1 (mem_dedup_sort henv.sort hx)).1
  exact h y hy x hyx ht

/-- **C134** (genetic algorithm) If only mutations lead to the level, with probability at most `δ`, the initial individuals are below it
and `progress` never stops below it, a run with populations of `n` has not ended after `k + 1` calls of `progress` with probability at
least `(1 - φ δ) ^ (n k)`. Here `φ` is the mutation rate, rounded up to a multiple of `2 ^ -53`. -/
theorem C134_ga {a : Ga Mo U} {p : GaParams} (h : GaRun M Pr envs a p init) (h0 : 0 ≤ δ) (h1 : δ ≤ 1)
    (hm : OnlyMutation M a.model (fun x => Pr x ∧ Evaluated M x) target δ p.crossoverRate)
    (hinit : ∀ x ∈ init, Partially (fun e => ¬ target.le (fitness e) = true) (M.evaluate a.model x))
    (progress : Q → Population I → Prog (Bool × Q))
    (hgo : ∀ q pop, pop.WF → ¬ Reached target pop → Always (fun r => r.1 = true) (progress q pop)) (k : Nat) (q : Q) :
    (1 - (⌈p.mutationRate.val * 2 ^ 53⌉ : ℤ) / 2 ^ 53 * δ) ^ (p.populationSize * k) ≤
      (evolvePopulation (ga M) envs progress (k + 1) a init p q).prob (fun r => r.1 = false) := by
  obtain ⟨a', hc, hi⟩ := h.first (Q := Q)
  obtain ⟨r1, r2, r3⟩ := h.rate_mem
  have hf := prob_fire r1 r2 r3
  have hf0 := prob_nonneg genF64 (fun u => u.lt p.mutationRate = true)
  have hf1 := prob_le_one genF64 (fun u => u.lt p.mutationRate = true)
  rw [hf] at hf0 hf1
  have hmod : a'.model = a.model := ((ga_standard M).configure _ _ _ hc (h.size.le.trans (by norm_num))).1
  unfold evolvePopulation
  rw [hc]
  simp only [lift_ok, bind_pure_left]
  refine le_prob_bind_of_always _ _ _ _ ((hi.and (init_unreached (M := M) (target := target) (model := a'.model) (h.env 0) (by rw [hmod]; exact hinit))).and
    (init_evaluated (M := M) (model := a'.model) (h.env 0))) fun pop ⟨⟨hpop, hno⟩, hev⟩ => ?_
  obtain ⟨i1, -, -, i4⟩ := hpop q
  refine prob_loop_unended (ga_standard M) (ga_safe h.ops) h.ops envs h.env progress target _ (mul_nonneg hf0 h0) (mul_le_one₀ hf1 h0 h1)
    p.populationSize (fun st => ConvState M Pr a p st ∧ ∀ x ∈ st.population.individuals, Evaluated M x) hgo (fun st hs => hs.1.safe)
    (fun st q' hs => ⟨hs.1.show st q', hs.2⟩)
    (fun t st st' hs hst => ⟨hs.1.step h t st st' hst, step_evaluated (ga_standard M) h.ops h.members h.distinct (h.env t) st st' hs.2 hst⟩)
    (fun t st b ⟨hs, hev⟩ hno hb => ?_) k 1 _ ⟨i1, hev⟩ hno i4
  have hb : (Ga.prepare M (envs t).num st.algo st.population).yields (.ok b) := hb
  have hsel := ((ga_safe h.ops).prepare (envs t).num st.algo st.population hs.safe.sel).partially b hb
  have hal := breed_always h.ops (envs t).num ((ga M).model b) st.population ((ga M).repro b).1 hs.safe.wf.ne hs.safe.len hs.safe.prop hsel
  have hsum := prob_add_not_of_always _ (fun c => target.le (fitness c) = true) hal
  suffices (M.breed (envs t).num ((ga M).model b) st.population ((ga M).repro b).1).prob (fun c => target.le (fitness c) = true) ≤
      (⌈p.mutationRate.val * 2 ^ 53⌉ : ℤ) / 2 ^ 53 * δ by linarith
  rw [gaPrepare_eq h.ops, yields_pure] at hb
  cases hb
  show (M.breed _ st.algo.model _ _).prob _ ≤ _
  rw [hs.model, h.ops.breed]
  refine (C134_breed M h.members h.distinct _ _ _ _ (fun x => Pr x ∧ Evaluated M x) target δ h0 (by rw [← hs.cross] at hm; exact hm)
    (fun x hx => ⟨hs.safe.prop x hx, hev x hx⟩) hno).trans ?_
  have e : genF64.prob (fun u => u.lt st.algo.breeding.mutationRate = true) = (⌈p.mutationRate.val * 2 ^ 53⌉ : ℤ) / 2 ^ 53 := by
    rw [hs.rate]; exact hf
  exact (congrArg (δ * ·) e).le.trans_eq (mul_comm _ _)

/-- A run that has not ended after `k + 1` calls with probability at least `(1 - ε) ^ (n k)` makes at least `1 / 2 + 1 / (2 n ε)` calls on
average, if it is given the time. -/
theorem expect_calls_slow (alg : EvoAlgo I Mo U A P) (envs : Nat → Env I) (progress : Q → Population I → Prog (Bool × Q)) (a : A)
    (init : List I) (p : P) (q : Q) (ε : ℚ) (n : Nat) (h0 : 0 < n * ε) (h1 : ε ≤ 1) (fuel : Nat) (hfuel : 1 + 1 / (n * ε) ≤ fuel)
    (hrun : ∀ k, k ≤ fuel → Always (fun _ => True) (evolvePopulation alg envs progress k a init p q))
    (h : ∀ k, (1 - ε) ^ (n * k) ≤ (evolvePopulation alg envs progress (k + 1) a init p q).prob (fun r => r.1 = false)) :
    1 / 2 + 1 / (2 * (n * ε)) ≤ (evolvePopulation alg envs progress fuel a init p q).expect callsOf := by
  rw [C133_tails_exact alg envs progress fuel a init p q hrun]
  set T : Nat → ℚ := fun k => (evolvePopulation alg envs progress k a init p q).prob (fun r => r.1 = false) with hT
  show _ ≤ ∑ k ∈ Finset.range fuel, T k
  set K := ⌊1 / (n * ε)⌋₊ with hK
  have hK1 : (K : ℚ) ≤ 1 / (n * ε) := Nat.floor_le (by positivity)
  have hK2 : 1 / (n * ε) < K + 1 := Nat.lt_floor_add_one _
  have hKf : K + 1 ≤ fuel := by
    have : ((K + 1 : Nat) : ℚ) ≤ fuel := by push_cast; linarith
    exact_mod_cast this
  have hnn : ∀ k, 0 ≤ T k := fun k => prob_nonneg _ _
  have hT1 : ∀ k, 1 - k * (n * ε) ≤ T (k + 1) := fun k => by
    refine le_trans ?_ (h k)
    have := one_add_mul_le_pow (show (-2 : ℚ) ≤ -ε by linarith) (n * k)
    push_cast at this
    rw [← sub_eq_add_neg] at this
    linarith
  have hT0 : 1 ≤ T 0 := by
    have h2 := prob_add_not_of_always _ (fun r : Bool × RunState I A Q => r.1 = false) (hrun 0 (Nat.zero_le _))
    have h3 : (evolvePopulation alg envs progress 0 a init p q).prob (fun r => ¬ r.1 = false) = 0 := prob_eq_zero _ _ fun r hr => by
      obtain ⟨fin, st⟩ := r
      obtain ⟨_, _, _, _, c3⟩ := (yields_evolvePopulation _ _ _ _ _ _ _ _ _).1 hr
      cases c3
      simp
    rw [h3, add_zero] at h2
    exact h2.ge
  have hsum : ∀ m : Nat, (m : ℚ) - m * m / 2 * (n * ε) ≤ ∑ k ∈ Finset.range m, T (k + 1) := fun m => by
    induction m with
    | zero => simp
    | succ m ih =>
      rw [Finset.sum_range_succ]
      have := hT1 m
      push_cast
      nlinarith
  calc 1 / 2 + 1 / (2 * (n * ε)) ≤ 1 + (K : ℚ) / 2 := by
        have : 1 / (2 * (n * ε)) = 1 / (n * ε) / 2 := by rw [mul_comm, div_mul_eq_div_div]
        linarith
    _ ≤ (K - K * K / 2 * (n * ε)) + T 0 := by
        have h5 : (K : ℚ) * (n * ε) ≤ 1 := by rwa [le_div_iff₀ h0] at hK1
        have h6 : (K : ℚ) * K / 2 * (n * ε) ≤ K / 2 := by nlinarith [Nat.cast_nonneg (α := ℚ) K]
        linarith
    _ ≤ ∑ k ∈ Finset.range (K + 1), T k := by rw [Finset.sum_range_succ']; exact add_le_add_left (hsum K) _
    _ ≤ ∑ k ∈ Finset.range fuel, T k := Finset.sum_le_sum_of_subset_of_nonneg (Finset.range_mono hKf) fun k _ _ => hnn k

/-- **C134** (genetic algorithm) Such a run makes at least `1 / 2 + 1 / (2 n φ δ)` calls of `progress` on average, if it may make
`1 + 1 / (n φ δ)` calls. -/
theorem C134_calls {a : Ga Mo U} {p : GaParams} (h : GaRun M Pr envs a p init) (h0 : 0 < p.mutationRate.val * δ) (h1 : δ ≤ 1)
    (hm : OnlyMutation M a.model (fun x => Pr x ∧ Evaluated M x) target δ p.crossoverRate)
    (hinit : ∀ x ∈ init, Partially (fun e => ¬ target.le (fitness e) = true) (M.evaluate a.model x))
    (progress : Q → Population I → Prog (Bool × Q)) (hpr : ∀ q p, p.WF → Always (fun _ => True) (progress q p))
    (hgo : ∀ q pop, pop.WF → ¬ Reached target pop → Always (fun r => r.1 = true) (progress q pop)) (fuel : Nat) (q : Q)
    (hfuel : 1 + 1 / (p.populationSize * ((⌈p.mutationRate.val * 2 ^ 53⌉ : ℤ) / 2 ^ 53 * δ)) ≤ fuel) :
    1 / 2 + 1 / (2 * (p.populationSize * ((⌈p.mutationRate.val * 2 ^ 53⌉ : ℤ) / 2 ^ 53 * δ))) ≤
      (evolvePopulation (ga M) envs progress fuel a init p q).expect callsOf := by
  obtain ⟨r1, r2, r3⟩ := h.rate_mem
  have hδ : 0 < δ := pos_of_mul_pos_right h0 r2
  have hle := h.rate_le
  have hf1 := prob_le_one genF64 (fun u => u.lt p.mutationRate = true)
  rw [prob_fire r1 r2 r3] at hle hf1
  have htwo := h.two
  have hn : (0 : ℚ) < p.populationSize := by exact_mod_cast (by omega : 0 < p.populationSize)
  have hρ : 0 < p.mutationRate.val := pos_of_mul_pos_left h0 hδ.le
  refine expect_calls_slow (ga M) envs progress a init p q _ p.populationSize (mul_pos hn (mul_pos (hρ.trans_le hle) hδ))
    (mul_le_one₀ hf1 hδ.le h1) fuel hfuel (fun k _ => ?_) fun k => C134_ga h hδ.le h1 hm hinit progress hgo k q
  exact (C64_run (ga_standard M) (ga_safe h.ops) h.ops envs h.env progress hpr k a init p q
    ⟨h.valid, h.strategy, h.linear⟩ (by show 2 ≤ p.populationSize; omega) h.size h.len h.prop h.start).mono fun _ _ => trivial

/-- **C134** (any rates) Whatever the rates, also if they change as in the adaptive algorithm: with probability at least `(1 - δ) ^ (n k)`. -/
theorem C134_any {alg : EvoAlgo I Mo U A P} {elite size : A → Nat} {eliteOf : P → Nat} {okP : P → Prop}
    (hstd : Standard M alg elite size eliteOf) (halg : SafeAlgo alg okP) (hM : SafeOps M Pr) (hs : M.selectors.ReturnsMembers)
    (hd : M.selectors.DistinctMembers) (henv : ∀ t, (envs t).Lawful) (a : A) (p : P) (hp : okP p) (h2 : 2 ≤ alg.initialSize p)
    (hn : alg.initialSize p < 2 ^ 32) (hl : init.length < 2 ^ 32) (hPr : ∀ x ∈ init, Pr x)
    (hvalid : ∃ x ∈ init, Always (fun e => isValid e = true) (M.evaluate (alg.model a) x)) (h0 : 0 ≤ δ) (h1 : δ ≤ 1)
    (hm : ∀ model rate, OnlyMutation M model (fun x => Pr x ∧ Evaluated M x) target δ rate)
    (hinit : ∀ x ∈ init, Partially (fun e => ¬ target.le (fitness e) = true) (M.evaluate (alg.model a) x))
    (progress : Q → Population I → Prog (Bool × Q))
    (hgo : ∀ q pop, pop.WF → ¬ Reached target pop → Always (fun r => r.1 = true) (progress q pop)) (k : Nat) (q : Q) :
    (1 - δ) ^ (alg.initialSize p * k) ≤ (evolvePopulation alg envs progress (k + 1) a init p q).prob (fun r => r.1 = false) := by
  obtain ⟨a', hc, hsel⟩ := halg.configure a p hp
  obtain ⟨hmod, s1, s2, s3⟩ := hstd.configure _ _ _ hc (hn.le.trans (by norm_num))
  unfold evolvePopulation
  rw [hc]
  simp only [lift_ok, bind_pure_left]
  rw [hstd.init]
  have hi := init_always hM (envs 0) (henv 0) (alg.model a') init hPr (by rw [hmod]; exact hvalid)
  refine le_prob_bind_of_always _ _ _ _ ((hi.and (init_unreached (M := M) (target := target) (model := alg.model a') (henv 0) (by
    rw [hmod]; exact hinit))).and (init_evaluated (M := M) (model := alg.model a') (henv 0))) fun pop ⟨⟨⟨w, hlen, hP⟩, hno⟩, hev⟩ => ?_
  refine prob_loop_unended hstd halg hM envs henv progress target δ h0 h1 _ (fun st => Safe alg elite size Pr st ∧ ∀ x ∈ st.population.individuals, Evaluated M x) hgo
    (fun st hs => hs.1) (fun st q' ⟨hs, hev⟩ => ⟨?_, hev⟩)
    (fun t st st' hs' hst => ⟨(step_always hstd halg hM (envs t) (henv t) st hs'.1).partially st' hst,
      step_evaluated hstd hM hs hd (henv t) st st' hs'.2 hst⟩) (fun t st b ⟨hs', hev⟩ hno hb => ?_) k 1 _
    ⟨⟨w, hlen.trans_lt hl, hP, hsel, by rw [s1]; exact h2, by rw [s1]; exact hn, by rw [s1, s2]; exact s3.le, by simp⟩, hev⟩ hno s1
  · exact ⟨hs.wf, hs.len, hs.prop, hs.sel, hs.two, hs.sizeLt, hs.eliteLe, fun pop hp => by
      rcases List.mem_append.1 hp with hp | hp
      · exact hs.shown pop hp
      · rw [List.mem_singleton.1 hp]; exact hs.prop⟩
  · have hsel' := (halg.prepare (envs t).num st.algo st.population hs'.sel).partially b hb
    have hal := breed_always hM (envs t).num (alg.model b) st.population (alg.repro b).1 hs'.wf.ne hs'.len hs'.prop hsel'
    have hsum := prob_add_not_of_always _ (fun c => target.le (fitness c) = true) hal
    have hle := C134_breed M hs hd (envs t).num (alg.model b) st.population (alg.repro b).1 _ target δ h0 (hm _ _)
      (fun x hx => ⟨hs'.prop x hx, hev x hx⟩) hno
    rw [← hM.breed] at hle
    have := mul_le_mul_of_nonneg_left (prob_le_one genF64 (fun u => u.lt (alg.repro b).1.mutationRate = true)) h0
    linarith

end

/-! ### Examples -/

/-- A lottery: mutation wins with probability one in a million. -/
def lotteryModel : EvoModel Num Unit Empty :=
  { ({ crossover := fun _ a _ => pure a
       mutate := fun _ _ => do let k ← Prog.uniform 1000000; pure (num (if k = 0 then 9 else 0))
       evaluate := fun _ a => pure a
       selectors := ⟨fun u => u.elim, fun u => u.elim, fun u => u.elim⟩ } : EvoOps Num Unit Empty) with }

theorem lottery_safe : SafeOps lotteryModel (fun x => isValid x = true) where
  crossover _ a b ha _ := by show Always _ (pure a); simpa using ha
  mutate _ a _ := by
    show Always _ (Prog.uniform 1000000 >>= fun k => pure (num (if k = 0 then 9 else 0)))
    rw [always_bind, always_uniform]
    refine ⟨by norm_num, fun i hi => ?_⟩
    rw [always_pure]
    split <;> decide +kernel
  improve _ a ha := by show Always _ (pure a); simpa using ha
  evaluate _ a ha := by show Always _ (pure a); simpa using ha
  canSurvive _ _ _ _ _ _ := by show Always _ (pure _); simp
  preGeneration _ _ _ := rfl
  breed := rfl

theorem lottery_run : GaRun lotteryModel (fun x => isValid x = true) (fun _ => exFullEnv) (Ga.ofModel ()) GaParams.default [num 0] where
  ops := lottery_safe
  survive := rfl
  members := fun u => u.elim
  distinct := fun u => u.elim
  notNaN := validNotNaN_default
  eqFitness := num_eqFitness
  env _ := exFullEnv_lawful
  valid := C50_defaults.1
  strategy := C50_defaults.2.1
  linear := by simp [GaParams.default]
  size := by simp [GaParams.default]
  two := by decide +kernel
  len := by simp
  prop := by simp; decide +kernel
  start := ⟨num 0, by simp, by show Always _ (pure _); rw [always_pure]; decide +kernel⟩

theorem lottery_remote (o : Num) (ho : ¬ (F64.lit 9).le (fitness o) = true) :
    Remote lotteryModel () (F64.lit 9) (1 / 1000000) o := by
  refine ⟨fun c hc => ?_, ?_⟩
  · have hc : c = o := Res.ok.inj hc
    rw [hc]; exact ho
  · have e : (lotteryModel.mutate () o >>= fun o => lotteryModel.improve () o >>= fun o => lotteryModel.evaluate () o).prob
        (fun c => (F64.lit 9).le (fitness c) = true) ≤ 1 * (Prog.uniform 1000000).prob (fun k => k = 0) := by
      show ((Prog.uniform 1000000 >>= fun k => pure (num (if k = 0 then 9 else 0))) >>= fun o => pure o >>= fun o => pure o).prob _ ≤ _
      simp only [bind_assoc, bind_pure_left]
      refine prob_bind_le _ _ _ (fun k => k = 0) 1 (fun _ _ _ => prob_le_one _ _) fun k _ hk => prob_eq_zero _ _ fun c hc => ?_
      rw [if_neg hk] at hc
      rw [show c = num 0 from Res.ok.inj hc]
      decide +kernel
    refine e.trans ?_
    rw [one_mul, prob_uniform _ (by norm_num)]
    norm_num

theorem lottery_only (rate : F64) : OnlyMutation lotteryModel () (fun x => isValid x = true ∧ Evaluated lotteryModel x) (F64.lit 9) (1 / 1000000) rate where
  copy x _ hx := lottery_remote x hx
  cross _ x y _ _ hx _ o ho := by
    rw [show o = x from Res.ok.inj ho]
    exact lottery_remote x hx

theorem untilNine_goes (q : Unit) (pop : Population Num) (h : ¬ Reached (F64.lit 9) pop) : Always (fun r => r.1 = true) (untilNine q pop) := by
  unfold untilNine
  rw [always_pure, List.all_eq_true]
  intro x hx
  have : ¬ (F64.lit 9).le (fitness x) = true := fun ht => h ⟨x, hx, ht⟩
  simpa using this

-- with the default parameters, it takes more than 49900 calls of `progress` on average to win, and by C133 at most 101013
example (fuel : Nat) (hf : 200000 ≤ fuel) : 49900 ≤ (evolvePopulation (ga lotteryModel) (fun _ => exFullEnv) untilNine fuel (Ga.ofModel ()) [num 0]
    GaParams.default ()).expect callsOf := by
  have hr : (1 : ℚ) / 10 ≤ GaParams.default.mutationRate.val ∧ GaParams.default.mutationRate.val ≤ 10001 / 100000 := by decide +kernel
  have hn : GaParams.default.populationSize = 100 := rfl
  set φ : ℚ := (⌈GaParams.default.mutationRate.val * 2 ^ 53⌉ : ℤ) / 2 ^ 53 with hφ
  have h1 : GaParams.default.mutationRate.val ≤ φ := by rw [hφ, le_div_iff₀ (by norm_num)]; exact Int.le_ceil _
  have h2 : φ ≤ 10002 / 100000 := by
    have := Int.ceil_lt_add_one (GaParams.default.mutationRate.val * 2 ^ 53)
    have h3 := mul_le_mul_of_nonneg_right hr.2 (show (0 : ℚ) ≤ 2 ^ 53 by norm_num)
    rw [hφ, div_le_iff₀ (by norm_num)]
    refine this.le.trans ((add_le_add_left h3 1).trans ?_)
    norm_num
  have hfq : (200000 : ℚ) ≤ fuel := by exact_mod_cast hf
  have h := C134_calls lottery_run (target := F64.lit 9) (δ := 1 / 1000000) (by linarith [hr.1]) (by norm_num) (lottery_only _)
    (fun x hx => by
      rw [List.mem_singleton.1 hx]
      intro e he
      rw [show e = num 0 from Res.ok.inj he]
      decide +kernel)
    untilNine (fun q p _ => by simp [untilNine]) (fun q pop _ h => untilNine_goes q pop h) fuel () (by
      rw [hn, ← hφ]
      have : 1 / (((100 : Nat) : ℚ) * (φ * (1 / 1000000))) ≤ 1 / (100 * (1 / 10 * (1 / 1000000))) :=
        one_div_le_one_div_of_le (by norm_num) (by push_cast; linarith [hr.1])
      norm_num at this ⊢
      linarith)
  refine le_trans ?_ h
  rw [hn, ← hφ]
  have : 1 / (2 * (100 * (10002 / 100000 * (1 / 1000000)))) ≤ 1 / (2 * (((100 : Nat) : ℚ) * (φ * (1 / 1000000)))) :=
    one_div_le_one_div_of_le (by push_cast; linarith [hr.1]) (by push_cast; linarith)
  norm_num at this ⊢
  linarith

-- the adaptive algorithm with its default parameters is still waiting after 101 generations with a probability above 98 %
example : (98 : ℚ) / 100 ≤ (evolvePopulation (aga lotteryModel) (fun _ => exFullEnv) untilNine (101 + 1) (Aga.ofModel ()) [num 0]
    AgaParams.default ()).prob (fun r => r.1 = false) := by
  refine le_trans ?_ (C134_any (Pr := fun x : Num => isValid x = true) (target := F64.lit 9) (δ := 1 / 1000000) (aga_standard lotteryModel)
    (aga_safe lottery_safe) lottery_safe (fun u => u.elim) (fun u => u.elim) (fun _ => exFullEnv_lawful) (Aga.ofModel ()) AgaParams.default
    ⟨C50_defaults.2.2.1, C50_defaults.2.2.2, by simp [AgaParams.default]⟩ (by decide) (by decide) (by simp) (by simp; decide +kernel)
    ⟨num 0, by simp, by show Always _ (pure _); rw [always_pure]; decide +kernel⟩ (by norm_num) (by norm_num) (fun _ => lottery_only)
    (fun x hx => by
      rw [List.mem_singleton.1 hx]
      intro e he
      rw [show e = num 0 from Res.ok.inj he]
      decide +kernel)
    untilNine (fun q pop _ h => untilNine_goes q pop h) 101 ())
  have : (aga lotteryModel).initialSize AgaParams.default = 100 := rfl
  rw [this]
  have := one_add_mul_le_pow (show (-2 : ℚ) ≤ -(1 / 1000000) by norm_num) (100 * 101)
  refine le_trans ?_ (this.trans_eq (by norm_num [sub_eq_add_neg]))
  norm_num

end RG.Props
