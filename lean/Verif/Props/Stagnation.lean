import Verif.Proofs.Stagnation
import Verif.Props.Documentation

/-!
# Runs that stop when they stagnate (C102)

The closure that goes on while `population.stagnation() < k`. Property theorems C102.
-/

set_option linter.unusedSectionVars false

namespace RG.Props
open RG RG.Prog
variable {I : Type} [Individual I] {Mo U A P Q : Type}

/-- The closure `|_, population| population.stagnation() < k`, for a state `q` that it does not touch. -/
def whileImproving (k : Nat) (q : Q) (p : Population I) : Prog (Bool × Q) := pure (decide (p.stagnation < k), q)

theorem whileImproving_always (k : Nat) (q : Q) (p : Population I) : Always (fun _ => True) (whileImproving k q p) := by
  unfold whileImproving; simp

theorem whileImproving_spec (k : Nat) (q : Q) (p : Population I) (b : Bool) (q' : Q) (h : (whileImproving k q p).yields (.ok (b, q'))) :
    b = decide (p.stagnation < k) := by
  unfold whileImproving at h
  simp only [yields_pure, Res.ok.injEq, Prod.mk.injEq] at h
  exact h.1

section
variable {M : EvoModel I Mo U} {alg : EvoAlgo I Mo U A P} {elite size : A → Nat} {eliteOf : P → Nat} {okP : P → Prop} {Pr : I → Prop}

/-- **C102** With an elite, a run that goes on while the best fitness has improved within the last `k` generations ends: if `rank` maps the
individuals to `0..=B` such that fitter ones have a higher rank, it breeds at most `(B + 1) * k` generations, whatever is drawn, and it ends
exactly when there have been `k` generations without an improvement. -/
theorem C102_ends (hstd : Standard M alg elite size eliteOf) (halg : SafeAlgo alg okP) (hM : SafeOps M Pr)
    (hmem : M.selectors.ReturnsMembers) (hdis : M.selectors.DistinctMembers) (hv : ValidNotNaN I) (he : EqFitness I)
    (envs : Nat → Env I) (henv : ∀ t, (envs t).Lawful) (rank : I → Nat) (B : Nat) (hB : ∀ x, Occurs M Pr x → rank x ≤ B)
    (hr : ∀ x y, Occurs M Pr x → Occurs M Pr y → (fitness x).lt (fitness y) = true → rank x < rank y)
    (k fuel : Nat) (hfuel : (B + 1) * k + 1 ≤ fuel) (a : A) (init : List I) (p : P) (q : Q) (hp : okP p) (h2 : 2 ≤ alg.initialSize p)
    (hel : 1 ≤ eliteOf p) (hn : alg.initialSize p < 2 ^ 32) (hl : init.length < 2 ^ 32) (hinit : ∀ x ∈ init, Pr x)
    (hvalid : ∃ x ∈ init, Always (fun e => isValid e = true) (M.evaluate (alg.model a) x)) :
    Always (fun r => r.1 = true ∧ GoodPop r.2.population ∧ r.2.population.stagnation = k ∧ r.2.shown.length = r.2.population.generation + 1 ∧
      r.2.population.generation ≤ (B + 1) * k) (evolvePopulation alg envs (whileImproving k) fuel a init p q) := by
  refine ((C64_run hstd halg hM envs henv _ (fun q p _ => whileImproving_always k q p) fuel a init p q hp h2 hn hl hinit hvalid).and
    fun r hr => hr).mono ?_
  rintro ⟨fin, st⟩ ⟨-, hrun⟩
  obtain ⟨a'', pop, c1, c2, c3⟩ := (yields_evolvePopulation _ _ _ _ _ _ _ _ _).1 hrun
  obtain ⟨a', hc, hsel⟩ := halg.configure a p hp
  obtain ⟨hm, s1, s2, s3⟩ := hstd.configure _ _ _ hc (hn.le.trans (by norm_num))
  rw [hc] at c1
  cases c1
  rw [hstd.init] at c2
  obtain ⟨w, g0, g1, -, -, hg⟩ := init_wf (henv 0) c2
  obtain ⟨-, hlen, hP⟩ := (init_always hM (envs 0) (henv 0) (alg.model _) init hinit (by rw [hm]; exact hvalid)).partially _ c2
  have hev : ∀ x ∈ pop.individuals, Evaluated M x := by
    unfold defaultInitialize at c2
    simp only [yields_bind_ok, yields_mapList, yields_lift] at c2
    obtain ⟨ev, h1, h2⟩ := c2
    obtain ⟨-, -, h3, -, -⟩ := Population.wf_new (henv 0).sort h2.symm
    intro x hx
    rw [h3] at hx
    have hx := (List.mem_filter.1 (mem_dedup_sort (henv 0).sort hx)).1
    obtain ⟨i, hi, rfl⟩ := List.getElem_of_mem hx
    exact ⟨_, _, List.forall₂_iff_get.1 h1 |>.2 i (by rw [h1.length_eq]; exact hi) hi⟩
  refine whileImproving_loop hstd halg hM hmem hdis hv he envs henv rank B hB hr (whileImproving k) k (whileImproving_spec k) fuel 1 _
    ⟨⟨w, hlen.trans_lt hl, hP, hsel, by rw [s1]; exact h2, by rw [s1]; exact hn, by rw [s1, s2]; exact s3.le, by simp⟩, hg hv, hev,
      by rw [s2]; exact hel⟩ (by simp [g0]) (by simp [g0]) (by simp [g1]) (by simp [g0]; omega) fin st c3

end

/-! ### OneMax -/

theorem oneMax_rank {n : Nat} (h0 : n ≠ 0) (hn : n ≤ 2 ^ 53) (x y : OneMax)
    (hx : Occurs OneMax.model (fun x => x.genome.length = n ∧ ∀ b ∈ x.genome, True) x)
    (hy : Occurs OneMax.model (fun x => x.genome.length = n ∧ ∀ b ∈ x.genome, True) y) (h : (fitness x).lt (fitness y) = true) :
    x.genome.count true < y.genome.count true := by
  obtain ⟨⟨lx, -⟩, ex, -⟩ := hx
  obtain ⟨⟨ly, -⟩, ey, -⟩ := hy
  obtain ⟨-, c2, c3, -, -, -⟩ := C63_ratio x (by intro e; rw [e] at lx; exact h0 lx.symm) (by omega)
  obtain ⟨-, d2, d3, -, -, -⟩ := C63_ratio y (by intro e; rw [e] at ly; exact h0 ly.symm) (by omega)
  rw [evaluated_oneMax ex] at c2 c3
  rw [evaluated_oneMax ey] at d2 d3
  rw [F64.lt_finite c2 d2, c3, d3] at h
  by_contra hc
  have hc : (y.genome.count true : ℚ) ≤ x.genome.count true := by exact_mod_cast not_lt.1 hc
  refine absurd (rndQ_mono ?_) (not_le.2 h)
  rw [lx, ly]
  exact div_le_div_of_nonneg_right hc (by positivity)

section
variable {alg : EvoAlgo OneMax Unit Empty A P} {elite size : A → Nat} {eliteOf : P → Nat} {okP : P → Prop}

/-- **C102** With an elite, the program of the documentation with this closure breeds at most `(n + 1) * k` generations for `n` bits, for
either algorithm, any parameters in range and whatever is drawn. -/
theorem C102_oneMax (hstd : Standard OneMax.model alg elite size eliteOf) (halg : SafeAlgo alg okP) (envs : Nat → Env OneMax)
    (henv : ∀ t, (envs t).Lawful) (n : Nat) (h0 : n ≠ 0) (hn : n ≤ 2 ^ 53) (k fuel : Nat) (hfuel : (n + 1) * k + 1 ≤ fuel) (a : A) (p : P)
    (q : Q) (hp : okP p) (h2 : 2 ≤ alg.initialSize p) (hel : 1 ≤ eliteOf p) (hs : alg.initialSize p < 2 ^ 32) :
    Always (fun r => ∃ x, r.1 = some x ∧ x.genome.length = n ∧ r.2.population.fittest = .ok x ∧ r.2.population.stagnation = k ∧
      r.2.shown.length = r.2.population.generation + 1 ∧ r.2.population.generation ≤ (n + 1) * k)
      (runRandom OneMax.model alg envs (whileImproving k) fuel a (OneMax.newRandom n) p q) := by
  refine ((C63_run hstd halg envs henv (whileImproving k) (fun q p _ => whileImproving_always k q p) fuel a n h0 hn p q hp h2 hs).and
    fun r hr => hr).mono ?_
  rintro ⟨o, st⟩ ⟨⟨hx, -⟩, hr⟩
  obtain ⟨init, g1, ⟨fin, st1⟩, g2, g3⟩ : ∃ init, (defaultExtend (OneMax.newRandom n) [] (alg.initialSize p)).yields (.ok init) ∧
      ∃ r, (evolvePopulation alg envs (whileImproving k) fuel a init p q).yields (.ok r) ∧ (takeResult r).yields (.ok (o, st)) := by
    obtain ⟨init, g1, g2⟩ := (yields_bind_ok _ _ _).1 hr
    exact ⟨init, g1, (yields_bind_ok _ _ _).1 g2⟩
  obtain ⟨l1, l2⟩ := (random_population n _ (by omega)).partially init g1
  have hends := C102_ends hstd halg (C63_operators (fun _ => True) n h0) oneMax_members oneMax_distinct validNotNaN_default oneMax_eqFitness envs henv
    (fun x => x.genome.count true) n (fun x hx => hx.1.1 ▸ List.count_le_length) (oneMax_rank h0 hn) k fuel hfuel a init p q hp h2 hel hs
    (l1 ▸ hs) (fun x hx => ⟨l2 x hx, by simp⟩) (by
      obtain ⟨x, hx⟩ := List.exists_mem_of_ne_nil init (fun e => by rw [e] at l1; simp at l1; omega)
      exact ⟨x, hx, oneMax_evaluates h0 hn _ x (l2 x hx)⟩)
  obtain ⟨rfl, e0, e1, e2, e3⟩ := hends.partially _ g2
  obtain ⟨rfl, g3⟩ := (yields_takeResult _ _ _).1 g3
  rcases g3 with ⟨-, x, hy, rfl⟩ | ⟨h, -⟩
  · exact ⟨x, rfl, (hx x rfl).1, e0.wf.fittest_ok.2 ▸ hy, e1, e2, e3⟩
  · cases h

end

-- the hypotheses hold of the example parameters, for three bits and five generations without an improvement
example : Always (fun r => ∃ x, r.1 = some x ∧ x.genome.length = 3 ∧ r.2.population.fittest = .ok x ∧ r.2.population.stagnation = 5 ∧
    r.2.shown.length = r.2.population.generation + 1 ∧ r.2.population.generation ≤ 20)
    (runRandom OneMax.model (ga OneMax.model) (fun _ => oneEnv) (whileImproving 5) 21 (Ga.ofModel ()) (OneMax.newRandom 3)
      smallParams ()) := by
  refine C102_oneMax (ga_standard _) (ga_safe (C63_operators (fun _ => True) 3 (by norm_num))) _ (fun _ => oneEnv_lawful)
    3 (by norm_num) (by norm_num) 5 21 (by norm_num) _ _ _
    ⟨?_, by simp [smallParams, SelectionStrategy.Valid], by simp [smallParams]⟩ (by decide) (by decide +kernel) (by decide)
  by_contra h
  have h1 := (C50_ga smallParams).2 h
  rw [show smallParams.validate = .ok () by decide +kernel] at h1
  cases h1

/-! ### Without elites -/

/-- Two individuals, no elites, tournaments of one. -/
def swingParams : GaParams :=
  { populationSize := 2, elitismRate := F64.zero, crossoverRate := F64.zero, mutationRate := F64.lit (1 / 2),
    selectionStrategy := .tournament 1 }

/-- The genome `01`, evaluated. -/
def swingLow : OneMax := OneMax.evaluate (.ofGenome [false, true])

/-- The genome `11`, evaluated. -/
def swingHigh : OneMax := OneMax.evaluate (.ofGenome [true, true])

/-- The algorithm configured with these parameters. -/
def swingAlgo : Ga Unit Empty := ⟨(), 2, 0, ⟨F64.zero, F64.lit (1 / 2), .builtin (.tournament ⟨1⟩)⟩⟩

theorem swing_configure : (Ga.ofModel () : Ga Unit Empty).configure swingParams = .ok swingAlgo := by
  have h : interpolateUsize 0 swingParams.populationSize swingParams.elitismRate = .ok 0 := by decide +kernel
  have hv : GaParams.validate swingParams = .ok () := by decide +kernel
  unfold Ga.configure
  rw [hv, h]
  rfl

theorem swing_select (env : NumEnv) (pop : Population OneMax) (x : OneMax) (h : x ∈ pop.individuals) :
    ∃ i, ((swingAlgo.breeding.parentSelector).select env OneMax.model.selectors pop).yields (.ok (i, x)) := by
  obtain ⟨i, hi, rfl⟩ := List.getElem_of_mem h
  refine ⟨i, ?_⟩
  show (TournamentSelection.select ⟨1⟩ pop).yields _
  unfold TournamentSelection.select
  have hpos : 0 < pop.len := by unfold Population.len; omega
  simp only [yields_bind_ok, yields_lift]
  refine ⟨(), by simp [hpos, Res.assert], [i], ?_, i, rfl, ?_⟩
  · rw [yields_replicate]
    refine ⟨rfl, fun j hj => ?_⟩
    rw [List.mem_singleton.1 hj, yields_uniform]
    exact Or.inr ⟨i, hi, rfl⟩
  · rw [memberAt_ok hi]

theorem swing_skip : CanSkip F64.zero ∧ CanSkip (F64.lit (1 / 2)) ∧ CanFire (F64.lit (1 / 2)) :=
  ⟨⟨0, by norm_num, by decide +kernel⟩, ⟨2 ^ 53 - 1, by norm_num, by decide +kernel⟩, ⟨0, by norm_num, by decide +kernel⟩⟩

/-- Each member can be bred again. -/
theorem swing_keep (env : NumEnv) (pop : Population OneMax) (x : OneMax) (h : x ∈ pop.individuals) (hx : OneMax.evaluate x = x)
    (hv : isValid x = true) (hn : (fitness x).isNaN = false) : (OneMax.model.breed env () pop swingAlgo.breeding).yields (.ok x) := by
  obtain ⟨i, hi⟩ := swing_select env pop x h
  have h1 : (OneMax.model.evaluate () x).yields (.ok x) := by
    show (pure (OneMax.evaluate x) : Prog OneMax).yields _
    rw [hx, yields_pure]
  have h2 : (OneMax.model.canSurvive () x x pop).yields (.ok true) := by
    show (pure (defaultCanSurvive x x) : Prog Bool).yields _
    rw [yields_pure, defaultCanSurvive, F64.le_refl hn]
  exact (yields_defaultBreed _ _ _ _ _ _).2 ⟨x, none, x, x, .alone hi (Or.inr swing_skip.1), rfl,
    ⟨x, x, x, Or.inl ⟨rfl, rfl⟩, Or.inl ⟨swing_skip.2.1, rfl⟩, (yields_pure _ _).2 rfl, h1⟩, Or.inl ⟨hv, h2, rfl⟩⟩

/-- The better one can be bred from the worse one. -/
theorem swing_rise (env : NumEnv) (pop : Population OneMax) (h : swingLow ∈ pop.individuals) :
    (OneMax.model.breed env () pop swingAlgo.breeding).yields (.ok swingHigh) := by
  obtain ⟨i, hi⟩ := swing_select env pop _ h
  have h0 : (OneMax.model.mutate () swingLow).yields (.ok { swingLow with genome := [true, true] }) :=
    yields_of_draws _ [1, 0] _ (by decide +kernel)
  have h1 : (OneMax.model.evaluate () { swingLow with genome := [true, true] }).yields (.ok swingHigh) :=
    (yields_pure _ _).2 (by decide +kernel)
  have h2 : (OneMax.model.canSurvive () swingHigh swingLow pop).yields (.ok true) := by
    show (pure (defaultCanSurvive swingHigh swingLow) : Prog Bool).yields _
    rw [yields_pure, show defaultCanSurvive swingHigh swingLow = true by decide +kernel]
  exact (yields_defaultBreed _ _ _ _ _ _).2 ⟨swingLow, none, swingLow, swingHigh, .alone hi (Or.inr swing_skip.1), rfl,
    ⟨swingLow, { swingLow with genome := [true, true] }, { swingLow with genome := [true, true] }, Or.inl ⟨rfl, rfl⟩,
      Or.inr ⟨swing_skip.2.2, h0⟩, (yields_pure _ _).2 rfl, h1⟩, Or.inl ⟨by decide +kernel, h2, rfl⟩⟩

/-- The individuals of the populations of the run: both in even generations, the worse one in odd ones. -/
def swingPair (g : Nat) : List OneMax := if g % 2 = 0 then [swingLow, swingHigh] else [swingLow]

/-- What is bred from them. -/
def swingBred (g : Nat) : List OneMax := if g % 2 = 0 then [swingLow, swingHigh] else [swingLow, swingLow]

theorem swing_dedup {env : Env OneMax} (henv : env.Lawful) (g : Nat) : dedup (env.sort (swingBred g)) = swingPair g := by
  unfold swingBred swingPair
  split
  · have hs := henv.sort.sorted [swingLow, swingHigh] (by decide +kernel)
    have hp := henv.sort.perm [swingLow, swingHigh]
    have hl := hp.length_eq
    rcases he : env.sort [swingLow, swingHigh] with _ | ⟨a, _ | ⟨b, _ | ⟨c, l⟩⟩⟩
    all_goals rw [he] at hl hs hp
    all_goals try simp at hl
    have ha : a ∈ [swingLow, swingHigh] := hp.mem_iff.1 (by simp)
    have hh : swingHigh ∈ [a, b] := hp.mem_iff.2 (by simp)
    have hw : swingLow ∈ [a, b] := hp.mem_iff.2 (by simp)
    have hne : swingLow ≠ swingHigh := by decide +kernel
    simp only [List.mem_cons, List.not_mem_nil, or_false] at ha hh hw
    rcases ha with rfl | rfl
    · rcases hh with hh | rfl
      · exact absurd hh.symm hne
      · decide +kernel
    · rcases hw with hw | rfl
      · exact absurd hw hne
      · exact absurd hs (by decide +kernel)
  · have hp := henv.sort.perm [swingLow, swingLow]
    have : env.sort [swingLow, swingLow] = [swingLow, swingLow] := List.perm_replicate (n := 2).1 hp
    rw [this]
    decide +kernel

theorem swing_max (pop : Population OneMax) (w : pop.WF) (h : pop.individuals = swingPair pop.generation) :
    pop.stats.max = if pop.generation % 2 = 0 then F64.one else F64.lit (1 / 2) := by
  rw [w.stats_max, h]
  unfold swingPair
  split <;> decide +kernel

theorem swing_step (env : Env OneMax) (henv : env.Lawful) (st : RunState OneMax (Ga Unit Empty) Q) (h1 : st.algo = swingAlgo)
    (w : st.population.WF) (h2 : st.population.individuals = swingPair st.population.generation) :
    ∃ st', (generationStep (ga OneMax.model) env st).yields (.ok st') ∧ st'.algo = swingAlgo ∧ st'.population.WF ∧
      st'.population.generation = st.population.generation + 1 ∧
      st'.population.individuals = swingPair st'.population.generation ∧
      st'.population.stagnation = if st.population.generation % 2 = 0 then st.population.stagnation + 1 else 0 := by
  have hlow : swingLow ∈ st.population.individuals := by
    rw [h2]; unfold swingPair; split <;> simp
  have hbred : ∀ c ∈ swingBred (st.population.generation + 1),
      (OneMax.model.breed env.num () st.population swingAlgo.breeding).yields (.ok c) := by
    intro c hc
    have hc : c = swingLow ∨ c = swingHigh := by
      unfold swingBred at hc; split at hc <;> simp at hc <;> tauto
    rcases hc with rfl | rfl
    · exact swing_keep _ _ _ hlow (by decide +kernel) (by decide +kernel) (by decide +kernel)
    · exact swing_rise _ _ hlow
  obtain ⟨pop, old, hrep⟩ : ∃ pop old, st.population.replace env.sort (swingBred (st.population.generation + 1)) = .ok (pop, old) := by
    rw [Population.replace_eq henv.sort, if_neg (by unfold swingBred; split <;> simp)]
    exact ⟨_, _, rfl⟩
  obtain ⟨w1, -, w3, w4, w5, -⟩ := Population.wf_replace henv.sort hrep
  refine ⟨{ st with algo := swingAlgo, population := pop, buffer := old }, (yields_generationStep _ _ _ _).2
    ⟨swingAlgo, [], swingBred (st.population.generation + 1), pop, old, ?_, rfl, ?_, hrep, rfl⟩, rfl, w1, w4, ?_, ?_⟩
  · rw [h1]
    exact (yields_pure _ _).2 rfl
  · refine (C52_generate OneMax.model env.num () swingAlgo.breeding 2 _ [] _).2 (Or.inr (Or.inr ⟨le_refl 2, swingBred (st.population.generation + 1), rfl, ?_, hbred⟩))
    unfold swingBred; split <;> rfl
  · simp only
    rw [w3, swing_dedup henv, w4]
  · simp only
    have m1 := swing_max _ w h2
    have m2 := swing_max pop w1 (by rw [w3, swing_dedup henv, w4])
    rw [w4] at m2
    rw [w5]
    rcases Nat.mod_two_eq_zero_or_one st.population.generation with e | e
    · rw [if_pos e] at m1 ⊢
      rw [if_neg (by omega)] at m2
      rw [m1, m2, if_neg (by decide +kernel)]
    · rw [if_neg (by omega)] at m1
      rw [if_pos (by omega)] at m2
      rw [m1, m2, if_pos (by decide +kernel), if_neg (by omega)]

theorem swing_loop (envs : Nat → Env OneMax) (henv : ∀ t, (envs t).Lawful) {k : Nat} (hk : 2 ≤ k) (fuel t : Nat) (st : RunState OneMax (Ga Unit Empty) Q)
    (h1 : st.algo = swingAlgo) (w : st.population.WF) (h2 : st.population.individuals = swingPair st.population.generation)
    (h3 : st.population.stagnation ≤ 1) (h4 : st.population.generation % 2 = 0 → st.population.stagnation = 0) :
    ∃ st', (evolveLoop (ga OneMax.model) envs (whileImproving k) fuel t st).yields (.ok (false, st')) := by
  induction fuel generalizing t st with
  | zero => exact ⟨st, (yields_pure _ _).2 rfl⟩
  | succ fuel ih =>
    obtain ⟨st2, g1, g2, g3, g4, g5, g6⟩ := swing_step (envs t) (henv t) { st with q := st.q, shown := st.shown ++ [st.population] } h1 w h2
    simp only at g4 g6
    obtain ⟨st', h⟩ := ih (t + 1) st2 g2 g3 g5 (by rw [g6]; split <;> [rename_i e; skip] <;> [have := h4 e; skip] <;> omega)
      (by intro e; rw [g6, if_neg (by omega)])
    refine ⟨st', (yields_evolveLoop_succ _ _ _ _ _ _ _).2 (Or.inr ⟨st.q, st2, ?_, g1, h⟩)⟩
    unfold whileImproving
    rw [yields_pure, decide_eq_true (by omega)]

/-- **C102** Without elites it need not end: for every number of calls there are draws with which this run, that stops after `k ≥ 2`
generations without an improvement, is still not finished. -/
theorem C102_needed (envs : Nat → Env OneMax) (henv : ∀ t, (envs t).Lawful) (k : Nat) (hk : 2 ≤ k) (fuel : Nat) (q : Q) :
    swingParams.Valid ∧ eliteCount swingParams.populationSize swingParams.elitismRate = 0 ∧
    ∃ st, (evolvePopulation (ga OneMax.model) envs (whileImproving k) fuel (Ga.ofModel ()) [swingLow, swingHigh] swingParams q).yields
      (.ok (false, st)) := by
  have hvalid : swingParams.Valid := by
    by_contra h
    have h1 := (C50_ga swingParams).2 h
    rw [show swingParams.validate = .ok () by decide +kernel] at h1
    cases h1
  refine ⟨hvalid, by decide +kernel, ?_⟩
  obtain ⟨pop, hnew⟩ : ∃ pop, Population.new (envs 0).sort [swingLow, swingHigh] = .ok pop := by
    rw [Population.new_eq (henv 0).sort, if_neg (by simp)]
    exact ⟨_, rfl⟩
  obtain ⟨w, -, w3, w4, w5⟩ := Population.wf_new (henv 0).sort hnew
  obtain ⟨st', h⟩ := swing_loop envs henv hk fuel 1 ⟨swingAlgo, pop, [], q, []⟩ rfl w (by
    simp only
    rw [w3, w4]; exact swing_dedup (henv 0) 0) (by simp [w5]) (fun _ => w5)
  refine ⟨st', (yields_evolvePopulation _ _ _ _ _ _ _ _ _).2 ⟨swingAlgo, pop, swing_configure, ?_, h⟩⟩
  show (defaultInitialize OneMax.model (envs 0) () [swingLow, swingHigh]).yields _
  unfold defaultInitialize
  simp only [yields_bind_ok, yields_mapList, yields_lift]
  refine ⟨[swingLow, swingHigh], .cons ((yields_pure _ _).2 (by decide +kernel)) (.cons ((yields_pure _ _).2 (by decide +kernel)) .nil), ?_⟩
  rw [← hnew, show [swingLow, swingHigh].filter isValid = [swingLow, swingHigh] by decide +kernel]

end RG.Props
