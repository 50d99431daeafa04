import Verif.Proofs.Takeover
import Verif.Proofs.AgaLadder
import Verif.Props.OneMaxRandom

/-!
# Property C112: without crossover and mutation only the elites remain

With both rates zero a run makes no new genes (C106). It also loses those it has: with tournament, rank, elitist or linear selection,
each generation has a fixed positive probability of being bred from the last individual alone, and then only the genes of the elites are
left, or of one individual if there are no elites. So almost surely a run that is not stopped ends up with at most that many different genes.
-/

set_option linter.unusedSectionVars false

namespace RG.Props
open RG RG.Prog
variable {I : Type} [Individual I] {Mo U A P Q B : Type}

section
variable {M : EvoModel I Mo U} {alg : EvoAlgo I Mo U A P} {elite size : A → Nat} {eliteOf : P → Nat} {okP : P → Prop}
  {Pr : I → Prop} {ok : A → Population I → Prop} {s : SelectionStrategy} {gen : I → B}

open Classical in
theorem still_run (hstd : Standard M alg elite size eliteOf) (halg : SafeAlgo alg okP) (hM : SafeOps M Pr)
    (hk : KeepsGenes M gen) (hst : Still alg ok s) (hs : LastSelecting s) (envs : Nat → Env I) (henv : ∀ t, (envs t).Lawful)
    (progress : Q → Population I → Prog (Bool × Q)) (hpr : ∀ q p, p.WF → Always (fun _ => True) (progress q p)) (k : Nat) (a : A)
    (init : List I) (p : P) (q : Q) (hp : okP p) (htwo : eliteOf p + 2 ≤ alg.initialSize p) (hn : alg.initialSize p < 2 ^ 32)
    (hl : init.length < 2 ^ 32) (hinit : ∀ x ∈ init, Pr x)
    (hvalid : ∃ x ∈ init, Always (fun e => isValid e = true) (M.evaluate (alg.model a) x))
    (hok : ∀ a' pop, alg.configure a p = .ok a' → pop.generation = 0 → ok a' pop) :
    1 - (1 - (1 / (max (alg.initialSize p) init.length : ℕ) : ℚ) ^ alg.initialSize p) ^ k ≤
      (evolvePopulation alg envs progress k a init p q).prob
        (fun r => r.1 = true ∨ FewGenes gen (max (eliteOf p) 1) r.2.population) := by
  have hrun := C64_run hstd halg hM envs henv progress hpr k a init p q hp (by omega) hn hl hinit hvalid
  have hsum := prob_add_not_of_always _ (fun r : Bool × RunState I A Q => r.1 = true ∨ FewGenes gen (max (eliteOf p) 1) r.2.population) hrun
  have hle : (evolvePopulation alg envs progress k a init p q).prob
      (fun r => ¬ (r.1 = true ∨ FewGenes gen (max (eliteOf p) 1) r.2.population)) ≤
      (1 - (1 / (max (alg.initialSize p) init.length : ℕ) : ℚ) ^ alg.initialSize p) ^ k := by
    have hb0 : (0 : ℚ) < (max (alg.initialSize p) init.length : ℕ) := by
      exact_mod_cast (show 0 < max (alg.initialSize p) init.length by omega)
    have hσ1 : (1 / (max (alg.initialSize p) init.length : ℕ) : ℚ) ≤ 1 := by
      rw [div_le_one hb0]; exact_mod_cast (show 1 ≤ max (alg.initialSize p) init.length by omega)
    have hpow := pow_le_one₀ (n := alg.initialSize p) (by positivity) hσ1
    obtain ⟨a', hc, hsel⟩ := halg.configure a p hp
    obtain ⟨hm, s1, s2, s3⟩ := hstd.configure _ _ _ hc (hn.le.trans (by norm_num))
    unfold evolvePopulation
    rw [hc]
    simp only [lift_ok, bind_pure_left]
    refine prob_bind_le_const _ _ _ _ (pow_nonneg (by linarith) _) fun pop hpop => ?_
    rw [hstd.init] at hpop
    obtain ⟨w, hlen, hP⟩ := (init_always hM (envs 0) (henv 0) (alg.model a') init hinit (by rw [hm]; exact hvalid)).partially pop hpop
    refine (prob_mono _ _ (fun r => r.1 = false ∧ ¬ FewGenes gen (max (eliteOf p) 1) r.2.population) fun r _ h => ?_).trans
      (prob_loop_many hstd halg hM hk hst hs (le_max_left _ _) htwo envs henv progress k 1 (le_refl _) _
        ⟨⟨w, hlen.trans_lt hl, hP, hsel, by rw [s1]; omega, by rw [s1]; exact hn, by rw [s1, s2]; exact s3.le, by simp⟩,
          hok a' pop hc (init_wf (henv 0) hpop).2.1, hlen.trans (le_max_right _ _), s2, s1⟩)
    exact ⟨by simpa using fun h' => h (Or.inl h'), fun h' => h (Or.inr h')⟩
  linarith

/-- If `progress` always continues, the run does not end by itself. -/
theorem never_ends (hstd : Standard M alg elite size eliteOf) (envs : Nat → Env I) (henv : ∀ t, (envs t).Lawful)
    (progress : Q → Population I → Prog (Bool × Q)) (hpr : ∀ q p, p.WF → Always (fun r => r.1 = true) (progress q p)) {k : Nat} {a : A}
    {init : List I} {p : P} {q : Q} {r : Bool × RunState I A Q} (h : (evolvePopulation alg envs progress k a init p q).yields (.ok r)) :
    r.1 ≠ true := by
  rintro hfin
  obtain ⟨fin, st⟩ := r
  have hfin : fin = true := hfin
  subst hfin
  obtain ⟨b, pop, -, h2, h3⟩ := (yields_evolvePopulation _ _ _ _ _ _ _ _ _).1 h
  rw [hstd.init] at h2
  have hloop : ∀ (fuel t : Nat) (st0 : RunState I A Q), st0.population.WF →
      ¬ (evolveLoop alg envs progress fuel t st0).yields (.ok (true, st)) := by
    intro fuel
    induction fuel with
    | zero => intro t st0 _ h; cases h
    | succ fuel ih =>
      intro t st0 w h
      rcases (yields_evolveLoop_succ _ _ _ _ _ _ _).1 h with ⟨q1, g1, -⟩ | ⟨q1, st2, -, g2, g3⟩
      · have := (hpr _ _ w).partially _ g1
        cases this
      · obtain ⟨c, el, buf, pop, old, -, -, -, g4, e⟩ := (yields_generationStep _ _ _ _).1 g2
        refine ih (t + 1) st2 ?_ g3
        rw [e]
        rw [hstd.replace] at g4
        exact (Population.wf_replace (henv t).sort g4).1
  exact hloop _ _ _ (init_wf (henv 0) h2).1 h3

/-- What is true of any number of generations with a bound below 1 is almost surely true in the end. -/
theorem eventually_of_pow {f : Nat → ℚ} {b n : Nat} (hb : 0 < b) (h : ∀ k, 1 - (1 - (1 / (b : ℚ)) ^ n) ^ k ≤ f k) (ε : ℚ)
    (hε : 0 < ε) : ∃ K, ∀ k, K ≤ k → 1 - ε ≤ f k := by
  have hb0 : (0 : ℚ) < b := by exact_mod_cast hb
  have hpos : (0 : ℚ) < (1 / (b : ℚ)) ^ n := by positivity
  have hle : (1 / (b : ℚ)) ^ n ≤ 1 := pow_le_one₀ (by positivity) (by rw [div_le_one hb0]; exact_mod_cast hb)
  obtain ⟨K, hK⟩ := exists_pow_lt_of_lt_one hε (show 1 - (1 / (b : ℚ)) ^ n < 1 by linarith)
  refine ⟨K, fun k hk => le_trans ?_ (h k)⟩
  have := pow_le_pow_of_le_one (show 0 ≤ 1 - (1 / (b : ℚ)) ^ n by linarith) (by linarith) hk
  linarith

end

section
variable {M : EvoModel I Mo U} {Pr : I → Prop} {gen : I → B}

theorem ga_still (hM : SafeOps M Pr) (p : GaParams) (hc : F64.zero.lt p.crossoverRate = false) (hm : F64.zero.lt p.mutationRate = false)
    (model : Mo) : Still (ga M) (GaOk p model) p.selectionStrategy where
  breeds env b pop b' hb hb' := by
    obtain ⟨o1, o2, o3, sel, o4, o5⟩ := hb
    have hb' : (Ga.prepare M env b pop).yields (.ok b') := hb'
    rw [gaPrepare_eq hM, yields_pure] at hb'
    cases hb'
    refine ⟨?_, ?_, sel, o4, ?_⟩
    · show F64.zero.lt b.breeding.crossoverRate = false
      rw [o3]; exact hc
    · show F64.zero.lt b.breeding.mutationRate = false
      rw [o2]; exact hm
    · show b.breeding.parentSelector.prepare env M.selectors pop = _
      rw [o5]; rfl
  next env b pop b' pop' hb hb' _ := by
    obtain ⟨o1, o2, o3, sel, o4, o5⟩ := hb
    have hb' : (Ga.prepare M env b pop).yields (.ok b') := hb'
    rw [gaPrepare_eq hM, yields_pure] at hb'
    cases hb'
    refine ⟨o1, o2, o3, _, o4.prepare env pop, ?_⟩
    show b.breeding.parentSelector.prepare env M.selectors pop = _
    rw [o5]; rfl

/-- The adaptive algorithm keeps the ranges and the kind of its selector; after the first generation its rates are not positive. -/
structure StillAga (p : AgaParams) (b : Aga Mo U) (pop : Population I) : Prop where
  cross : b.crossoverRateRange = p.crossoverRateRange
  mutation : b.mutationRateRange = p.mutationRateRange
  rates : pop.generation = 0 ∨ F64.zero.lt b.breeding.crossoverRate = false ∧ F64.zero.lt b.breeding.mutationRate = false
  selector : ∃ sel, OfStrategy (I := I) p.selectionStrategy sel ∧ b.breeding.parentSelector = .builtin sel

theorem adjust_selector (b : Aga Mo U) (n : Nat) (std : F64) : (b.adjust n std).breeding.parentSelector = b.breeding.parentSelector := by
  unfold Aga.adjust
  split
  · rfl
  · split <;> rfl

theorem aga_still (hM : SafeOps M Pr) (p : AgaParams) (hc : ZeroRange p.crossoverRateRange) (hm : ZeroRange p.mutationRateRange) :
    Still (aga M) (StillAga p) p.selectionStrategy where
  breeds env b pop b' hb hb' := by
    obtain ⟨sel, o4, o5⟩ := hb.selector
    have hb' : (Aga.prepare M env b pop).yields (.ok b') := hb'
    rw [agaPrepare_eq hM, yields_pure] at hb'
    cases hb'
    obtain ⟨-, -, i3, i4⟩ := adjust_zero (a := b) (n := pop.generation) (std := pop.stats.std)
    refine ⟨i4 (hb.cross ▸ hc) (hb.rates.imp_right And.left), i3 (hb.mutation ▸ hm) (hb.rates.imp_right And.right), sel, o4, ?_⟩
    show DynSel.prepare env M.selectors pop _ = _
    rw [adjust_selector, o5]; rfl
  next env b pop b' pop' hb hb' _ := by
    obtain ⟨sel, o4, o5⟩ := hb.selector
    have hb' : (Aga.prepare M env b pop).yields (.ok b') := hb'
    rw [agaPrepare_eq hM, yields_pure] at hb'
    cases hb'
    obtain ⟨i1, i2, i3, i4⟩ := adjust_zero (a := b) (n := pop.generation) (std := pop.stats.std)
    refine ⟨i2.trans hb.cross, i1.trans hb.mutation,
      Or.inr ⟨i4 (hb.cross ▸ hc) (hb.rates.imp_right And.left), i3 (hb.mutation ▸ hm) (hb.rates.imp_right And.right)⟩,
      _, o4.prepare env pop, ?_⟩
    show DynSel.prepare env M.selectors pop _ = _
    rw [adjust_selector, o5]; rfl

open Classical in
/-- **C112** The genetic algorithm with both rates zero: after `k` generations, with at least this probability, the run has been stopped by
`progress` or its individuals have at most as many different genes as there are elites, or one if there are none. -/
theorem C112_ga (hM : SafeOps M Pr) (hk : KeepsGenes M gen) (envs : Nat → Env I) (henv : ∀ t, (envs t).Lawful)
    (progress : Q → Population I → Prog (Bool × Q)) (hpr : ∀ q p, p.WF → Always (fun _ => True) (progress q p)) (k : Nat)
    (a : Ga Mo U) (init : List I) (p : GaParams) (q : Q) (hv : p.Valid) (hsv : p.selectionStrategy.Valid)
    (hlin : ∀ b, p.selectionStrategy = .linear b → SafeBias b) (hs : LastSelecting p.selectionStrategy)
    (hc : F64.zero.lt p.crossoverRate = false) (hm : F64.zero.lt p.mutationRate = false)
    (htwo : eliteCount p.populationSize p.elitismRate + 2 ≤ p.populationSize) (hn : p.populationSize < 2 ^ 32)
    (hl : init.length < 2 ^ 32) (hinit : ∀ x ∈ init, Pr x)
    (hvalid : ∃ x ∈ init, Always (fun e => isValid e = true) (M.evaluate a.model x)) :
    1 - (1 - (1 / (max p.populationSize init.length : ℕ) : ℚ) ^ p.populationSize) ^ k ≤
      (evolvePopulation (ga M) envs progress k a init p q).prob
        (fun r => r.1 = true ∨ FewGenes gen (max (eliteCount p.populationSize p.elitismRate) 1) r.2.population) :=
  still_run (ga_standard M) (ga_safe hM) hM hk (ga_still hM p hc hm a.model) hs envs henv progress hpr k a init p q ⟨hv, hsv, hlin⟩
    htwo hn hl hinit hvalid fun a' pop h1 _ => by
      have h1 : a.configure p = .ok a' := h1
      unfold Ga.configure at h1
      obtain ⟨-, -, h1⟩ := res_bind_ok h1
      obtain ⟨k, -, h1⟩ := res_bind_ok h1
      obtain ⟨sel, hsel, h1⟩ := res_bind_ok h1
      cases h1
      exact ⟨rfl, rfl, rfl, sel, ⟨sel, hsel, [], rfl⟩, rfl⟩

open Classical in
/-- **C112** The adaptive genetic algorithm with both ranges zero. -/
theorem C112_aga (hM : SafeOps M Pr) (hk : KeepsGenes M gen) (envs : Nat → Env I) (henv : ∀ t, (envs t).Lawful)
    (progress : Q → Population I → Prog (Bool × Q)) (hpr : ∀ q p, p.WF → Always (fun _ => True) (progress q p)) (k : Nat)
    (a : Aga Mo U) (init : List I) (p : AgaParams) (q : Q) (hv : p.Valid) (hsv : p.selectionStrategy.Valid)
    (hlin : ∀ b, p.selectionStrategy = .linear b → SafeBias b) (hs : LastSelecting p.selectionStrategy)
    (hc : ZeroRange p.crossoverRateRange) (hm : ZeroRange p.mutationRateRange)
    (htwo : eliteCount p.populationSize p.elitismRate + 2 ≤ p.populationSize) (hn : p.populationSize < 2 ^ 32)
    (hl : init.length < 2 ^ 32) (hinit : ∀ x ∈ init, Pr x)
    (hvalid : ∃ x ∈ init, Always (fun e => isValid e = true) (M.evaluate a.model x)) :
    1 - (1 - (1 / (max p.populationSize init.length : ℕ) : ℚ) ^ p.populationSize) ^ k ≤
      (evolvePopulation (aga M) envs progress k a init p q).prob
        (fun r => r.1 = true ∨ FewGenes gen (max (eliteCount p.populationSize p.elitismRate) 1) r.2.population) :=
  still_run (aga_standard M) (aga_safe hM) hM hk (aga_still hM p hc hm) hs envs henv progress hpr k a init p q ⟨hv, hsv, hlin⟩
    htwo hn hl hinit hvalid fun a' pop h1 h0 => by
      have h1 : a.configure p = .ok a' := h1
      unfold Aga.configure at h1
      obtain ⟨-, -, h1⟩ := res_bind_ok h1
      obtain ⟨k, -, h1⟩ := res_bind_ok h1
      obtain ⟨sel, hsel, h1⟩ := res_bind_ok h1
      cases h1
      exact ⟨rfl, rfl, Or.inl h0, sel, ⟨sel, hsel, [], rfl⟩, rfl⟩

open Classical in
/-- **C112** So if `progress` never stops it, the run of the genetic algorithm almost surely gets there. -/
theorem C112_almost_surely (hM : SafeOps M Pr) (hk : KeepsGenes M gen) (envs : Nat → Env I) (henv : ∀ t, (envs t).Lawful)
    (progress : Q → Population I → Prog (Bool × Q)) (hpr : ∀ q p, p.WF → Always (fun r => r.1 = true) (progress q p))
    (a : Ga Mo U) (init : List I) (p : GaParams) (q : Q) (hv : p.Valid) (hsv : p.selectionStrategy.Valid)
    (hlin : ∀ b, p.selectionStrategy = .linear b → SafeBias b) (hs : LastSelecting p.selectionStrategy)
    (hc : F64.zero.lt p.crossoverRate = false) (hm : F64.zero.lt p.mutationRate = false)
    (htwo : eliteCount p.populationSize p.elitismRate + 2 ≤ p.populationSize) (hn : p.populationSize < 2 ^ 32)
    (hl : init.length < 2 ^ 32) (hinit : ∀ x ∈ init, Pr x)
    (hvalid : ∃ x ∈ init, Always (fun e => isValid e = true) (M.evaluate a.model x)) (ε : ℚ) (hε : 0 < ε) :
    ∃ K, ∀ k, K ≤ k → 1 - ε ≤ (evolvePopulation (ga M) envs progress k a init p q).prob
      (fun r => FewGenes gen (max (eliteCount p.populationSize p.elitismRate) 1) r.2.population) := by
  refine eventually_of_pow (b := max p.populationSize init.length) (n := p.populationSize) (by omega) (fun k => ?_) ε hε
  refine (C112_ga hM hk envs henv progress (fun q p w => (hpr q p w).mono fun _ _ => trivial) k a init p q hv hsv hlin hs hc hm htwo hn hl
    hinit hvalid).trans (prob_mono _ _ _ fun r hr h => h.resolve_left fun hfin => ?_)
  exact never_ends (ga_standard M) envs henv progress hpr hr hfin

open Classical in
/-- **C112** The same for the adaptive genetic algorithm. -/
theorem C112_aga_almost_surely (hM : SafeOps M Pr) (hk : KeepsGenes M gen) (envs : Nat → Env I) (henv : ∀ t, (envs t).Lawful)
    (progress : Q → Population I → Prog (Bool × Q)) (hpr : ∀ q p, p.WF → Always (fun r => r.1 = true) (progress q p))
    (a : Aga Mo U) (init : List I) (p : AgaParams) (q : Q) (hv : p.Valid) (hsv : p.selectionStrategy.Valid)
    (hlin : ∀ b, p.selectionStrategy = .linear b → SafeBias b) (hs : LastSelecting p.selectionStrategy)
    (hc : ZeroRange p.crossoverRateRange) (hm : ZeroRange p.mutationRateRange)
    (htwo : eliteCount p.populationSize p.elitismRate + 2 ≤ p.populationSize) (hn : p.populationSize < 2 ^ 32)
    (hl : init.length < 2 ^ 32) (hinit : ∀ x ∈ init, Pr x)
    (hvalid : ∃ x ∈ init, Always (fun e => isValid e = true) (M.evaluate a.model x)) (ε : ℚ) (hε : 0 < ε) :
    ∃ K, ∀ k, K ≤ k → 1 - ε ≤ (evolvePopulation (aga M) envs progress k a init p q).prob
      (fun r => FewGenes gen (max (eliteCount p.populationSize p.elitismRate) 1) r.2.population) := by
  refine eventually_of_pow (b := max p.populationSize init.length) (n := p.populationSize) (by omega) (fun k => ?_) ε hε
  refine (C112_aga hM hk envs henv progress (fun q p w => (hpr q p w).mono fun _ _ => trivial) k a init p q hv hsv hlin hs hc hm htwo hn hl
    hinit hvalid).trans (prob_mono _ _ _ fun r hr h => h.resolve_left fun hfin => ?_)
  exact never_ends (aga_standard M) envs henv progress hpr hr hfin

end

/-- **C112** From then on it stays so: in every run of the genetic algorithm with both rates zero, a population has at most `n` different
genes if an earlier one has. -/
theorem C112_stays (M : EvoModel I Mo U) (gen : I → B) (hM : KeepsGenes M gen) (envs : Nat → Env I)
    (henv : ∀ t, (envs t).Lawful) (progress : Q → Population I → Prog (Bool × Q)) (fuel : Nat) (a : Ga Mo U) (l : List I) (p : GaParams)
    (hc : F64.zero.lt p.crossoverRate = false) (hm : F64.zero.lt p.mutationRate = false) (q : Q) (fin : Bool)
    (st : RunState I (Ga Mo U) Q) (h : (evolvePopulation (ga M) envs progress fuel a l p q).yields (.ok (fin, st))) (n : Nat) :
    (st.shown ++ [st.population]).Pairwise fun pop pop' => FewGenes gen n pop → FewGenes gen n pop' := by
  have hch := (C106_copies M gen hM envs henv progress fuel a l p hc hm q fin st h).chain
  have : IsTrans (Population I) fun pop pop' => FewGenes gen n pop → FewGenes gen n pop' := ⟨fun _ _ _ h h' x => h' (h x)⟩
  exact List.isChain_iff_pairwise.1 (hch.imp fun _ _ h hf => hf.copies h)

/-- **C112** The same for the adaptive genetic algorithm. -/
theorem C112_aga_stays (M : EvoModel I Mo U) (gen : I → B) (hM : KeepsGenes M gen) (envs : Nat → Env I)
    (henv : ∀ t, (envs t).Lawful) (progress : Q → Population I → Prog (Bool × Q)) (fuel : Nat) (a : Aga Mo U) (l : List I) (p : AgaParams)
    (hc : ZeroRange p.crossoverRateRange) (hm : ZeroRange p.mutationRateRange) (q : Q) (fin : Bool)
    (st : RunState I (Aga Mo U) Q) (h : (evolvePopulation (aga M) envs progress fuel a l p q).yields (.ok (fin, st))) (n : Nat) :
    (st.shown ++ [st.population]).Pairwise fun pop pop' => FewGenes gen n pop → FewGenes gen n pop' := by
  have hch := (C106_aga_copies M gen hM envs henv progress fuel a l p hc hm q fin st h).chain
  have : IsTrans (Population I) fun pop pop' => FewGenes gen n pop → FewGenes gen n pop' := ⟨fun _ _ _ h h' x => h' (h x)⟩
  exact List.isChain_iff_pairwise.1 (hch.imp fun _ _ h hf => hf.copies h)

/-! ### Example: OneMax -/

theorem oneMax_keeps : KeepsGenes OneMax.model (fun x => x.genome) :=
  ⟨oneMax_locuswise.improve, oneMax_locuswise.evaluate, oneMax_locuswise.preGeneration, rfl, oneMax_members, fun u => u.elim⟩

/-- The documented parameters without crossover and mutation, with four individuals, of which none is an elite. -/
def idleParams : GaParams := { docParams with populationSize := 4, crossoverRate := F64.zero, mutationRate := F64.zero, elitismRate := F64.zero }

open Classical in
/-- Four different individuals of three bits: almost surely all individuals are the same in the end. -/
example (ε : ℚ) (hε : 0 < ε) : ∃ K, ∀ k, K ≤ k → 1 - ε ≤
    (evolvePopulation (ga OneMax.model) (fun _ => oneEnv) (fun (q : Unit) _ => pure (true, q)) k (Ga.ofModel ())
      [OneMax.ofGenome [true, false, false], OneMax.ofGenome [false, true, false], OneMax.ofGenome [true, true, false],
        OneMax.ofGenome [false, false, false]] idleParams ()).prob (fun r => FewGenes (fun x => x.genome) 1 r.2.population) := by
  have h := C112_almost_surely (Q := Unit) (C63_operators (fun _ => True) 3 (by norm_num)) oneMax_keeps (fun _ => oneEnv)
    (fun _ => oneEnv_lawful) (fun q _ => pure (true, q)) (fun _ _ _ => by simp) (Ga.ofModel ())
    [OneMax.ofGenome [true, false, false], OneMax.ofGenome [false, true, false], OneMax.ofGenome [true, true, false],
      OneMax.ofGenome [false, false, false]] idleParams () (by
        unfold GaParams.Valid F64.InHalfOpenUnit F64.InClosedUnit
        decide +kernel) trivial
    (fun b hb => by cases hb; exact (goodBias_example (5 / 4) (by simp)).2.2.2)
    (Or.inr (Or.inr (Or.inr ⟨_, rfl, goodBias_example _ (by simp)⟩)))
    (by decide +kernel) (by decide +kernel) (by decide +kernel) (by norm_num [idleParams]) (by simp) (by simp [OneMax.ofGenome])
    ⟨_, List.mem_cons_self, by
      show Always _ (pure (OneMax.evaluate _))
      rw [always_pure]; decide +kernel⟩ ε hε
  have e : max (eliteCount idleParams.populationSize idleParams.elitismRate) 1 = 1 := by decide +kernel
  rw [e] at h
  exact h

/-- The adaptive algorithm with both ranges zero, tournaments of two, ten individuals and one elite. -/
def idleAgaParams : AgaParams :=
  { AgaParams.default with
    populationSize := 10, elitismRate := F64.lit (1 / 10), crossoverRateRange := ⟨F64.zero, F64.zero⟩,
    mutationRateRange := ⟨F64.zero, F64.zero⟩, selectionStrategy := .tournament 2 }

/-- The hypotheses of `C112_aga` about the parameters hold of these. -/
example : idleAgaParams.Valid ∧ idleAgaParams.selectionStrategy.Valid ∧ LastSelecting idleAgaParams.selectionStrategy ∧
    ZeroRange idleAgaParams.crossoverRateRange ∧ ZeroRange idleAgaParams.mutationRateRange ∧
    eliteCount idleAgaParams.populationSize idleAgaParams.elitismRate = 1 := by
  refine ⟨?_, by simp [idleAgaParams, SelectionStrategy.Valid], Or.inl ⟨2, rfl, by norm_num⟩, ?_, ?_, by decide +kernel⟩
  · unfold AgaParams.Valid F64.InHalfOpenUnit F64.InClosedUnit
    decide +kernel
  · unfold ZeroRange; decide +kernel
  · unfold ZeroRange; decide +kernel

/-- The bound after one generation: all four are the same with probability at least `1 / 256`. -/
example : (1 : ℚ) - (1 - (1 / (max 4 4 : ℕ)) ^ 4) ^ 1 = 1 / 256 := by norm_num

end RG.Props
