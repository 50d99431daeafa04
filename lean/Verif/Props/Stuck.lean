import Verif.Props.Convergence
import Verif.Proofs.Stuck

/-!
# Property C68: the adaptive algorithm can get stuck where the genetic algorithm converges

C58 end to end. `NoSpread S f a p` is the situation: all individuals of the population are in `S` (where every fitness is `f`),
the reference spread is 0, the generation is not 0, and the generation is an adjustment generation (or the rates are NaN
already).
-/

set_option linter.unusedSectionVars false

namespace RG.Props
open RG RG.Prog
variable {I : Type} [Individual I] {Mo U Q : Type}

/-- **C68** In that situation no further run ever makes a new individual, for any bound on the number of generations and
whatever the rate ranges. Hypotheses: `improve` and `evaluate` give an evaluated individual back unchanged, `pre_generation` and
`breed` are the defaults. -/
theorem C68_stuck (M : EvoModel I Mo U) (S : List I) (q : ℚ) (hq : Rep q) (hS : ∀ x ∈ S, fitness x = F64.fin q hq)
    (hpre : ∀ m p b, M.preGeneration m p b = pure (m, b)) (hb : M.breed = defaultBreed M.toEvoOps)
    (hs : M.selectors.ReturnsMembers) (hd : M.selectors.DistinctMembers)
    (hfix : ∀ model, ∀ x ∈ S, Partially (fun o => o = x) (M.improve model x >>= fun o => M.evaluate model o))
    (envs : Nat → Env I) (henv : ∀ t, (envs t).Lawful) (progress : Q → Population I → Prog (Bool × Q)) (fuel t : Nat)
    (ht : 1 ≤ t) (st : RunState I (Aga Mo U) Q) (h : NoSpread S (F64.fin q hq) st.algo st.population) (fin : Bool)
    (st' : RunState I (Aga Mo U) Q) (hst : (evolveLoop (aga M) envs progress fuel t st).yields (.ok (fin, st'))) :
    ∃ new, st'.shown = st.shown ++ new ∧ (∀ pop ∈ new, ∀ x ∈ pop.individuals, x ∈ S) ∧
      ∀ x ∈ st'.population.individuals, x ∈ S := by
  obtain ⟨new, n1, -, -, n4, n5, -⟩ := evolveLoop_invariant (aga M) envs progress (NoSpread S (F64.fin q hq)) (fun _ _ => True)
    (fun t st st' _ hi hs' => ⟨hi.step hS hpre hb hs hd hfix (henv t) hs', trivial,
      ((aga_standard M).step (henv t) hs').q, ((aga_standard M).step (henv t) hs').shown⟩) fuel t ht st h fin st' hst
  refine ⟨new, n1, fun pop hp => ?_, n5.mem⟩
  obtain ⟨_, hp⟩ := n4 pop hp
  exact hp.mem

section
variable {M : EvoModel I Mo U} {Pr : I → Prop} {envs : Nat → Env I} {p : AgaParams} {x : I} {q : ℚ} {hq : Rep q}

/-- **C68** A run of the adaptive algorithm from the individual `x` has, after any number `k` of generations, nothing but `x`
with a probability of at least `(1 - φ) ^ population_size`, where `φ` is the probability that a mutation fires at the lower end of
the mutation range: a bound that does not depend on `k`. So unlike in C67 the run does not reach a better fitness almost surely,
however good the mutation. -/
theorem C68_probability [DecidableEq I] (h : MayStick M Pr envs p x q hq) (progress : Q → Population I → Prog (Bool × Q))
    (hgo : ∀ s pop, pop.WF → (∀ y ∈ pop.individuals, y = x) → Always (fun r => r.1 = true) (progress s pop)) (k : Nat) (a : Aga Mo U)
    (s : Q) :
    (1 - genF64.prob (fun u => u.lt p.mutationRateRange.start = true)) ^ p.populationSize ≤
      (evolvePopulation (aga M) envs progress k a [x] p s).prob
        (fun r => r.1 = false ∧ ∀ y ∈ r.2.population.individuals, y = x) := by
  set φ := genF64.prob (fun u => u.lt p.mutationRateRange.start = true) with hφ
  have hφ0 : 0 ≤ φ := prob_nonneg _ _
  have hφ1 : φ ≤ 1 := prob_le_one _ _
  obtain ⟨a', hc, hsel⟩ := (aga_safe h.ops).configure a p ⟨h.valid, h.strategy, h.linear⟩
  obtain ⟨hm, s1, s2, s3⟩ := (aga_standard M).configure _ _ _ hc (h.size.le.trans (by norm_num))
  have s1 : a'.populationSize = p.populationSize := s1
  have s2 : a'.eliteSize = eliteCount p.populationSize p.elitismRate := s2
  have htwo := h.two
  obtain ⟨hint, hrange⟩ : a'.adjustmentInterval = 1 ∧ a'.mutationRateRange = p.mutationRateRange := by
    have hc : Aga.configure a p = .ok a' := hc
    obtain ⟨sel, hsel, _⟩ := (createSelector_spec _).1 h.strategy
    obtain ⟨k, hk⟩ : ∃ k, interpolateUsize 0 p.populationSize p.elitismRate = .ok k := by
      unfold interpolateUsize usizeSub; rw [if_pos (Nat.zero_le _)]; exact ⟨_, rfl⟩
    unfold Aga.configure at hc
    rw [(C50_aga p).1 h.valid, hk, hsel] at hc
    cases hc
    exact ⟨h.interval, rfl⟩
  unfold evolvePopulation
  rw [hc]
  simp only [lift_ok, bind_pure_left]
  have hev : Always (fun e => isValid e = true) (M.evaluate a'.model x) :=
    ((h.ops.evaluate a'.model x h.prop).and (h.evaluate a'.model)).mono fun e he => by rw [he.2]; exact h.isValid
  have hi := init_always h.ops (envs 0) (h.env 0) a'.model [x] (by simpa using h.prop) ⟨x, by simp, hev⟩
  show _ ≤ (defaultInitialize M (envs 0) a'.model [x] >>= _).prob _
  refine le_prob_bind_of_always _ _ _ _ (hi.and (Q := fun pop => (∀ y ∈ pop.individuals, y = x) ∧ pop.generation = 0) ?_) ?_
  · intro pop hpop
    refine ⟨fun y hy => ?_, (init_wf (h.env 0) hpop).2.1⟩
    obtain ⟨ev, e1, -, -, -, e2, -⟩ := C62_initialize M (envs 0) (h.env 0) a'.model [x] pop hpop
    cases e1 with
    | cons e3 e4 =>
      cases e4
      have hy := (e2 y hy).1
      rw [List.mem_singleton.1 hy]
      exact h.evaluate _ _ e3
  rintro pop ⟨⟨w, hlen, hP⟩, hx, hgen⟩
  have hone : pop.individuals = [x] := by
    cases hl : pop.individuals with
    | nil => exact absurd hl w.ne
    | cons y l =>
      have hy : y = x := hx y (by simp [hl])
      rw [hl] at hlen
      cases l with
      | nil => rw [hy]
      | cons z l => simp at hlen
  cases k with
  | zero =>
    rw [evolveLoop, prob_pure, if_pos ⟨rfl, hx⟩]
    exact pow_le_one₀ (by linarith) (by linarith)
  | succ k =>
    rw [evolveLoop]
    refine le_prob_bind_of_always _ _ _ _ (hgo s pop w hx) fun ⟨b, s'⟩ hb => ?_
    cases hb
    simp only [if_true, List.nil_append]
    have hs : Safe (aga M) Aga.eliteSize Aga.populationSize Pr
        ({ algo := a', population := pop, buffer := [], q := s', shown := [pop] } : RunState I (Aga Mo U) Q) :=
      ⟨w, by rw [hone]; simp, hP, hsel, by show 2 ≤ a'.populationSize; omega, by show a'.populationSize < _; rw [s1]; exact h.size,
        by show a'.eliteSize ≤ a'.populationSize; omega, by simpa using hP⟩
    have hstd0 : pop.stats.std = F64.zero := w.std_const q hq fun y hy => by rw [hx y hy]; exact h.fitness
    have hprep : ∀ b, (Aga.prepare M (envs 1).num a' pop).yields (.ok b) → b.breeding.mutationRate = p.mutationRateRange.start ∧
        b.referenceStd = F64.zero ∧ b.adjustmentInterval = 1 := by
      intro b hb
      obtain ⟨m, br, g2, g3⟩ := (C57_prepare M (envs 1).num a' b pop).1.1 hb
      rw [h.ops.preGeneration, yields_pure] at g2
      cases g2
      rw [g3, hgen, hstd0]
      refine ⟨?_, rfl, hint⟩
      show a'.mutationRateRange.start = _
      rw [hrange]
    have hstep := prob_step_all (aga_standard M) (h.env 1) (fun y => y = x)
      ({ algo := a', population := pop, buffer := [], q := s', shown := [pop] } : RunState I (Aga Mo U) Q) hx (1 - φ)
      (by linarith) (by linarith) (by show a'.eliteSize + 2 ≤ a'.populationSize; omega)
      ((aga_safe h.ops).prepare (envs 1).num a' pop hsel) (fun b hb => by
        obtain ⟨r1, -⟩ := hprep b hb
        have hbs := (aga_safe h.ops).prepare (envs 1).num a' pop hsel |>.partially b hb
        have htot := breed_always h.ops (envs 1).num ((aga M).model b) pop ((aga M).repro b).1 w.ne (by rw [hone]; simp) hP hbs
        have hsum := prob_add_not_of_always _ (fun y => y = x) htot
        have hle := prob_breed_other M.toEvoOps h.members h.distinct (envs 1).num ((aga M).model b) pop ((aga M).repro b).1 x
          hone (h.fixed _)
        rw [← h.ops.breed] at hle
        have hr : ((aga M).repro b).1.mutationRate = p.mutationRateRange.start := r1
        rw [hr, ← hφ] at hle
        show 1 - φ ≤ (M.breed (envs 1).num ((aga M).model b) pop ((aga M).repro b).1).prob (fun y => y = x)
        linarith)
    have hsz : ((aga M).repro a').2 = p.populationSize := s1
    rw [show a'.populationSize = p.populationSize from s1] at hstep
    refine hstep.trans (prob_le_bind _ _ _ _ fun st1 hst1 hall => ?_)
    refine prob_eq_one_of_always _ _ (h.loop progress hgo k 2 st1
      ((step_always (aga_standard M) (aga_safe h.ops) h.ops (envs 1) (h.env 1) _ hs).partially st1 hst1) ?_)
    have hf := (aga_standard M).step (h.env 1) hst1
    obtain ⟨b, el, buf, pop', old, g1, -, -, -, e⟩ := (yields_generationStep _ _ _ _).1 hst1
    obtain ⟨-, r2, r3⟩ := hprep b g1
    have ha : st1.algo = b := by rw [e]
    exact ⟨hf.wf, by simpa using hall, by rw [hf.generation]; simp, by rw [ha]; exact r2, by rw [ha, r3]; simp,
      Or.inl (by rw [ha, r3]; exact one_dvd _)⟩

end
/-! ### The example of C67 -/

theorem guess_mayStick : MayStick guessModel (fun x => isValid x = true) (fun _ => exFullEnv) AgaParams.default (num 0) 0
    rep_zero where
  ops := guess_safe
  members := fun u => u.elim
  distinct := fun u => u.elim
  env _ := exFullEnv_lawful
  valid := C50_defaults.2.2.1
  strategy := C50_defaults.2.2.2
  linear := by simp [AgaParams.default]
  size := by simp [AgaParams.default]
  two := by decide +kernel
  interval := rfl
  prop := by decide +kernel
  isValid := by decide +kernel
  fitness := by decide +kernel
  evaluate _ o h := Res.ok.inj h
  fixed _ o h := Res.ok.inj h

/-- **C68** The same operators, the same start and the default parameters: the genetic algorithm reaches 9 almost surely, the
adaptive one does not. -/
theorem C68_contrast :
    (∀ ε : ℚ, 0 < ε → ∃ K, ∀ k, K ≤ k → 1 - ε ≤ (evolvePopulation (ga guessModel) (fun _ => exFullEnv)
      (fun q p => pure (p.individuals.all fun x => !(F64.lit 9).le (fitness x), q)) k (Ga.ofModel ()) [num 0]
      GaParams.default ()).prob (fun r => r.1 = true)) ∧
    (∃ c : ℚ, 0 < c ∧ ∀ k, c ≤ (evolvePopulation (aga guessModel) (fun _ => exFullEnv)
      (fun q p => pure (p.individuals.all fun x => !(F64.lit 9).le (fitness x), q)) k (Aga.ofModel ()) [num 0]
      AgaParams.default ()).prob (fun r => r.1 = false)) := by
  constructor
  · intro ε hε
    refine C67_almost_surely (guess_converges [num 0] (by simp) (by simp) (by simp; decide +kernel)) ?_ _ (fun _ _ _ => by simp)
      (fun q pop q' _ ⟨x, hx, hx2⟩ hy => ?_) () ε hε
    · decide +kernel
    · simp only [yields_pure, Res.ok.injEq, Prod.mk.injEq] at hy
      have := List.all_eq_true.1 hy.1.symm x hx
      rw [hx2] at this
      cases this
  · refine ⟨(1 - genF64.prob (fun u => u.lt AgaParams.default.mutationRateRange.start = true)) ^
      AgaParams.default.populationSize, pow_pos ?_ _, fun k => ?_⟩
    · rw [prob_fire (by decide +kernel) (by decide +kernel) (by decide +kernel)]
      decide +kernel
    · refine (C68_probability guess_mayStick _ (fun s pop _ hx => ?_) k (Aga.ofModel ()) ()).trans
        (prob_mono _ _ _ fun r _ h => h.1)
      rw [always_pure]
      refine List.all_eq_true.2 fun y hy => ?_
      rw [hx y hy]
      decide +kernel

end RG.Props
