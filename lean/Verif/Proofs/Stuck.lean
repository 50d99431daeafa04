import Verif.Proofs.Convergence
import Verif.Proofs.Total

/-! # Helper lemmas for C68: populations without spread -/

set_option linter.unusedSectionVars false

namespace RG
open Prog

namespace F64

theorem round_false_zero : round false 0 = zero := by decide +kernel

theorem sub_self_fin (q : ℚ) (h : Rep q) : (fin q h).sub (fin q h) = zero := by
  rw [sub_finite rfl rfl, sub_self]
  have : ((fin q h).signBit && (fin q h).neg.signBit) = false := by
    unfold F64.neg
    by_cases h0 : q = 0
    · subst h0; simp [signBit]
    · simp only [h0, signBit]
      rcases lt_or_gt_of_ne h0 with h1 | h1
      · simp [h1, h1.le]
      · simp [h1, h1.le]
  rw [this, round_false_zero]

theorem add_zero_fin (q : ℚ) (h : Rep q) : (fin q h).add zero = fin q h := by
  rw [add_finite rfl rfl]
  have e : ((fin q h).signBit && zero.signBit) = false := by simp [zero, signBit]
  have e2 : (fin q h).val + zero.val = q := by simp [zero]
  rw [e, e2]
  unfold round
  rw [dif_pos (by rw [rndQ_of_fmt h.1]; exact h.2)]
  simp [rndQ_of_fmt h.1]

theorem zero_div_ofNat (n : Nat) (hn : 1 ≤ n) : zero.div (ofNat n) = zero := by
  have hpos : 1 ≤ rndQ (n : ℚ) := by
    have h1 : Fmt (1 : ℚ) := by have := rep_nat (n := 1) (by norm_num); simpa using this.1
    have := rndQ_mono (x := (1 : ℚ)) (y := n) (by exact_mod_cast hn)
    rwa [rndQ_of_fmt h1] at this
  unfold ofNat
  by_cases h : |rndQ (n : ℚ)| < pow2 1024
  · have hr : Rep (rndQ (n : ℚ)) := ⟨fmt_rndQ _, h⟩
    have h2 : round false (n : ℚ) = fin (rndQ n) hr := by
      unfold round; rw [dif_pos h]; simp
    have h0 : (fin (rndQ n) hr).val ≠ 0 := by rw [val_fin]; intro h; linarith
    rw [h2, div_finite rfl rfl h0]
    have e : (zero.signBit ^^ (fin (rndQ n) hr).signBit) = false := by
      simp [zero, signBit]; linarith
    rw [e]
    simp only [zero, val_fin, zero_div]
    exact round_false_zero
  · rw [round_overflow h]
    have : ¬ ((n : ℚ) < 0) := not_lt.2 (by positivity)
    simp only [this, decide_false]
    decide +kernel

end F64

/-- Equal fitness values have no spread. -/
theorem collectLoop_const (q : ℚ) (h : Rep q) : ∀ (l : List F64), (∀ x ∈ l, x = F64.fin q h) → ∀ c i j mn mx, 1 ≤ c →
    (Stats.collectLoop l c mn i mx j (F64.fin q h) F64.zero).sumSquared = F64.zero ∧
    1 ≤ (Stats.collectLoop l c mn i mx j (F64.fin q h) F64.zero).count := by
  intro l
  induction l with
  | nil => intro _ c i j mn mx hc; exact ⟨rfl, hc⟩
  | cons x l ih =>
    intro hl c i j mn mx hc
    have hx : x = F64.fin q h := hl x (by simp)
    subst hx
    have e1 : Arith.sub (F64.fin q h) (F64.fin q h) = F64.zero := F64.sub_self_fin q h
    have e2 : Arith.div F64.zero (Arith.ofNat (c + 1) : F64) = F64.zero := F64.zero_div_ofNat (c + 1) (by omega)
    have e3 : Arith.add (F64.fin q h) F64.zero = F64.fin q h := F64.add_zero_fin q h
    have e4 : Arith.mul F64.zero F64.zero = F64.zero := by decide +kernel
    have e5 : Arith.add F64.zero F64.zero = F64.zero := by decide +kernel
    simp only [Stats.collectLoop, e1, e2, e3, e4, e5]
    exact ih (fun y hy => hl y (by simp [hy])) (c + 1) _ _ _ _ (by omega)

variable {I : Type} [Individual I] {Mo U A P Q : Type}

theorem Population.WF.std_const {p : Population I} (h : p.WF) (q : ℚ) (hq : Rep q)
    (hall : ∀ x ∈ p.individuals, fitness x = F64.fin q hq) : p.stats.std = F64.zero := by
  rw [h.stats]
  cases hl : p.individuals with
  | nil => exact absurd hl h.ne
  | cons x l =>
    have hx : fitness x = F64.fin q hq := hall x (by simp [hl])
    have hc := collectLoop_const q hq (l.map fitness) (fun y hy => by
      obtain ⟨z, hz, rfl⟩ := List.mem_map.1 hy
      exact hall z (by simp [hl, hz])) 1 0 0 (F64.fin q hq) (F64.fin q hq) le_rfl
    have hlit : (Arith.lit 0 : F64) = F64.zero := by decide +kernel
    have e : Stats.collect (List.map fitness (x :: l)) =
        Stats.collectLoop (l.map fitness) 1 (F64.fin q hq) 0 (F64.fin q hq) 0 (F64.fin q hq) F64.zero := by
      rw [List.map_cons, hx, ← hlit]; rfl
    rw [e]
    unfold PopulatedStats.std PopulatedStats.var
    simp only
    have hz : ArithSqrt.sqrt F64.zero = F64.zero := by decide +kernel
    split
    · rename_i h1
      rw [hc.1]
      have : Arith.div F64.zero (Arith.ofNat ((Stats.collectLoop (l.map fitness) 1 (F64.fin q hq) 0 (F64.fin q hq) 0
          (F64.fin q hq) F64.zero).count - 1) : F64) = F64.zero := F64.zero_div_ofNat _ (by omega)
      rw [this]; exact hz
    · rw [hlit]; exact hz

/-- With NaN rates, breeding returns a member of the population, if improving and evaluating members changes nothing. -/
theorem breed_stuck (M : EvoOps I Mo U) (hs : M.selectors.ReturnsMembers) (hd : M.selectors.DistinctMembers) (env : NumEnv)
    (model : Mo) (p : Population I) (r : ReproParams U) (h1 : r.crossoverRate.isNaN = true) (h2 : r.mutationRate.isNaN = true)
    (hfix : ∀ x ∈ p.individuals, Partially (fun o => o = x) (M.improve model x >>= fun o => M.evaluate model o)) :
    Partially (fun c => c ∈ p.individuals) (defaultBreed M env model p r) := by
  have hno : ∀ rate : F64, rate.isNaN = true → ¬ CanFire rate := by
    rintro rate hr ⟨k, -, hk⟩
    have := (F64.lt_iff.1 hk).2.1
    rw [hr] at this; cases this
  intro c hc
  obtain ⟨p1, p2, f, o, hm, hf, hch, hres⟩ := (yields_defaultBreed M env model p r c).1 hc
  obtain ⟨m1, m2⟩ := hm.mem hs hd
  have mf := hf.mem m1 fun b hb => (m2 b hb).1
  have hp2 : p2 = none := by
    cases hm with
    | alone => rfl
    | gaveUp => rfl
    | pair _ _ hfire _ => exact absurd hfire (hno _ h1)
  subst hp2
  obtain ⟨o0, o1, o2, c1, c2, c3, c4⟩ := hch
  have c1 : o0 = p1 := by
    rcases c1 with ⟨-, h⟩ | ⟨b, h, -⟩
    · exact h
    · cases h
  have c2 : o1 = o0 := by
    rcases c2 with ⟨-, h⟩ | ⟨h, -⟩
    · exact h
    · exact absurd h (hno _ h2)
  subst c2 c1
  have ho : o = o1 := hfix o1 m1 o ((yields_bind_ok _ _ _).2 ⟨o2, c3, c4⟩)
  rcases hres with ⟨-, -, rfl⟩ | ⟨-, rfl⟩
  · rw [ho]; exact m1
  · exact mf

/-- The situation of C68: every individual has the same fitness, the reference spread is 0, and the rates are NaN or about to
become so. -/
structure NoSpread (S : List I) (f : F64) (a : Aga Mo U) (p : Population I) : Prop where
  wf : p.WF
  mem : ∀ x ∈ p.individuals, x ∈ S
  gen : p.generation ≠ 0
  reference : a.referenceStd = F64.zero
  interval : a.adjustmentInterval ≠ 0
  rates : a.adjustmentInterval ∣ p.generation ∨
    (a.breeding.crossoverRate.isNaN = true ∧ a.breeding.mutationRate.isNaN = true)

theorem NoSpread.step {M : EvoModel I Mo U} {S : List I} {q : ℚ} {hq : Rep q} (hS : ∀ x ∈ S, fitness x = F64.fin q hq)
    (hpre : ∀ m p b, M.preGeneration m p b = pure (m, b)) (hb : M.breed = defaultBreed M.toEvoOps)
    (hs : M.selectors.ReturnsMembers) (hd : M.selectors.DistinctMembers)
    (hfix : ∀ model, ∀ x ∈ S, Partially (fun o => o = x) (M.improve model x >>= fun o => M.evaluate model o))
    {env : Env I} (henv : env.Lawful) {st st' : RunState I (Aga Mo U) Q} (h : NoSpread S (F64.fin q hq) st.algo st.population)
    (hst : (generationStep (aga M) env st).yields (.ok st')) : NoSpread S (F64.fin q hq) st'.algo st'.population := by
  have hf := (aga_standard M).step henv hst
  obtain ⟨a, el, buf, pop, old, g1, -, -, -, e⟩ := (yields_generationStep _ _ _ _).1 hst
  have g1 : (Aga.prepare M env.num st.algo st.population).yields (.ok a) := g1
  have hstd : st.population.stats.std = F64.zero := h.wf.std_const q hq fun x hx => hS x (h.mem x hx)
  have hpr := (Props.C57_prepare M env.num st.algo a st.population)
  obtain ⟨m, b, g2, g3⟩ := hpr.1.1 g1
  rw [hpre, yields_pure] at g2
  cases g2
  rw [hstd] at g3
  have hadj : (st.algo.adjust st.population.generation F64.zero).referenceStd = F64.zero ∧
      (st.algo.adjust st.population.generation F64.zero).adjustmentInterval = st.algo.adjustmentInterval ∧
      (st.algo.adjust st.population.generation F64.zero).breeding.crossoverRate.isNaN = true ∧
      (st.algo.adjust st.population.generation F64.zero).breeding.mutationRate.isNaN = true := by
    by_cases hdvd : st.algo.adjustmentInterval ∣ st.population.generation
    · obtain ⟨n1, n2⟩ := Props.C58_nan st.algo st.population.generation h.gen ⟨h.interval, hdvd⟩ h.reference
      refine ⟨?_, ?_, n1, n2⟩
      · unfold Aga.adjust; rw [if_neg h.gen]; split <;> exact h.reference
      · unfold Aga.adjust; rw [if_neg h.gen]; split <;> rfl
    · have : st.algo.adjust st.population.generation F64.zero = st.algo := by
        unfold Aga.adjust
        rw [if_neg h.gen, if_neg (fun hc => hdvd (Nat.dvd_of_mod_eq_zero hc.2))]
      rw [this]
      exact ⟨h.reference, rfl, h.rates.resolve_left hdvd⟩
  obtain ⟨r1, r2, r3, r4⟩ := hadj
  have ha : st'.algo = a := by rw [e]
  have hmem : ∀ x ∈ st'.population.individuals, x ∈ S := by
    obtain ⟨new, m1, m2, -⟩ := hf.made
    intro x hx
    rw [m1] at hx
    rcases List.mem_append.1 (mem_dedup_sort henv.sort hx) with hx | hx
    · exact h.mem x (List.mem_of_mem_drop hx)
    · have hc := m2 x hx
      rw [hb] at hc
      refine h.mem x (breed_stuck M.toEvoOps hs hd env.num _ st.population _ ?_ ?_ (fun y hy => hfix _ y (h.mem y hy)) x hc)
      · show st'.algo.breeding.crossoverRate.isNaN = true
        rw [ha, g3]; exact r3
      · show st'.algo.breeding.mutationRate.isNaN = true
        rw [ha, g3]; exact r4
  refine ⟨hf.wf, hmem, by rw [hf.generation]; omega, ?_, ?_, Or.inr ⟨?_, ?_⟩⟩
  · rw [ha, g3]; exact r1
  · rw [ha, g3]; show (st.algo.adjust _ _).adjustmentInterval ≠ 0; rw [r2]; exact h.interval
  · rw [ha, g3]; exact r3
  · rw [ha, g3]; exact r4

/-- All bred individuals have a property with at least this probability. -/
theorem prob_step_all {M : EvoModel I Mo U} {alg : EvoAlgo I Mo U A P} {elite size : A → Nat} {eliteOf : P → Nat}
    (hstd : Standard M alg elite size eliteOf) {env : Env I} (henv : env.Lawful) (Pr : I → Prop) [DecidablePred Pr]
    (st : RunState I A Q) (hP : ∀ x ∈ st.population.individuals, Pr x) (c : ℚ) (hc : 0 ≤ c) (hc1 : c ≤ 1)
    (h2 : elite st.algo + 2 ≤ size st.algo) {S : A → Prop} (hprep : Always S (alg.prepare env.num st.algo st.population))
    (hbreed : ∀ a, (alg.prepare env.num st.algo st.population).yields (.ok a) →
      c ≤ (M.breed env.num (alg.model a) st.population (alg.repro a).1).prob Pr) :
    c ^ size st.algo ≤ (generationStep alg env st).prob (fun st' => ∀ x ∈ st'.population.individuals, Pr x) := by
  unfold generationStep
  refine le_prob_bind_of_always _ _ _ _ (hprep.and fun a ha => ha) fun a ⟨_, ha⟩ => ?_
  obtain ⟨e1, e2⟩ := hstd.prepare _ _ _ _ ha
  rw [hstd.elites, takeElites_eq, e1]
  obtain ⟨r, n, hr⟩ : ∃ r n, alg.repro a = (r, n) := ⟨_, _, rfl⟩
  have hn : n = size a := by rw [← hstd.bred a, hr]
  have hba := hbreed a ha
  rw [hr] at hba
  set el := ([] : List I) ++ st.population.individuals.drop (st.population.individuals.length - elite st.algo) with hel
  have hlen : el.length ≤ elite st.algo := by simp [hel]; omega
  have hgen : alg.generate env.num a st.population el =
      (replicate (n - el.length) (M.breed env.num (alg.model a) st.population r) >>= fun new => pure (el ++ new)) := by
    rw [hstd.generate, hr]
    unfold defaultGenerate
    simp only
    obtain ⟨k, hk⟩ : ∃ k, n - el.length = k + 2 := ⟨n - el.length - 2, by omega⟩
    rw [hk]
    rfl
  simp only [Prog.lift_ok, Prog.bind_pure_left]
  rw [hgen]
  simp only [bind_assoc, Prog.bind_pure_left]
  have hpow : c ^ size st.algo ≤ (replicate (n - el.length) (M.breed env.num (alg.model a) st.population r)).prob
      (fun l => ∀ x ∈ l, Pr x) := by
    rw [prob_replicate_all]
    exact (pow_le_pow_of_le_one hc hc1 (by omega)).trans (pow_le_pow_left₀ hc hba _)
  refine hpow.trans (prob_le_bind _ _ _ _ fun new hnew hall => ?_)
  rw [hstd.replace]
  have hne : el ++ new ≠ [] := by
    obtain ⟨hl, -⟩ := (yields_replicate _ _ _).1 hnew
    intro h
    have := congrArg List.length h
    rw [List.length_append, hl, List.length_nil] at this
    omega
  obtain ⟨pop, old, hrep⟩ : ∃ pop old, defaultReplace env st.population (el ++ new) = .ok (pop, old) := by
    unfold defaultReplace
    rw [Population.replace_eq henv.sort, if_neg hne]
    exact ⟨_, _, rfl⟩
  obtain ⟨w1, w2, w3, -⟩ := Population.wf_replace henv.sort hrep
  rw [hrep]
  simp only [Prog.lift_ok, Prog.bind_pure_left, prob_pure]
  rw [if_pos]
  intro x hx
  rw [w3] at hx
  rcases List.mem_append.1 (mem_dedup_sort henv.sort hx) with hx | hx
  · simp only [hel, List.nil_append] at hx
    exact hP x (List.mem_of_mem_drop hx)
  · exact hall x hx

/-- From a population with one individual, breeding makes something else only if the mutation fires. -/
theorem prob_breed_other [DecidableEq I] (M : EvoOps I Mo U) (hs : M.selectors.ReturnsMembers)
    (hd : M.selectors.DistinctMembers) (env : NumEnv) (model : Mo) (p : Population I) (r : ReproParams U) (x : I)
    (hall : p.individuals = [x])
    (hfix : Partially (fun o => o = x) (M.improve model x >>= fun o => M.evaluate model o)) :
    (defaultBreed M env model p r).prob (fun c => ¬ c = x) ≤ genF64.prob (fun u => u.lt r.mutationRate = true) := by
  have hg : 0 ≤ genF64.prob (fun u => u.lt r.mutationRate = true) := prob_nonneg _ _
  rw [defaultBreed_eq]
  refine prob_bind_le_const _ _ _ _ hg fun ⟨p1, p2⟩ hps => ?_
  have hm := (yields_breedParents M env p r p1 p2).1 hps
  obtain ⟨m1, m2⟩ := hm.mem hs hd
  have h1 : p1 = x := by rw [hall] at m1; simpa using m1
  have h2 : p2 = none := by
    cases hm with
    | alone => rfl
    | gaveUp => rfl
    | pair _ hl _ _ => rw [hall] at hl; simp at hl
  subst h1 h2
  simp only [breedStart, Prog.bind_pure_left]
  unfold breedMutate
  rw [bind_assoc]
  refine (prob_bind_split _ _ _ (fun u => u.lt r.mutationRate = true) 1 0 (fun u _ _ => prob_le_one _ _) ?_).trans
    (by rw [one_mul, zero_mul, add_zero])
  intro u _ hu
  rw [if_neg hu, Prog.bind_pure_left]
  refine (prob_eq_zero _ _ fun c hc => ?_).le
  obtain ⟨o2, o3, c1, c2, c3⟩ := (yields_breedEnd _ _ _ _ _ _).1 hc
  have ho : o3 = p1 := hfix o3 ((yields_bind_ok _ _ _).2 ⟨o2, c1, c2⟩)
  rcases c3 with ⟨-, -, rfl⟩ | ⟨-, rfl⟩
  · exact not_not.2 ho
  · exact not_not.2 rfl

end RG

namespace RG.Props
open RG RG.Prog
variable {I : Type} [Individual I] {Mo U Q : Type}

/-- The hypotheses of `C68_probability`: operators that never panic, an evaluated individual `x` that evaluates to itself, valid
parameters with adjustment in every generation. -/
structure MayStick (M : EvoModel I Mo U) (Pr : I → Prop) (envs : Nat → Env I) (p : AgaParams) (x : I) (q : ℚ) (hq : Rep q) :
    Prop where
  ops : SafeOps M Pr
  members : M.selectors.ReturnsMembers
  distinct : M.selectors.DistinctMembers
  env : ∀ t, (envs t).Lawful
  valid : p.Valid
  strategy : p.selectionStrategy.Valid
  linear : ∀ b, p.selectionStrategy = .linear b → SafeBias b
  size : p.populationSize < 2 ^ 32
  two : eliteCount p.populationSize p.elitismRate + 2 ≤ p.populationSize
  interval : p.adjustmentInterval = 1
  prop : Pr x
  isValid : isValid x = true
  fitness : fitness x = F64.fin q hq
  evaluate : ∀ model, Partially (fun o => o = x) (M.evaluate model x)
  fixed : ∀ model, Partially (fun o => o = x) (M.improve model x >>= fun o => M.evaluate model o)

section
variable {M : EvoModel I Mo U} {Pr : I → Prop} {envs : Nat → Env I} {p : AgaParams} {x : I} {q : ℚ} {hq : Rep q}

/-- Once stuck, the loop certainly goes on with copies of `x` only. -/
theorem MayStick.loop (h : MayStick M Pr envs p x q hq) (progress : Q → Population I → Prog (Bool × Q))
    (hgo : ∀ s pop, pop.WF → (∀ y ∈ pop.individuals, y = x) → Always (fun r => r.1 = true) (progress s pop))
    (fuel t : Nat) (st : RunState I (Aga Mo U) Q) (hs : Safe (aga M) Aga.eliteSize Aga.populationSize Pr st)
    (hn : NoSpread [x] (F64.fin q hq) st.algo st.population) :
    Always (fun r => r.1 = false ∧ ∀ y ∈ r.2.population.individuals, y = x) (evolveLoop (aga M) envs progress fuel t st) := by
  induction fuel generalizing t st with
  | zero => simpa [evolveLoop] using hn.mem
  | succ fuel ih =>
    rw [evolveLoop, always_bind]
    refine (hgo st.q st.population hs.wf (by simpa using hn.mem)).mono fun ⟨b, s⟩ hb => ?_
    cases hb
    simp only [if_true]
    have hs' : Safe (aga M) Aga.eliteSize Aga.populationSize Pr { st with q := s, shown := st.shown ++ [st.population] } :=
      ⟨hs.wf, hs.len, hs.prop, hs.sel, hs.two, hs.sizeLt, hs.eliteLe, fun pop hp => by
        rcases List.mem_append.1 hp with hp | hp
        · exact hs.shown pop hp
        · rw [List.mem_singleton.1 hp]; exact hs.prop⟩
    rw [always_bind]
    refine ((step_always (aga_standard M) (aga_safe h.ops) h.ops (envs t) (h.env t) _ hs').and fun st1 h1 => h1).mono ?_
    rintro st1 ⟨h1, h2⟩
    exact ih (t + 1) st1 h1 (NoSpread.step (by simpa using h.fitness) h.ops.preGeneration h.ops.breed h.members h.distinct
      (by simpa using h.fixed) (h.env t) (st := { st with q := s, shown := st.shown ++ [st.population] }) hn h2)

end
end RG.Props
