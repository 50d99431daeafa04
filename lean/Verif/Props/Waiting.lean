import Verif.Props.Convergence
import Verif.Props.AgaConvergence
import Verif.Props.RouteAga
import Verif.Props.FromIndividual
import Verif.Proofs.Ladder

/-!
# C133: how many calls of `progress` a run makes on average

`callsOf` is the number of calls of `progress`, 0 for a run that failed. The first flag of the result is `false` for a run that has not
ended after `fuel` calls.
-/

set_option linter.unusedSectionVars false

namespace RG.Props
open RG RG.Prog
variable {I : Type} [Individual I] {Mo U A P Q : Type}

/-- The calls of a run, one more if it goes on. -/
def callsMore (r : Res (Bool × RunState I A Q)) : ℚ := callsOf r + match r with
  | .ok r => if r.1 = false then 1 else 0
  | _ => 0

theorem expect_callsMore (q : Prog (Bool × RunState I A Q)) : q.expect callsMore = q.expect callsOf + q.prob (fun r => r.1 = false) := by
  unfold prob
  rw [← expect_add]
  exact expect_congr _ _ _ fun r _ => by cases r <;> rfl

theorem expect_bind_le {α β γ : Type} (p : Prog α) (f : α → Prog β) (f' : α → Prog γ) (g : Res β → ℚ) (g' : Res γ → ℚ)
    (h1 : g .panic ≤ g' .panic) (h2 : g .diverge ≤ g' .diverge) (h : ∀ y, p.yields (.ok y) → (f y).expect g ≤ (f' y).expect g') :
    (p >>= f).expect g ≤ (p >>= f').expect g' := by
  rw [expect_bind, expect_bind]
  refine expect_mono p _ _ fun r hr => ?_
  rcases r with y | _ | _
  · exact h y hr
  · exact h1
  · exact h2

theorem calls_loop (alg : EvoAlgo I Mo U A P) (envs : Nat → Env I) (progress : Q → Population I → Prog (Bool × Q)) (fuel t : Nat)
    (st : RunState I A Q) :
    (evolveLoop alg envs progress (fuel + 1) t st).expect callsOf ≤ (evolveLoop alg envs progress fuel t st).expect callsMore := by
  induction fuel generalizing t st with
  | zero =>
    have e : (evolveLoop alg envs progress 0 t st).expect callsMore = st.shown.length + 1 := by
      show callsMore (.ok (false, st)) = _
      simp [callsMore, callsOf]
    have hl0 : (0 : ℚ) ≤ st.shown.length := by positivity
    rw [e, evolveLoop]
    refine expect_bind_le_const _ _ _ _ (by simp only [callsOf]; linarith) (by simp only [callsOf]; linarith) fun ⟨cont, q'⟩ _ => ?_
    cases cont
    · show callsOf (.ok (true, _)) ≤ _
      simp [callsOf]
    · simp only [if_true]
      refine expect_bind_le_const _ _ _ _ (by simp only [callsOf]; linarith) (by simp only [callsOf]; linarith) fun st1 h1 => ?_
      obtain ⟨b, el, buf, pop, old, -, -, -, -, rfl⟩ := (yields_generationStep _ _ _ _).1 h1
      show callsOf (.ok (false, _)) ≤ _
      simp [callsOf]
  | succ fuel ih =>
    rw [evolveLoop, evolveLoop]
    refine expect_bind_le _ _ _ _ _ (by simp [callsMore, callsOf]) (by simp [callsMore, callsOf]) fun ⟨cont, q'⟩ _ => ?_
    cases cont
    · show callsOf (.ok (true, _)) ≤ callsMore (.ok (true, _))
      simp [callsMore, callsOf]
    · simp only [if_true]
      exact expect_bind_le _ _ _ _ _ (by simp [callsMore, callsOf]) (by simp [callsMore, callsOf]) fun st1 _ => ih (t + 1) st1

/-- **C133** (the sum of the tails) The expected number of calls of `progress` within `fuel` calls is at most the sum, over `k < fuel`, of the
probabilities that the run has not ended after `k` calls. -/
theorem C133_tails (alg : EvoAlgo I Mo U A P) (envs : Nat → Env I) (progress : Q → Population I → Prog (Bool × Q)) (fuel : Nat) (a : A)
    (init : List I) (p : P) (q : Q) :
    (evolvePopulation alg envs progress fuel a init p q).expect callsOf ≤
      ∑ k ∈ Finset.range fuel, (evolvePopulation alg envs progress k a init p q).prob (fun r => r.1 = false) := by
  induction fuel with
  | zero =>
    rw [Finset.range_zero, Finset.sum_empty]
    unfold evolvePopulation
    refine expect_bind_le_const _ _ _ _ le_rfl le_rfl fun algo _ => expect_bind_le_const _ _ _ _ le_rfl le_rfl fun pop _ => ?_
    exact le_of_eq (by show callsOf (.ok (false, _)) = 0; simp [callsOf])
  | succ fuel ih =>
    rw [Finset.sum_range_succ]
    refine le_trans ?_ (add_le_add_left ih _)
    rw [← expect_callsMore]
    unfold evolvePopulation
    refine expect_bind_le _ _ _ _ _ (by simp [callsMore, callsOf]) (by simp [callsMore, callsOf]) fun algo _ => ?_
    refine expect_bind_le _ _ _ _ _ (by simp [callsMore, callsOf]) (by simp [callsMore, callsOf]) fun pop _ => ?_
    exact calls_loop alg envs progress fuel 1 _

theorem expect_bind_congr {α β γ : Type} {p : Prog α} {f : α → Prog β} {f' : α → Prog γ} {g : Res β → ℚ} {g' : Res γ → ℚ}
    (hp : Always (fun y => (f y).expect g = (f' y).expect g') p) : (p >>= f).expect g = (p >>= f').expect g' := by
  rw [expect_bind, expect_bind]
  refine expect_congr p _ _ fun r hr => ?_
  obtain ⟨y, rfl, hy⟩ := hp r hr
  exact hy

theorem calls_loop_eq (alg : EvoAlgo I Mo U A P) (envs : Nat → Env I) (progress : Q → Population I → Prog (Bool × Q)) (fuel t : Nat)
    (st : RunState I A Q) (h : Always (fun _ => True) (evolveLoop alg envs progress (fuel + 1) t st)) :
    (evolveLoop alg envs progress (fuel + 1) t st).expect callsOf = (evolveLoop alg envs progress fuel t st).expect callsMore := by
  induction fuel generalizing t st with
  | zero =>
    have e : (evolveLoop alg envs progress 0 t st).expect callsMore = st.shown.length + 1 := by
      show callsMore (.ok (false, st)) = _
      simp [callsMore, callsOf]
    rw [e, ← expect_const (evolveLoop alg envs progress (0 + 1) t st) ((st.shown.length : ℚ) + 1)]
    refine expect_congr _ _ _ fun r hr => ?_
    obtain ⟨r, rfl, -⟩ := h r hr
    rw [evolveLoop] at hr
    obtain ⟨⟨cont, q'⟩, -, hr⟩ := (yields_bind_ok _ _ _).1 hr
    cases cont
    · cases hr
      simp [callsOf]
    · simp only [if_true] at hr
      obtain ⟨st1, h1, hr⟩ := (yields_bind_ok _ _ _).1 hr
      obtain ⟨b, el, buf, pop, old, -, -, -, -, rfl⟩ := (yields_generationStep _ _ _ _).1 h1
      cases hr
      simp [callsOf]
  | succ fuel ih =>
    rw [evolveLoop] at h
    rw [evolveLoop, evolveLoop]
    rw [always_bind] at h
    refine expect_bind_congr (h.mono fun ⟨cont, q'⟩ h => ?_)
    cases cont
    · show callsOf (.ok (true, _)) = callsMore (.ok (true, _))
      simp [callsMore, callsOf]
    · simp only [if_true] at h ⊢
      rw [always_bind] at h
      exact expect_bind_congr (h.mono fun st1 h => ih (t + 1) st1 h)

/-- **C133** (the sum of the tails) If runs neither panic nor hang, it is exactly this sum. -/
theorem C133_tails_exact (alg : EvoAlgo I Mo U A P) (envs : Nat → Env I) (progress : Q → Population I → Prog (Bool × Q)) (fuel : Nat)
    (a : A) (init : List I) (p : P) (q : Q) (h : ∀ k, k ≤ fuel → Always (fun _ => True) (evolvePopulation alg envs progress k a init p q)) :
    (evolvePopulation alg envs progress fuel a init p q).expect callsOf =
      ∑ k ∈ Finset.range fuel, (evolvePopulation alg envs progress k a init p q).prob (fun r => r.1 = false) := by
  induction fuel with
  | zero =>
    rw [Finset.range_zero, Finset.sum_empty]
    have h0 := h 0 le_rfl
    unfold evolvePopulation at h0 ⊢
    rw [← expect_const (Prog.lift (alg.configure a p)) 0, expect_bind]
    refine expect_congr _ _ _ fun r hr => ?_
    rw [always_bind] at h0
    obtain ⟨algo, rfl, h0⟩ := h0 r hr
    simp only
    rw [← expect_const (alg.initPopulation (envs 0) algo init) 0, expect_bind]
    refine expect_congr _ _ _ fun r hr => ?_
    rw [always_bind] at h0
    obtain ⟨pop, rfl, h0⟩ := h0 r hr
    show callsOf (.ok (false, _)) = 0
    simp [callsOf]
  | succ fuel ih =>
    rw [Finset.sum_range_succ, ← ih fun k hk => h k (by omega), ← expect_callsMore]
    have h0 := h (fuel + 1) le_rfl
    unfold evolvePopulation at h0 ⊢
    rw [always_bind] at h0
    refine expect_bind_congr (h0.mono fun algo h0 => ?_)
    rw [always_bind] at h0
    exact expect_bind_congr (h0.mono fun pop h0 => calls_loop_eq alg envs progress fuel 1 _ h0)

/-- A run that ends within `k + 1` calls except with probability `c ^ k` makes at most `1 + 1 / (1 - c)` calls on average. -/
theorem expect_calls_geometric (alg : EvoAlgo I Mo U A P) (envs : Nat → Env I) (progress : Q → Population I → Prog (Bool × Q)) (a : A)
    (init : List I) (p : P) (q : Q) (c : ℚ) (h0 : 0 ≤ c) (h1 : c < 1)
    (h : ∀ k, 1 - c ^ k ≤ (evolvePopulation alg envs progress (k + 1) a init p q).prob (fun r => r.1 = true)) (fuel : Nat) :
    (evolvePopulation alg envs progress fuel a init p q).expect callsOf ≤ 1 + 1 / (1 - c) := by
  have hc : 0 < 1 - c := by linarith
  have hfalse : ∀ k, (evolvePopulation alg envs progress (k + 1) a init p q).prob (fun r => r.1 = false) ≤ c ^ k := fun k => by
    have h2 := prob_add_not (evolvePopulation alg envs progress (k + 1) a init p q) (fun r => r.1 = true)
    simp only [Bool.not_eq_true] at h2
    linarith [h k]
  have hgeo : ∀ n, ∑ k ∈ Finset.range n, c ^ k ≤ 1 / (1 - c) := fun n => by
    rw [le_div_iff₀ hc]
    have := geom_sum_mul_neg c n
    have := pow_nonneg h0 n
    linarith
  refine (C133_tails alg envs progress fuel a init p q).trans ?_
  rcases fuel with _ | n
  · simp only [Finset.range_zero, Finset.sum_empty]
    positivity
  · rw [Finset.sum_range_succ', add_comm]
    exact add_le_add (prob_le_one _ _) ((Finset.sum_le_sum fun k _ => hfalse k).trans (hgeo n))

/-- `m` attempts with the success probability `x` each: the waiting time is at most `1 + 1 / (m x)` rounds. -/
theorem one_div_rounds (x : ℚ) (hx0 : 0 < x) (hx1 : x ≤ 1) (m : Nat) (hm : 0 < m) : 1 / (1 - (1 - x) ^ m) ≤ 1 + 1 / (m * x) := by
  have hmq : (0 : ℚ) < m := by exact_mod_cast hm
  have hlt : (1 - x) ^ m < 1 := pow_lt_one₀ (by linarith) (by linarith) hm.ne'
  have key : ∀ k : Nat, (1 - x) ^ k * (1 + k * x) ≤ 1 := fun k => by
    induction k with
    | zero => simp
    | succ k ih =>
      have h0 : 0 ≤ (1 - x) ^ k := pow_nonneg (by linarith) k
      have : (1 - x) ^ (k + 1) * (1 + (k + 1 : Nat) * x) = (1 - x) ^ k * (1 + k * x) - (1 - x) ^ k * ((k + 1) * x ^ 2) := by
        push_cast
        ring
      have h2 : 0 ≤ (1 - x) ^ k * (((k : ℚ) + 1) * x ^ 2) := by positivity
      linarith
  have hmx : 0 < (m : ℚ) * x := mul_pos hmq hx0
  rw [div_le_iff₀ (by linarith), show (1 : ℚ) + 1 / (m * x) = (m * x + 1) / (m * x) by field_simp, div_mul_eq_mul_div, le_div_iff₀ hmx]
  nlinarith [key m]

section
variable {M : EvoModel I Mo U} {Pr : I → Prop} {envs : Nat → Env I} {init : List I} {target : F64} {δ : ℚ}

/-- **C133** (genetic algorithm) If mutation reaches the level with probability at least `δ` from everywhere, and `progress` never continues
once the level is reached, a run with the mutation rate `ρ` that breeds `m` individuals per generation makes at most
`1 + 1 / (1 - (1 - ρ δ) ^ m)` calls of `progress` on average, which is at most `2 + 1 / (m ρ δ)`. -/
theorem C133_ga {a : Ga Mo U} {p : GaParams} (h : Converges M Pr envs a p init target δ) (hpos : 0 < p.mutationRate.val * δ)
    (progress : Q → Population I → Prog (Bool × Q)) (hpr : ∀ q p, p.WF → Always (fun _ => True) (progress q p))
    (hstop : ∀ q pop q', GoodPop pop → Reached target pop → ¬ (progress q pop).yields (.ok (true, q'))) (fuel : Nat) (q : Q) :
    (evolvePopulation (ga M) envs progress fuel a init p q).expect callsOf ≤
      1 + 1 / (1 - (1 - p.mutationRate.val * δ) ^ (p.populationSize - eliteCount p.populationSize p.elitismRate)) ∧
    (evolvePopulation (ga M) envs progress fuel a init p q).expect callsOf ≤
      2 + 1 / ((p.populationSize - eliteCount p.populationSize p.elitismRate : Nat) * (p.mutationRate.val * δ)) := by
  have hδ := h.le_one
  have htwo := h.two
  have hm : 0 < p.populationSize - eliteCount p.populationSize p.elitismRate := by omega
  have h1 := expect_calls_geometric (ga M) envs progress a init p q
    ((1 - p.mutationRate.val * δ) ^ (p.populationSize - eliteCount p.populationSize p.elitismRate)) (pow_nonneg (by linarith) _)
    (pow_lt_one₀ (by linarith) (by linarith) hm.ne') (fun k => by rw [← pow_mul]; exact C67_ends h progress hpr hstop k q) fuel
  exact ⟨h1, h1.trans (by linarith [one_div_rounds _ hpos hδ _ hm])⟩

/-- **C133** (`run`, `evolve_individual`) The bound holds for `run` and `evolve_individual`, if every initial population that they can make
is suitable. -/
theorem C133_run {a : Ga Mo U} {p : GaParams} (hpos : 0 < p.mutationRate.val * δ)
    (progress : Q → Population I → Prog (Bool × Q)) (hpr : ∀ q p, p.WF → Always (fun _ => True) (progress q p))
    (hstop : ∀ q pop q', GoodPop pop → Reached target pop → ¬ (progress q pop).yields (.ok (true, q'))) (fuel : Nat) (q : Q) :
    (∀ newRandom, (∀ init, (M.extend a.model newRandom [] p.populationSize).yields (.ok init) → Converges M Pr envs a p init target δ) →
      (runRandom M (ga M) envs progress fuel a newRandom p q).expect callsIn ≤
        2 + 1 / ((p.populationSize - eliteCount p.populationSize p.elitismRate : Nat) * (p.mutationRate.val * δ))) ∧
    (∀ x, (∀ init, (M.extendWith a.model [] p.populationSize x).yields (.ok init) → Converges M Pr envs a p init target δ) →
      (evolveIndividual M (ga M) envs progress fuel a x p q).expect callsIn ≤
        2 + 1 / ((p.populationSize - eliteCount p.populationSize p.elitismRate : Nat) * (p.mutationRate.val * δ))) := by
  have h := C114_calls (M := M) (alg := ga M) (envs := envs) progress fuel a p q
    (2 + 1 / ((p.populationSize - eliteCount p.populationSize p.elitismRate : Nat) * (p.mutationRate.val * δ))) (by positivity)
  exact ⟨fun newRandom hi => h.1 newRandom fun init hy => (C133_ga (hi init hy) hpos progress hpr hstop fuel q).2,
    fun x hi => h.2 x fun init hy => (C133_ga (hi init hy) hpos progress hpr hstop fuel q).2⟩

/-- **C133** (adaptive algorithm) The same with the lower end of the range of mutation rates. -/
theorem C133_aga {a : Aga Mo U} {p : AgaParams} (h : AgaRun M Pr envs a p init) (h0 : 0 ≤ δ) (hδ : MutationReaches M a.model Pr target δ)
    (hpos : 0 < p.mutationRateRange.start.val * δ)
    (progress : Q → Population I → Prog (Bool × Q)) (hpr : ∀ q p, p.WF → Always (fun _ => True) (progress q p))
    (hstop : ∀ q pop q', GoodPop pop → Reached target pop → ¬ (progress q pop).yields (.ok (true, q'))) (fuel : Nat) (q : Q) :
    (evolvePopulation (aga M) envs progress fuel a init p q).expect callsOf ≤
      1 + 1 / (1 - (1 - p.mutationRateRange.start.val * δ) ^ (p.populationSize - eliteCount p.populationSize p.elitismRate)) ∧
    (evolvePopulation (aga M) envs progress fuel a init p q).expect callsOf ≤
      2 + 1 / ((p.populationSize - eliteCount p.populationSize p.elitismRate : Nat) * (p.mutationRateRange.start.val * δ)) := by
  have hle := h.le_one h0 hδ
  have htwo := h.two
  have hm : 0 < p.populationSize - eliteCount p.populationSize p.elitismRate := by omega
  have h1 := expect_calls_geometric (aga M) envs progress a init p q
    ((1 - p.mutationRateRange.start.val * δ) ^ (p.populationSize - eliteCount p.populationSize p.elitismRate)) (pow_nonneg (by linarith) _)
    (pow_lt_one₀ (by linarith) (by linarith) hm.ne') (fun k => by rw [← pow_mul]; exact C72_ends h h0 hδ progress hpr hstop k q) fuel
  exact ⟨h1, h1.trans (by linarith [one_div_rounds _ hpos hle _ hm])⟩

/-- **C133** (`run`, `evolve_individual`) And so for `run` and `evolve_individual` of the adaptive algorithm. -/
theorem C133_run_aga {a : Aga Mo U} {p : AgaParams} (h0 : 0 ≤ δ) (hδ : MutationReaches M a.model Pr target δ)
    (hpos : 0 < p.mutationRateRange.start.val * δ)
    (progress : Q → Population I → Prog (Bool × Q)) (hpr : ∀ q p, p.WF → Always (fun _ => True) (progress q p))
    (hstop : ∀ q pop q', GoodPop pop → Reached target pop → ¬ (progress q pop).yields (.ok (true, q'))) (fuel : Nat) (q : Q) :
    (∀ newRandom, (∀ init, (M.extend a.model newRandom [] p.populationSize).yields (.ok init) → AgaRun M Pr envs a p init) →
      (runRandom M (aga M) envs progress fuel a newRandom p q).expect callsIn ≤
        2 + 1 / ((p.populationSize - eliteCount p.populationSize p.elitismRate : Nat) * (p.mutationRateRange.start.val * δ))) ∧
    (∀ x, (∀ init, (M.extendWith a.model [] p.populationSize x).yields (.ok init) → AgaRun M Pr envs a p init) →
      (evolveIndividual M (aga M) envs progress fuel a x p q).expect callsIn ≤
        2 + 1 / ((p.populationSize - eliteCount p.populationSize p.elitismRate : Nat) * (p.mutationRateRange.start.val * δ))) := by
  have h := C114_calls (M := M) (alg := aga M) (envs := envs) progress fuel a p q
    (2 + 1 / ((p.populationSize - eliteCount p.populationSize p.elitismRate : Nat) * (p.mutationRateRange.start.val * δ))) (by positivity)
  exact ⟨fun newRandom hi => h.1 newRandom fun init hy => (C133_aga (hi init hy) h0 hδ hpos progress hpr hstop fuel q).2,
    fun x hi => h.2 x fun init hy => (C133_aga (hi init hy) h0 hδ hpos progress hpr hstop fuel q).2⟩

end

section
variable {G : Type} [DecidableEq G] {Pb : Route.Problem G} {genes best : List G} {envs : Nat → Env (Route G)} {init : List (Route G)}

/-- **C133** (arrangements) With `Scramble` as mutation, a problem over arrangements of `n` genes is solved by the genetic algorithm within
`2 + (n - 1) n! / (m ρ)` calls of `progress` on average, whatever the objective, the crossover and the selection strategy. -/
theorem C133_scramble {p : GaParams} (h : RouteRun Pb genes envs p init) (a : Ga Unit Empty) (hs : Pb.mutation = .scramble)
    (hn : 2 ≤ genes.length) (hb : best.Perm genes) (hfin : (Pb.objective best).isFinite = true) (hρ : 0 < p.mutationRate.val)
    (progress : Q → Population (Route G) → Prog (Bool × Q)) (hpr : ∀ q p, p.WF → Always (fun _ => True) (progress q p))
    (hstop : ∀ q pop q', GoodPop pop → Reached (Pb.objective best) pop → ¬ (progress q pop).yields (.ok (true, q'))) (fuel : Nat) (q : Q) :
    (evolvePopulation (ga (Route.model Pb)) envs progress fuel a init p q).expect callsOf ≤
      2 + ((genes.length : ℚ) - 1) * genes.length.factorial /
        ((p.populationSize - eliteCount p.populationSize p.elitismRate : Nat) * p.mutationRate.val) := by
  have h2 : (2 : ℚ) ≤ genes.length := by exact_mod_cast hn
  have hd : (0 : ℚ) < (genes.length - 1) * genes.length.factorial := mul_pos (by linarith) (by positivity)
  refine ((C133_ga (h.converges a hs hn hb hfin) (mul_pos hρ (div_pos one_pos hd)) progress hpr hstop fuel q).2).trans_eq ?_
  rw [mul_one_div, mul_div_assoc', one_div_div]

/-- **C133** (arrangements) And by the adaptive algorithm, with the lower end of the mutation rates. -/
theorem C133_scramble_aga {p : AgaParams} (h : RouteAgaRun Pb genes envs p init) (a : Aga Unit Empty) (hs : Pb.mutation = .scramble)
    (hn : 2 ≤ genes.length) (hb : best.Perm genes) (hfin : (Pb.objective best).isFinite = true) (hρ : 0 < p.mutationRateRange.start.val)
    (progress : Q → Population (Route G) → Prog (Bool × Q)) (hpr : ∀ q p, p.WF → Always (fun _ => True) (progress q p))
    (hstop : ∀ q pop q', GoodPop pop → Reached (Pb.objective best) pop → ¬ (progress q pop).yields (.ok (true, q'))) (fuel : Nat) (q : Q) :
    (evolvePopulation (aga (Route.model Pb)) envs progress fuel a init p q).expect callsOf ≤
      2 + ((genes.length : ℚ) - 1) * genes.length.factorial /
        ((p.populationSize - eliteCount p.populationSize p.elitismRate : Nat) * p.mutationRateRange.start.val) := by
  have h2 : (2 : ℚ) ≤ genes.length := by exact_mod_cast hn
  have hd : (0 : ℚ) < (genes.length - 1) * genes.length.factorial := mul_pos (by linarith) (by positivity)
  have hδ : (0 : ℚ) < 1 / ((genes.length - 1) * genes.length.factorial) := div_pos one_pos hd
  refine ((C133_aga (h.agaRun a) hδ.le (route_reaches Pb genes best hs hn hb hfin) (mul_pos hρ hδ) progress hpr hstop fuel q).2).trans_eq ?_
  rw [mul_one_div, mul_div_assoc', one_div_div]

end

/-! ### Examples -/

/-- Stop at 9. -/
def untilNine (q : Unit) (p : Population Num) : Prog (Bool × Unit) := pure (p.individuals.all fun x => !(F64.lit 9).le (fitness x), q)

theorem untilNine_stops (q : Unit) (pop : Population Num) (q' : Unit) (h : Reached (F64.lit 9) pop) : ¬ (untilNine q pop).yields (.ok (true, q')) := by
  intro hy
  have hy : (true, q') = (pop.individuals.all fun x => !(F64.lit 9).le (fitness x), q) := Res.ok.inj hy
  obtain ⟨x, hx, hle⟩ := h
  have := List.all_eq_true.1 (Prod.mk.inj hy).1.symm x hx
  simp [hle] at this

-- the problem of C67, with the default parameters: at most 3.02 calls of `progress` on average, however long one waits
example (fuel : Nat) : (evolvePopulation (ga guessModel) (fun _ => exFullEnv) untilNine fuel (Ga.ofModel ()) [num 0] GaParams.default ()).expect
    callsOf ≤ 302 / 100 := by
  have hr : (1 : ℚ) / 10 ≤ GaParams.default.mutationRate.val := by decide +kernel
  have hm : GaParams.default.populationSize - eliteCount GaParams.default.populationSize GaParams.default.elitismRate = 99 := by decide +kernel
  have h := (C133_ga (guess_converges [num 0] (by simp) (by simp) (by simp; decide +kernel)) (by linarith) untilNine (fun q p _ => by simp [untilNine])
    (fun q pop q' _ h => untilNine_stops q pop q' h) fuel ()).2
  rw [hm] at h
  refine h.trans ?_
  have : 1 / (((99 : Nat) : ℚ) * (GaParams.default.mutationRate.val * (1 / 10))) ≤ 1 / (99 * (1 / 10 * (1 / 10))) :=
    one_div_le_one_div_of_le (by norm_num) (by push_cast; linarith)
  norm_num at this ⊢
  linarith

-- `run` from random numbers between 0 and 4
example (fuel : Nat) : (runRandom guessModel (ga guessModel) (fun _ => exFullEnv) untilNine fuel (Ga.ofModel ())
    (Prog.uniform 5 >>= fun k => pure (num k)) GaParams.default ()).expect callsIn ≤ 302 / 100 := by
  have hr : (1 : ℚ) / 10 ≤ GaParams.default.mutationRate.val := by decide +kernel
  have hm : GaParams.default.populationSize - eliteCount GaParams.default.populationSize GaParams.default.elitismRate = 99 := by decide +kernel
  have hv : Always (fun x : Num => isValid x = true) (Prog.uniform 5 >>= fun k => pure (num k)) := by
    have hk : ∀ k, k < 5 → isValid (num (k : Nat)) = true := by decide +kernel
    rw [always_bind, always_uniform]
    exact ⟨by decide, fun k h => by rw [always_pure]; exact hk k h⟩
  have hx : Always (fun l : List Num => l.length = 100 ∧ ∀ x ∈ l, isValid x = true)
      (defaultExtend (Prog.uniform 5 >>= fun k => pure (num k)) [] 100) := by
    unfold defaultExtend
    rw [if_neg (by decide), always_bind]
    exact (always_replicate _ _ hv _).mono fun l hl => by simpa using hl
  have h := (C133_run (M := guessModel) (envs := fun _ => exFullEnv) (a := Ga.ofModel ()) (p := GaParams.default)
    (target := F64.lit 9) (δ := 1 / 10) (Pr := fun x => isValid x = true) (by linarith) untilNine (fun q p _ => by simp [untilNine])
    (fun q pop q' _ h => untilNine_stops q pop q' h) fuel ()).1 (Prog.uniform 5 >>= fun k => pure (num k)) fun init hy => by
      obtain ⟨l1, l2⟩ := hx.partially init hy
      exact guess_converges init (fun e => by simp [e] at l1) (by omega) l2
  rw [hm] at h
  refine h.trans ?_
  have : 1 / (((99 : Nat) : ℚ) * (GaParams.default.mutationRate.val * (1 / 10))) ≤ 1 / (99 * (1 / 10 * (1 / 10))) :=
    one_div_le_one_div_of_le (by norm_num) (by push_cast; linarith)
  norm_num at this ⊢
  linarith

-- `evolve_individual` of the adaptive algorithm without adjustments, from any number that is not NaN
example (fuel : Nat) (x : Num) (hx : isValid x = true) : (evolveIndividual guessModel (aga guessModel) (fun _ => exFullEnv) untilNine fuel
    (Aga.ofModel ()) x { AgaParams.default with adjustmentInterval := 0 } ()).expect callsIn ≤ 302 / 100 := by
  have hr : (1 : ℚ) / 10 ≤ AgaParams.default.mutationRateRange.start.val := by decide +kernel
  have hm : AgaParams.default.populationSize - eliteCount AgaParams.default.populationSize AgaParams.default.elitismRate = 99 := by decide +kernel
  have hext := extendWith_always guessModel.toEvoOps () (fun x => isValid x = true) x hx (guess_safe.mutate () x hx) 100 (by norm_num)
  have h := (C133_run_aga (M := guessModel) (envs := fun _ => exFullEnv) (a := Aga.ofModel ())
    (p := { AgaParams.default with adjustmentInterval := 0 }) (target := F64.lit 9) (δ := 1 / 10) (Pr := fun x => isValid x = true) (by norm_num)
    (guess_converges [num 0] (by simp) (by simp) (by simp; decide +kernel)).reaches
    (by show 0 < AgaParams.default.mutationRateRange.start.val * (1 / 10); linarith) untilNine (fun q p _ => by simp [untilNine])
    (fun q pop q' _ h => untilNine_stops q pop q' h) fuel ()).2 x fun init hy => by
      obtain ⟨l1, l2, l3⟩ := hext.partially init hy
      exact
        { ops := guess_safe
          survive := rfl
          members := fun u => u.elim
          distinct := fun u => u.elim
          notNaN := validNotNaN_default
          eqFitness := num_eqFitness
          env := fun _ => exFullEnv_lawful
          valid := C50_defaults.2.2.1
          strategy := C50_defaults.2.2.2
          linear := by simp [AgaParams.default]
          size := by simp [AgaParams.default]
          two := by decide +kernel
          len := by omega
          prop := l3
          start := ⟨x, l2, by show Always _ (pure x); simpa using hx⟩
          crossOrder := by decide +kernel
          mutOrder := by decide +kernel
          spread := Or.inl rfl }
  have h : _ ≤ 2 + 1 / (((AgaParams.default.populationSize - eliteCount AgaParams.default.populationSize AgaParams.default.elitismRate : Nat) : ℚ) *
    (AgaParams.default.mutationRateRange.start.val * (1 / 10))) := h
  rw [hm] at h
  refine h.trans ?_
  have : 1 / (((99 : Nat) : ℚ) * (AgaParams.default.mutationRateRange.start.val * (1 / 10))) ≤ 1 / (99 * (1 / 10 * (1 / 10))) :=
    one_div_le_one_div_of_le (by norm_num) (by push_cast; linarith)
  norm_num at this ⊢
  linarith

end RG.Props
