import Verif.ParallelRun
import Verif.Props.Parallel
import Verif.Props.Trap
import Verif.OneMax

/-!
# Whole runs with parallel tasks (C93)

What the model says about a run holds however the threads are scheduled: probabilities with independent draws, and what is true of all
outcomes with concrete generators.
-/

namespace RG.Props
open RG Prog
variable {α β : Type}

/-! ### Programs with the same distribution of normal results -/

/-- The normal results have the same distribution. -/
def SameLaw (p q : Prog α) : Prop := ∀ f : α → ℚ, p.expect (onOk f) = q.expect (onOk f)

private theorem expect_bind_onOk (p : Prog α) (k : α → Prog β) (f : β → ℚ) :
    (p >>= k).expect (onOk f) = p.expect (onOk fun a => (k a).expect (onOk f)) := by
  rw [expect_bind]
  refine expect_congr _ _ _ fun r _ => ?_
  cases r <;> rfl

private theorem SameLaw.bind {p p' : Prog α} {k k' : α → Prog β} (h : SameLaw p p') (hk : ∀ a, SameLaw (k a) (k' a)) :
    SameLaw (p >>= k) (p' >>= k') := by
  intro f
  rw [expect_bind_onOk, expect_bind_onOk, h]
  refine expect_congr _ _ _ fun r _ => ?_
  cases r with
  | ok a => exact hk a f
  | _ => rfl

private theorem SameLaw.refl (p : Prog α) : SameLaw p p := fun _ => rfl

private theorem runs_sameLaw {tasks : List (Prog α)} {q : Prog (List α)} (h : Runs tasks q) : SameLaw q (inOrder tasks) := fun f => by
  rw [h.mass, mass_inOrder]

/-- What this means: equal probabilities and equal outcomes. -/
theorem SameLaw.prob {p q : Prog α} (h : SameLaw p q) (S : α → Prop) [DecidablePred S] : p.prob S = q.prob S := by
  have e : ∀ p : Prog α, p.prob S = p.expect (onOk fun a => if S a then 1 else 0) := fun p => by
    unfold Prog.prob
    refine expect_congr _ _ _ fun r _ => ?_
    cases r <;> rfl
  rw [e, e, h]

theorem SameLaw.yields {p q : Prog α} (h : SameLaw p q) (a : α) : p.yields (.ok a) ↔ q.yields (.ok a) := by
  classical
  have key : ∀ {p q : Prog α}, SameLaw p q → p.yields (.ok a) → q.yields (.ok a) := by
    intro p q h hp
    by_contra hq
    have h1 := prob_pos_of_yields hp (fun b => b = a) rfl
    rw [h.prob, prob_eq_zero] at h1
    · exact lt_irrefl _ h1
    · rintro b hb rfl; exact hq hb
  exact ⟨key h, key fun f => (h f).symm⟩

/-! ### C93 -/

variable {I : Type} [Individual I] {Mo U A P Q : Type}

/-- The algorithm uses the default methods for the initial population and for offspring. -/
structure DefaultTasks (M : EvoModel I Mo U) (alg : EvoAlgo I Mo U A P) : Prop where
  init : ∀ env a l, alg.initPopulation env a l = defaultInitialize M env (alg.model a) l
  gen : ∀ env a p l, alg.generate env a p l = defaultGenerate M env (alg.model a) (alg.repro a) p l

/-- **C93** Both built-in algorithms do. -/
theorem C93_builtin (M : EvoModel I Mo U) : DefaultTasks M (ga M) ∧ DefaultTasks M (aga M) :=
  ⟨⟨fun _ _ _ => rfl, fun _ _ _ _ => rfl⟩, ⟨fun _ _ _ => rfl, fun _ _ _ _ => rfl⟩⟩

private theorem generate_sameLaw {M : EvoModel I Mo U} {env : NumEnv} {model : Mo} {repro : ReproParams U × Nat}
    {population : Population I} {offspring : List I} {g : Prog (List I)}
    (h : ScheduledGenerate M env model repro population offspring g) :
    SameLaw g (defaultGenerate M env model repro population offspring) := by
  obtain ⟨b, size⟩ := repro
  unfold ScheduledGenerate at h
  unfold defaultGenerate
  simp only at h ⊢
  rcases hs : size - offspring.length with _ | _ | n
  · rw [hs] at h; rw [h]; exact SameLaw.refl _
  · rw [hs] at h; rw [h]; exact SameLaw.refl _
  · rw [hs] at h
    obtain ⟨q, h1, rfl⟩ := h
    have := runs_sameLaw h1
    rw [inOrder_replicate] at this
    exact this.bind fun _ => SameLaw.refl _

private theorem loop_sameLaw {M : EvoModel I Mo U} {alg : EvoAlgo I Mo U A P} (hd : DefaultTasks M alg) {envs : Nat → Env I}
    {progress : Q → Population I → Prog (Bool × Q)} {fuel t : Nat} {st : RunState I A Q} {run : Prog (Bool × RunState I A Q)}
    (h : ScheduledLoop M alg envs progress fuel t st run) : SameLaw run (evolveLoop alg envs progress fuel t st) := by
  induction h with
  | out t st => exact SameLaw.refl _
  | turn fuel t st gen rest hgen hrest ih =>
    unfold evolveLoop
    refine SameLaw.bind (SameLaw.refl _) fun ⟨c, q⟩ => ?_
    cases c with
    | false => exact SameLaw.refl _
    | true =>
      simp only [if_true]
      unfold generationStep
      simp only [bind_assoc]
      refine SameLaw.bind (SameLaw.refl _) fun algo => SameLaw.bind (SameLaw.refl _) fun buffer => SameLaw.bind ?_ fun buffer =>
        SameLaw.bind (SameLaw.refl _) fun pb => ?_
      · rw [hd.gen]; exact generate_sameLaw (hgen _ _ _)
      · exact ih _

/-- **C93** However the tasks of each generation are interleaved (depending on anything that happened before), the result of a run has the
distribution that the model gives, and the same possible outcomes. So every statement of this development about probabilities or
outcomes of `evolve_population` holds for every schedule. -/
theorem C93_scheduled {M : EvoModel I Mo U} {alg : EvoAlgo I Mo U A P} (hd : DefaultTasks M alg) (envs : Nat → Env I)
    (progress : Q → Population I → Prog (Bool × Q)) (fuel : Nat) (a : A) (init : List I) (p : P) (q : Q)
    (run : Prog (Bool × RunState I A Q)) (h : ScheduledRun M alg envs progress fuel a init p q run) :
    (∀ (S : Bool × RunState I A Q → Prop) [DecidablePred S],
      run.prob S = (evolvePopulation alg envs progress fuel a init p q).prob S) ∧
    ∀ r, run.yields (.ok r) ↔ (evolvePopulation alg envs progress fuel a init p q).yields (.ok r) := by
  obtain ⟨ev, loop, hev, hloop, hrun⟩ := h
  have : SameLaw run (evolvePopulation alg envs progress fuel a init p q) := by
    rw [hrun]
    unfold evolvePopulation
    refine SameLaw.bind (SameLaw.refl _) fun algo => ?_
    rw [hd.init]
    unfold defaultInitialize
    simp only [bind_assoc]
    have h1 := runs_sameLaw (hev algo)
    rw [← (C91_library 0 (done .panic) (M.evaluate (alg.model algo)) init).2] at h1
    exact h1.bind fun _ => SameLaw.bind (SameLaw.refl _) fun _ => loop_sameLaw hd (hloop _)
  exact ⟨fun S _ => this.prob S, fun r => this.yields r⟩

/-- **C93** One task after another is one of the schedules. -/
theorem C93_sequential {M : EvoModel I Mo U} {alg : EvoAlgo I Mo U A P} (hd : DefaultTasks M alg) (envs : Nat → Env I)
    (progress : Q → Population I → Prog (Bool × Q)) (fuel : Nat) (a : A) (init : List I) (p : P) (q : Q) :
    ScheduledRun M alg envs progress fuel a init p q (evolvePopulation alg envs progress fuel a init p q) := by
  refine ⟨fun algo => inOrder (init.map (M.evaluate (alg.model algo))), evolveLoop alg envs progress fuel 1,
    fun algo => C91_sequential _, fun st => ?_, ?_⟩
  · generalize 1 = t
    induction fuel generalizing t st with
    | zero => exact ScheduledLoop.out t st
    | succ fuel ih =>
      have := ScheduledLoop.turn (M := M) (alg := alg) (envs := envs) (progress := progress) fuel t st
        (fun st' algo buffer => alg.generate (envs t).num algo st'.population buffer) (evolveLoop alg envs progress fuel (t + 1))
        (fun st' algo buffer => ?_) (fun st' => ih st' (t + 1))
      · convert this using 1
        rw [evolveLoop]
        congr 1
        funext ⟨c, q⟩
        cases c with
        | false => rfl
        | true =>
          simp only [if_true]
          unfold generationStep
          simp only [bind_assoc, pure_bind]
      · rw [hd.gen]
        unfold ScheduledGenerate defaultGenerate
        simp only
        rcases hs : (alg.repro algo).2 - buffer.length with _ | _ | n
        · rfl
        · rfl
        · exact ⟨_, C91_sequential _, by rw [inOrder_replicate]; rfl⟩
  · unfold evolvePopulation
    congr 1
    funext algo
    rw [hd.init]
    unfold defaultInitialize
    simp only [bind_assoc]
    rw [(C91_library 0 (done .panic) (M.evaluate (alg.model algo)) init).2]

variable {σ : Type}

private theorem pooledLoop_yields {M : EvoModel I Mo U} {alg : EvoAlgo I Mo U A P} (hdt : DefaultTasks M alg) {envs : Nat → Env I}
    {make : Nat → σ} {draw : σ → Nat → Nat × σ} (hd : ∀ s n, (draw s n).1 ≤ n) {progress : Q → Population I → Prog (Bool × Q)}
    {fuel t : Nat} {st : RunState I A Q} {pool pool' : RngPool σ} {r : Bool × RunState I A Q}
    (h : PooledLoop M alg envs make draw progress fuel t st pool r pool') :
    (evolveLoop alg envs progress fuel t st).yields (.ok r) := by
  induction h with
  | out t st pool => exact rfl
  | ended fuel t st pool q stops =>
    unfold evolveLoop
    rw [yields_bind_ok]
    exact ⟨_, stops, rfl⟩
  | turn fuel t st pool pool' pool'' q algo elites buffer population buffer' r goes prepared selected generated replaced rest ih =>
    unfold evolveLoop
    rw [yields_bind_ok]
    refine ⟨_, goes, ?_⟩
    simp only [if_true]
    unfold generationStep
    simp only [yields_bind_ok, yields_lift, yields_pure, Res.ok.injEq]
    refine ⟨_, ⟨algo, prepared, elites, selected.symm, buffer, ?_, _, replaced.symm, rfl⟩, ih⟩
    rw [hdt.gen]
    exact C92_generate M _ make draw hd _ _ _ _ pool _ pool' generated

/-- **C93** With concrete generators and the pool, however many threads there are and whatever they do: the result of
`evolve_population` is a possible outcome of the model. -/
theorem C93_pooled {M : EvoModel I Mo U} {alg : EvoAlgo I Mo U A P} (hdt : DefaultTasks M alg) (envs : Nat → Env I) (make : Nat → σ)
    (draw : σ → Nat → Nat × σ) (hd : ∀ s n, (draw s n).1 ≤ n) (progress : Q → Population I → Prog (Bool × Q)) (threads fuel : Nat) (a : A)
    (init : List I) (p : P) (q : Q) (r : Bool × RunState I A Q)
    (h : PooledRun M alg envs make draw progress threads fuel a init p q r) :
    (evolvePopulation alg envs progress fuel a init p q).yields (.ok r) := by
  obtain ⟨algo, population, pool', h1, h2, h3⟩ := h
  unfold evolvePopulation
  simp only [yields_bind_ok, yields_lift]
  exact ⟨algo, h1.symm, population, h2, pooledLoop_yields hdt hd h3⟩

/-- **C93** So what holds of all outcomes of the model holds of all runs with the pool. -/
theorem C93_transfer {M : EvoModel I Mo U} {alg : EvoAlgo I Mo U A P} (hdt : DefaultTasks M alg) (envs : Nat → Env I) (make : Nat → σ)
    (draw : σ → Nat → Nat × σ) (hd : ∀ s n, (draw s n).1 ≤ n) (progress : Q → Population I → Prog (Bool × Q)) (threads fuel : Nat) (a : A)
    (init : List I) (p : P) (q : Q) (S : Bool × RunState I A Q → Prop)
    (hS : Partially S (evolvePopulation alg envs progress fuel a init p q)) :
    ∀ r, PooledRun M alg envs make draw progress threads fuel a init p q r → S r :=
  fun r h => hS r (C93_pooled hdt envs make draw hd progress threads fuel a init p q r h)

private theorem freshItems_yields {make : Nat → σ} {draw : σ → Nat → Nat × σ} (hd : ∀ s n, (draw s n).1 ≤ n) {item : Prog α}
    {size calls calls' : Nat} {new : List α} (h : FreshItems make draw item size calls new calls') :
    (Prog.replicate size item).yields (.ok new) := by
  obtain ⟨events, m, -, h1, h2, -⟩ := h
  have := (C92_outcomes make draw hd _ _ events m h1).2 _ _ h2
  rwa [List.map_const', List.length_range, inOrder_replicate] at this

/-- **C93** The same for `run` and `evolve_individual`, whose initial populations are made with generators of their own. -/
theorem C93_pooled_results {M : EvoModel I Mo U} {alg : EvoAlgo I Mo U A P} (hdt : DefaultTasks M alg)
    (he : M.extend = fun _ => defaultExtend) (hw : M.extendWith = defaultExtendWith M.toEvoOps) (envs : Nat → Env I) (make : Nat → σ)
    (draw : σ → Nat → Nat × σ) (hd : ∀ s n, (draw s n).1 ≤ n) (progress : Q → Population I → Prog (Bool × Q)) (threads fuel : Nat) (a : A)
    (p : P) (q : Q) (x : Option I) (st : RunState I A Q) :
    (∀ newRandom, PooledRandom M alg envs make draw progress threads fuel a newRandom p q x st →
      (runRandom M alg envs progress fuel a newRandom p q).yields (.ok (x, st))) ∧
    (∀ individual, PooledIndividual M alg envs make draw progress threads fuel a individual p q x st →
      (evolveIndividual M alg envs progress fuel a individual p q).yields (.ok (x, st))) := by
  constructor
  · rintro newRandom ⟨individuals, calls, r, h1, h2, h3⟩
    unfold runRandom
    rw [he]
    simp only [yields_bind_ok]
    refine ⟨individuals, ?_, r, C93_pooled hdt envs _ draw hd progress threads fuel a individuals p q r h2, h3⟩
    have h1 := freshItems_yields hd h1
    unfold defaultExtend
    split
    · rename_i h0
      rw [h0] at h1
      exact h1
    · simp only [yields_bind_ok, yields_pure, List.nil_append]
      exact ⟨individuals, h1, rfl⟩
  · rintro individual ⟨copies, calls, r, h1, h2, h3⟩
    unfold evolveIndividual
    rw [hw]
    simp only [yields_bind_ok]
    refine ⟨_, ?_, r, C93_pooled hdt envs _ draw hd progress threads fuel a _ p q r h2, h3⟩
    have h1 := freshItems_yields hd h1
    unfold defaultExtendWith
    split
    · rfl
    · rename_i h0
      simp only [List.nil_append]
      split
      · rename_i h0'
        rw [h0'] at h1
        have h1 : copies = [] := by cases h1; rfl
        rw [h1]; rfl
      · simp only [yields_bind_ok, yields_lift, yields_pure]
        refine ⟨alg.initialSize p - 1, ?_, copies, h1, rfl⟩
        unfold usizeSub
        rw [if_pos (by omega)]

private theorem exec_done (draw : σ → Nat → Nat × σ) (r : Res α) (g : σ) : (done r).exec draw g = (r, g) := rfl

private theorem one_thread_loop {M : EvoModel I Mo U} {alg : EvoAlgo I Mo U A P} (hdt : DefaultTasks M alg) (envs : Nat → Env I)
    (make : Nat → σ) (draw : σ → Nat → Nat × σ) (progress : Q → Population I → Prog (Bool × Q))
    (hp : ∀ q pop, ∃ r, progress q pop = done r) (hprep : ∀ env a pop, ∃ r, alg.prepare env a pop = done r) (fuel t : Nat)
    (st : RunState I A Q) (idle : List σ) (made : Nat) (g g' : σ) (r : Bool × RunState I A Q)
    (h : (evolveLoop alg envs progress fuel t st).exec draw g = (.ok r, g')) :
    PooledLoop M alg envs make draw progress fuel t st ⟨g :: idle, made⟩ r ⟨g' :: idle, made⟩ := by
  induction fuel generalizing t st g with
  | zero =>
    simp only [evolveLoop, exec, pure_def, Prod.mk.injEq, Res.ok.injEq] at h
    obtain ⟨rfl, rfl⟩ := h
    exact PooledLoop.out _ _ _
  | succ fuel ih =>
    rw [evolveLoop, exec_bind] at h
    obtain ⟨rp, hrp⟩ := hp st.q st.population
    rw [hrp, exec_done] at h
    rcases rp with ⟨c, q⟩ | _ | _
    · cases c with
      | false =>
        simp only [exec, pure_def, Bool.false_eq_true, if_false, Prod.mk.injEq, Res.ok.injEq] at h
        obtain ⟨rfl, rfl⟩ := h
        exact PooledLoop.ended _ _ _ _ _ (by rw [hrp]; rfl)
      | true =>
        simp only [if_true] at h
        unfold generationStep at h
        simp only [bind_assoc] at h
        obtain ⟨ra, hra⟩ := hprep (envs t).num st.algo st.population
        rw [exec_bind, hra, exec_done] at h
        rcases ra with algo | _ | _
        · simp only at h
          rcases hsel : alg.selectElites algo st.population [] with elites | _ | _
          · simp only [hsel, exec_bind, lift, exec_done] at h
            rcases hg : (alg.generate (envs t).num algo st.population elites).exec draw g with ⟨rb, g1⟩
            simp only [hg] at h
            rcases rb with buffer | _ | _
            · simp only at h
              rcases hrep : alg.replace (envs t) algo st.population buffer with ⟨population, buffer'⟩ | _ | _
              · simp only [hrep, exec, pure_def] at h
                refine PooledLoop.turn _ _ _ _ ⟨g1 :: idle, made⟩ _ q algo elites buffer population buffer' r (by rw [hrp]; rfl)
                  (by rw [hra]; rfl) hsel ?_ hrep (ih _ _ _ h)
                rw [hdt.gen] at hg
                exact C92_generate_one_thread M _ make draw _ _ _ _ _ idle made g g1 hg
              · simp [hrep] at h
              · simp [hrep] at h
            · simp at h
            · simp at h
          · simp [hsel, lift, exec_done] at h
          · simp [hsel, lift, exec_done] at h
        · simp at h
        · simp at h
    · simp at h
    · simp at h

/-- **C93** With one thread a run can be repeated: if the closure and `pre_generation` draw no random numbers, a run of the model in which
all draws come from the generator `M::rng()` of the pool is a run of the library with one thread. -/
theorem C93_one_thread {M : EvoModel I Mo U} {alg : EvoAlgo I Mo U A P} (hdt : DefaultTasks M alg) (envs : Nat → Env I)
    (make : Nat → σ) (draw : σ → Nat → Nat × σ) (progress : Q → Population I → Prog (Bool × Q))
    (hp : ∀ q pop, ∃ r, progress q pop = done r) (hprep : ∀ env a pop, ∃ r, alg.prepare env a pop = done r)
    (hinit : ∀ env a l, ∃ r, alg.initPopulation env a l = done r) (fuel : Nat)
    (a : A) (init : List I) (p : P) (q : Q) (r : Bool × RunState I A Q)
    (h : ((evolvePopulation alg envs progress fuel a init p q).exec draw (make 0)).1 = .ok r) :
    PooledRun M alg envs make draw progress 1 fuel a init p q r := by
  unfold evolvePopulation at h
  rcases hc : alg.configure a p with algo | _ | _
  · obtain ⟨ri, hri⟩ := hinit (envs 0) algo init
    simp only [hc, exec_bind, lift, exec_done, hri] at h
    rcases ri with population | _ | _
    · exact ⟨algo, population, _, hc, by rw [hri]; rfl, one_thread_loop hdt envs make draw progress hp hprep fuel 1 _ [] 1 (make 0) _ r
        (Prod.ext h rfl)⟩
    · simp at h
    · simp at h
  · simp [hc, lift, exec_done] at h
  · simp [hc, lift, exec_done] at h

/-- A short run of OneMax, for the example below. -/
private def shortRun : Prog (Bool × RunState OneMax (Ga Unit Empty) Nat) :=
  evolvePopulation (ga OneMax.model) (fun _ => ⟨refSort, exEnv⟩) (fun (t : Nat) _ => pure (decide (t < 4), t + 1)) 5 (Ga.ofModel ())
    [OneMax.ofGenome [true, true, false, false], OneMax.ofGenome [false, false, true, true]]
    { GaParams.default with populationSize := 6, elitismRate := F64.lit (1 / 2) } 0

private def smallDraw (s n : Nat) : Nat × Nat := (s / 65536 % (n + 1), (s * 6364136223846793005 + 1442695040888963407) % 2 ^ 64)

/-- Non-trivial instance: with one thread and the seed 19, four generations of OneMax; the best individuals have three ones of four, one more
than those at the start. -/
example : ∃ r, PooledRun OneMax.model (ga OneMax.model) (fun _ => ⟨refSort, exEnv⟩) (fun i => i + 19) smallDraw
    (fun (t : Nat) _ => pure (decide (t < 4), t + 1)) 1 5 (Ga.ofModel ())
    [OneMax.ofGenome [true, true, false, false], OneMax.ofGenome [false, false, true, true]]
    { GaParams.default with populationSize := 6, elitismRate := F64.lit (1 / 2) } 0 r ∧ r.1 = true ∧
    r.2.population.individuals.map (fun x => (x.genome.filter id).length) = [2, 3, 3, 3, 3, 3] := by
  have key : (match (shortRun.exec smallDraw 19).1 with
      | .ok r => decide (r.1 = true ∧ r.2.population.individuals.map (fun x => (x.genome.filter id).length) = [2, 3, 3, 3, 3, 3])
      | _ => false) = true := by
    decide +kernel
  rcases h : (shortRun.exec smallDraw 19).1 with r | _ | _
  · rw [h] at key
    refine ⟨r, C93_one_thread (C93_builtin _).1 _ _ _ _ (fun _ _ => ⟨_, rfl⟩) (fun _ _ _ => ⟨_, rfl⟩) (fun env a l => ?_) _ _ _ _ _ _ h,
      of_decide_eq_true key⟩
    refine ⟨Population.new env.sort ((l.map OneMax.evaluate).filter isValid), ?_⟩
    show defaultInitialize _ _ _ _ = _
    have : ∀ l : List OneMax, Prog.mapList (OneMax.model.evaluate ((ga OneMax.model).model a)) l = pure (l.map OneMax.evaluate) := by
      intro l
      induction l with
      | nil => rfl
      | cons x l ih => rw [Prog.mapList, ih]; rfl
    unfold defaultInitialize
    erw [this]
    rfl
  · rw [h] at key; cases key
  · rw [h] at key; cases key

end RG.Props
