import Verif.Proofs.Shared
import Verif.Props.Evolution
import Verif.Props.Total

/-!
# Models with shared state (C120)

A model may share state between its methods: a cache behind a lock, an atomic counter, a clock (`Shared.lean`). What this development
proves for all outcomes of runs holds for such models as well; what it proves about independence does not.
-/

namespace RG.Props
open RG Prog
variable {I : Type} [Individual I] {Mo U A P Q W : Type}

/-! ### Every outcome is one of a model without shared state -/

/-- `p` can end normally with the result of `r`, or fail (`panic`, or a loop that never ends) if `r` is a failure. -/
def Possible {α : Type} (p : Prog α) : Res α → Prop
  | .ok a => p.yields (.ok a)
  | _ => p.yields .panic ∨ p.yields .diverge

private theorem possible_of_can {α : Type} {p : Prog α} {r : Res α} (h : p.Can r) : Possible p r := by
  cases r <;> exact h

/-- What a run uses of an algorithm is the default code, for a model with shared state. -/
structure StandardShared (others : W → W → Prop) (M : SharedModel I Mo U W) (S : SharedAlgo I Mo A P (Sem W))
    (alg : EvoModel I Mo U → EvoAlgo I Mo U A P) (elite size : A → Nat) (eliteOf : P → Nat) : Prop where
  described : AlgoRel Covers S fun ws => alg (M.over ws)
  standard : ∀ N, Standard N (alg N) elite size eliteOf

/-- **C120** Both built-in algorithms. -/
theorem C120_builtin (others : W → W → Prop) (M : SharedModel I Mo U W) :
    StandardShared others M (sharedGa (outcomes others) M) ga Ga.eliteSize Ga.populationSize
      (fun p => eliteCount p.populationSize p.elitismRate) ∧
    StandardShared others M (sharedAga (outcomes others) M) aga Aga.eliteSize Aga.populationSize
      (fun p => eliteCount p.populationSize p.elitismRate) :=
  ⟨⟨rel_ga (Covers.closed _) (covers_model others M), ga_standard⟩, ⟨rel_aga (Covers.closed _) (covers_model others M), aga_standard⟩⟩

section
variable {others : W → W → Prop} {M : SharedModel I Mo U W} {S : SharedAlgo I Mo A P (Sem W)} {alg : EvoModel I Mo U → EvoAlgo I Mo U A P}
  {elite size : A → Nat} {eliteOf : P → Nat} (hS : StandardShared others M S alg elite size eliteOf)
include hS

/-- **C120** Whatever a run with shared state does, however its tasks are interleaved and whatever other threads do to the shared state:
it is something that a run of a model without shared state can do, whose methods find one of finitely many states at each access. The
same holds for `run` and `evolve_individual`. -/
theorem C120_covered (envs : Nat → Env I) (progress : Q → Population I → SProg W (Bool × Q)) (fuel : Nat) (a : A) (p : P) (q : Q)
    (w w' : W) :
    (∀ init r, sharedPopulation (outcomes others) S envs progress fuel a init p q w r w' → ∃ l : List W, ∀ ws, l ⊆ ws →
      Possible (evolvePopulation (alg (M.over ws)) envs (fun q pop => (progress q pop).over ws) fuel a init p q) r) ∧
    (∀ newRandom r, sharedRandom (outcomes others) S envs progress fuel a newRandom p q w r w' → ∃ l : List W, ∀ ws, l ⊆ ws →
      Possible (runRandom (M.over ws) (alg (M.over ws)) envs (fun q pop => (progress q pop).over ws) fuel a (newRandom.over ws) p q) r) ∧
    (∀ x r, sharedIndividual (outcomes others) M S envs progress fuel a x p q w r w' → ∃ l : List W, ∀ ws, l ⊆ ws →
      Possible (evolveIndividual (M.over ws) (alg (M.over ws)) envs (fun q pop => (progress q pop).over ws) fuel a x p q) r) := by
  refine ⟨fun init r h => ?_, fun newRandom r h => ?_, fun x r h => ?_⟩
  · obtain ⟨l, hl⟩ := rel_population (Covers.closed _) hS.described (prog := fun ws q pop => (progress q pop).over ws)
      (fun _ _ => Covers.call others _) envs fuel a init p q _ _ _ h
    exact ⟨l, fun ws hs => possible_of_can (hl ws hs)⟩
  · obtain ⟨l, hl⟩ := rel_random (N := M.over) (Covers.closed _) hS.described (prog := fun ws q pop => (progress q pop).over ws)
      (fun _ _ => Covers.call others _) (fun _ => rfl) (new := fun ws => newRandom.over ws)
      (fun n => by
        have := Covers.par others (List.replicate n newRandom)
        simp only [List.map_replicate] at this
        exact this) envs fuel a p q _ _ _ h
    exact ⟨l, fun ws hs => possible_of_can (hl ws hs)⟩
  · obtain ⟨l, hl⟩ := rel_individual (Covers.closed _) (covers_model others M) hS.described
      (prog := fun ws q pop => (progress q pop).over ws) (fun _ _ => Covers.call others _) x envs fuel a p q _ _ _ h
    exact ⟨l, fun ws hs => possible_of_can (hl ws hs)⟩

omit [Individual I] hS in
/-- A description with at least one state. -/
private theorem covered_ne {α : Type} {p : List W → Prog α} {r : Res α} (w : W) (h : ∃ l : List W, ∀ ws, l ⊆ ws → Possible (p ws) r) :
    ∃ ws, ws ≠ [] ∧ Possible (p ws) r := by
  obtain ⟨l, hl⟩ := h
  exact ⟨w :: l, List.cons_ne_nil _ _, hl _ (List.subset_cons_self _ _)⟩

omit hS in
/-- **C120** The description has the default `breed` if the model has. -/
theorem C120_breed (hb : M.breed = sharedBreed M.toSharedOps) (ws : List W) :
    (M.over ws).breed = defaultBreed (M.over ws).toEvoOps := by
  funext env m p r
  show (M.breed env m p r).over ws = _
  rw [hb]
  exact over_breed M ws env m p r

omit hS in
private theorem over_members (h : M.selectors.Members) {ws : List W} (hws : ws ≠ []) :
    (M.over ws).selectors.ReturnsMembers ∧ (M.over ws).selectors.DistinctMembers :=
  ⟨fun u p r hr => h.1 u p r (may_of_over hws hr), fun u p n ex r hr => h.2 u p n ex r (may_of_over hws hr)⟩

omit hS in
private theorem over_breedsValid (h : M.BreedsValid) {ws : List W} (hws : ws ≠ []) : (M.over ws).BreedsValid :=
  fun env model p r c hp hc => h env model p r c hp (may_of_over hws hc)

omit hS in
/-- **C120** The default `breed` makes only valid individuals from valid ones, if the user's selectors return members of the
population. -/
theorem C120_breeds_valid (hb : M.breed = sharedBreed M.toSharedOps) (hs : M.selectors.Members) : M.BreedsValid := by
  rintro env model p r c hp ⟨w, w', hc⟩
  obtain ⟨l, hl⟩ := SProg.ends_over hc
  have hne : w :: l ≠ [] := List.cons_ne_nil _ _
  exact breedsValid_default (M.over (w :: l)) (C120_breed hb _) (over_members hs hne).1 (over_members hs hne).2 env model p r c hp
    (hl _ (List.subset_cons_self _ _))

omit hS in
/-- **C120** There is always some outcome, from every state: if nothing else, a failure. -/
theorem C120_outcome (others : W → W → Prop) (hr : ∀ w, others w w) (M : SharedModel I Mo U W) (envs : Nat → Env I)
    (progress : Q → Population I → SProg W (Bool × Q)) (fuel : Nat) (init : List I) (q : Q) (w : W) :
    (∀ (a : Ga Mo U) p, ∃ r w', sharedPopulation (outcomes others) (sharedGa (outcomes others) M) envs progress fuel a init p q w r w') ∧
    (∀ (a : Aga Mo U) p, ∃ r w', sharedPopulation (outcomes others) (sharedAga (outcomes others) M) envs progress fuel a init p q w r w') := by
  have call : ∀ q pop, (Sem.call others (progress q pop)).Total := fun q pop w => (progress q pop).exists_ends hr w
  exact ⟨fun a p => rel_population (Sem.Total.closed others) (rel_ga (Sem.Total.closed others) (total_model hr M))
      (prog := fun ws q pop => (progress q pop).over ws) call envs fuel a init p q w,
    fun a p => rel_population (Sem.Total.closed others) (rel_aga (Sem.Total.closed others) (total_model hr M))
      (prog := fun ws q pop => (progress q pop).over ws) call envs fuel a init p q w⟩

/-! ### What holds for all models holds with shared state -/

/-- **C120** (C60, C65) Only valid individuals are in the populations of a run; and with the default `breed`, only individuals that
`evaluate` has returned, in some state. -/
theorem C120_valid (envs : Nat → Env I) (henv : ∀ t, (envs t).Lawful) (hb : M.BreedsValid)
    (progress : Q → Population I → SProg W (Bool × Q)) (fuel : Nat) (a : A) (init : List I) (p : P) (q : Q) (w w' : W) (fin : Bool)
    (st : RunState I A Q) (h : sharedPopulation (outcomes others) S envs progress fuel a init p q w (.ok (fin, st)) w') :
    (∀ pop, pop ∈ st.shown ∨ pop = st.population → ∀ x ∈ pop.individuals, isValid x = true) ∧
    (M.breed = sharedBreed M.toSharedOps → M.selectors.Members →
      ∀ pop, pop ∈ st.shown ∨ pop = st.population → ∀ x ∈ pop.individuals, ∃ m y, (M.evaluate m y).May x) := by
  obtain ⟨ws, hws, hp⟩ := covered_ne w ((C120_covered hS envs progress fuel a p q w w').1 init _ h)
  constructor
  · have := C60_valid (hS.standard (M.over ws)) envs henv (over_breedsValid hb hws) _ fuel a init p q fin st hp
    rintro pop (hpop | rfl)
    · exact this.1 pop hpop
    · exact this.2
  · intro hbr hs pop hpop x hx
    obtain ⟨m, y, hy⟩ := C65_evaluated (hS.standard (M.over ws)) (C120_breed hbr ws) (over_members hs hws).1 (over_members hs hws).2 envs
      henv _ fuel a init p q fin st hp pop hpop x hx
    exact ⟨m, y, may_of_over hws hy⟩

/-- **C120** (C55, C56) Populations are never empty and never larger than configured; the generations are numbered; the closure saw the
last population. -/
theorem C120_size (envs : Nat → Env I) (henv : ∀ t, (envs t).Lawful)
    (progress : Q → Population I → SProg W (Bool × Q)) (fuel : Nat) (a : A) (init : List I) (p : P) (q : Q) (w w' : W) (fin : Bool)
    (st : RunState I A Q) (hn : S.initialSize p ≤ 2 ^ 53)
    (h : sharedPopulation (outcomes others) S envs progress fuel a init p q w (.ok (fin, st)) w') :
    (∀ pop, pop ∈ st.shown ∨ pop = st.population → 1 ≤ pop.len ∧
      (pop.generation = 0 → pop.len ≤ init.length) ∧ (pop.generation ≠ 0 → pop.len ≤ S.initialSize p)) ∧
    (∀ (i : Nat) (pop : Population I), st.shown[i]? = some pop → pop.generation = i) ∧
    (fin = true → st.shown.getLast? = some st.population) ∧ (fin = false → st.shown.length = fuel) := by
  obtain ⟨ws, hws, hp⟩ := covered_ne w ((C120_covered hS envs progress fuel a p q w w').1 init _ h)
  have e := congrFun (hS.described.initialSize ws) p
  constructor
  · have := C55_size (hS.standard (M.over ws)) envs henv _ fuel a init p q fin st (by rw [e]; exact hn) hp
    rwa [e] at this
  · obtain ⟨_, _, _, -, -, -, -, -, -, -, h1, h2, h3⟩ := C56_protocol (hS.standard (M.over ws)) envs henv _ fuel a init p q fin st hp
    exact ⟨fun i pop hi => (h1 i pop hi).1, fun hf => (h2 hf).1, fun hf => (h3 hf).1⟩

/-- **C120** (C53) With an elite, the best fitness never decreases. -/
theorem C120_monotone (envs : Nat → Env I) (henv : ∀ t, (envs t).Lawful) (hb : M.BreedsValid) (hv : ValidNotNaN I) (he : EqFitness I)
    (progress : Q → Population I → SProg W (Bool × Q)) (fuel : Nat) (a : A) (init : List I) (p : P) (q : Q) (w w' : W) (fin : Bool)
    (st : RunState I A Q) (hn : S.initialSize p ≤ 2 ^ 53) (hel : 1 ≤ eliteOf p)
    (h : sharedPopulation (outcomes others) S envs progress fuel a init p q w (.ok (fin, st)) w') :
    (st.shown ++ [st.population]).Pairwise fun pop pop' => pop.stats.max.le pop'.stats.max = true := by
  obtain ⟨ws, hws, hp⟩ := covered_ne w ((C120_covered hS envs progress fuel a p q w w').1 init _ h)
  exact C53_monotone (hS.standard (M.over ws)) envs henv (over_breedsValid hb hws) hv he _ fuel a init p q fin st
    (by rw [congrFun (hS.described.initialSize ws) p]; exact hn) hel hp

/-- **C120** (C54, C56) `run` and `evolve_individual` return the fittest individual of the last population shown, and with an elite, none
of the individuals in any population was fitter. -/
theorem C120_best (envs : Nat → Env I) (henv : ∀ t, (envs t).Lawful) (progress : Q → Population I → SProg W (Bool × Q)) (fuel : Nat)
    (a : A) (p : P) (q : Q) (w w' : W) (x : I) (st : RunState I A Q)
    (h : (∃ newRandom, sharedRandom (outcomes others) S envs progress fuel a newRandom p q w (.ok (some x, st)) w') ∨
      ∃ individual, sharedIndividual (outcomes others) M S envs progress fuel a individual p q w (.ok (some x, st)) w') :
    (∃ pop, st.shown.getLast? = some pop ∧ pop.fittest = .ok x ∧ x ∈ pop.individuals) ∧
    (M.BreedsValid → ValidNotNaN I → EqFitness I → S.initialSize p ≤ 2 ^ 53 → 1 ≤ eliteOf p →
      ∀ pop ∈ st.shown, ∀ y ∈ pop.individuals, (fitness y).le (fitness x) = true) := by
  rcases h with ⟨newRandom, h⟩ | ⟨individual, h⟩
  · obtain ⟨ws, hws, hp⟩ := covered_ne w ((C120_covered hS envs progress fuel a p q w w').2.1 newRandom _ h)
    refine ⟨(C56_result (hS.standard (M.over ws)) envs henv _ fuel a p q x st).1 _ hp, fun hb hv he hn hel => ?_⟩
    exact (C54_best_partial (hS.standard (M.over ws)) envs henv (over_breedsValid hb hws) hv he _ fuel a p q x st
      (by rw [congrFun (hS.described.initialSize ws) p]; exact hn) hel).1 _ hp
  · obtain ⟨ws, hws, hp⟩ := covered_ne w ((C120_covered hS envs progress fuel a p q w w').2.2 individual _ h)
    refine ⟨(C56_result (hS.standard (M.over ws)) envs henv _ fuel a p q x st).2 _ hp, fun hb hv he hn hel => ?_⟩
    exact (C54_best_partial (hS.standard (M.over ws)) envs henv (over_breedsValid hb hws) hv he _ fuel a p q x st
      (by rw [congrFun (hS.described.initialSize ws) p]; exact hn) hel).2 _ hp

/-- **C120** (C61) `evolve_individual` returns nothing worse than the least fitness `evaluate` can give its argument. -/
theorem C120_not_worse (envs : Nat → Env I) (henv : ∀ t, (envs t).Lawful) (hb : M.BreedsValid) (hv : ValidNotNaN I) (he : EqFitness I)
    (progress : Q → Population I → SProg W (Bool × Q)) (fuel : Nat) (a : A) (p : P) (q : Q) (w w' : W) (individual x : I)
    (st : RunState I A Q) (hn : S.initialSize p ≤ 2 ^ 53) (hel : 1 ≤ eliteOf p) (L : F64)
    (hL : ∀ e, (M.evaluate (S.model a) individual).May e → isValid e = true ∧ L.le (fitness e) = true)
    (h : sharedIndividual (outcomes others) M S envs progress fuel a individual p q w (.ok (some x, st)) w') : L.le (fitness x) = true := by
  obtain ⟨ws, hws, hp⟩ := covered_ne w ((C120_covered hS envs progress fuel a p q w w').2.2 individual _ h)
  refine C61_not_worse (hS.standard (M.over ws)) rfl envs henv (over_breedsValid hb hws) hv he _ fuel a p q individual x st
    (by rw [congrFun (hS.described.initialSize ws) p]; exact hn) hel L (fun e hy => ?_) hp
  rw [hS.described.model ws] at hy
  exact hL e (may_of_over hws hy)

end

private theorem over_safe {M : SharedModel I Mo U W} {Pr : I → Prop} (h : M.Safe Pr) {ws : List W} (hws : ws ≠ []) :
    SafeOps (M.over ws) Pr where
  crossover m a b ha hb := always_over hws (h.crossover m a b ha hb)
  mutate m a ha := always_over hws (h.mutate m a ha)
  improve m a ha := always_over hws (h.improve m a ha)
  evaluate m a ha := always_over hws (h.evaluate m a ha)
  canSurvive m a f p ha hf := always_over hws (h.canSurvive m a f p ha hf)
  preGeneration m p b := by show (M.preGeneration m p b).over ws = _; rw [h.preGeneration]; rfl
  breed := C120_breed h.breed ws

private theorem ok_of_always {α : Type} {P : α → Prop} {p : Prog α} (h : Always P p) {r : Res α} (hr : Possible p r) :
    ∃ a, r = .ok a ∧ P a := by
  cases r with
  | ok a => exact h _ hr
  | panic => rcases hr with hr | hr <;> obtain ⟨a, ha, -⟩ := h _ hr <;> cases ha
  | diverge => rcases hr with hr | hr <;> obtain ⟨a, ha, -⟩ := h _ hr <;> cases ha

/-- **C120** (C64) Runs do not panic: if the model's methods end normally whatever the shared state is, then so do the runs of both
algorithms, with valid parameters and an initial individual that is always found valid. -/
theorem C120_no_panic (others : W → W → Prop) (M : SharedModel I Mo U W) (Pr : I → Prop) (hM : M.Safe Pr) (envs : Nat → Env I)
    (henv : ∀ t, (envs t).Lawful) (progress : Q → Population I → SProg W (Bool × Q))
    (hpr : ∀ q p, p.WF → (progress q p).Anyhow fun _ => True) (fuel : Nat) (init : List I) (q : Q) (hl : init.length < 2 ^ 32)
    (hinit : ∀ x ∈ init, Pr x) (w w' : W) :
    (∀ (a : Ga Mo U) (p : GaParams), p.Valid → p.selectionStrategy.Valid → (∀ b, p.selectionStrategy = .linear b → SafeBias b) →
      2 ≤ p.populationSize → p.populationSize < 2 ^ 32 → (∃ x ∈ init, (M.evaluate a.model x).Anyhow fun e => isValid e = true) →
      ∀ r, sharedPopulation (outcomes others) (sharedGa (outcomes others) M) envs progress fuel a init p q w r w' →
        ∃ fin st, r = .ok (fin, st) ∧ ∀ x ∈ st.population.individuals, Pr x) ∧
    (∀ (a : Aga Mo U) (p : AgaParams), p.Valid → p.selectionStrategy.Valid → (∀ b, p.selectionStrategy = .linear b → SafeBias b) →
      2 ≤ p.populationSize → p.populationSize < 2 ^ 32 → (∃ x ∈ init, (M.evaluate a.model x).Anyhow fun e => isValid e = true) →
      ∀ r, sharedPopulation (outcomes others) (sharedAga (outcomes others) M) envs progress fuel a init p q w r w' →
        ∃ fin st, r = .ok (fin, st) ∧ ∀ x ∈ st.population.individuals, Pr x) := by
  constructor
  · intro a p hp hs hb h2 hn ⟨x, hx, hv⟩ r h
    obtain ⟨ws, hws, hp'⟩ := covered_ne w ((C120_covered (C120_builtin others M).1 envs progress fuel a p q w w').1 init _ h)
    have hM' := over_safe hM hws
    obtain ⟨⟨fin, st⟩, rfl, -, -, h3⟩ := ok_of_always (C64_run (ga_standard (M.over ws)) (ga_safe hM') hM' envs henv _
      (fun q p hp => always_over hws (hpr q p hp)) fuel a init p q ⟨hp, hs, hb⟩ h2 hn hl hinit ⟨x, hx, always_over hws hv⟩) hp'
    exact ⟨fin, st, rfl, h3⟩
  · intro a p hp hs hb h2 hn ⟨x, hx, hv⟩ r h
    obtain ⟨ws, hws, hp'⟩ := covered_ne w ((C120_covered (C120_builtin others M).2 envs progress fuel a p q w w').1 init _ h)
    have hM' := over_safe hM hws
    obtain ⟨⟨fin, st⟩, rfl, -, -, h3⟩ := ok_of_always (C64_run (aga_standard (M.over ws)) (aga_safe hM') hM' envs henv _
      (fun q p hp => always_over hws (hpr q p hp)) fuel a init p q ⟨hp, hs, hb⟩ h2 hn hl hinit ⟨x, hx, always_over hws hv⟩) hp'
    exact ⟨fin, st, rfl, h3⟩

/-! ### Shared state that makes no difference -/

/-- **C120** If, as long as the shared state satisfies `Inv`, the methods of `M`, the closure, and `new_random` behave like those of `N`
and keep `Inv`, and other threads keep `Inv` too, then the runs of `M` have exactly the normal outcomes of the runs of `N`, can fail only
if those can, and keep `Inv`. -/
theorem C120_refines (Inv : W → Prop) (others : W → W → Prop) (ho : ∀ w w', Inv w → others w w' → Inv w') (hr : ∀ w, others w w)
    (M : SharedModel I Mo U W) (N : EvoModel I Mo U) (h : ModelRefines Inv M N) (hx : N.extend = fun _ => defaultExtend)
    (hxw : N.extendWith = defaultExtendWith N.toEvoOps) (S : SharedAlgo I Mo A P (Sem W)) (alg : EvoAlgo I Mo U A P)
    (hS : AlgoRel (Agrees Inv) S fun _ => alg) (envs : Nat → Env I) (progress : Q → Population I → SProg W (Bool × Q))
    (prog : Q → Population I → Prog (Bool × Q)) (hp : ∀ q pop, Refines Inv (progress q pop) (prog q pop)) (newRandom : SProg W I)
    (new : Prog I) (hn : Refines Inv newRandom new) (fuel : Nat) (a : A) (p : P) (q : Q) (w : W) (hw : Inv w) :
    (∀ init, (∀ r, (∃ w', sharedPopulation (outcomes others) S envs progress fuel a init p q w (.ok r) w') ↔
        (evolvePopulation alg envs prog fuel a init p q).yields (.ok r)) ∧
      ∀ r w', sharedPopulation (outcomes others) S envs progress fuel a init p q w r w' →
        Inv w' ∧ Possible (evolvePopulation alg envs prog fuel a init p q) r) ∧
    ((∀ r, (∃ w', sharedRandom (outcomes others) S envs progress fuel a newRandom p q w (.ok r) w') ↔
        (runRandom N alg envs prog fuel a new p q).yields (.ok r)) ∧
      ∀ r w', sharedRandom (outcomes others) S envs progress fuel a newRandom p q w r w' →
        Inv w' ∧ Possible (runRandom N alg envs prog fuel a new p q) r) ∧
    (∀ x, (∀ r, (∃ w', sharedIndividual (outcomes others) M S envs progress fuel a x p q w (.ok r) w') ↔
        (evolveIndividual N alg envs prog fuel a x p q).yields (.ok r)) ∧
      ∀ r w', sharedIndividual (outcomes others) M S envs progress fuel a x p q w r w' →
        Inv w' ∧ Possible (evolveIndividual N alg envs prog fuel a x p q) r) := by
  have use : ∀ {α : Type} {s : Sem W α} {p : Prog α}, Agrees Inv s (fun _ => p) →
      (∀ r, (∃ w', s w (.ok r) w') ↔ p.yields (.ok r)) ∧ ∀ r w', s w r w' → Inv w' ∧ Possible p r := by
    intro α s p hs
    refine ⟨fun r => ⟨fun ⟨w', h'⟩ => (hs.1 _ _ _ hw h').2 [], fun h' => ?_⟩, fun r w' h' => ?_⟩
    · obtain ⟨w', -, h2⟩ := hs.2 w r [] hw h'
      exact ⟨w', h2⟩
    · exact ⟨(hs.1 _ _ _ hw h').1, possible_of_can ((hs.1 _ _ _ hw h').2 [])⟩
  have hc := Agrees.closed others Inv
  have hM := agrees_model ho hr h hxw
  have hpp : ∀ q pop, Agrees Inv (Sem.call others (progress q pop)) fun _ => prog q pop := fun q pop => Agrees.call ho hr (hp q pop)
  exact ⟨fun init => use (rel_population hc hS (prog := fun _ => prog) hpp envs fuel a init p q),
    use (rel_random (N := fun _ => N) hc hS (prog := fun _ => prog) hpp (fun _ => hx) (new := fun _ => new)
      (fun n => Agrees.par ho hr (forall₂_replicate hn n)) envs fuel a p q),
    fun x => use (rel_individual hc hM hS (prog := fun _ => prog) hpp x envs fuel a p q)⟩

/-- **C120** Both built-in algorithms. -/
theorem C120_refines_builtin (Inv : W → Prop) (others : W → W → Prop) (ho : ∀ w w', Inv w → others w w' → Inv w')
    (hr : ∀ w, others w w) (M : SharedModel I Mo U W) (N : EvoModel I Mo U) (h : ModelRefines Inv M N)
    (hxw : N.extendWith = defaultExtendWith N.toEvoOps) :
    AlgoRel (Agrees Inv) (sharedGa (outcomes others) M) (fun _ => ga N) ∧ AlgoRel (Agrees Inv) (sharedAga (outcomes others) M) (fun _ => aga N) :=
  ⟨rel_ga (Agrees.closed others Inv) (agrees_model ho hr h hxw), rel_aga (Agrees.closed others Inv) (agrees_model ho hr h hxw)⟩

/-- **C120** A model that does not use the shared state refines itself: here the description with shared state says the same as the one
without. -/
theorem C120_alone (N : EvoModel I Mo U) (Inv : W → Prop) : ModelRefines Inv (N.alone W) N :=
  ⟨fun _ _ => .ofProg _, fun _ _ => .ofProg _, fun _ _ _ => .ofProg _, rfl, fun _ _ _ _ => .ofProg _⟩

/-- The entries of the table are right. -/
def RightTable {K V : Type} (compute : K → V) (table : List (K × V)) : Prop := ∀ e ∈ table, e.2 = compute e.1

/-- **C120** A memo table for `evaluate`, shared by all tasks, makes no difference: if its entries are right at the start, and nobody else
writes wrong entries, a run has exactly the outcomes of a run that computes every evaluation anew. Two tasks may compute the same entry,
and entries may be dropped at any time. -/
theorem C120_cache {K V : Type} [DecidableEq K] (N : EvoModel I Mo U) (key : I → K) (compute : K → V) (put : I → V → I)
    (evict : List (K × V) → List (K × V)) (hev : ∀ t, evict t ⊆ t) (hN : ∀ m i, N.evaluate m i = pure (put i (compute (key i))))
    (hb : N.breed = defaultBreed N.toEvoOps) : ModelRefines (RightTable compute) (N.cached key compute put evict) N := by
  have he : ∀ m i, Refines (RightTable compute) (cachedEvaluate key compute put evict i) (N.evaluate m i) := by
    intro m i
    rw [hN]
    refine .touch _ _ _ (fun w hw => hw) fun table ht => ?_
    cases hl : table.lookup (key i) with
    | some v =>
      have hmem : (key i, v) ∈ table := by
        clear ht
        induction table with
        | nil => cases hl
        | cons e es ih =>
          rw [List.lookup_cons] at hl
          split at hl
          · rename_i hk
            cases hl
            rw [beq_iff_eq.1 hk]
            exact List.mem_cons_self
          · exact List.mem_cons_of_mem _ (ih hl)
      have : v = compute (key i) := ht _ hmem
      rw [this]
      exact .pure _
    | none =>
      refine .touch _ _ _ (fun w hw e hmem => ?_) fun _ _ => .pure _
      rcases List.mem_cons.1 hmem with rfl | hmem
      · rfl
      · exact hw e (hev w hmem)
  refine ⟨fun _ _ => .ofProg _, he, fun _ _ _ => .ofProg _, rfl, fun env m p r => ?_⟩
  rw [hb]
  exact refines_breed (M := (N.cached key compute put evict).toSharedOps) (fun _ _ _ => .ofProg _) (fun _ _ => .ofProg _)
    (fun _ _ => .ofProg _) he (fun _ _ _ _ => .ofProg _) (fun _ _ => .ofProg _) (fun _ _ _ _ => .ofProg _) env m p r

/-! ### What does not hold with shared state -/

/-- A model with an atomic counter: `evaluate` adds the number of evaluations so far to the individual. -/
def countingModel : SharedModel Num Unit Empty Nat :=
  { ({ crossover := fun _ a b => pure ⟨a.v.add b.v⟩
       mutate := fun _ a => pure ⟨a.v.add a.v⟩
       evaluate := fun _ a => .touch (· + 1) fun c => pure ⟨a.v.add (F64.lit c)⟩
       selectors := ⟨fun u => u.elim, fun u => u.elim, fun u => u.elim⟩ } : SharedOps Num Unit Empty Nat) with }

/-- Stops at once. -/
def atOnce (_ : Unit) (_ : Population Num) : SProg Nat (Bool × Unit) := pure (false, ())

private theorem counting_run (w : Nat) (init : List Num) (r : Bool × RunState Num (Ga Unit Empty) Unit) (w' : Nat) :
    sharedPopulation (outcomes Eq) (sharedGa (outcomes Eq) countingModel) (fun _ => exFullEnv) atOnce 1 (Ga.ofModel ()) init smallParams () w (.ok r) w' ↔
      ∃ algo pop ev, Ga.configure (Ga.ofModel ()) smallParams = .ok algo ∧
        Par Eq (init.map (countingModel.evaluate ())) w (.ok ev) w' ∧ Population.new refSort (ev.filter isValid) = .ok pop ∧
        r = (true, ⟨algo, pop, [], (), [pop]⟩) := by
  constructor
  · rintro (⟨algo, _, ⟨h1, rfl⟩, ⟨pop, w1, ⟨ev, w2, h2, h3, rfl⟩ | ⟨h, h'⟩ | ⟨h, h'⟩, h4⟩ | ⟨h, h'⟩ | ⟨h, h'⟩⟩ | ⟨h, h'⟩ | ⟨h, h'⟩)
    all_goals try cases h'
    rcases h4 with ⟨cq, w3, ⟨h5, rfl⟩, h6⟩ | ⟨h, h'⟩ | ⟨h, h'⟩
    all_goals try cases h'
    cases h5
    obtain ⟨h6, rfl⟩ := h6
    cases h6
    have : algo.model = () := rfl
    exact ⟨algo, pop, ev, h1.symm, h2, h3.symm, rfl⟩
  · rintro ⟨algo, pop, ev, h1, h2, h3, rfl⟩
    exact .inl ⟨algo, w, ⟨h1.symm, rfl⟩, .inl ⟨pop, w', .inl ⟨ev, w', h2, h3.symm, rfl⟩,
      .inl ⟨(false, ()), w', ⟨rfl, rfl⟩, rfl, rfl⟩⟩⟩

/-- **C120** Runs are not independent of each other (compare C59): with the counting model, a run that starts with the counter at `w` can
end only with the individual `10 + w` and leaves the counter at `w + 1`; it makes no random choice. So the same call made twice gives two
different results: 10, then 11. -/
theorem C120_not_independent :
    (∀ w r w', sharedPopulation (outcomes Eq) (sharedGa (outcomes Eq) countingModel) (fun _ => exFullEnv) atOnce 1 (Ga.ofModel ()) [num 10] smallParams () w
      (.ok r) w' → r.2.population.individuals = [⟨(F64.lit 10).add (F64.lit w)⟩] ∧ w' = w + 1) ∧
    ∃ r r', sharedPopulation (outcomes Eq) (sharedGa (outcomes Eq) countingModel) (fun _ => exFullEnv) atOnce 1 (Ga.ofModel ()) [num 10] smallParams () 0
        (.ok r) 1 ∧
      sharedPopulation (outcomes Eq) (sharedGa (outcomes Eq) countingModel) (fun _ => exFullEnv) atOnce 1 (Ga.ofModel ()) [num 10] smallParams () 1
        (.ok r') 2 ∧
      r.2.population.individuals = [num 10] ∧ r'.2.population.individuals = [num 11] := by
  constructor
  · intro w r w' h
    obtain ⟨algo, pop, ev, -, h2, h3, rfl⟩ := (counting_run _ _ _ _).1 h
    obtain ⟨x, rfl, w1, rfl, h4, rfl⟩ := Par.single h2
    cases h4
    refine ⟨?_, rfl⟩
    obtain ⟨-, -, h5, -⟩ := Population.wf_new exFullEnv_lawful.sort h3
    show pop.individuals = _
    rw [h5]
    by_cases hv : isValid (⟨(num 10).v.add (F64.lit w)⟩ : Num) = true
    · rw [List.filter_cons_of_pos hv]
      rfl
    · rw [List.filter_cons_of_neg hv] at h3
      cases h3
  · obtain ⟨algo, h1, -⟩ := Res.of_okAnd (r := Ga.configure (Ga.ofModel () : Ga Unit Empty) smallParams) (Q := fun _ => true)
      (by decide +kernel)
    obtain ⟨pop, h2, h3⟩ := Res.of_okAnd (r := Population.new refSort (([num 10] : List Num).filter isValid))
      (Q := fun p => p.individuals = [num 10]) (by decide +kernel)
    obtain ⟨pop', h2', h3'⟩ := Res.of_okAnd (r := Population.new refSort (([num 11] : List Num).filter isValid))
      (Q := fun p => p.individuals = [num 11]) (by decide +kernel)
    have e : (⟨(num 10).v.add (F64.lit ((0 : Nat) : ℚ))⟩ : Num) = num 10 := by decide +kernel
    have e' : (⟨(num 10).v.add (F64.lit ((1 : Nat) : ℚ))⟩ : Num) = num 11 := by decide +kernel
    refine ⟨_, _, (counting_run _ _ _ _).2 ⟨algo, pop, _, h1, ?_, h2, rfl⟩, (counting_run _ _ _ _).2 ⟨algo, pop', _, h1, ?_, h2', rfl⟩,
      of_decide_eq_true h3, of_decide_eq_true h3'⟩
    · have := Par.finished (others := Eq) [(⟨(num 10).v.add (F64.lit ((0 : Nat) : ℚ))⟩ : Num)] 1
      rw [e] at this
      refine Par.access [] _ _ [] 0 0 1 _ rfl ?_
      show Par Eq [.done (.ok (⟨(num 10).v.add (F64.lit ((0 : Nat) : ℚ))⟩ : Num))] 1 _ 1
      rw [e]
      exact this
    · have := Par.finished (others := Eq) [(⟨(num 10).v.add (F64.lit ((1 : Nat) : ℚ))⟩ : Num)] 2
      rw [e'] at this
      refine Par.access [] _ _ [] 1 1 2 _ rfl ?_
      show Par Eq [.done (.ok (⟨(num 10).v.add (F64.lit ((1 : Nat) : ℚ))⟩ : Num))] 2 _ 2
      rw [e']
      exact this

/-- **C120** The schedule matters (compare C91, C93): two individuals are evaluated in parallel, no random choice is made, and the best
fitness is 21 or 20, depending on which task reaches the counter first. -/
theorem C120_schedule_matters : ∃ r r' : Bool × RunState Num (Ga Unit Empty) Unit,
    (∃ w', sharedPopulation (outcomes Eq) (sharedGa (outcomes Eq) countingModel) (fun _ => exFullEnv) atOnce 1 (Ga.ofModel ()) [num 10, num 20] smallParams ()
      0 (.ok r) w') ∧
    (∃ w', sharedPopulation (outcomes Eq) (sharedGa (outcomes Eq) countingModel) (fun _ => exFullEnv) atOnce 1 (Ga.ofModel ()) [num 10, num 20] smallParams ()
      0 (.ok r') w') ∧
    r.2.population.individuals = [num 10, num 21] ∧ r'.2.population.individuals = [num 11, num 20] := by
  obtain ⟨algo, h1, -⟩ := Res.of_okAnd (r := Ga.configure (Ga.ofModel () : Ga Unit Empty) smallParams) (Q := fun _ => true)
    (by decide +kernel)
  obtain ⟨pop, h2, h3⟩ := Res.of_okAnd (r := Population.new refSort (([num 10, num 21] : List Num).filter isValid))
    (Q := fun p => p.individuals = [num 10, num 21]) (by decide +kernel)
  obtain ⟨pop', h2', h3'⟩ := Res.of_okAnd (r := Population.new refSort (([num 11, num 20] : List Num).filter isValid))
    (Q := fun p => p.individuals = [num 11, num 20]) (by decide +kernel)
  refine ⟨_, _, ⟨2, (counting_run _ _ _ _).2 ⟨algo, pop, _, h1, ?_, h2, rfl⟩⟩, ⟨2, (counting_run _ _ _ _).2 ⟨algo, pop', _, h1, ?_, h2', rfl⟩⟩,
    of_decide_eq_true h3, of_decide_eq_true h3'⟩
  · refine Par.access [] _ _ [_] 0 0 2 _ rfl (Par.access [_] _ _ [] 1 1 2 _ rfl ?_)
    show Par Eq [.done (.ok (⟨(num 10).v.add (F64.lit ((0 : Nat) : ℚ))⟩ : Num)),
      .done (.ok (⟨(num 20).v.add (F64.lit ((1 : Nat) : ℚ))⟩ : Num))] 2 _ 2
    rw [show (⟨(num 10).v.add (F64.lit ((0 : Nat) : ℚ))⟩ : Num) = num 10 by decide +kernel,
      show (⟨(num 20).v.add (F64.lit ((1 : Nat) : ℚ))⟩ : Num) = num 21 by decide +kernel]
    exact Par.finished (others := Eq) [num 10, num 21] 2
  · refine Par.access [_] _ _ [] 0 0 2 _ rfl (Par.access [] _ _ [_] 1 1 2 _ rfl ?_)
    show Par Eq [.done (.ok (⟨(num 10).v.add (F64.lit ((1 : Nat) : ℚ))⟩ : Num)),
      .done (.ok (⟨(num 20).v.add (F64.lit ((0 : Nat) : ℚ))⟩ : Num))] 2 _ 2
    rw [show (⟨(num 10).v.add (F64.lit ((1 : Nat) : ℚ))⟩ : Num) = num 11 by decide +kernel,
      show (⟨(num 20).v.add (F64.lit ((0 : Nat) : ℚ))⟩ : Num) = num 20 by decide +kernel]
    exact Par.finished (others := Eq) [num 11, num 20] 2

/-! ### Examples -/

-- the counting model meets the hypotheses of `C120_valid`, `C120_monotone` and `C120_best`
example : countingModel.BreedsValid ∧ countingModel.selectors.Members ∧ ValidNotNaN Num ∧ EqFitness Num ∧
    1 ≤ eliteCount smallParams.populationSize smallParams.elitismRate :=
  ⟨C120_breeds_valid rfl ⟨fun u => u.elim, fun u => u.elim⟩, ⟨fun u => u.elim, fun u => u.elim⟩, validNotNaN_default, num_eqFitness,
    by decide +kernel⟩

-- and those of `C120_no_panic`, with no condition on the individuals
example : countingModel.Safe fun _ => True where
  crossover _ _ _ _ _ := fun _ _ _ h => ⟨_, h.1, trivial⟩
  mutate _ _ _ := fun _ _ _ h => ⟨_, h.1, trivial⟩
  improve _ _ _ := fun _ _ _ h => ⟨_, h.1, trivial⟩
  evaluate _ _ _ := fun _ _ _ ⟨_, _, h⟩ => ⟨_, h.1, trivial⟩
  canSurvive _ _ _ _ _ _ := fun _ _ _ h => ⟨_, h.1, trivial⟩
  preGeneration _ _ _ := rfl
  breed := rfl

-- a memo table of squares, of at most two entries: the hypotheses of `C120_cache`
example : ModelRefines (RightTable fun k : F64 => k.mul k)
    (({ ({ numOps with evaluate := fun _ a => pure ⟨a.v.mul a.v⟩ } : EvoOps Num Unit Empty) with } : EvoModel Num Unit Empty).cached
      Num.v (fun k => k.mul k) (fun _ v => ⟨v⟩) (List.take 1))
    { ({ numOps with evaluate := fun _ a => pure ⟨a.v.mul a.v⟩ } : EvoOps Num Unit Empty) with } :=
  C120_cache _ _ _ _ _ (fun _ => List.take_subset _ _) (fun _ _ => rfl) rfl

end RG.Props
