import Verif.Proofs.Unwind
import Verif.Props.Evolution

/-!
# Property C125: panics that a caller catches

`Unwinding S α` is code that changes variables `S` which outlive a panic (`Unwind.lean`). A run changes the cell of the
`Evolution` value and the captured variables of the progress closure.
-/

set_option linter.unusedSectionVars false

namespace RG.Props
open RG RG.Prog RG.Unwinding
variable {I : Type} [Individual I] {Mo U A P Q : Type}

/-- A closure that does not use the `Evolution` value of the run. -/
def apart (progress : Population I → Unwinding Q Bool) (pop : Population I) : Unwinding (Cell A × Q) Bool :=
  within (fun s => s.2) (fun s q => (s.1, q)) (progress pop)

/-- The closure when nobody catches its panics. -/
def thrown (progress : Population I → Unwinding Q Bool) (q : Q) (pop : Population I) : Prog (Bool × Q) := (progress pop).rethrow q

/-- `configure` and `prepare_for_next_population` of the algorithm, with what they leave. -/
structure Describes (alg : EvoAlgo I Mo U A P) (uw : UnwindingAlgo I A P) : Prop where
  configure : ∀ p a, ((uw.configure p).rethrow a >>= fun r => pure r.2) = Prog.lift (alg.configure a p)
  prepare : ∀ env pop a, ((uw.prepare env pop).rethrow a >>= fun r => pure r.2) = alg.prepare env a pop

/-- `pre_generation` of the model, with what it leaves. -/
def DescribesPre (M : EvoModel I Mo U) (pre : PreGeneration I Mo U) : Prop :=
  ∀ m pop b, ((pre pop).rethrow (m, b) >>= fun r => pure r.2) = M.preGeneration m pop b

/-! ### The same runs -/

theorem interpolate_ok (n : Nat) (r : F64) : ∃ k, interpolateUsize 0 n r = .ok k := by
  unfold interpolateUsize usizeSub; rw [if_pos (Nat.zero_le _)]; exact ⟨_, rfl⟩

/-- **C125** The methods of the genetic algorithm, with what they leave, are those of `Algorithm.lean`. -/
theorem C125_ga (M : EvoModel I Mo U) (pre : PreGeneration I Mo U) (hpre : DescribesPre M pre) :
    Describes (ga M) (gaUnwinding M pre) where
  configure p a := by
    show ((Ga.configureUnwinding p).rethrow a >>= fun r => pure r.2) = Prog.lift (Ga.configure a p)
    obtain ⟨k, hk⟩ := interpolate_ok p.populationSize p.elitismRate
    unfold Ga.configureUnwinding Ga.configure
    simp only [rethrow_bind, rethrow_eval, rethrow_assign, bind_assoc, bind_pure_left, hk, lift_ok]
    cases p.validate with
    | panic => rfl
    | diverge => rfl
    | ok _ => cases p.selectionStrategy.createSelector <;> rfl
  prepare env pop a := by
    show ((Ga.prepareUnwinding M pre env pop).rethrow a >>= fun r => pure r.2) = Ga.prepare M env a pop
    unfold Ga.prepareUnwinding Ga.prepare
    rw [← hpre]
    simp only [rethrow_bind, rethrow_within, rethrow_assign, bind_assoc, bind_pure_left]

/-- **C125** The methods of the adaptive genetic algorithm, with what they leave, are those of `Algorithm.lean`. -/
theorem C125_aga (M : EvoModel I Mo U) (pre : PreGeneration I Mo U) (hpre : DescribesPre M pre) :
    Describes (aga M) (agaUnwinding M pre) where
  configure p a := by
    show ((Aga.configureUnwinding p).rethrow a >>= fun r => pure r.2) = Prog.lift (Aga.configure a p)
    obtain ⟨k, hk⟩ := interpolate_ok p.populationSize p.elitismRate
    unfold Aga.configureUnwinding Aga.configure
    simp only [rethrow_bind, rethrow_eval, rethrow_assign, bind_assoc, bind_pure_left, hk, lift_ok]
    cases p.validate with
    | panic => rfl
    | diverge => rfl
    | ok _ => cases p.selectionStrategy.createSelector <;> rfl
  prepare env pop a := by
    show ((Aga.prepareUnwinding M pre env pop).rethrow a >>= fun r => pure r.2) = Aga.prepare M env a pop
    unfold Aga.prepareUnwinding Aga.prepare
    dsimp only
    rw [← hpre]
    simp only [rethrow_bind, rethrow_within, rethrow_assign, bind_assoc, bind_pure_left]

section
variable {alg : EvoAlgo I Mo U A P} {uw : UnwindingAlgo I A P}

theorem rethrow_step (h : Describes alg uw) (env : Env I) (st : RunState I A Q) :
    (unwindingStep alg uw env st.population).rethrow (Cell.new st.algo, st.q) =
      generationStep alg env st >>= fun s => pure (s.population, (Cell.new s.algo, s.q)) := by
  unfold unwindingStep generationStep
  simp only [rethrow_bind, rethrow_writeCell, rethrow_readCell, rethrow_pure, ← h.prepare, bind_assoc, bind_pure_left]

theorem rethrow_loop (h : Describes alg uw) (envs : Nat → Env I) (progress : Population I → Unwinding Q Bool) (fuel t : Nat)
    (st : RunState I A Q) :
    (unwindingLoop alg uw envs (apart progress) fuel t st.population).rethrow (Cell.new st.algo, st.q) =
      evolveLoop alg envs (thrown progress) fuel t st >>= fun r => pure ((r.1, r.2.population), (Cell.new r.2.algo, r.2.q)) := by
  induction fuel generalizing t st with
  | zero => rfl
  | succ fuel ih =>
    rw [unwindingLoop, evolveLoop, rethrow_bind]
    simp only [apart, rethrow_within, bind_assoc, bind_pure_left, thrown]
    refine bind_congr fun r => ?_
    obtain ⟨b, q⟩ := r
    cases b with
    | false => rfl
    | true =>
      simp only [if_true, rethrow_bind, bind_assoc]
      refine (congrArg (· >>= _) (rethrow_step h (envs t)
        (⟨st.algo, st.population, st.buffer, q, st.shown ++ [st.population]⟩ : RunState I A Q))).trans ?_
      simp only [bind_assoc, bind_pure_left]
      refine bind_congr fun s => ?_
      exact ih (t + 1) s

/-- **C125** If nobody catches the panics, these are the runs of `Evolution.lean`: the same draws, the same result, and the
algorithm and the captured variables are left the same. -/
theorem C125_same (h : Describes alg uw) (envs : Nat → Env I) (progress : Population I → Unwinding Q Bool) (fuel : Nat) (init : List I)
    (p : P) (a : A) (q : Q) :
    (unwindingPopulation alg uw envs (apart progress) fuel init p).rethrow (Cell.new a, q) =
      evolvePopulation alg envs (thrown progress) fuel a init p q >>= fun r =>
        pure ((r.1, r.2.population), (Cell.new r.2.algo, r.2.q)) := by
  unfold unwindingPopulation evolvePopulation
  simp only [rethrow_bind, rethrow_writeCell, rethrow_readCell, ← h.configure, bind_assoc, bind_pure_left]
  refine bind_congr fun r => bind_congr fun pop => ?_
  exact rethrow_loop h envs progress fuel 1 ⟨r.2, pop, [], q, []⟩

theorem rethrow_result (r : Bool × RunState I A Q) (s : Cell A × Q) :
    (unwindingResult (r.1, r.2.population)).rethrow s = takeResult r >>= fun o => pure (o.1, s) := by
  obtain ⟨b, st⟩ := r
  cases b with
  | false => rfl
  | true => simp only [unwindingResult, takeResult, if_true, rethrow_eval, bind_assoc, bind_pure_left]

theorem takeResult_state (r : Bool × RunState I A Q) (f : RunState I A Q → Cell A × Q) :
    (takeResult r >>= fun o => pure (o.1, f r.2)) = takeResult r >>= fun o => pure (o.1, f o.2) := by
  obtain ⟨b, st⟩ := r
  cases b with
  | false => rfl
  | true => simp only [takeResult, if_true, bind_assoc, bind_pure_left]

/-- **C125** The same for `run` and `evolve_individual`. -/
theorem C125_same_run (h : Describes alg uw) (M : EvoModel I Mo U) (envs : Nat → Env I) (progress : Population I → Unwinding Q Bool)
    (fuel : Nat) (p : P) (a : A) (q : Q) :
    (∀ newRandom, (unwindingRandom M alg uw envs (apart progress) fuel newRandom p).rethrow (Cell.new a, q) =
      runRandom M alg envs (thrown progress) fuel a newRandom p q >>= fun o => pure (o.1, (Cell.new o.2.algo, o.2.q))) ∧
    (∀ x, (unwindingIndividual M alg uw envs (apart progress) fuel x p).rethrow (Cell.new a, q) =
      evolveIndividual M alg envs (thrown progress) fuel a x p q >>= fun o => pure (o.1, (Cell.new o.2.algo, o.2.q))) := by
  constructor
  · intro newRandom
    unfold unwindingRandom runRandom
    simp only [rethrow_bind, rethrow_readCell, bind_assoc, bind_pure_left, C125_same h, rethrow_result]
    exact bind_congr fun _ => bind_congr fun r => takeResult_state r fun s => (Cell.new s.algo, s.q)
  · intro x
    unfold unwindingIndividual evolveIndividual
    simp only [rethrow_bind, rethrow_readCell, bind_assoc, bind_pure_left, C125_same h, rethrow_result]
    exact bind_congr fun _ => bind_congr fun r => takeResult_state r fun s => (Cell.new s.algo, s.q)

/-! ### What a run leaves -/

/-- The cell is not in use afterwards if it was not in use before, and the algorithms are related by `R`. -/
def CellKeeps (R : A → A → Prop) (s s' : Cell A × Q) : Prop :=
  s.1.flag = .unused → s'.1.flag = .unused ∧ R s.1.value s'.1.value

theorem cellKeeps_refl {R : A → A → Prop} (h : ∀ a, R a a) (s : Cell A × Q) : CellKeeps R s s := fun hf => ⟨hf, h _⟩

theorem cellKeeps_trans {R : A → A → Prop} (h : ∀ a b c, R a b → R b c → R a c) (s t u : Cell A × Q) (h1 : CellKeeps R s t)
    (h2 : CellKeeps R t u) : CellKeeps R s u := fun hf =>
  ⟨(h2 (h1 hf).1).1, h _ _ _ (h1 hf).2 (h2 (h1 hf).1).2⟩

theorem keeps_readCell {R : A → A → Prop} (h : ∀ a, R a a) {β : Type} (f : A → Prog β) :
    Keeps (CellKeeps R) (readCell f : Unwinding (Cell A × Q) β) := by
  intro s
  unfold readCell
  split
  · exact (partially_pure _ _).2 (cellKeeps_refl h s)
  · exact Keeps.eval (cellKeeps_refl h) _ s

theorem keeps_writeCell {R : A → A → Prop} (h : ∀ a, R a a) {m : Unwinding A Unit} (hm : Keeps R m) :
    Keeps (CellKeeps R) (writeCell m : Unwinding (Cell A × Q) Unit) := by
  intro s
  unfold writeCell
  split
  · exact Keeps.within (R := CellKeeps R) (get := fun s : Cell A × Q => s.1.value)
      (set := fun s a => ({ s.1 with value := a }, s.2)) hm (fun s t ht hf => ⟨hf, ht⟩) s
  · exact (partially_pure _ _).2 (cellKeeps_refl h s)

variable {R : A → A → Prop}

theorem keeps_step (hr : ∀ a, R a a) (ht : ∀ a b c, R a b → R b c → R a c) (hp : ∀ env pop, Keeps R (uw.prepare env pop)) (env : Env I)
    (pop : Population I) : Keeps (CellKeeps R) (unwindingStep alg uw env pop : Unwinding (Cell A × Q) _) := by
  unfold unwindingStep
  have T := cellKeeps_trans (Q := Q) ht
  exact Keeps.bind T (keeps_writeCell hr (hp _ _)) fun _ => Keeps.bind T (keeps_readCell hr _) fun _ =>
    Keeps.bind T (keeps_readCell hr _) fun _ => Keeps.bind T (keeps_readCell hr _) fun _ => Keeps.pure (cellKeeps_refl hr) _

theorem keeps_loop (hr : ∀ a, R a a) (ht : ∀ a b c, R a b → R b c → R a c) (hp : ∀ env pop, Keeps R (uw.prepare env pop))
    (envs : Nat → Env I) (progress : Population I → Unwinding (Cell A × Q) Bool) (hg : ∀ pop, Keeps (CellKeeps R) (progress pop))
    (fuel t : Nat) (pop : Population I) : Keeps (CellKeeps R) (unwindingLoop alg uw envs progress fuel t pop) := by
  induction fuel generalizing t pop with
  | zero => exact Keeps.pure (cellKeeps_refl hr) _
  | succ fuel ih =>
    rw [unwindingLoop]
    refine Keeps.bind (cellKeeps_trans ht) (hg pop) fun b => ?_
    cases b with
    | false => exact Keeps.pure (cellKeeps_refl hr) _
    | true => exact Keeps.bind (cellKeeps_trans ht) (keeps_step hr ht hp _ _) fun pop => ih (t + 1) pop

/-- **C125** However a run ends, by returning or by a panic anywhere in it, the cell is not in use afterwards. A preorder on
algorithms that `configure`, `prepare_for_next_population` and the closure respect relates the algorithm before and after the run. -/
theorem C125_left (hr : ∀ a, R a a) (ht : ∀ a b c, R a b → R b c → R a c) (hc : ∀ p, Keeps R (uw.configure p))
    (hp : ∀ env pop, Keeps R (uw.prepare env pop)) (envs : Nat → Env I) (progress : Population I → Unwinding (Cell A × Q) Bool)
    (hg : ∀ pop, Keeps (CellKeeps R) (progress pop)) (fuel : Nat) (p : P) :
    (∀ init, Keeps (CellKeeps R) (unwindingPopulation alg uw envs progress fuel init p)) ∧
    (∀ M newRandom, Keeps (CellKeeps R) (unwindingRandom M alg uw envs progress fuel newRandom p)) ∧
    (∀ M x, Keeps (CellKeeps R) (unwindingIndividual M alg uw envs progress fuel x p)) := by
  have T := cellKeeps_trans (Q := Q) ht
  have h1 : ∀ init, Keeps (CellKeeps R) (unwindingPopulation alg uw envs progress fuel init p) := fun init =>
    Keeps.bind T (keeps_writeCell hr (hc p)) fun _ => Keeps.bind T (keeps_readCell hr _) fun _ =>
      keeps_loop hr ht hp envs progress hg fuel 1 _
  have h2 : ∀ r : Bool × Population I, Keeps (CellKeeps R) (unwindingResult r : Unwinding (Cell A × Q) _) := by
    intro r
    unfold unwindingResult
    split
    · exact Keeps.eval (cellKeeps_refl hr) _
    · exact Keeps.pure (cellKeeps_refl hr) _
  exact ⟨h1, fun M nr => Keeps.bind T (keeps_readCell hr _) fun _ => Keeps.bind T (h1 _) h2,
    fun M x => Keeps.bind T (keeps_readCell hr _) fun _ => Keeps.bind T (h1 _) h2⟩

/-- A closure that does not use the `Evolution` value respects every preorder. -/
theorem keeps_apart (hr : ∀ a, R a a) (progress : Population I → Unwinding Q Bool) (pop : Population I) :
    Keeps (CellKeeps R) (apart progress pop) :=
  Keeps.within (R' := fun _ _ => True) (fun _ _ _ => trivial) fun _ _ _ hf => ⟨hf, hr _⟩

end

/-! ### The model -/

theorem ga_keeps_model {R : Mo → Mo → Prop} (hr : ∀ m, R m m) (ht : ∀ a b c, R a b → R b c → R a c) (M : EvoModel I Mo U)
    {pre : PreGeneration I Mo U} (hpre : ∀ pop, Keeps (fun s s' => R s.1 s'.1) (pre pop)) :
    (∀ p, Keeps (fun a a' : Ga Mo U => R a.model a'.model) ((gaUnwinding M pre).configure p)) ∧
    ∀ env pop, Keeps (fun a a' : Ga Mo U => R a.model a'.model) ((gaUnwinding M pre).prepare env pop) := by
  have hr' : ∀ a : Ga Mo U, R a.model a.model := fun a => hr _
  have ht' : ∀ a b c : Ga Mo U, R a.model b.model → R b.model c.model → R a.model c.model := fun a b c => ht _ _ _
  refine ⟨fun p => ?_, fun env pop => ?_⟩
  · show Keeps _ (Ga.configureUnwinding p)
    unfold Ga.configureUnwinding
    repeat first
      | exact Keeps.assign fun _ => hr _
      | refine Keeps.bind ht' (Keeps.eval hr' _) fun _ => ?_
      | refine Keeps.bind ht' (Keeps.assign fun _ => hr _) fun _ => ?_
  · exact Keeps.bind ht' (Keeps.within (hpre pop) fun _ _ h => h) fun _ => Keeps.assign fun _ => hr _

theorem aga_keeps_model {R : Mo → Mo → Prop} (hr : ∀ m, R m m) (ht : ∀ a b c, R a b → R b c → R a c) (M : EvoModel I Mo U)
    {pre : PreGeneration I Mo U} (hpre : ∀ pop, Keeps (fun s s' => R s.1 s'.1) (pre pop)) :
    (∀ p, Keeps (fun a a' : Aga Mo U => R a.model a'.model) ((agaUnwinding M pre).configure p)) ∧
    ∀ env pop, Keeps (fun a a' : Aga Mo U => R a.model a'.model) ((agaUnwinding M pre).prepare env pop) := by
  have hr' : ∀ a : Aga Mo U, R a.model a.model := fun a => hr _
  have ht' : ∀ a b c : Aga Mo U, R a.model b.model → R b.model c.model → R a.model c.model := fun a b c => ht _ _ _
  refine ⟨fun p => ?_, fun env pop => ?_⟩
  · show Keeps _ (Aga.configureUnwinding p)
    unfold Aga.configureUnwinding
    repeat first
      | exact Keeps.assign fun _ => hr _
      | refine Keeps.bind ht' (Keeps.eval hr' _) fun _ => ?_
      | refine Keeps.bind ht' (Keeps.assign fun _ => hr _) fun _ => ?_
  · refine Keeps.bind ht' (Keeps.assign fun a => ?_) fun _ =>
      Keeps.bind ht' (Keeps.within (hpre pop) fun _ _ h => h) fun _ => Keeps.assign fun _ => hr _
    have : (a.adjust pop.generation pop.stats.std).model = a.model := by unfold Aga.adjust; split_ifs <;> rfl
    rw [this]; exact hr _

/-- **C125** Genetic algorithm: however a run ends, the cell is not in use afterwards, and the model has changed only as
`pre_generation` may change it. -/
theorem C125_ga_model {R : Mo → Mo → Prop} (hr : ∀ m, R m m) (ht : ∀ a b c, R a b → R b c → R a c) (M : EvoModel I Mo U)
    {pre : PreGeneration I Mo U} (hpre : ∀ pop, Keeps (fun s s' => R s.1 s'.1) (pre pop)) (envs : Nat → Env I)
    (progress : Population I → Unwinding Q Bool) (fuel : Nat) (p : GaParams) (a : Ga Mo U) (q : Q) :
    (∀ init, Partially (fun r => r.1.1.flag = .unused ∧ R a.model r.1.1.value.model)
      (unwindingPopulation (ga M) (gaUnwinding M pre) envs (apart progress) fuel init p (Cell.new a, q))) ∧
    (∀ newRandom, Partially (fun r => r.1.1.flag = .unused ∧ R a.model r.1.1.value.model)
      (unwindingRandom M (ga M) (gaUnwinding M pre) envs (apart progress) fuel newRandom p (Cell.new a, q))) ∧
    (∀ x, Partially (fun r => r.1.1.flag = .unused ∧ R a.model r.1.1.value.model)
      (unwindingIndividual M (ga M) (gaUnwinding M pre) envs (apart progress) fuel x p (Cell.new a, q))) := by
  obtain ⟨hc, hp⟩ := ga_keeps_model hr ht M hpre
  obtain ⟨h1, h2, h3⟩ := C125_left (alg := ga M) (R := fun a a' : Ga Mo U => R a.model a'.model) (fun a => hr _) (fun a b c => ht _ _ _) hc hp
    envs (apart progress) (keeps_apart (R := fun a a' : Ga Mo U => R a.model a'.model) (fun a => hr _) progress) fuel p
  exact ⟨fun init r hy => h1 init _ r hy rfl, fun nr r hy => h2 M nr _ r hy rfl, fun x r hy => h3 M x _ r hy rfl⟩

/-- **C125** The same for the adaptive genetic algorithm. -/
theorem C125_aga_model {R : Mo → Mo → Prop} (hr : ∀ m, R m m) (ht : ∀ a b c, R a b → R b c → R a c) (M : EvoModel I Mo U)
    {pre : PreGeneration I Mo U} (hpre : ∀ pop, Keeps (fun s s' => R s.1 s'.1) (pre pop)) (envs : Nat → Env I)
    (progress : Population I → Unwinding Q Bool) (fuel : Nat) (p : AgaParams) (a : Aga Mo U) (q : Q) :
    (∀ init, Partially (fun r => r.1.1.flag = .unused ∧ R a.model r.1.1.value.model)
      (unwindingPopulation (aga M) (agaUnwinding M pre) envs (apart progress) fuel init p (Cell.new a, q))) ∧
    (∀ newRandom, Partially (fun r => r.1.1.flag = .unused ∧ R a.model r.1.1.value.model)
      (unwindingRandom M (aga M) (agaUnwinding M pre) envs (apart progress) fuel newRandom p (Cell.new a, q))) ∧
    (∀ x, Partially (fun r => r.1.1.flag = .unused ∧ R a.model r.1.1.value.model)
      (unwindingIndividual M (aga M) (agaUnwinding M pre) envs (apart progress) fuel x p (Cell.new a, q))) := by
  obtain ⟨hc, hp⟩ := aga_keeps_model hr ht M hpre
  obtain ⟨h1, h2, h3⟩ := C125_left (alg := aga M) (R := fun a a' : Aga Mo U => R a.model a'.model) (fun a => hr _) (fun a b c => ht _ _ _) hc hp
    envs (apart progress) (keeps_apart (R := fun a a' : Aga Mo U => R a.model a'.model) (fun a => hr _) progress) fuel p
  exact ⟨fun init r hy => h1 init _ r hy rfl, fun nr r hy => h2 M nr _ r hy rfl, fun x r hy => h3 M x _ r hy rfl⟩

/-- The default `pre_generation` keeps the model. -/
theorem default_keeps (pop : Population I) :
    Keeps (fun s s' => s.1 = s'.1) ((PreGeneration.default : PreGeneration I Mo U) pop) :=
  Keeps.pure (R := fun s s' : Mo × ReproParams U => s.1 = s'.1) (fun _ => rfl) _

/-- The default `pre_generation` is described by `PreGeneration.default`. -/
theorem default_describes (M : EvoModel I Mo U) (h : M.preGeneration = fun m _ b => pure (m, b)) :
    DescribesPre M PreGeneration.default := fun _ _ _ => by rw [h]; rfl

/-- Whatever way the next run is started, it is the same as the first run of a new `Evolution` value of the genetic algorithm with
this model: the same draws, the same result, the same variables left. -/
def GaLikeNew (M : EvoModel I Mo U) (pre : PreGeneration I Mo U) (model : Mo) (c : Cell (Ga Mo U)) : Prop :=
  ∀ (V : Type) (envs : Nat → Env I) (progress : Population I → Unwinding V Bool) (fuel : Nat) (p : GaParams) (v : V),
    (∀ init, (unwindingPopulation (ga M) (gaUnwinding M pre) envs (apart progress) fuel init p).rethrow (c, v) =
      (unwindingPopulation (ga M) (gaUnwinding M pre) envs (apart progress) fuel init p).rethrow (Cell.new (Ga.ofModel model), v)) ∧
    (∀ newRandom, (unwindingRandom M (ga M) (gaUnwinding M pre) envs (apart progress) fuel newRandom p).rethrow (c, v) =
      (unwindingRandom M (ga M) (gaUnwinding M pre) envs (apart progress) fuel newRandom p).rethrow (Cell.new (Ga.ofModel model), v)) ∧
    (∀ x, (unwindingIndividual M (ga M) (gaUnwinding M pre) envs (apart progress) fuel x p).rethrow (c, v) =
      (unwindingIndividual M (ga M) (gaUnwinding M pre) envs (apart progress) fuel x p).rethrow (Cell.new (Ga.ofModel model), v))

/-- The same for the adaptive genetic algorithm, whose private rates and reference spread may differ: the result, the captured
variables and the model left are the same. -/
def AgaLikeNew (M : EvoModel I Mo U) (pre : PreGeneration I Mo U) (model : Mo) (c : Cell (Aga Mo U)) : Prop :=
  ∀ (V : Type) (envs : Nat → Env I) (progress : Population I → Unwinding V Bool) (fuel : Nat) (p : AgaParams) (v : V),
    (∀ init, ((unwindingPopulation (aga M) (agaUnwinding M pre) envs (apart progress) fuel init p).rethrow (c, v) >>=
        fun o => pure (o.1, o.2.1.value.model, o.2.2)).Same
      ((unwindingPopulation (aga M) (agaUnwinding M pre) envs (apart progress) fuel init p).rethrow (Cell.new (Aga.ofModel model), v) >>=
        fun o => pure (o.1, o.2.1.value.model, o.2.2))) ∧
    (∀ newRandom, ((unwindingRandom M (aga M) (agaUnwinding M pre) envs (apart progress) fuel newRandom p).rethrow (c, v) >>=
        fun o => pure (o.1, o.2.1.value.model, o.2.2)).Same
      ((unwindingRandom M (aga M) (agaUnwinding M pre) envs (apart progress) fuel newRandom p).rethrow
        (Cell.new (Aga.ofModel model), v) >>= fun o => pure (o.1, o.2.1.value.model, o.2.2))) ∧
    (∀ x, ((unwindingIndividual M (aga M) (agaUnwinding M pre) envs (apart progress) fuel x p).rethrow (c, v) >>=
        fun o => pure (o.1, o.2.1.value.model, o.2.2)).Same
      ((unwindingIndividual M (aga M) (agaUnwinding M pre) envs (apart progress) fuel x p).rethrow (Cell.new (Aga.ofModel model), v) >>=
        fun o => pure (o.1, o.2.1.value.model, o.2.2)))

private theorem gaLikeNew (M : EvoModel I Mo U) {pre : PreGeneration I Mo U} (hd : DescribesPre M pre) {model : Mo} {c : Cell (Ga Mo U)}
    (hf : c.flag = .unused) (hm : model = c.value.model) : GaLikeNew M pre model c := by
  obtain ⟨v, f⟩ := c
  cases hf
  intro V envs progress fuel p q
  have h59 := C59_ga M envs (thrown progress) fuel v p q
  rw [← show model = v.model from hm] at h59
  refine ⟨fun init => ?_, fun nr => ?_, fun x => ?_⟩
  · have e1 := C125_same (C125_ga M pre hd) envs progress fuel init p v q
    rw [h59.1] at e1
    exact e1.trans (C125_same (C125_ga M pre hd) envs progress fuel init p (Ga.ofModel model) q).symm
  · have e1 := (C125_same_run (C125_ga M pre hd) M envs progress fuel p v q).1 nr
    rw [h59.2.1] at e1
    exact e1.trans ((C125_same_run (C125_ga M pre hd) M envs progress fuel p (Ga.ofModel model) q).1 nr).symm
  · have e1 := (C125_same_run (C125_ga M pre hd) M envs progress fuel p v q).2 x
    rw [h59.2.2] at e1
    exact e1.trans ((C125_same_run (C125_ga M pre hd) M envs progress fuel p (Ga.ofModel model) q).2 x).symm

private theorem agaLikeNew (M : EvoModel I Mo U) {pre : PreGeneration I Mo U} (hd : DescribesPre M pre) {model : Mo}
    {c : Cell (Aga Mo U)} (hf : c.flag = .unused) (hm : model = c.value.model) : AgaLikeNew M pre model c := by
  obtain ⟨v, f⟩ := c
  cases hf
  intro V envs progress fuel p q
  rw [show (Cell.mk v BorrowFlag.unused) = Cell.new v from rfl]
  refine ⟨fun init => ?_, fun nr => ?_, fun x => ?_⟩
  · have e3 := C59_aga M envs (thrown progress) fuel v init p q
    rw [← show model = v.model from hm] at e3
    have e4 := Same.bind e3 (f := fun w => pure ((w.1, w.2.2.1), w.2.1, w.2.2.2.2.1)) fun _ _ => Same.refl _
    rw [C125_same (C125_aga M pre hd) envs progress fuel init p v q,
      C125_same (C125_aga M pre hd) envs progress fuel init p (Aga.ofModel model) q]
    simp only [bind_assoc, bind_pure_left, visible] at e4 ⊢
    exact e4
  · have e3 := (C59_aga_run M envs (thrown progress) fuel v p q).1 nr
    rw [← show model = v.model from hm] at e3
    have e4 := Same.bind e3 (f := fun w => pure (w.1, w.2.2.1, w.2.2.2.2.2.1)) fun _ _ => Same.refl _
    rw [(C125_same_run (C125_aga M pre hd) M envs progress fuel p v q).1 nr,
      (C125_same_run (C125_aga M pre hd) M envs progress fuel p (Aga.ofModel model) q).1 nr]
    simp only [bind_assoc, bind_pure_left, visible] at e4 ⊢
    exact e4
  · have e3 := (C59_aga_run M envs (thrown progress) fuel v p q).2 x
    rw [← show model = v.model from hm] at e3
    have e4 := Same.bind e3 (f := fun w => pure (w.1, w.2.2.1, w.2.2.2.2.2.1)) fun _ _ => Same.refl _
    rw [(C125_same_run (C125_aga M pre hd) M envs progress fuel p v q).2 x,
      (C125_same_run (C125_aga M pre hd) M envs progress fuel p (Aga.ofModel model) q).2 x]
    simp only [bind_assoc, bind_pure_left, visible] at e4 ⊢
    exact e4

/-- **C125** Genetic algorithm with a `pre_generation` that keeps the model: after a run that panicked (or returned), however it was
started, the next run is the same as the first run of a new `Evolution` value. -/
theorem C125_ga_again (M : EvoModel I Mo U) {pre : PreGeneration I Mo U} (hd : DescribesPre M pre)
    (hpre : ∀ pop, Keeps (fun s s' => s.1 = s'.1) (pre pop)) (envs : Nat → Env I) (progress : Population I → Unwinding Q Bool)
    (fuel : Nat) (p : GaParams) (a : Ga Mo U) (q : Q) :
    (∀ init, Partially (fun r => GaLikeNew M pre a.model r.1.1)
      (unwindingPopulation (ga M) (gaUnwinding M pre) envs (apart progress) fuel init p (Cell.new a, q))) ∧
    (∀ newRandom, Partially (fun r => GaLikeNew M pre a.model r.1.1)
      (unwindingRandom M (ga M) (gaUnwinding M pre) envs (apart progress) fuel newRandom p (Cell.new a, q))) ∧
    (∀ x, Partially (fun r => GaLikeNew M pre a.model r.1.1)
      (unwindingIndividual M (ga M) (gaUnwinding M pre) envs (apart progress) fuel x p (Cell.new a, q))) := by
  obtain ⟨h1, h2, h3⟩ := C125_ga_model (R := fun m m' => m = m') (fun _ => rfl) (fun _ _ _ => Eq.trans) M hpre envs progress fuel p a q
  exact ⟨fun init r hy => gaLikeNew M hd (h1 init r hy).1 (h1 init r hy).2, fun nr r hy => gaLikeNew M hd (h2 nr r hy).1 (h2 nr r hy).2,
    fun x r hy => gaLikeNew M hd (h3 x r hy).1 (h3 x r hy).2⟩

/-- **C125** Adaptive genetic algorithm: the same for the result, the captured variables and the model left. -/
theorem C125_aga_again (M : EvoModel I Mo U) {pre : PreGeneration I Mo U} (hd : DescribesPre M pre)
    (hpre : ∀ pop, Keeps (fun s s' => s.1 = s'.1) (pre pop)) (envs : Nat → Env I) (progress : Population I → Unwinding Q Bool)
    (fuel : Nat) (p : AgaParams) (a : Aga Mo U) (q : Q) :
    (∀ init, Partially (fun r => AgaLikeNew M pre a.model r.1.1)
      (unwindingPopulation (aga M) (agaUnwinding M pre) envs (apart progress) fuel init p (Cell.new a, q))) ∧
    (∀ newRandom, Partially (fun r => AgaLikeNew M pre a.model r.1.1)
      (unwindingRandom M (aga M) (agaUnwinding M pre) envs (apart progress) fuel newRandom p (Cell.new a, q))) ∧
    (∀ x, Partially (fun r => AgaLikeNew M pre a.model r.1.1)
      (unwindingIndividual M (aga M) (agaUnwinding M pre) envs (apart progress) fuel x p (Cell.new a, q))) := by
  obtain ⟨h1, h2, h3⟩ := C125_aga_model (R := fun m m' => m = m') (fun _ => rfl) (fun _ _ _ => Eq.trans) M hpre envs progress fuel p a q
  exact ⟨fun init r hy => agaLikeNew M hd (h1 init r hy).1 (h1 init r hy).2,
    fun nr r hy => agaLikeNew M hd (h2 nr r hy).1 (h2 nr r hy).2, fun x r hy => agaLikeNew M hd (h3 x r hy).1 (h3 x r hy).2⟩

/-! ### What `configure` leaves -/

/-- **C125** Genetic algorithm: `configure` with parameters outside their domain changes nothing. With a selection strategy outside
its domain it has changed the sizes and the rates when it panics; the selector and the model are the old ones. -/
theorem C125_ga_configure (a : Ga Mo U) (p : GaParams) :
    (¬ p.Valid → Ga.configureUnwinding p a = pure (a, none)) ∧
    (p.Valid → ¬ p.selectionStrategy.Valid → ∃ k, interpolateUsize 0 p.populationSize p.elitismRate = .ok k ∧
      Ga.configureUnwinding p a = pure (⟨a.model, p.populationSize, k, ⟨p.crossoverRate, p.mutationRate, a.breeding.parentSelector⟩⟩, none)) ∧
    (p.Valid → p.selectionStrategy.Valid → ∃ a', Ga.configure a p = .ok a' ∧ Ga.configureUnwinding p a = pure (a', some ())) := by
  obtain ⟨k, hk⟩ := interpolate_ok p.populationSize p.elitismRate
  refine ⟨fun h => ?_, fun h hs => ⟨k, hk, ?_⟩, fun h hs => ?_⟩
  · unfold Ga.configureUnwinding
    rw [(C50_ga p).2 h]; rfl
  · unfold Ga.configureUnwinding
    rw [(C50_ga p).1 h, hk, (createSelector_spec _).2 hs]; rfl
  · obtain ⟨sel, hsel, -⟩ := (createSelector_spec _).1 hs
    unfold Ga.configureUnwinding Ga.configure
    rw [(C50_ga p).1 h, hk, hsel]
    exact ⟨_, rfl, rfl⟩

/-- **C125** Adaptive genetic algorithm: the same; the rates keep their values, their ranges are the new ones. -/
theorem C125_aga_configure (a : Aga Mo U) (p : AgaParams) :
    (¬ p.Valid → Aga.configureUnwinding p a = pure (a, none)) ∧
    (p.Valid → ¬ p.selectionStrategy.Valid → ∃ k, interpolateUsize 0 p.populationSize p.elitismRate = .ok k ∧
      Aga.configureUnwinding p a = pure (⟨a.model, p.populationSize, k, p.adjustmentInterval, p.crossoverRateRange, p.mutationRateRange,
        a.breeding, a.referenceStd⟩, none)) ∧
    (p.Valid → p.selectionStrategy.Valid → ∃ a', Aga.configure a p = .ok a' ∧ Aga.configureUnwinding p a = pure (a', some ())) := by
  obtain ⟨k, hk⟩ := interpolate_ok p.populationSize p.elitismRate
  refine ⟨fun h => ?_, fun h hs => ⟨k, hk, ?_⟩, fun h hs => ?_⟩
  · unfold Aga.configureUnwinding
    rw [(C50_aga p).2 h]; rfl
  · unfold Aga.configureUnwinding
    rw [(C50_aga p).1 h, hk, (createSelector_spec _).2 hs]; rfl
  · obtain ⟨sel, hsel, -⟩ := (createSelector_spec _).1 hs
    unfold Aga.configureUnwinding Aga.configure
    rw [(C50_aga p).1 h, hk, hsel]
    exact ⟨_, rfl, rfl⟩

/-- **C125** Genetic algorithm: `prepare_for_next_population` panics just when `pre_generation` panics. Then the algorithm holds the model
and the breeding parameters that `pre_generation` left, and the selector is not prepared. -/
theorem C125_ga_prepare (M : EvoModel I Mo U) (pre : PreGeneration I Mo U) (env : NumEnv) (pop : Population I) (a a' : Ga Mo U) :
    (Ga.prepareUnwinding M pre env pop a).yields (.ok (a', none)) ↔
      ∃ m b, (pre pop (a.model, a.breeding)).yields (.ok ((m, b), none)) ∧ a' = ⟨m, a.populationSize, a.eliteSize, b⟩ := by
  unfold Ga.prepareUnwinding
  rw [bind_apply, yields_bind_ok]
  constructor
  · rintro ⟨⟨s, o⟩, h1, h2⟩
    cases o with
    | some _ => simp [assign] at h2
    | none =>
      simp only [yields_pure, Res.ok.injEq, Prod.mk.injEq, and_true] at h2
      unfold within at h1
      obtain ⟨⟨⟨m, b⟩, o⟩, h1, h3⟩ := (yields_bind_ok _ _ _).1 h1
      simp only [yields_pure, Res.ok.injEq, Prod.mk.injEq] at h3
      obtain ⟨rfl, rfl⟩ := h3
      exact ⟨m, b, h1, h2⟩
  · rintro ⟨m, b, h1, rfl⟩
    exact ⟨(_, none), (yields_bind_ok _ _ _).2 ⟨_, h1, rfl⟩, rfl⟩

/-- **C125** Adaptive genetic algorithm: the same. `pre_generation` gets the adjusted rates, and the reference spread is the new one. -/
theorem C125_aga_prepare (M : EvoModel I Mo U) (pre : PreGeneration I Mo U) (env : NumEnv) (pop : Population I) (a a' : Aga Mo U) :
    (Aga.prepareUnwinding M pre env pop a).yields (.ok (a', none)) ↔
      ∃ m b, (pre pop (a.model, (a.adjust pop.generation pop.stats.std).breeding)).yields (.ok ((m, b), none)) ∧
        a' = ⟨m, a.populationSize, a.eliteSize, a.adjustmentInterval, a.crossoverRateRange, a.mutationRateRange, b,
          if pop.generation = 0 then pop.stats.std else a.referenceStd⟩ := by
  have hadj : ∃ b, a.adjust pop.generation pop.stats.std = ⟨a.model, a.populationSize, a.eliteSize, a.adjustmentInterval,
      a.crossoverRateRange, a.mutationRateRange, b, if pop.generation = 0 then pop.stats.std else a.referenceStd⟩ := by
    unfold Aga.adjust
    split_ifs <;> exact ⟨_, rfl⟩
  obtain ⟨b0, hadj⟩ := hadj
  unfold Aga.prepareUnwinding
  rw [bind_apply]
  simp only [assign, bind_pure_left]
  rw [bind_apply, yields_bind_ok, hadj]
  constructor
  · rintro ⟨⟨s, o⟩, h1, h2⟩
    cases o with
    | some _ => simp [assign] at h2
    | none =>
      simp only [yields_pure, Res.ok.injEq, Prod.mk.injEq, and_true] at h2
      unfold within at h1
      obtain ⟨⟨⟨m, b⟩, o⟩, h1, h3⟩ := (yields_bind_ok _ _ _).1 h1
      simp only [yields_pure, Res.ok.injEq, Prod.mk.injEq] at h3
      obtain ⟨rfl, rfl⟩ := h3
      exact ⟨m, b, h1, h2⟩
  · rintro ⟨m, b, h1, rfl⟩
    exact ⟨(_, none), (yields_bind_ok _ _ _).2 ⟨_, h1, rfl⟩, rfl⟩

/-- **C125** A call of `evolve_population` with parameters outside their domain panics and leaves the `Evolution` value as it was,
for every closure. -/
theorem C125_rejected (M : EvoModel I Mo U) (pre : PreGeneration I Mo U) (envs : Nat → Env I) (fuel : Nat) (init : List I) (q : Q) :
    (∀ (progress : Population I → Unwinding (Cell (Ga Mo U) × Q) Bool) (a : Ga Mo U) (p : GaParams), ¬ p.Valid →
      unwindingPopulation (ga M) (gaUnwinding M pre) envs progress fuel init p (Cell.new a, q) = pure ((Cell.new a, q), none)) ∧
    (∀ (progress : Population I → Unwinding (Cell (Aga Mo U) × Q) Bool) (a : Aga Mo U) (p : AgaParams), ¬ p.Valid →
      unwindingPopulation (aga M) (agaUnwinding M pre) envs progress fuel init p (Cell.new a, q) = pure ((Cell.new a, q), none)) := by
  constructor
  · intro progress a p h
    unfold unwindingPopulation
    rw [bind_apply]
    have : writeCell (Q := Q) ((gaUnwinding M pre).configure p) (Cell.new a, q) = pure ((Cell.new a, q), none) := by
      show (Ga.configureUnwinding p a >>= fun r => _) = _
      rw [(C125_ga_configure a p).1 h]; rfl
    rw [this]; rfl
  · intro progress a p h
    unfold unwindingPopulation
    rw [bind_apply]
    have : writeCell (Q := Q) ((agaUnwinding M pre).configure p) (Cell.new a, q) = pure ((Cell.new a, q), none) := by
      show (Aga.configureUnwinding p a >>= fun r => _) = _
      rw [(C125_aga_configure a p).1 h]; rfl
    rw [this]; rfl

/-- **C125** A call of `evolve_population` that panics because of its selection strategy changes the `Evolution` value. If the
closure of another run of the genetic algorithm makes the call and catches the panic, the other run goes on with the
sizes and the rates of the rejected call and with its own selector. -/
theorem C125_halfway (M : EvoModel I Mo U) (pre : PreGeneration I Mo U) (envs : Nat → Env I) (fuel : Nat) (init : List I) (q : Q)
    (progress : Population I → Unwinding (Cell (Ga Mo U) × Q) Bool) (a : Ga Mo U) (p : GaParams) (h : p.Valid)
    (hs : ¬ p.selectionStrategy.Valid) :
    ∃ a' : Ga Mo U, (catching (unwindingPopulation (ga M) (gaUnwinding M pre) envs progress fuel init p)) (Cell.new a, q) =
        pure ((Cell.new a', q), some none) ∧
      (ga M).repro a' = (⟨p.crossoverRate, p.mutationRate, a.breeding.parentSelector⟩, p.populationSize) ∧
      interpolateUsize 0 p.populationSize p.elitismRate = .ok a'.eliteSize ∧ a'.model = a.model := by
  obtain ⟨k, hk, hc⟩ := (C125_ga_configure a p).2.1 h hs
  refine ⟨⟨a.model, p.populationSize, k, ⟨p.crossoverRate, p.mutationRate, a.breeding.parentSelector⟩⟩, ?_, rfl, hk, rfl⟩
  unfold catching unwindingPopulation
  rw [bind_apply]
  have : writeCell (Q := Q) ((gaUnwinding M pre).configure p) (Cell.new a, q) =
      pure ((Cell.new ⟨a.model, p.populationSize, k, ⟨p.crossoverRate, p.mutationRate, a.breeding.parentSelector⟩⟩, q), none) := by
    show (Ga.configureUnwinding p a >>= fun r => _) = _
    rw [hc]; rfl
  rw [this]; rfl

/-- Parameters as in `C125_halfway`: the defaults with `Tournament(0)`. -/
example : ({ GaParams.default with selectionStrategy := .tournament 0 } : GaParams).Valid ∧ ¬ (SelectionStrategy.tournament 0).Valid :=
  ⟨C50_defaults.1, fun h => by simp [SelectionStrategy.Valid] at h⟩

/-- Parameters as in `C125_rejected`: the defaults with a population of size 0. -/
example : ¬ ({ GaParams.default with populationSize := 0 } : GaParams).Valid := fun h => h.1 rfl

/-- A `pre_generation` that counts its calls in the model and panics at the third. -/
def failing : PreGeneration I Nat U := fun _ => do
  assign fun s => (s.1 + 1, s.2)
  eval fun s => Prog.lift (Res.assert (decide (s.1 < 3)))

/-- `failing` meets the hypothesis of `C125_ga_model` with `≤`; when it panics, the model has been changed. -/
example : (∀ pop : Population I, Keeps (fun s s' => s.1 ≤ s'.1) (failing (U := U) pop)) ∧
    ∀ (pop : Population I) (b : ReproParams U), failing pop (2, b) = pure ((3, b), none) :=
  ⟨fun _ => Keeps.bind (R := fun s s' : Nat × ReproParams U => s.1 ≤ s'.1) (fun _ _ _ => le_trans)
    (Keeps.assign fun s => Nat.le_succ s.1) fun _ => Keeps.eval (R := fun s s' : Nat × ReproParams U => s.1 ≤ s'.1) (fun _ => le_rfl) _,
    fun _ _ => rfl⟩

end RG.Props
