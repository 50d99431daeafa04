import Verif.Proofs.Reentrant

/-!
# Property C100: runs started by the progress closure of another run

`Cell` is the `RefCell` of an `Evolution` value; a closure gets it and returns it (`Reentrant.lean`).
-/

set_option linter.unusedSectionVars false

namespace RG.Props
open RG RG.Prog
variable {I : Type} [Individual I] {Mo U A P Q Q' : Type}

/-- A closure that does not use the `Evolution` value of the run. -/
def aloof (progress : Q → Population I → Prog (Bool × Q)) (q : Q) (cell : Cell A) (pop : Population I) : Prog (Bool × Q × Cell A) := do
  let (continues, q) ← progress q pop
  pure (continues, q, cell)

/-- A closure that makes another run (one that ends) and then answers as `answer` says. -/
def nesting (inner : Q → Cell A → Population I → Prog (Bool × RunState I (Cell A) Q'))
    (answer : Q → Population I → RunState I (Cell A) Q' → Prog (Bool × Q)) (q : Q) (cell : Cell A) (pop : Population I) :
    Prog (Bool × Q × Cell A) := do
  let (ended, st) ← inner q cell pop
  if ended then do
    let (continues, q) ← answer q pop st
    pure (continues, q, st.algo)
  else Prog.lift .diverge

/-! ### Closures that do not start runs -/

theorem cellLoop_aloof (alg : EvoAlgo I Mo U A P) (envs : Nat → Env I) (progress : Q → Population I → Prog (Bool × Q)) (fuel t : Nat)
    (st : RunState I A Q) :
    cellLoop alg envs (aloof progress) fuel t st.inCell =
      evolveLoop alg envs progress fuel t st >>= fun r => pure (r.1, r.2.inCell) := by
  induction fuel generalizing t st with
  | zero => rfl
  | succ fuel ih =>
    rw [cellLoop, evolveLoop]
    simp only [aloof, bind_assoc, bind_pure_left]
    refine bind_congr fun r => ?_
    obtain ⟨b, q⟩ := r
    cases b with
    | false => rfl
    | true =>
      simp only [if_true, bind_assoc, RunState.inCell, cellStep_eq, bind_pure_left]
      refine bind_congr fun s => ?_
      exact ih (t + 1) s

/-- **C100** With a closure that does not use the `Evolution` value, the run with the cell is the run of `Evolution.lean`: the
borrows never panic, and after the run the cell is not in use. -/
theorem C100_aloof (alg : EvoAlgo I Mo U A P) (envs : Nat → Env I) (progress : Q → Population I → Prog (Bool × Q)) (fuel : Nat) (a : A)
    (init : List I) (p : P) (q : Q) :
    cellPopulation alg envs (aloof progress) fuel (Cell.new a) init p q =
      evolvePopulation alg envs progress fuel a init p q >>= fun r => pure (r.1, r.2.inCell) := by
  unfold cellPopulation evolvePopulation
  simp only [Cell.write_new, Cell.read_new, bind_assoc, bind_pure_left]
  refine bind_congr fun a' => bind_congr fun pop => ?_
  exact cellLoop_aloof alg envs progress fuel 1 ⟨a', pop, [], q, []⟩

theorem takeResult_inCell (r : Bool × RunState I A Q) :
    takeResult (r.1, r.2.inCell) = takeResult r >>= fun o => pure (o.1, o.2.inCell) := by
  obtain ⟨b, st⟩ := r
  cases b with
  | false => rfl
  | true => simp only [takeResult, if_true, bind_assoc, bind_pure_left, RunState.inCell]

/-- **C100** The same for `run` and `evolve_individual`. -/
theorem C100_aloof_run (M : EvoModel I Mo U) (alg : EvoAlgo I Mo U A P) (envs : Nat → Env I)
    (progress : Q → Population I → Prog (Bool × Q)) (fuel : Nat) (a : A) (p : P) (q : Q) :
    (∀ newRandom, cellRandom M alg envs (aloof progress) fuel (Cell.new a) newRandom p q =
      runRandom M alg envs progress fuel a newRandom p q >>= fun o => pure (o.1, o.2.inCell)) ∧
    (∀ x, cellIndividual M alg envs (aloof progress) fuel (Cell.new a) x p q =
      evolveIndividual M alg envs progress fuel a x p q >>= fun o => pure (o.1, o.2.inCell)) := by
  constructor
  · intro newRandom
    unfold cellRandom runRandom
    simp only [Cell.read_new, bind_assoc, bind_pure_left, C100_aloof, takeResult_inCell]
  · intro x
    unfold cellIndividual evolveIndividual
    simp only [Cell.read_new, bind_assoc, bind_pure_left, C100_aloof, takeResult_inCell]

/-! ### Any closure -/

/-- **C100** A call of the closure finds the cell not in use. If it leaves it so, with the value `a'`, the next generation is
made with `a'`: its sizes, its rates, its selector and its model, whatever the parameters of this run. -/
theorem C100_continues (alg : EvoAlgo I Mo U A P) (envs : Nat → Env I)
    (progress : Q → Cell A → Population I → Prog (Bool × Q × Cell A)) (fuel t : Nat) (st : RunState I A Q)
    (hfree : ∀ r, (progress st.q (Cell.new st.algo) st.population).yields (.ok r) → r.2.2.flag = .unused)
    (fin : Bool) (st' : RunState I (Cell A) Q) :
    (cellLoop alg envs progress (fuel + 1) t st.inCell).yields (.ok (fin, st')) ↔
      ∃ q' a', (progress st.q (Cell.new st.algo) st.population).yields (.ok (false, q', Cell.new a')) ∧ fin = true ∧
          st' = RunState.inCell ⟨a', st.population, st.buffer, q', st.shown ++ [st.population]⟩ ∨
        ∃ s, (progress st.q (Cell.new st.algo) st.population).yields (.ok (true, q', Cell.new a')) ∧
          (generationStep alg (envs t) ⟨a', st.population, st.buffer, q', st.shown ++ [st.population]⟩).yields (.ok s) ∧
          (cellLoop alg envs progress fuel (t + 1) s.inCell).yields (.ok (fin, st')) := by
  rw [cellLoop, yields_bind_ok]
  have hcell : ∀ c : Cell A, c.flag = .unused → c = Cell.new c.value := fun ⟨_, _⟩ h => by cases h; rfl
  constructor
  · rintro ⟨⟨b, q', c⟩, h1, h2⟩
    have hc := hcell c (hfree _ h1)
    rw [hc] at h1 h2
    refine ⟨q', c.value, ?_⟩
    cases b with
    | false =>
      simp only [Bool.false_eq_true, if_false, yields_pure, Res.ok.injEq, Prod.mk.injEq] at h2
      exact Or.inl ⟨h1, h2.1, h2.2⟩
    | true =>
      simp only [if_true, RunState.inCell, cellStep_eq, bind_assoc, bind_pure_left] at h2
      obtain ⟨s, g1, g2⟩ := (yields_bind_ok _ _ _).1 h2
      exact Or.inr ⟨s, h1, g1, g2⟩
  · rintro ⟨q', a', ⟨h1, rfl, rfl⟩ | ⟨s, h1, h2, h3⟩⟩
    · exact ⟨_, h1, by simp [RunState.inCell]⟩
    · refine ⟨_, h1, ?_⟩
      simp only [if_true, RunState.inCell, cellStep_eq, bind_assoc, bind_pure_left]
      exact (yields_bind_ok _ _ _).2 ⟨s, h2, h3⟩

/-! ### Runs inside runs do not panic -/

section
variable {M : EvoModel I Mo U} {alg : EvoAlgo I Mo U A P} {elite size : A → Nat} {eliteOf : P → Nat} {okP : P → Prop}
  {Pr : I → Prop}

/-- The algorithm has been configured by parameters with which runs do not panic (C64). -/
structure Ready (alg : EvoAlgo I Mo U A P) (elite size : A → Nat) (a : A) : Prop where
  sel : SafeSel (alg.repro a).1.parentSelector
  two : 2 ≤ size a
  sizeLt : size a < 2 ^ 32
  eliteLe : elite a ≤ size a

/-- A closure that does not panic and leaves the cell not in use and the algorithm ready, when it finds them so and is shown a
non-empty population of individuals with the property `Pr`. -/
def Tidy (alg : EvoAlgo I Mo U A P) (elite size : A → Nat) (Pr : I → Prop)
    (progress : Q → Cell A → Population I → Prog (Bool × Q × Cell A)) : Prop :=
  ∀ q a pop, Population.WF pop → pop.individuals.length < 2 ^ 32 → (∀ x ∈ pop.individuals, Pr x) → Ready alg elite size a →
    Always (fun r => ∃ a', r.2.2 = Cell.new a' ∧ Ready alg elite size a') (progress q (Cell.new a) pop)

theorem cellLoop_always (hstd : Standard M alg elite size eliteOf) (halg : SafeAlgo alg okP) (hM : SafeOps M Pr)
    (envs : Nat → Env I) (henv : ∀ t, (envs t).Lawful) (progress : Q → Cell A → Population I → Prog (Bool × Q × Cell A))
    (hpr : Tidy alg elite size Pr progress) (fuel t : Nat) (st : RunState I A Q) (hs : Safe alg elite size Pr st) :
    Always (fun r => ∃ s, r.2 = RunState.inCell s ∧ Safe alg elite size Pr s) (cellLoop alg envs progress fuel t st.inCell) := by
  induction fuel generalizing t st with
  | zero =>
    rw [cellLoop, always_pure]
    exact ⟨st, rfl, hs⟩
  | succ fuel ih =>
    rw [cellLoop, always_bind]
    refine (hpr _ _ _ hs.wf hs.len hs.prop ⟨hs.sel, hs.two, hs.sizeLt, hs.eliteLe⟩).mono fun r hr => ?_
    obtain ⟨b, q, c⟩ := r
    obtain ⟨a', rfl, hr⟩ := hr
    have hs' : Safe alg elite size Pr (⟨a', st.population, st.buffer, q, st.shown ++ [st.population]⟩ : RunState I A Q) :=
      ⟨hs.wf, hs.len, hs.prop, hr.sel, hr.two, hr.sizeLt, hr.eliteLe, fun pop hp => by
        rcases List.mem_append.1 hp with hp | hp
        · exact hs.shown pop hp
        · rw [List.mem_singleton.1 hp]; exact hs.prop⟩
    cases b with
    | false =>
      simp only [Bool.false_eq_true, if_false, always_pure]
      exact ⟨_, rfl, hs'⟩
    | true =>
      simp only [if_true, RunState.inCell, cellStep_eq, bind_assoc, bind_pure_left]
      rw [always_bind]
      exact (step_always hstd halg hM (envs t) (henv t) _ hs').mono fun st1 h1 => ih (t + 1) st1 h1

/-- **C100** A run whose closure starts other runs of the same `Evolution` value neither panics nor diverges (under the
hypotheses of C64), and leaves the cell not in use and the algorithm ready. -/
theorem C100_safe (hstd : Standard M alg elite size eliteOf) (halg : SafeAlgo alg okP) (hM : SafeOps M Pr)
    (envs : Nat → Env I) (henv : ∀ t, (envs t).Lawful) (progress : Q → Cell A → Population I → Prog (Bool × Q × Cell A))
    (hpr : Tidy alg elite size Pr progress) (fuel : Nat) (a : A) (init : List I) (p : P) (q : Q)
    (hp : okP p) (h2 : 2 ≤ alg.initialSize p) (hn : alg.initialSize p < 2 ^ 32) (hl : init.length < 2 ^ 32)
    (hinit : ∀ x ∈ init, Pr x) (hvalid : ∃ x ∈ init, Always (fun e => isValid e = true) (M.evaluate (alg.model a) x)) :
    Always (fun r => (∃ a', r.2.algo = Cell.new a' ∧ Ready alg elite size a') ∧ r.2.population.WF ∧
      (∀ pop ∈ r.2.shown, ∀ x ∈ pop.individuals, Pr x) ∧ ∀ x ∈ r.2.population.individuals, Pr x)
      (cellPopulation alg envs progress fuel (Cell.new a) init p q) := by
  obtain ⟨a', hc, hsel⟩ := halg.configure a p hp
  obtain ⟨hm, s1, s2, s3⟩ := hstd.configure _ _ _ hc (hn.le.trans (by norm_num))
  unfold cellPopulation
  simp only [Cell.write_new, hc, lift_ok, bind_pure_left, Cell.read_new, bind_assoc]
  rw [hstd.init, always_bind]
  have hi := init_always hM (envs 0) (henv 0) (alg.model a') init hinit (by rw [hm]; exact hvalid)
  refine hi.mono fun pop ⟨w, hlen, hP⟩ => ?_
  refine (cellLoop_always hstd halg hM envs henv progress hpr fuel 1 ⟨a', pop, [], q, []⟩
    ⟨w, hlen.trans_lt hl, hP, hsel, by rw [s1]; exact h2, by rw [s1]; exact hn, by rw [s1, s2]; exact s3.le, by simp⟩).mono ?_
  rintro ⟨fin, _⟩ ⟨s, rfl, hs⟩
  exact ⟨⟨s.algo, rfl, hs.sel, hs.two, hs.sizeLt, hs.eliteLe⟩, hs.wf, hs.shown, hs.prop⟩

/-- **C100** Runs may be nested to any depth: a closure is tidy if it starts runs with tidy closures (which end) and answers
without panicking. -/
theorem C100_tidy (hstd : Standard M alg elite size eliteOf) (halg : SafeAlgo alg okP) (hM : SafeOps M Pr)
    (envs : Nat → Env I) (henv : ∀ t, (envs t).Lawful) (progress : Q' → Cell A → Population I → Prog (Bool × Q' × Cell A))
    (hpr : Tidy alg elite size Pr progress) (fuel : Nat) (init : Q → Population I → List I) (p : P) (q' : Q')
    (hp : okP p) (h2 : 2 ≤ alg.initialSize p) (hn : alg.initialSize p < 2 ^ 32)
    (hinit : ∀ q pop, Population.WF pop → pop.individuals.length < 2 ^ 32 → (∀ x ∈ pop.individuals, Pr x) →
      (init q pop).length < 2 ^ 32 ∧ (∀ x ∈ init q pop, Pr x) ∧
      ∀ m, ∃ x ∈ init q pop, Always (fun e => isValid e = true) (M.evaluate m x))
    (hend : ∀ q pop a, Partially (fun r => r.1 = true) (cellPopulation alg envs progress fuel (Cell.new a) (init q pop) p q'))
    (answer : Q → Population I → RunState I (Cell A) Q' → Prog (Bool × Q))
    (hans : ∀ q pop st, Population.WF pop → Always (fun _ => True) (answer q pop st)) :
    Tidy alg elite size Pr (nesting (fun q cell pop => cellPopulation alg envs progress fuel cell (init q pop) p q') answer) := by
  intro q a pop w hl hP hr
  obtain ⟨i1, i2, i3⟩ := hinit q pop w hl hP
  unfold nesting
  rw [always_bind]
  refine ((C100_safe hstd halg hM envs henv progress hpr fuel a (init q pop) p q' hp h2 hn i1 i2 (i3 _)).and (hend q pop a)).mono ?_
  rintro ⟨fin, st⟩ ⟨⟨⟨a', e, hr'⟩, -⟩, rfl⟩
  simp only [if_true]
  rw [always_bind]
  refine (hans q pop st w).mono fun r _ => ?_
  rw [always_pure]
  exact ⟨a', e, hr'⟩

/-- A closure that leaves the `Evolution` value alone is tidy. -/
theorem aloof_tidy (progress : Q → Population I → Prog (Bool × Q)) (h : ∀ q p, p.WF → Always (fun _ => True) (progress q p)) :
    Tidy alg elite size Pr (aloof progress) := by
  intro q a pop w _ _ hr
  unfold aloof
  rw [always_bind]
  refine (h q pop w).mono fun r _ => ?_
  rw [always_pure]
  exact ⟨a, rfl, hr⟩

/-! ### The parameters of the inner run stay -/

/-- **C100** If at every call the closure makes a run with the parameters `p'` before it answers, then from generation 1 on the
populations of the outer run have at most as many individuals as `p'` says; the size in the parameters `p` of the outer run
has no effect. -/
theorem C100_size (hstd : Standard M alg elite size eliteOf) (envs envs' : Nat → Env I) (henv : ∀ t, (envs t).Lawful)
    (henv' : ∀ t, (envs' t).Lawful) (progress : Q' → Population I → Prog (Bool × Q')) (fuel fuel' : Nat)
    (init' : Q → Population I → List I) (p p' : P) (q' : Q → Population I → Q') (hn' : alg.initialSize p' ≤ 2 ^ 53) (answer : Q → Population I → RunState I (Cell A) Q' → Prog (Bool × Q)) (a : A)
    (init : List I) (q : Q) (fin : Bool) (st : RunState I (Cell A) Q)
    (h : (cellPopulation alg envs (nesting (fun q cell pop => cellPopulation alg envs' (aloof progress) fuel' cell (init' q pop) p' (q' q pop)) answer)
      fuel (Cell.new a) init p q).yields (.ok (fin, st))) :
    ∀ pop, pop ∈ st.shown ∨ pop = st.population →
      (pop.generation = 0 → pop.len ≤ init.length) ∧ (pop.generation ≠ 0 → pop.len ≤ alg.initialSize p') := by
  -- what the closure leaves
  have hleft : ∀ (q : Q) (a : A) (pop : Population I) b q1 c,
      (nesting (fun q cell pop => cellPopulation alg envs' (aloof progress) fuel' cell (init' q pop) p' (q' q pop)) answer q (Cell.new a) pop).yields
        (.ok (b, q1, c)) → ∃ a', c = Cell.new a' ∧ size a' = alg.initialSize p' ∧ elite a' ≤ size a' := by
    intro q a pop b q1 c hy
    unfold nesting at hy
    rw [yields_bind_ok] at hy
    obtain ⟨⟨e, s⟩, g1, g2⟩ := hy
    beta_reduce at g1
    rw [C100_aloof, yields_bind_ok] at g1
    obtain ⟨⟨e', s'⟩, g1, g3⟩ := g1
    simp only [yields_pure, Res.ok.injEq, Prod.mk.injEq] at g3
    obtain ⟨rfl, rfl⟩ := g3
    obtain ⟨a1, pop1, c1, c2, c3⟩ := (yields_evolvePopulation _ _ _ _ _ _ _ _ _).1 g1
    obtain ⟨_, s1, s2, s3⟩ := hstd.configure _ _ _ c1 hn'
    obtain ⟨new, n1, -, -, n4, n5, -⟩ := evolveLoop_invariant alg envs' progress
      (fun a _ => size a = alg.initialSize p' ∧ elite a = eliteOf p') (fun _ _ => True)
      (fun t st st' _ hi hs => by
        have hf := hstd.step (henv' t) hs
        exact ⟨⟨by rw [hf.sizeEq, hi.1], by rw [hf.eliteEq, hi.2]⟩, trivial, hf.q, hf.shown⟩)
      fuel' 1 le_rfl { algo := a1, population := pop1, buffer := [], q := q' q pop, shown := [] } ⟨s1, s2⟩ _ _ c3
    cases e with
    | false => cases (yields_lift _ _).1 g2
    | true =>
      simp only [if_true] at g2
      rw [yields_bind_ok] at g2
      obtain ⟨⟨b1, q2⟩, -, g4⟩ := g2
      simp only [yields_pure, Res.ok.injEq, Prod.mk.injEq] at g4
      obtain ⟨-, -, rfl⟩ := g4
      exact ⟨s'.algo, rfl, n5.1, by rw [n5.1, n5.2]; exact s3.le⟩
  -- the loop of the outer run
  have hloop : ∀ (fuel t : Nat) (s : RunState I A Q) (fin : Bool) (st : RunState I (Cell A) Q),
      (∀ pop, pop ∈ s.shown ∨ pop = s.population →
        (pop.generation = 0 → pop.len ≤ init.length) ∧ (pop.generation ≠ 0 → pop.len ≤ alg.initialSize p')) →
      (cellLoop alg envs (nesting (fun q cell pop => cellPopulation alg envs' (aloof progress) fuel' cell (init' q pop) p' (q' q pop)) answer)
        fuel t s.inCell).yields (.ok (fin, st)) →
      ∀ pop, pop ∈ st.shown ∨ pop = st.population →
        (pop.generation = 0 → pop.len ≤ init.length) ∧ (pop.generation ≠ 0 → pop.len ≤ alg.initialSize p') := by
    intro fuel
    induction fuel with
    | zero =>
      intro t s fin st hs hy
      rw [cellLoop] at hy
      simp only [yields_pure, Res.ok.injEq, Prod.mk.injEq] at hy
      obtain ⟨-, rfl⟩ := hy
      exact hs
    | succ fuel ih =>
      intro t s fin st hs hy
      obtain ⟨q1, a', ⟨-, -, rfl⟩ | ⟨s1, g1, g2, g3⟩⟩ := (C100_continues alg envs _ fuel t s (by
        rintro ⟨b, q1, c⟩ hr
        obtain ⟨a', e, -⟩ := hleft _ _ _ _ _ _ hr
        simp only [e, Cell.new]) fin st).1 hy
      · rintro pop (hp | rfl)
        · rcases List.mem_append.1 hp with hp | hp
          · exact hs pop (Or.inl hp)
          · exact hs pop (Or.inr (List.mem_singleton.1 hp))
        · exact hs _ (Or.inr rfl)
      · obtain ⟨a2, e, z1, z2⟩ := hleft _ _ _ _ _ _ g1
        have e : a' = a2 := congrArg Cell.value e
        subst e
        have hf := hstd.step (henv t) g2
        refine ih (t + 1) s1 fin st ?_ g3
        rintro pop (hp | rfl)
        · rw [hf.shown] at hp
          rcases List.mem_append.1 hp with hp | hp
          · exact hs pop (Or.inl hp)
          · exact hs pop (Or.inr (List.mem_singleton.1 hp))
        · refine ⟨fun h0 => ?_, fun _ => ?_⟩
          · rw [hf.generation] at h0; omega
          · obtain ⟨nw, m1, -, m3⟩ := hf.made
            have := m3 z2
            unfold Population.len
            rw [m1]
            exact ((length_dedup_sort (henv t).sort _).trans this).trans z1.le
  unfold cellPopulation at h
  simp only [Cell.write_new, Cell.read_new, bind_assoc, bind_pure_left, yields_bind_ok] at h
  obtain ⟨a', -, pop, h2, h3⟩ := h
  rw [hstd.init] at h2
  obtain ⟨w, g0, -, l0, -⟩ := init_wf (henv 0) h2
  refine hloop fuel 1 ⟨a', pop, [], q, []⟩ fin st ?_ h3
  rintro pop' (hp | rfl)
  · cases hp
  · exact ⟨fun _ => l0, fun h => absurd g0 h⟩

end

/-! ### What goes wrong -/

/-- The parameters of an outer run: two individuals, one of them an elite. -/
def pairParams : GaParams := { smallParams with populationSize := 2 }

/-- The parameters of an inner run: five individuals, no elites, no operators. -/
def crowdParams : GaParams :=
  { smallParams with populationSize := 5, elitismRate := F64.zero, mutationRate := F64.zero, crossoverRate := F64.zero }

/-- The closure makes a run of no generation (its closure says `false` at once) and continues until generation 1. -/
def crowding : Nat → Cell (Ga Unit Empty) → Population Num → Prog (Bool × Nat × Cell (Ga Unit Empty)) :=
  nesting (fun _ cell _ => cellPopulation (ga numModel) (fun _ => exFullEnv) (aloof (untilGeneration 0)) 1 cell [num 9] crowdParams 0)
    fun q pop _ => untilGeneration 1 q pop

/-- **C100** (C55 and C53 fail of runs with inner runs) The outer run asks for two individuals with one elite; the inner run,
which breeds nothing, for five without elites. Then generation 1 of the outer run may have three individuals, and its best
fitness may fall from 3 to 1. -/
theorem C100_counterexample : exFullEnv.Lawful ∧ pairParams.populationSize = 2 ∧
    eliteCount pairParams.populationSize pairParams.elitismRate = 1 ∧
    (∃ fin st, (cellPopulation (ga numModel) (fun _ => exFullEnv) crowding 10 (Cell.new (Ga.ofModel ())) [num 1, num 2, num 3]
        pairParams 0).yields (.ok (fin, st)) ∧
      st.shown.map (fun p => (p.generation, p.individuals)) = [(0, [num 1, num 2, num 3]), (1, [num 1, num 2, num 3])]) ∧
    (∃ fin st, (cellPopulation (ga numModel) (fun _ => exFullEnv) crowding 10 (Cell.new (Ga.ofModel ())) [num 1, num 2, num 3]
        pairParams 0).yields (.ok (fin, st)) ∧
      st.shown.map (fun p => (p.generation, p.individuals)) = [(0, [num 1, num 2, num 3]), (1, [num 1])]) := by
  refine ⟨exFullEnv_lawful, rfl, by decide +kernel, ?_, ?_⟩
  · obtain ⟨⟨fin, st⟩, h1, h2⟩ := Res.of_okAnd (r := ((cellPopulation (ga numModel) (fun _ => exFullEnv) crowding 10
        (Cell.new (Ga.ofModel ())) [num 1, num 2, num 3] pairParams 0).exec drawList [0, 1, 1, 1, 2, 2, 2, 0, 0, 0, 0, 1, 1, 1, 2, 2, 2]).1)
      (Q := fun r => decide (r.2.shown.map (fun p => (p.generation, p.individuals)) =
        [(0, [num 1, num 2, num 3]), (1, [num 1, num 2, num 3])])) (by decide +kernel)
    exact ⟨fin, st, yields_of_draws _ _ _ h1, of_decide_eq_true h2⟩
  · obtain ⟨⟨fin, st⟩, h1, h2⟩ := Res.of_okAnd (r := ((cellPopulation (ga numModel) (fun _ => exFullEnv) crowding 10
        (Cell.new (Ga.ofModel ())) [num 1, num 2, num 3] pairParams 0).exec drawList []).1)
      (Q := fun r => decide (r.2.shown.map (fun p => (p.generation, p.individuals)) = [(0, [num 1, num 2, num 3]), (1, [num 1])]))
      (by decide +kernel)
    exact ⟨fin, st, yields_of_draws _ _ _ h1, of_decide_eq_true h2⟩

-- a value borrowed while in use panics; none of the theorems above meets that case
example : ((⟨1, .reading⟩ : Cell Nat).write fun a => pure (a + 1)).yields .panic ∧
    ((⟨1, .writing⟩ : Cell Nat).read fun a => pure a).yields .panic ∧
    ((Cell.new 1).write fun a => pure (a + 1)).yields (.ok (Cell.new 2)) := by
  refine ⟨?_, ?_, ?_⟩ <;> simp [Cell.write, Cell.read, Cell.new, Prog.lift]

-- the closure of the counterexample is tidy, so the outer run does not panic (C100_tidy, C100_safe)
example : Tidy (ga numModel) Ga.eliteSize Ga.populationSize (fun _ => True) crowding := by
  have hM : SafeOps numModel (fun _ => True) :=
    { crossover := fun _ _ _ _ _ => by show Always _ (pure _); simp
      mutate := fun _ _ _ => by show Always _ (pure _); simp
      improve := fun _ _ _ => by show Always _ (pure _); simp
      evaluate := fun _ _ _ => by show Always _ (pure _); simp
      canSurvive := fun _ _ _ _ _ _ => by show Always _ (pure _); simp
      preGeneration := fun _ _ _ => rfl
      breed := rfl }
  refine C100_tidy (ga_standard _) (ga_safe hM) hM _ (fun _ => exFullEnv_lawful) (aloof (untilGeneration 0))
    (aloof_tidy _ fun q p _ => by simp [untilGeneration]) 1 (fun _ _ => [num 9]) crowdParams 0 ?_ (by decide) (by decide) ?_ ?_ _ ?_
  · refine ⟨?_, by simp [crowdParams, smallParams, SelectionStrategy.Valid], by simp [crowdParams, smallParams]⟩
    unfold GaParams.Valid F64.InHalfOpenUnit F64.InClosedUnit
    decide +kernel
  · exact fun _ _ _ _ _ => ⟨by simp, fun _ _ => trivial, fun m => ⟨num 9, by simp, (always_pure _ _).2 (by decide +kernel)⟩⟩
  · intro q pop a r hr
    rw [C100_aloof, yields_bind_ok] at hr
    obtain ⟨⟨fin, st⟩, h1, h2⟩ := hr
    simp only [yields_pure, Res.ok.injEq] at h2
    subst h2
    obtain ⟨a', pop', -, -, c3⟩ := (yields_evolvePopulation _ _ _ _ _ _ _ _ _).1 h1
    rcases (yields_evolveLoop_succ _ _ _ _ _ _ _).1 c3 with ⟨_, _, e⟩ | ⟨_, _, e, -⟩
    · cases e; rfl
    · simp [untilGeneration] at e
  · exact fun q pop st _ => by simp [untilGeneration]

end RG.Props
