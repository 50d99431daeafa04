import Verif.Proofs.Evolution

/-!
# Properties C52 (runs), C53–C56, C59–C61: runs

`Standard M alg elite size eliteOf` holds of both built-in algorithms (`ga_standard`, `aga_standard`). A run of at most
`fuel` calls of `progress` is `evolvePopulation … fuel …`; its result `(fin, st)` has `fin = true` if the loop has ended, and
`st.shown` are the populations passed to `progress`, in order. `envs` gives for every generation the result of the parallel
sort and the parallel sums, within their contracts.
-/

set_option linter.unusedSectionVars false

namespace RG.Props
open RG RG.Prog
variable {I : Type} [Individual I] {Mo U A P Q : Type}

section
variable {M : EvoModel I Mo U} {alg : EvoAlgo I Mo U A P} {elite size : A → Nat} {eliteOf : P → Nat}

/-- The default `breed` with selectors that return members of the population gives valid individuals. -/
theorem breedsValid_default (M : EvoModel I Mo U) (hb : M.breed = defaultBreed M.toEvoOps)
    (hs : M.selectors.ReturnsMembers) (hd : M.selectors.DistinctMembers) : M.BreedsValid := by
  intro env model p r c hp h
  rw [hb] at h
  exact C47_valid M.toEvoOps hs hd env model p hp r c h

/-- With the default `is_valid`, a valid fitness is finite, hence not NaN. -/
theorem validNotNaN_default [DefaultValid I] : ValidNotNaN I := by
  intro x hx
  rw [DefaultValid.isValid_eq] at hx
  revert hx; cases fitness x <;> simp [F64.isFinite, F64.isNaN]

/-! ### C52 (runs) -/

/-- **C52** With population size 1 (hence no elites) no generation ever completes: after `progress` asks to continue, the
replacement panics. -/
theorem C52_population_one (hstd : Standard M alg elite size eliteOf) (env : Env I) (henv : env.Lawful)
    (st st' : RunState I A Q) (h1 : size st.algo = 1) (h0 : elite st.algo = 0) :
    ¬ (generationStep alg env st).yields (.ok st') := by
  intro h
  obtain ⟨a, el, buf, pop, old, g1, g2, g3, g4, rfl⟩ := (yields_generationStep alg env st st').1 h
  obtain ⟨e1, e2⟩ := hstd.prepare _ _ _ _ g1
  rw [hstd.elites, takeElites_eq, e1, h0] at g2
  simp only [Nat.sub_zero, List.drop_length, List.append_nil, Res.ok.injEq] at g2
  subst g2
  rw [hstd.generate] at g3
  obtain ⟨r, n, hr⟩ : ∃ r n, alg.repro a = (r, n) := ⟨_, _, rfl⟩
  have hn : n = 1 := by rw [← h1, ← e2, ← hstd.bred a, hr]
  rw [hr, hn] at g3
  rw [hstd.replace] at g4
  have hb : buf = [] := (C52_size_counterexample M env.num _ r _ [] buf (by simpa using g3)).1
  exact (Population.wf_replace henv.sort g4).2.1 hb

/-- **C52** A run with population size 1 that returns has called `progress` once only: if it ever asks to continue, the run
does not return. -/
theorem C52_run_one (hstd : Standard M alg elite size eliteOf) (envs : Nat → Env I) (henv : ∀ t, (envs t).Lawful)
    (progress : Q → Population I → Prog (Bool × Q)) (fuel : Nat) (a : A) (init : List I) (p : P) (q : Q) (st : RunState I A Q)
    (h1 : alg.initialSize p = 1) (h : (evolvePopulation alg envs progress fuel a init p q).yields (.ok (true, st))) :
    st.shown = [st.population] ∧ st.population.generation = 0 := by
  obtain ⟨a', pop, c1, c2, c3⟩ := (yields_evolvePopulation _ _ _ _ _ _ _ _ _).1 h
  obtain ⟨_, s1, s2, s3⟩ := hstd.configure _ _ _ c1 (by rw [h1]; norm_num)
  rw [hstd.init] at c2
  obtain ⟨_, g0, _⟩ := init_wf (henv 0) c2
  cases fuel with
  | zero => cases c3
  | succ fuel =>
    rcases (yields_evolveLoop_succ _ _ _ _ _ _ _).1 c3 with ⟨q', _, r⟩ | ⟨q', st1, _, h2, _⟩
    · cases r; exact ⟨rfl, g0⟩
    · exact absurd h2 (C52_population_one hstd (envs 1) (henv 1) _ st1 (by rw [s1, h1]) (by
        show elite a' = 0
        rw [s2]; omega))

/-! ### C60 -/

/-- **C60** Every individual of every population shown to `progress`, and of the final one, is valid. -/
theorem C60_valid (hstd : Standard M alg elite size eliteOf) (envs : Nat → Env I) (henv : ∀ t, (envs t).Lawful)
    (hb : M.BreedsValid) (progress : Q → Population I → Prog (Bool × Q)) (fuel : Nat) (a : A) (init : List I) (p : P) (q : Q)
    (fin : Bool) (st : RunState I A Q) (h : (evolvePopulation alg envs progress fuel a init p q).yields (.ok (fin, st))) :
    (∀ pop ∈ st.shown, ∀ x ∈ pop.individuals, isValid x = true) ∧ ∀ x ∈ st.population.individuals, isValid x = true := by
  obtain ⟨a', pop, c1, c2, c3⟩ := (yields_evolvePopulation _ _ _ _ _ _ _ _ _).1 h
  rw [hstd.init] at c2
  obtain ⟨new, n1, -, -, n4, n5, -⟩ := evolveLoop_invariant alg envs progress
    (fun _ p => ∀ x ∈ p.individuals, isValid x = true) (fun _ _ => True)
    (fun t st st' _ hi hs => by
      have := hstd.step (henv t) hs
      exact ⟨this.valid (henv t) hb hi, trivial, this.q, this.shown⟩)
    fuel 1 le_rfl _ (init_wf (henv 0) c2).2.2.2.2.1 fin st c3
  refine ⟨fun pop hp => ?_, n5⟩
  rw [n1] at hp
  obtain ⟨_, hp'⟩ := n4 pop (by simpa using hp)
  exact hp'

/-- **C60** With the default `is_valid` all these fitness values are finite; in particular that of a returned individual. -/
theorem C60_finite [DefaultValid I] (hstd : Standard M alg elite size eliteOf) (envs : Nat → Env I)
    (henv : ∀ t, (envs t).Lawful) (hb : M.BreedsValid) (progress : Q → Population I → Prog (Bool × Q)) (fuel : Nat) (a : A)
    (newRandom : Prog I) (p : P) (q : Q) (x : I) (st : RunState I A Q)
    (h : (runRandom M alg envs progress fuel a newRandom p q).yields (.ok (some x, st))) :
    (∀ pop ∈ st.shown, ∀ y ∈ pop.individuals, (fitness y).isFinite = true) ∧ (fitness x).isFinite = true ∧ isValid x = true := by
  unfold runRandom at h
  simp only [yields_bind_ok] at h
  obtain ⟨init, _, ⟨fin, st1⟩, h2, h3⟩ := h
  obtain ⟨rfl, h3⟩ := (yields_takeResult _ _ _).1 h3
  obtain ⟨v1, v2⟩ := C60_valid hstd envs henv hb progress fuel a init p q fin st h2
  have hx : isValid x = true := by
    rcases h3 with ⟨_, y, hy, e⟩ | ⟨_, e⟩
    · cases e
      refine v2 x ?_
      unfold Population.takeFittest at hy
      by_cases hlt : st.population.stats.argMax < st.population.individuals.length
      · obtain ⟨r, hr⟩ := Population.swapRemove_eq st.population.individuals _ hlt
        rw [hr] at hy
        cases hy
        exact List.getElem_mem _
      · exact absurd hy (by unfold swapRemove; simp [hlt])
    · cases e
  refine ⟨fun pop hp y hy => ?_, ?_, hx⟩
  · rw [← DefaultValid.isValid_eq]; exact v1 pop hp y hy
  · rw [← DefaultValid.isValid_eq]; exact hx

/-! ### C55 -/

/-- **C55** Every population of a run has at least one individual; from generation 1 on at most the configured number, and
generation 0 at most as many as the initial vector. -/
theorem C55_size (hstd : Standard M alg elite size eliteOf) (envs : Nat → Env I) (henv : ∀ t, (envs t).Lawful)
    (progress : Q → Population I → Prog (Bool × Q)) (fuel : Nat) (a : A) (init : List I) (p : P) (q : Q) (fin : Bool)
    (st : RunState I A Q) (hn : alg.initialSize p ≤ 2 ^ 53)
    (h : (evolvePopulation alg envs progress fuel a init p q).yields (.ok (fin, st))) :
    ∀ pop, pop ∈ st.shown ∨ pop = st.population → 1 ≤ pop.len ∧
      (pop.generation = 0 → pop.len ≤ init.length) ∧ (pop.generation ≠ 0 → pop.len ≤ alg.initialSize p) := by
  obtain ⟨a', pop, c1, c2, c3⟩ := (yields_evolvePopulation _ _ _ _ _ _ _ _ _).1 h
  obtain ⟨_, s1, s2, s3⟩ := hstd.configure _ _ _ c1 hn
  rw [hstd.init] at c2
  obtain ⟨w, g0, -, l0, -⟩ := init_wf (henv 0) c2
  obtain ⟨new, n1, -, -, n4, n5, -⟩ := evolveLoop_invariant alg envs progress
    (fun a pop => size a = alg.initialSize p ∧ elite a = eliteOf p ∧ pop.WF ∧
      (pop.generation = 0 → pop.len ≤ init.length) ∧ (pop.generation ≠ 0 → pop.len ≤ alg.initialSize p)) (fun _ _ => True)
    (fun t st st' _ hi hs => by
      have hf := hstd.step (henv t) hs
      refine ⟨⟨by rw [hf.sizeEq, hi.1], by rw [hf.eliteEq, hi.2.1], hf.wf, fun h0 => ?_, fun _ => ?_⟩, trivial, hf.q, hf.shown⟩
      · rw [hf.generation] at h0; omega
      · obtain ⟨nw, m1, -, m3⟩ := hf.made
        have := m3 (by rw [hi.1, hi.2.1]; omega)
        unfold Population.len
        rw [m1]
        exact ((length_dedup_sort (henv t).sort _).trans this).trans hi.1.le)
    fuel 1 le_rfl { algo := a', population := pop, buffer := [], q, shown := [] }
    ⟨s1, s2, w, fun _ => l0, fun h => absurd g0 h⟩ fin st c3
  have conv : ∀ (pop : Population I), pop.WF → 1 ≤ pop.len := fun pop hw => List.length_pos_iff.2 hw.ne
  rintro pop (hp | rfl)
  · rw [n1] at hp
    obtain ⟨_, _, _, w, b0, b1⟩ := n4 pop (by simpa using hp)
    exact ⟨conv pop w, b0, b1⟩
  · obtain ⟨_, _, w, b0, b1⟩ := n5
    exact ⟨conv _ w, b0, b1⟩

/-! ### C53, C54 -/

/-- **C53** With at least one elite the best fitness never decreases, over any number of generations, up to the final
population. -/
theorem C53_monotone (hstd : Standard M alg elite size eliteOf) (envs : Nat → Env I) (henv : ∀ t, (envs t).Lawful)
    (hb : M.BreedsValid) (hv : ValidNotNaN I) (he : EqFitness I) (progress : Q → Population I → Prog (Bool × Q)) (fuel : Nat)
    (a : A) (init : List I) (p : P) (q : Q) (fin : Bool) (st : RunState I A Q) (hn : alg.initialSize p ≤ 2 ^ 53)
    (hel : 1 ≤ eliteOf p) (h : (evolvePopulation alg envs progress fuel a init p q).yields (.ok (fin, st))) :
    (st.shown ++ [st.population]).Pairwise fun pop pop' => pop.stats.max.le pop'.stats.max = true := by
  obtain ⟨a', pop, c1, c2, c3⟩ := (yields_evolvePopulation _ _ _ _ _ _ _ _ _).1 h
  obtain ⟨_, s1, s2, s3⟩ := hstd.configure _ _ _ c1 hn
  rw [hstd.init] at c2
  obtain ⟨new, n1, n2, -, n4, n5, -⟩ := evolveLoop_invariant alg envs progress
    (fun a pop => elite a = eliteOf p ∧ GoodPop pop) (fun pop pop' => pop.stats.max.le pop'.stats.max = true)
    (fun t st st' _ hi hs => by
      have hf := hstd.step (henv t) hs
      exact ⟨⟨by rw [hf.eliteEq, hi.1], hf.good (henv t) hb hv hi.2⟩, hf.best (henv t) hb hv he hi.2 (by rw [hi.1]; exact hel),
        hf.q, hf.shown⟩)
    fuel 1 le_rfl _ ⟨s2, (init_wf (henv 0) c2).2.2.2.2.2 hv⟩ fin st c3
  have ht : IsTrans (Population I) (fun p p' => p.stats.max.le p'.stats.max = true ∨ p = p') := ⟨by
    rintro x y z (h1 | rfl) (h2 | rfl)
    · exact Or.inl (F64.le_trans h1 h2)
    · exact Or.inl h1
    · exact Or.inl h2
    · exact Or.inr rfl⟩
  have hp := List.isChain_iff_pairwise.1 n2
  rw [n1]
  simp only [List.nil_append]
  refine hp.imp_of_mem fun {x y} hx hy hxy => ?_
  have hgood : GoodPop x := by
    rcases List.mem_append.1 hx with hx | hx
    · obtain ⟨_, _, g⟩ := n4 x hx; exact g
    · rw [List.mem_singleton.1 hx]; exact n5.2
  rcases hxy with hxy | rfl
  · exact hxy
  · obtain ⟨b, hb, -, hm, hle⟩ := hgood.best hv
    rw [← hm]; exact hle b hb

/-- The conclusion of C54 for the result of `evolve_population` followed by `take_fittest`. -/
theorem best_of_run (hstd : Standard M alg elite size eliteOf) (envs : Nat → Env I) (henv : ∀ t, (envs t).Lawful)
    (hb : M.BreedsValid) (hv : ValidNotNaN I) (he : EqFitness I) (progress : Q → Population I → Prog (Bool × Q)) (fuel : Nat)
    (a : A) (init : List I) (p : P) (q : Q) (r : Bool × RunState I A Q) (x : I) (st : RunState I A Q)
    (hn : alg.initialSize p ≤ 2 ^ 53) (hel : 1 ≤ eliteOf p)
    (h : (evolvePopulation alg envs progress fuel a init p q).yields (.ok r)) (hr : (takeResult r).yields (.ok (some x, st))) :
    ∀ pop ∈ st.shown, ∀ y ∈ pop.individuals, (fitness y).le (fitness x) = true := by
  obtain ⟨fin, st1⟩ := r
  obtain ⟨rfl, hr⟩ := (yields_takeResult _ _ _).1 hr
  have hmono := C53_monotone hstd envs henv hb hv he progress fuel a init p q fin st hn hel h
  obtain ⟨a', pop0, c1, c2, c3⟩ := (yields_evolvePopulation _ _ _ _ _ _ _ _ _).1 h
  rw [hstd.init] at c2
  obtain ⟨new, n1, -, -, n4, n5, -⟩ := evolveLoop_invariant alg envs progress (fun _ pop => GoodPop pop) (fun _ _ => True)
    (fun t st st' _ hi hs => by
      have hf := hstd.step (henv t) hs
      exact ⟨hf.good (henv t) hb hv hi, trivial, hf.q, hf.shown⟩)
    fuel 1 le_rfl _ ((init_wf (henv 0) c2).2.2.2.2.2 hv) fin st c3
  obtain ⟨b, -, hbf, hbm, -⟩ := GoodPop.best hv n5
  have hx : x = b := by
    rcases hr with ⟨_, y, hy, e⟩ | ⟨_, e⟩
    · cases e
      have hw := n5.wf.fittest_ok
      rw [hw.2, hbf] at hy
      cases hy; rfl
    · cases e
  subst hx
  intro pop hp y hy
  have hg : GoodPop pop := by
    rw [n1] at hp
    obtain ⟨_, hp'⟩ := n4 pop (by simpa using hp)
    exact hp'
  obtain ⟨b', -, -, hbm', hle'⟩ := hg.best hv
  refine F64.le_trans (hle' y hy) ?_
  rw [hbm', hbm]
  exact (List.pairwise_append.1 hmono).2.2 pop hp _ (by simp)

/-- **C54** (partial: needs at least one elite) The individual returned by `run` and by `evolve_individual` is at least as fit
as every individual of every population shown to `progress`. -/
theorem C54_best_partial (hstd : Standard M alg elite size eliteOf) (envs : Nat → Env I) (henv : ∀ t, (envs t).Lawful)
    (hb : M.BreedsValid) (hv : ValidNotNaN I) (he : EqFitness I) (progress : Q → Population I → Prog (Bool × Q)) (fuel : Nat)
    (a : A) (p : P) (q : Q) (x : I) (st : RunState I A Q) (hn : alg.initialSize p ≤ 2 ^ 53) (hel : 1 ≤ eliteOf p) :
    (∀ newRandom, (runRandom M alg envs progress fuel a newRandom p q).yields (.ok (some x, st)) →
      ∀ pop ∈ st.shown, ∀ y ∈ pop.individuals, (fitness y).le (fitness x) = true) ∧
    (∀ individual, (evolveIndividual M alg envs progress fuel a individual p q).yields (.ok (some x, st)) →
      ∀ pop ∈ st.shown, ∀ y ∈ pop.individuals, (fitness y).le (fitness x) = true) := by
  constructor
  · intro newRandom h
    unfold runRandom at h
    simp only [yields_bind_ok] at h
    obtain ⟨init, _, r, h2, h3⟩ := h
    exact best_of_run hstd envs henv hb hv he progress fuel a init p q r x st hn hel h2 h3
  · intro ind h
    unfold evolveIndividual at h
    simp only [yields_bind_ok] at h
    obtain ⟨init, _, r, h2, h3⟩ := h
    exact best_of_run hstd envs henv hb hv he progress fuel a init p q r x st hn hel h2 h3

/-! ### C61 -/

/-- **C61** With at least one elite and the default `extend_population_with`: if every outcome of evaluating the given
individual is valid and has fitness at least `L`, the individual returned by `evolve_individual` has fitness at least `L`. -/
theorem C61_not_worse (hstd : Standard M alg elite size eliteOf) (hx : M.extendWith = defaultExtendWith M.toEvoOps)
    (envs : Nat → Env I) (henv : ∀ t, (envs t).Lawful)
    (hb : M.BreedsValid) (hv : ValidNotNaN I) (he : EqFitness I) (progress : Q → Population I → Prog (Bool × Q)) (fuel : Nat)
    (a : A) (p : P) (q : Q) (individual x : I) (st : RunState I A Q) (hn : alg.initialSize p ≤ 2 ^ 53) (hel : 1 ≤ eliteOf p)
    (L : F64) (hL : ∀ e, (M.evaluate (alg.model a) individual).yields (.ok e) → isValid e = true ∧ L.le (fitness e) = true)
    (h : (evolveIndividual M alg envs progress fuel a individual p q).yields (.ok (some x, st))) :
    L.le (fitness x) = true := by
  have hbest := (C54_best_partial hstd envs henv hb hv he progress fuel a p q x st hn hel).2 individual h
  unfold evolveIndividual at h
  simp only [yields_bind_ok] at h
  obtain ⟨init, h1, ⟨fin, st1⟩, h2, h3⟩ := h
  obtain ⟨rfl, h3⟩ := (yields_takeResult _ _ _).1 h3
  have hfin : fin = true := by
    rcases h3 with ⟨h, _⟩ | ⟨_, h⟩
    · exact h
    · cases h
  subst hfin
  obtain ⟨a', pop, c1, c2, c3⟩ := (yields_evolvePopulation _ _ _ _ _ _ _ _ _).1 h2
  obtain ⟨m, s1, s2, s3⟩ := hstd.configure _ _ _ c1 hn
  rw [hx] at h1
  rcases (C49_extend_with M.toEvoOps _ _ _ _ _).1 h1 with ⟨h0, _⟩ | ⟨nw, _, rfl, _, _⟩
  · omega
  rw [hstd.init] at c2
  obtain ⟨ev, f1, -, -, -, -, f5⟩ := C62_initialize M (envs 0) (henv 0) _ _ pop c2
  simp only [List.nil_append] at f1
  cases f1 with
  | @cons _ e _ es g1 g2 =>
    rw [m] at g1
    obtain ⟨ve, le⟩ := hL e g1
    -- the first population shown is the initial one
    have hshown : pop ∈ st.shown := by
      cases fuel with
      | zero => cases c3
      | succ fuel =>
        rcases (yields_evolveLoop_succ _ _ _ _ _ _ _).1 c3 with ⟨q', _, r⟩ | ⟨q', st1, _, k2, k3⟩
        · cases r; simp
        · obtain ⟨new, n1, -⟩ := evolveLoop_invariant alg envs progress (fun _ _ => True) (fun _ _ => True)
            (fun t st st' _ _ hs => ⟨trivial, trivial, (hstd.step (henv t) hs).q, (hstd.step (henv t) hs).shown⟩)
            fuel 2 (by omega) st1 trivial true st k3
          rw [n1, (hstd.step (henv 1) k2).shown]
          simp
    rcases f5 e (by simp) ve with hy | ⟨y, hy, heq⟩
    · exact F64.le_trans le (hbest pop hshown e hy)
    · exact F64.le_trans (F64.le_trans le (F64.le_of_feq (he _ _ heq))) (hbest pop hshown y hy)

/-! ### C56 -/

/-- The protocol of the loop, from any state. -/
theorem loop_protocol (hstd : Standard M alg elite size eliteOf) (envs : Nat → Env I) (henv : ∀ t, (envs t).Lawful)
    (progress : Q → Population I → Prog (Bool × Q)) (fuel t : Nat) (st st' : RunState I A Q) (fin : Bool)
    (h : (evolveLoop alg envs progress fuel t st).yields (.ok (fin, st'))) :
    ∃ (new : List (Population I)) (qs : List Q), st'.shown = st.shown ++ new ∧ qs.length = new.length + 1 ∧
      qs[0]? = some st.q ∧ qs[new.length]? = some st'.q ∧ new.length ≤ fuel ∧
      (∀ i pop, new[i]? = some pop → pop.generation = st.population.generation + i ∧
        ∃ q q', qs[i]? = some q ∧ qs[i + 1]? = some q' ∧
          (progress q pop).yields (.ok (!(fin && decide (i + 1 = new.length)), q'))) ∧
      (new[0]? = some st.population ∨ fuel = 0) ∧
      (fin = true → new.getLast? = some st'.population) ∧
      (fin = false → new.length = fuel ∧ st'.population.generation = st.population.generation + fuel) := by
  induction fuel generalizing t st with
  | zero =>
    cases h
    exact ⟨[], [st'.q], by simp, by simp, by simp, by simp, by simp, by simp, by simp, by simp, by simp⟩
  | succ fuel ih =>
    rcases (yields_evolveLoop_succ _ _ _ _ _ _ _).1 h with ⟨q, h1, h2⟩ | ⟨q, st1, h1, h2, h3⟩
    · cases h2
      refine ⟨[st.population], [st.q, q], rfl, rfl, rfl, rfl, by simp, ?_, by simp, by simp, by simp⟩
      intro i pop hp
      cases i with
      | zero => cases hp; exact ⟨rfl, st.q, q, rfl, rfl, by simpa using h1⟩
      | succ i => simp at hp
    · have hf := hstd.step (henv t) h2
      have hq : st1.q = q := hf.q
      have hs : st1.shown = st.shown ++ [st.population] := hf.shown
      have hg : st1.population.generation = st.population.generation + 1 := hf.generation
      obtain ⟨new, qs, n1, n2, n3, n4, n5, n6, n7, n8, n9⟩ := ih (t + 1) st1 h3
      refine ⟨st.population :: new, st.q :: qs, by rw [n1, hs]; simp, by simp [n2], rfl, by simpa using n4, by simpa using n5,
        ?_, Or.inl rfl, fun hfin => ?_, fun hfin => ?_⟩
      · intro i pop hp
        cases i with
        | zero =>
          cases hp
          refine ⟨rfl, st.q, q, rfl, by simp [n3, hq], ?_⟩
          have hne : (fin && decide (0 + 1 = (st.population :: new).length)) = false := by
            cases fin with
            | false => rfl
            | true =>
              have : new ≠ [] := fun e => by rw [e] at n8; exact absurd (n8 rfl) (by simp)
              have := List.length_pos_iff.2 this
              simp only [List.length_cons, Bool.true_and, decide_eq_false_iff_not]
              omega
          rw [hne]; exact h1
        | succ i =>
          simp only [List.getElem?_cons_succ] at hp
          obtain ⟨g, q1, q2, k1, k2, k3⟩ := n6 i pop hp
          refine ⟨by rw [g, hg]; omega, q1, q2, by simpa using k1, by simpa using k2, ?_⟩
          have e : decide (i + 1 + 1 = (st.population :: new).length) = decide (i + 1 = new.length) := by simp
          rw [e]; exact k3
      · have := n8 hfin
        rw [List.getLast?_cons, this]; rfl
      · obtain ⟨l, g⟩ := n9 hfin
        exact ⟨by simp [l], by rw [g, hg]; omega⟩

/-- **C56** The protocol: `progress` is called on the initial population first, the `i`-th call is made on a population of
generation `i` with the closure state that the call before left, every call but the last returned `true`; if the loop has
ended the last returned `false`, and the result is the population of that last call; otherwise as many calls as asked for
have been made and all returned `true`. -/
theorem C56_protocol (hstd : Standard M alg elite size eliteOf) (envs : Nat → Env I) (henv : ∀ t, (envs t).Lawful)
    (progress : Q → Population I → Prog (Bool × Q)) (fuel : Nat) (a : A) (init : List I) (p : P) (q : Q) (fin : Bool)
    (st : RunState I A Q) (h : (evolvePopulation alg envs progress fuel a init p q).yields (.ok (fin, st))) :
    ∃ (a' : A) (pop : Population I) (qs : List Q), alg.configure a p = .ok a' ∧
      (alg.initPopulation (envs 0) a' init).yields (.ok pop) ∧ (st.shown[0]? = some pop ∨ fuel = 0) ∧
      qs.length = st.shown.length + 1 ∧ qs[0]? = some q ∧ qs[st.shown.length]? = some st.q ∧ st.shown.length ≤ fuel ∧
      (∀ i pop, st.shown[i]? = some pop → pop.generation = i ∧ ∃ q q', qs[i]? = some q ∧ qs[i + 1]? = some q' ∧
        (progress q pop).yields (.ok (!(fin && decide (i + 1 = st.shown.length)), q'))) ∧
      (fin = true → st.shown.getLast? = some st.population ∧ st.population.generation + 1 = st.shown.length) ∧
      (fin = false → st.shown.length = fuel ∧ st.population.generation = fuel) := by
  obtain ⟨a', pop, c1, c2, c3⟩ := (yields_evolvePopulation _ _ _ _ _ _ _ _ _).1 h
  have c2' := c2
  rw [hstd.init] at c2'
  obtain ⟨_, g0, _⟩ := init_wf (henv 0) c2'
  obtain ⟨new, qs, n1, n2, n3, n4, n5, n6, n7, n8, n9⟩ := loop_protocol hstd envs henv progress fuel 1 _ st fin c3
  have hs : st.shown = new := by simpa using n1
  simp only [g0, Nat.zero_add] at n6 n9
  rw [hs]
  refine ⟨a', pop, qs, c1, c2, n7, n2, n3, n4, n5, n6, fun hf => ⟨n8 hf, ?_⟩, n9⟩
  have hl := n8 hf
  rw [List.getLast?_eq_getElem?] at hl
  obtain ⟨g, _⟩ := n6 _ _ hl
  have : new ≠ [] := by rintro rfl; simp at hl
  have := List.length_pos_iff.2 this
  omega

/-- **C56** `run` and `evolve_individual` return the fittest individual of the population of the last call. -/
theorem C56_result (hstd : Standard M alg elite size eliteOf) (envs : Nat → Env I) (henv : ∀ t, (envs t).Lawful)
    (progress : Q → Population I → Prog (Bool × Q)) (fuel : Nat) (a : A) (p : P) (q : Q) (x : I) (st : RunState I A Q) :
    (∀ newRandom, (runRandom M alg envs progress fuel a newRandom p q).yields (.ok (some x, st)) →
      ∃ pop, st.shown.getLast? = some pop ∧ pop.fittest = .ok x ∧ x ∈ pop.individuals) ∧
    (∀ individual, (evolveIndividual M alg envs progress fuel a individual p q).yields (.ok (some x, st)) →
      ∃ pop, st.shown.getLast? = some pop ∧ pop.fittest = .ok x ∧ x ∈ pop.individuals) := by
  have key : ∀ init r, (evolvePopulation alg envs progress fuel a init p q).yields (.ok r) →
      (takeResult r).yields (.ok (some x, st)) →
      ∃ pop, st.shown.getLast? = some pop ∧ pop.fittest = .ok x ∧ x ∈ pop.individuals := by
    rintro init ⟨fin, st1⟩ h2 h3
    obtain ⟨rfl, h3⟩ := (yields_takeResult _ _ _).1 h3
    rcases h3 with ⟨hf, y, hy, e⟩ | ⟨_, e⟩
    · cases e
      simp only at hf
      subst hf
      obtain ⟨_, _, _, _, _, _, _, _, _, _, _, h5, _⟩ := C56_protocol hstd envs henv progress fuel a init p q true st h2
      obtain ⟨a', pop, c1, c2, c3⟩ := (yields_evolvePopulation _ _ _ _ _ _ _ _ _).1 h2
      rw [hstd.init] at c2
      obtain ⟨_, _, _, _, _, n5, _⟩ := evolveLoop_invariant alg envs progress (fun _ pop => pop.WF) (fun _ _ => True)
        (fun t st st' _ _ hs => ⟨(hstd.step (henv t) hs).wf, trivial, (hstd.step (henv t) hs).q,
          (hstd.step (henv t) hs).shown⟩)
        fuel 1 le_rfl _ (init_wf (henv 0) c2).1 true st c3
      have hw := n5.fittest_ok
      rw [hw.2] at hy
      refine ⟨_, (h5 rfl).1, hy, ?_⟩
      rw [hw.1] at hy
      cases hy
      exact List.getElem_mem _
    · cases e
  constructor
  · intro nr h
    unfold runRandom at h
    simp only [yields_bind_ok] at h
    obtain ⟨init, _, r, h2, h3⟩ := h
    exact key init r h2 h3
  · intro ind h
    unfold evolveIndividual at h
    simp only [yields_bind_ok] at h
    obtain ⟨init, _, r, h2, h3⟩ := h
    exact key init r h2 h3

/-- **C56** The bound on the number of calls is not a restriction: a run that has ended does the same with a larger bound. -/
theorem C56_more_calls (envs : Nat → Env I) (progress : Q → Population I → Prog (Bool × Q)) (fuel k : Nat) (a : A)
    (init : List I) (p : P) (q : Q) (st : RunState I A Q)
    (h : (evolvePopulation alg envs progress fuel a init p q).yields (.ok (true, st))) :
    (evolvePopulation alg envs progress (fuel + k) a init p q).yields (.ok (true, st)) := by
  obtain ⟨a', pop, c1, c2, c3⟩ := (yields_evolvePopulation _ _ _ _ _ _ _ _ _).1 h
  exact (yields_evolvePopulation _ _ _ _ _ _ _ _ _).2 ⟨a', pop, c1, c2, evolveLoop_more _ _ _ _ k _ _ _ c3⟩

end

/-! ### C59 -/

/-- **C59** Genetic algorithm: a run depends on what earlier runs left only through the model. -/
theorem C59_ga (M : EvoModel I Mo U) (envs : Nat → Env I) (progress : Q → Population I → Prog (Bool × Q)) (fuel : Nat)
    (a : Ga Mo U) (p : GaParams) (q : Q) :
    (∀ init, evolvePopulation (ga M) envs progress fuel a init p q =
      evolvePopulation (ga M) envs progress fuel (Ga.ofModel a.model) init p q) ∧
    (∀ newRandom, runRandom M (ga M) envs progress fuel a newRandom p q =
      runRandom M (ga M) envs progress fuel (Ga.ofModel a.model) newRandom p q) ∧
    (∀ x, evolveIndividual M (ga M) envs progress fuel a x p q =
      evolveIndividual M (ga M) envs progress fuel (Ga.ofModel a.model) x p q) := by
  have h : ∀ init, evolvePopulation (ga M) envs progress fuel a init p q =
      evolvePopulation (ga M) envs progress fuel (Ga.ofModel a.model) init p q := fun init => rfl
  refine ⟨h, fun nr => ?_, fun x => ?_⟩
  · unfold runRandom; simp only [h]; rfl
  · unfold evolveIndividual; simp only [h]; rfl

/-- What a caller can see of the state of a run of the adaptive genetic algorithm: all but the private rates, spread and
selector (the model is visible through the population). -/
def visible (r : Bool × RunState I (Aga Mo U) Q) : Bool × Mo × Population I × List I × Q × List (Population I) :=
  (r.1, r.2.algo.model, r.2.population, r.2.buffer, r.2.q, r.2.shown)

/-- **C59** Adaptive genetic algorithm: a run depends on what earlier runs left (rates, reference spread, selector, sizes)
only through the model. `configure` does not reset the rates and the reference spread, but they are overwritten at generation
0 before they are used. -/
theorem C59_aga (M : EvoModel I Mo U) (envs : Nat → Env I) (progress : Q → Population I → Prog (Bool × Q)) (fuel : Nat)
    (a : Aga Mo U) (init : List I) (p : AgaParams) (q : Q) :
    (evolvePopulation (aga M) envs progress fuel a init p q >>= fun r => pure (visible r)).Same
      (evolvePopulation (aga M) envs progress fuel (Aga.ofModel a.model) init p q >>= fun r => pure (visible r)) := by
  have hcfg : (∃ a1 a2, Aga.configure a p = .ok a1 ∧ Aga.configure (Aga.ofModel a.model : Aga Mo U) p = .ok a2 ∧
        (∀ std, a1.adjust 0 std = a2.adjust 0 std) ∧ a1.model = a2.model) ∨
      (∃ r : Res (Aga Mo U), Aga.configure a p = r ∧ Aga.configure (Aga.ofModel a.model : Aga Mo U) p = r) := by
    by_cases hv : p.Valid ∧ p.selectionStrategy.Valid
    · left
      obtain ⟨a1, h1⟩ := (C50_aga_configure a p).1 hv
      obtain ⟨a2, h2⟩ := (C50_aga_configure (Aga.ofModel a.model : Aga Mo U) p).1 hv
      refine ⟨a1, a2, h1, h2, ?_⟩
      obtain ⟨sel, hsel, _⟩ := (createSelector_spec _).1 hv.2
      obtain ⟨k, hk⟩ : ∃ k, interpolateUsize 0 p.populationSize p.elitismRate = .ok k := by
        unfold interpolateUsize usizeSub; rw [if_pos (Nat.zero_le _)]; exact ⟨_, rfl⟩
      unfold Aga.configure at h1 h2
      rw [(C50_aga p).1 hv.1, hk, hsel] at h1 h2
      cases h1; cases h2
      exact ⟨fun _ => rfl, rfl⟩
    · right
      exact ⟨.panic, (C50_aga_configure a p).2 hv, (C50_aga_configure _ p).2 hv⟩
  unfold evolvePopulation
  rcases hcfg with ⟨a1, a2, h1, h2, hadj, hmod⟩ | ⟨r, h1, h2⟩
  · rw [show (aga M).configure a p = .ok a1 from h1,
      show (aga M).configure (Aga.ofModel a.model) p = .ok a2 from h2]
    simp only [lift_ok, bind_pure_left, bind_assoc']
    rw [show (aga M).initPopulation (envs 0) a1 init = (aga M).initPopulation (envs 0) a2 init by
      show defaultInitialize M _ a1.model init = defaultInitialize M _ a2.model init
      rw [hmod]]
    refine Same.bind_right _ fun pop hpop => Same.of_eq ?_
    have hg : pop.generation = 0 := by
      have hp : (defaultInitialize M (envs 0) a2.model init).yields (.ok pop) := hpop
      unfold defaultInitialize at hp
      simp only [yields_bind_ok, yields_lift] at hp
      obtain ⟨ev, _, hp⟩ := hp
      unfold Population.new at hp
      cases hs : sortDedupCollect (envs 0).sort (ev.filter isValid) with
      | ok x => rw [hs] at hp; cases hp; rfl
      | panic => rw [hs] at hp; cases hp
      | diverge => rw [hs] at hp; cases hp
    cases fuel with
    | zero => simp only [evolveLoop, bind_pure_left, visible, hmod]
    | succ fuel =>
      simp only [evolveLoop, bind_assoc']
      congr 1
      funext x
      obtain ⟨b, q'⟩ := x
      cases b with
      | false => simp only [Bool.false_eq_true, if_false, bind_pure_left, visible, hmod]
      | true =>
        simp only [if_true]
        have hstep : ∀ (b : List I) (q : Q) (sh : List (Population I)),
            generationStep (aga M) (envs 1) ⟨a1, pop, b, q, sh⟩ = generationStep (aga M) (envs 1) ⟨a2, pop, b, q, sh⟩ := by
          intro b q sh
          have : (aga M).prepare (envs 1).num a1 pop = (aga M).prepare (envs 1).num a2 pop := by
            show Aga.prepare M _ a1 pop = Aga.prepare M _ a2 pop
            unfold Aga.prepare
            rw [hg, hadj]
          unfold generationStep
          simp only
          rw [this]
        rw [hstep]
  · rw [show (aga M).configure a p = r from h1, show (aga M).configure (Aga.ofModel a.model) p = r from h2]
    exact Same.refl _

/-- The individual returned by `run` or `evolve_individual`, if the loop has ended, from what is visible of the run. -/
def visibleResult (v : Bool × Mo × Population I × List I × Q × List (Population I)) :
    Prog (Option I × Bool × Mo × Population I × List I × Q × List (Population I)) :=
  if v.1 then do
    let x ← Prog.lift v.2.2.1.takeFittest
    pure (some x, v)
  else pure (none, v)

/-- **C59** Adaptive genetic algorithm, `run` and `evolve_individual`: the same holds for the returned individual and everything
visible of the run. -/
theorem C59_aga_run (M : EvoModel I Mo U) (envs : Nat → Env I) (progress : Q → Population I → Prog (Bool × Q)) (fuel : Nat)
    (a : Aga Mo U) (p : AgaParams) (q : Q) :
    (∀ newRandom,
      (runRandom M (aga M) envs progress fuel a newRandom p q >>= fun s => pure (s.1, visible (true, s.2))).Same
      (runRandom M (aga M) envs progress fuel (Aga.ofModel a.model) newRandom p q >>= fun s => pure (s.1, visible (true, s.2)))) ∧
    (∀ x,
      (evolveIndividual M (aga M) envs progress fuel a x p q >>= fun s => pure (s.1, visible (true, s.2))).Same
      (evolveIndividual M (aga M) envs progress fuel (Aga.ofModel a.model) x p q >>=
        fun s => pure (s.1, visible (true, s.2)))) := by
  have key : ∀ init, (evolvePopulation (aga M) envs progress fuel a init p q >>= fun r => takeResult r >>= fun s =>
      pure (s.1, visible (true, s.2))).Same (evolvePopulation (aga M) envs progress fuel (Aga.ofModel a.model) init p q >>=
        fun r => takeResult r >>= fun s => pure (s.1, visible (true, s.2))) := by
    intro init
    have e : ∀ r : Bool × RunState I (Aga Mo U) Q, (takeResult r >>= fun s => pure (s.1, visible (true, s.2))) =
        (pure (visible r) >>= fun v => visibleResult v >>= fun w => pure (w.1, (true, w.2.2))) := by
      intro r
      obtain ⟨b, st⟩ := r
      rw [bind_pure_left]
      unfold takeResult visibleResult
      cases b with
      | false => rfl
      | true => simp only [visible, if_true, bind_assoc', bind_pure_left]
    simp only [e, ← bind_assoc']
    exact Same.bind (Same.bind (C59_aga M envs progress fuel a init p q) fun _ _ => Same.refl _) fun _ _ => Same.refl _
  refine ⟨fun newRandom => ?_, fun x => ?_⟩
  · unfold runRandom
    simp only [bind_assoc']
    exact Same.bind_right _ fun init _ => key init
  · unfold evolveIndividual
    simp only [bind_assoc']
    exact Same.bind_right _ fun init _ => key init

/-! ### Concrete runs -/

/-- The draws of an execution are read from a list (0 after its end). -/
def drawList (s : List Nat) (n : Nat) : Nat × List Nat := (min (s.headD 0) n, s.tail)

theorem yields_of_draws {α : Type} (p : Prog α) (s : List Nat) (r : Res α) (h : (p.exec drawList s).1 = r) : p.yields r :=
  h ▸ exec_yields drawList (fun _ _ => Nat.min_le_right _ _) p s

theorem numModel_valid : numModel.BreedsValid :=
  breedsValid_default numModel rfl noSelectors_members noSelectors_distinct

theorem num_eqFitness : EqFitness Num := fun _ _ h => h

theorem exEnv_lawful : exEnv.LawfulSum := fun l => .leaf F64.zero (Or.inl rfl) l

theorem exFullEnv_lawful : exFullEnv.Lawful := ⟨refSort_lawful, exEnv_lawful⟩

/-- Whether a computation has panicked. -/
def panicked {α : Type} : Res α → Bool
  | .panic => true
  | _ => false

theorem of_panicked {α : Type} {r : Res α} (h : panicked r = true) : r = .panic := by
  cases r <;> first | rfl | cases h

/-- Continue until generation `n`; count the calls. -/
def untilGeneration (n : Nat) (q : Nat) (p : Population Num) : Prog (Bool × Nat) :=
  pure (decide (p.generation < n), q + 1)

/-- Three individuals, one elite, crossover rate 1/2, mutation rate 1/4, tournaments of one. -/
def smallParams : GaParams :=
  { populationSize := 3, elitismRate := F64.lit (1 / 2), crossoverRate := F64.lit (1 / 2), mutationRate := F64.lit (1 / 4),
    selectionStrategy := .tournament 1 }

-- the hypotheses of C53, C54 and C61 hold of this algorithm and these parameters
example : Standard numModel (ga numModel) Ga.eliteSize Ga.populationSize
      (fun p => eliteCount p.populationSize p.elitismRate) ∧ numModel.BreedsValid ∧ ValidNotNaN Num ∧ EqFitness Num ∧
    eliteCount smallParams.populationSize smallParams.elitismRate = 1 :=
  ⟨ga_standard _, numModel_valid, validNotNaN_default, num_eqFitness, by decide +kernel⟩

-- a run of two generations and three calls of `progress`
example : ((evolvePopulation (ga numModel) (fun _ => exFullEnv) (untilGeneration 2) 10 (Ga.ofModel ()) [num 1, num 2]
      smallParams 0).exec drawList []).1.okAnd (fun r => r.1 = true ∧ r.2.q = 3 ∧
        r.2.shown.map (fun p => (p.generation, p.individuals)) = [(0, [num 1, num 2]), (1, [num 2]), (2, [num 2, num 4])]) = true := by
  decide +kernel

-- generation 0 may have more than `population_size` individuals (C55): five here
example : ((evolvePopulation (ga numModel) (fun _ => exFullEnv) (untilGeneration 1) 10 (Ga.ofModel ())
      [num 1, num 2, num 3, num 4, num 5] smallParams 0).exec drawList []).1.okAnd
        (fun r => r.2.shown.map (fun p => p.individuals.length) = [5, 2]) = true := by
  decide +kernel

-- `evolve_individual` from 7 (C61)
example : ((evolveIndividual numModel (ga numModel) (fun _ => exFullEnv) (untilGeneration 1) 10 (Ga.ofModel ()) (num 7)
      smallParams 0).exec drawList []).1.okAnd (fun r => r.1 = some (num 14)) = true := by
  decide +kernel

/-- **C52** A concrete run with population size 1 that panics (as every run that continues does, by `C52_population_one`). -/
theorem C52_run_panics : exFullEnv.Lawful ∧ (evolvePopulation (ga numModel) (fun _ => exFullEnv) (untilGeneration 1) 10
    (Ga.ofModel ()) [num 1] { smallParams with populationSize := 1 } 0).yields .panic :=
  ⟨exFullEnv_lawful, yields_of_draws _ [] _ (of_panicked (by decide +kernel))⟩

/-- **C54** (the documented property is false) With elitism rate 0, `run` returns an individual of fitness 1 after one of
fitness 2 was shown to `progress`. -/
theorem C54_counterexample : exFullEnv.Lawful ∧ numModel.BreedsValid ∧ ∃ (x : Num) (st : RunState Num (Ga Unit Empty) Nat),
    (runRandom numModel (ga numModel) (fun _ => exFullEnv) (untilGeneration 1) 10 (Ga.ofModel ())
      (Prog.pick 1 fun k => pure (num (k + 1)))
      { smallParams with populationSize := 2, elitismRate := F64.zero, crossoverRate := F64.zero, mutationRate := F64.zero }
      0).yields (.ok (some x, st)) ∧
    ∃ pop ∈ st.shown, ∃ y ∈ pop.individuals, (fitness x).lt (fitness y) = true := by
  refine ⟨exFullEnv_lawful, numModel_valid, ?_⟩
  obtain ⟨⟨o, st⟩, h1, h2⟩ := Res.of_okAnd (r := ((runRandom numModel (ga numModel) (fun _ => exFullEnv) (untilGeneration 1) 10
      (Ga.ofModel ()) (Prog.pick 1 fun k => pure (num (k + 1)))
      { smallParams with populationSize := 2, elitismRate := F64.zero, crossoverRate := F64.zero, mutationRate := F64.zero }
      0).exec drawList [0, 1]).1)
    (Q := fun r => decide (r.1 = some (num 1)) && r.2.shown.any fun p => p.individuals.any fun y => decide (y = num 2))
    (by decide +kernel)
  simp only [Bool.and_eq_true, decide_eq_true_eq, List.any_eq_true] at h2
  obtain ⟨rfl, pop, hp, y, hy, rfl⟩ := h2
  exact ⟨num 1, st, yields_of_draws _ _ _ h1, pop, hp, num 2, hy, by decide +kernel⟩

/-- **C54** (the documented property is false) The same with a positive elitism rate and `evolve_individual`: two individuals and
the elitism rate 1/4 make no elite; from an individual of fitness 3 (and its mutant 6) the run returns 3 after 6 was shown. -/
theorem C54_counterexample_rate : exFullEnv.Lawful ∧ numModel.BreedsValid ∧
    ∃ (x : Num) (st : RunState Num (Ga Unit Empty) Nat),
    (evolveIndividual numModel (ga numModel) (fun _ => exFullEnv) (untilGeneration 1) 10 (Ga.ofModel ()) (num 3)
      { smallParams with populationSize := 2, elitismRate := F64.lit (1 / 4), crossoverRate := F64.zero, mutationRate := F64.zero }
      0).yields (.ok (some x, st)) ∧
    ∃ pop ∈ st.shown, ∃ y ∈ pop.individuals, (fitness x).lt (fitness y) = true := by
  refine ⟨exFullEnv_lawful, numModel_valid, ?_⟩
  obtain ⟨⟨o, st⟩, h1, h2⟩ := Res.of_okAnd (r := ((evolveIndividual numModel (ga numModel) (fun _ => exFullEnv) (untilGeneration 1) 10
      (Ga.ofModel ()) (num 3)
      { smallParams with populationSize := 2, elitismRate := F64.lit (1 / 4), crossoverRate := F64.zero, mutationRate := F64.zero }
      0).exec drawList []).1)
    (Q := fun r => decide (r.1 = some (num 3)) && r.2.shown.any fun p => p.individuals.any fun y => decide (y = num 6))
    (by decide +kernel)
  simp only [Bool.and_eq_true, decide_eq_true_eq, List.any_eq_true] at h2
  obtain ⟨rfl, pop, hp, y, hy, rfl⟩ := h2
  exact ⟨num 3, st, yields_of_draws _ _ _ h1, pop, hp, num 6, hy, by decide +kernel⟩

/-! ### Equality that ignores fitness -/

/-- An individual with a fitness and a tag; `==` compares tags only. -/
structure Tagged where
  f : F64
  tag : Nat
deriving DecidableEq

instance : Individual Tagged where
  fitness x := x.f
  eq a b := a.tag == b.tag

instance : DefaultValid Tagged := ⟨fun _ => rfl⟩

/-- Mutation makes an individual of fitness 3 and tag 1. -/
def taggedOps : EvoOps Tagged Unit Empty where
  crossover _ a _ := pure a
  mutate _ _ := pure ⟨F64.lit 3, 1⟩
  evaluate _ a := pure a
  selectors := ⟨fun u => u.elim, fun u => u.elim, fun u => u.elim⟩

/-- With the default `breed`. -/
def taggedModel : EvoModel Tagged Unit Empty := { taggedOps with }

/-- **C53** (why `EqFitness` is needed) If `==` ignores fitness, removing duplicates can remove the elite: all other
hypotheses of C53 hold, there is one elite, and the best fitness falls from 5 to 3. -/
theorem C53_equality_counterexample :
    (⟨refSort, exEnv⟩ : Env Tagged).Lawful ∧ taggedModel.BreedsValid ∧ ValidNotNaN Tagged ∧ eliteCount 3 (F64.lit (1 / 2)) = 1 ∧
    ∃ (st : RunState Tagged (Ga Unit Empty) Unit),
      (evolvePopulation (ga taggedModel) (fun _ => ⟨refSort, exEnv⟩) (fun q p => pure (decide (p.generation < 1), q)) 10
        (Ga.ofModel ()) [⟨F64.lit 1, 0⟩, ⟨F64.lit 5, 1⟩]
        { smallParams with crossoverRate := F64.zero, mutationRate := F64.one } ()).yields (.ok (true, st)) ∧
      st.shown.map (fun p => p.stats.max) = [F64.lit 5, F64.lit 3] := by
  refine ⟨⟨refSort_lawful, exEnv_lawful⟩, breedsValid_default taggedModel rfl (fun u => u.elim) (fun u => u.elim), validNotNaN_default, by decide +kernel, ?_⟩
  obtain ⟨⟨b, st⟩, h1, h2⟩ := Res.of_okAnd (r := ((evolvePopulation (ga taggedModel) (fun _ => ⟨refSort, exEnv⟩)
      (fun (q : Unit) p => pure (decide (p.generation < 1), q)) 10 (Ga.ofModel ()) [⟨F64.lit 1, 0⟩, ⟨F64.lit 5, 1⟩]
        { smallParams with crossoverRate := F64.zero, mutationRate := F64.one } ()).exec drawList []).1)
    (Q := fun r => r.1 && decide (r.2.shown.map (fun p => p.stats.max) = [F64.lit 5, F64.lit 3]))
    (by decide +kernel)
  simp only [Bool.and_eq_true, decide_eq_true_eq] at h2
  obtain ⟨rfl, h2⟩ := h2
  exact ⟨st, yields_of_draws _ _ _ h1, h2⟩

end RG.Props
