import Verif.SpecAlgorithm
import Verif.Props.Algorithm

/-! # Helper lemmas about runs -/

set_option linter.unusedSectionVars false

namespace RG
open Prog
variable {I : Type} [Individual I] {Mo U A P Q : Type}

theorem F64.le_of_feq {a b : F64} (h : a.feq b = true) : a.le b = true := by
  obtain ⟨h1, h2, h3⟩ := F64.feq_iff.1 h
  exact F64.le_iff.2 ⟨h1, h2, h3.le⟩

/-! ### The built-in algorithms are standard -/

theorem ga_standard (M : EvoModel I Mo U) : Standard M (ga M) Ga.eliteSize Ga.populationSize
    (fun p => eliteCount p.populationSize p.elitismRate) where
  init _ _ _ := rfl
  elites _ _ _ := rfl
  generate _ _ _ _ := rfl
  replace _ _ _ _ := rfl
  bred _ := rfl
  prepare env a p a' h := by
    change (Ga.prepare M env a p).yields (.ok a') at h
    unfold Ga.prepare at h
    rw [yields_bind_ok] at h
    obtain ⟨x, _, h⟩ := h
    cases h
    exact ⟨rfl, rfl⟩
  configure a p a' h hn := by
    obtain ⟨h1, h2, h3, h4, _⟩ := Props.C51_ga_configure a a' p hn h
    exact ⟨h4, h3, h1, by unfold eliteCount; rw [← h1]; exact lt_of_lt_of_eq h2 h3⟩

theorem Aga.adjust_sizes (a : Aga Mo U) (g : Nat) (std : F64) :
    (a.adjust g std).eliteSize = a.eliteSize ∧ (a.adjust g std).populationSize = a.populationSize ∧
      (a.adjust g std).model = a.model := by
  unfold Aga.adjust
  split
  · exact ⟨rfl, rfl, rfl⟩
  · split <;> exact ⟨rfl, rfl, rfl⟩

theorem aga_standard (M : EvoModel I Mo U) : Standard M (aga M) Aga.eliteSize Aga.populationSize
    (fun p => eliteCount p.populationSize p.elitismRate) where
  init _ _ _ := rfl
  elites _ _ _ := rfl
  generate _ _ _ _ := rfl
  replace _ _ _ _ := rfl
  bred _ := rfl
  prepare env a p a' h := by
    obtain ⟨m, b, _, rfl⟩ := (Props.C57_prepare M env a a' p).1.1 h
    exact ⟨(a.adjust_sizes _ _).1, (a.adjust_sizes _ _).2.1⟩
  configure a p a' h hn := by
    obtain ⟨h1, h2, h3, h4, _⟩ := Props.C51_aga_configure a a' p hn h
    exact ⟨h4, h3, h1, by unfold eliteCount; rw [← h1]; exact lt_of_lt_of_eq h2 h3⟩

/-! ### One generation -/

theorem yields_generationStep (alg : EvoAlgo I Mo U A P) (env : Env I) (st st' : RunState I A Q) :
    (generationStep alg env st).yields (.ok st') ↔ ∃ a el buf pop old, (alg.prepare env.num st.algo st.population).yields (.ok a) ∧
      alg.selectElites a st.population [] = .ok el ∧ (alg.generate env.num a st.population el).yields (.ok buf) ∧
      alg.replace env a st.population buf = .ok (pop, old) ∧
      st' = { st with algo := a, population := pop, buffer := old } := by
  unfold generationStep
  simp only [yields_bind_ok, yields_lift]
  constructor
  · rintro ⟨a, h1, el, h2, buf, h3, ⟨pop, old⟩, h4, h5⟩
    simp only [yields_pure, Res.ok.injEq] at h5
    exact ⟨a, el, buf, pop, old, h1, h2.symm, h3, h4.symm, h5⟩
  · rintro ⟨a, el, buf, pop, old, h1, h2, h3, h4, h5⟩
    exact ⟨a, h1, el, h2.symm, buf, h3, (pop, old), h4.symm, by simp only [yields_pure, Res.ok.injEq]; exact h5⟩

theorem takeElites_eq (e : Nat) (p : Population I) (l : List I) :
    takeElites e p l = l ++ p.individuals.drop (p.individuals.length - e) := by
  unfold takeElites
  by_cases h : e = 0
  · subst h; simp
  · rw [if_pos h]; rfl

/-- Facts about one generation of a standard algorithm. -/
structure StepFacts (M : EvoModel I Mo U) (alg : EvoAlgo I Mo U A P) (elite size : A → Nat) (env : Env I)
    (st st' : RunState I A Q) : Prop where
  wf : st'.population.WF
  generation : st'.population.generation = st.population.generation + 1
  eliteEq : elite st'.algo = elite st.algo
  sizeEq : size st'.algo = size st.algo
  q : st'.q = st.q
  shown : st'.shown = st.shown
  buffer : st'.buffer = st.population.individuals
  stagnation : st'.population.stagnation =
    if st.population.stats.max.lt st'.population.stats.max then 0 else st.population.stagnation + 1
  made : ∃ new, st'.population.individuals =
      dedup (env.sort (st.population.individuals.drop (st.population.individuals.length - elite st.algo) ++ new)) ∧
    (∀ c ∈ new, (M.breed env.num (alg.model st'.algo) st.population (alg.repro st'.algo).1).yields (.ok c)) ∧
    (elite st.algo ≤ size st.algo →
      (st.population.individuals.drop (st.population.individuals.length - elite st.algo) ++ new).length ≤ size st.algo)

theorem Standard.step {M : EvoModel I Mo U} {alg : EvoAlgo I Mo U A P} {elite size : A → Nat} {eliteOf : P → Nat}
    (hstd : Standard M alg elite size eliteOf) {env : Env I} (henv : env.Lawful) {st st' : RunState I A Q}
    (h : (generationStep alg env st).yields (.ok st')) : StepFacts M alg elite size env st st' := by
  obtain ⟨a, el, buf, pop, old, h1, h2, h3, h4, rfl⟩ := (yields_generationStep alg env st st').1 h
  rw [hstd.elites, takeElites_eq] at h2
  cases h2
  rw [hstd.generate] at h3
  rw [hstd.replace] at h4
  obtain ⟨e1, e2⟩ := hstd.prepare _ _ _ _ h1
  obtain ⟨w1, w2, w3, w4, w5, w6⟩ := Population.wf_replace henv.sort h4
  obtain ⟨r, n, hr⟩ : ∃ r n, alg.repro a = (r, n) := ⟨_, _, rfl⟩
  have hn : n = size a := by rw [← hstd.bred a, hr]
  refine ⟨w1, w4, e1, e2, rfl, rfl, w6, w5, ?_⟩
  simp only [List.nil_append] at h3
  rw [hr] at h3
  simp only [hr]
  rw [e1] at h3
  have hl : (st.population.individuals.drop (st.population.individuals.length - elite st.algo)).length ≤ elite st.algo := by
    rw [List.length_drop]; omega
  rcases (Props.C52_generate M env.num _ r n _ _ _).1 h3 with ⟨h, rfl⟩ | ⟨h, rfl, _⟩ | ⟨h, new, rfl, hlen, hb⟩
  · exact ⟨[], by simpa using w3, by simp, fun hle => by simp only [List.append_nil]; omega⟩
  · exact ⟨[], by simpa using w3, by simp, fun hle => by simp only [List.append_nil]; omega⟩
  · exact ⟨new, w3, hb, fun _ => by rw [← e2, hlen, hn]⟩

/-! ### The loop -/

theorem yields_evolveLoop_succ (alg : EvoAlgo I Mo U A P) (envs : Nat → Env I) (progress : Q → Population I → Prog (Bool × Q))
    (fuel t : Nat) (st : RunState I A Q) (r : Bool × RunState I A Q) :
    (evolveLoop alg envs progress (fuel + 1) t st).yields (.ok r) ↔
      (∃ q, (progress st.q st.population).yields (.ok (false, q)) ∧
        r = (true, { st with q, shown := st.shown ++ [st.population] })) ∨
      ∃ q st1, (progress st.q st.population).yields (.ok (true, q)) ∧
        (generationStep alg (envs t) { st with q, shown := st.shown ++ [st.population] }).yields (.ok st1) ∧
        (evolveLoop alg envs progress fuel (t + 1) st1).yields (.ok r) := by
  rw [evolveLoop, yields_bind_ok]
  constructor
  · rintro ⟨⟨b, q⟩, h1, h2⟩
    cases b
    · simp only [Bool.false_eq_true, if_false, yields_pure, Res.ok.injEq] at h2
      exact Or.inl ⟨q, h1, h2⟩
    · simp only [if_true, yields_bind_ok] at h2
      obtain ⟨st1, h2, h3⟩ := h2
      exact Or.inr ⟨q, st1, h1, h2, h3⟩
  · rintro (⟨q, h1, rfl⟩ | ⟨q, st1, h1, h2, h3⟩)
    · exact ⟨(false, q), h1, by simp⟩
    · exact ⟨(true, q), h1, by simp only [if_true, yields_bind_ok]; exact ⟨st1, h2, h3⟩⟩

/-- An invariant of the states at the calls of `progress`, with a relation between consecutive populations. -/
theorem evolveLoop_invariant (alg : EvoAlgo I Mo U A P) (envs : Nat → Env I) (progress : Q → Population I → Prog (Bool × Q))
    (Inv : A → Population I → Prop) (R : Population I → Population I → Prop)
    (hstep : ∀ t (st st' : RunState I A Q), 1 ≤ t → Inv st.algo st.population →
      (generationStep alg (envs t) st).yields (.ok st') →
      Inv st'.algo st'.population ∧ R st.population st'.population ∧ st'.q = st.q ∧ st'.shown = st.shown)
    (fuel t : Nat) (ht : 1 ≤ t) (st : RunState I A Q) (hst : Inv st.algo st.population) (fin : Bool) (st' : RunState I A Q)
    (h : (evolveLoop alg envs progress fuel t st).yields (.ok (fin, st'))) :
    ∃ new, st'.shown = st.shown ++ new ∧ (new ++ [st'.population]).IsChain (fun p p' => R p p' ∨ p = p') ∧
      (new ++ [st'.population]).head? = some st.population ∧
      (∀ p ∈ new, ∃ a, Inv a p) ∧ Inv st'.algo st'.population ∧
      (fin = true → ∃ pre, new = pre ++ [st'.population] ∧ new.IsChain R) ∧
      (fin = false → new.length = fuel ∧ (new ++ [st'.population]).IsChain R) := by
  induction fuel generalizing t st with
  | zero =>
    cases h
    exact ⟨[], by simp, by simp, by simp, by simp, hst, by simp, by simp⟩
  | succ fuel ih =>
    rcases (yields_evolveLoop_succ _ _ _ _ _ _ _).1 h with ⟨q, h1, h2⟩ | ⟨q, st1, h1, h2, h3⟩
    · cases h2
      exact ⟨[st.population], rfl, by simp, by simp, by simpa using ⟨_, hst⟩, hst, fun _ => ⟨[], by simp, by simp⟩, by simp⟩
    · obtain ⟨i1, i2, i3, i4⟩ :=
        hstep t { st with q, shown := st.shown ++ [st.population] } st1 ht hst h2
      obtain ⟨new, n1, n2, n3, n4, n5, n6, n7⟩ := ih (t + 1) (by omega) st1 i1 h3
      have hc : ∀ (S : Population I → Population I → Prop) (l : List (Population I)), l.head? = some st1.population →
          S st.population st1.population → l.IsChain S → (st.population :: l).IsChain S := by
        intro S l hl hs hch
        cases l with
        | nil => cases hl
        | cons x xs => cases hl; exact .cons_cons hs hch
      refine ⟨st.population :: new, by rw [n1, i4]; simp, ?_, by simp, ?_, n5, fun hf => ?_, fun hf => ?_⟩
      · exact hc _ _ n3 (Or.inl i2) n2
      · intro p hp
        rcases List.mem_cons.1 hp with rfl | hp
        · exact ⟨_, hst⟩
        · exact n4 p hp
      · obtain ⟨pre, rfl, hch⟩ := n6 hf
        refine ⟨st.population :: pre, by simp, hc _ _ ?_ i2 hch⟩
        simpa using n3
      · obtain ⟨hl, hch⟩ := n7 hf
        exact ⟨by simp [hl], hc _ _ n3 i2 hch⟩

theorem yields_evolvePopulation (alg : EvoAlgo I Mo U A P) (envs : Nat → Env I) (progress : Q → Population I → Prog (Bool × Q))
    (fuel : Nat) (a : A) (init : List I) (p : P) (q : Q) (r : Bool × RunState I A Q) :
    (evolvePopulation alg envs progress fuel a init p q).yields (.ok r) ↔
      ∃ a' pop, alg.configure a p = .ok a' ∧ (alg.initPopulation (envs 0) a' init).yields (.ok pop) ∧
        (evolveLoop alg envs progress fuel 1 { algo := a', population := pop, buffer := [], q, shown := [] }).yields (.ok r) := by
  unfold evolvePopulation
  simp only [yields_bind_ok, yields_lift]
  constructor
  · rintro ⟨a', h1, pop, h2, h3⟩; exact ⟨a', pop, h1.symm, h2, h3⟩
  · rintro ⟨a', pop, h1, h2, h3⟩; exact ⟨a', h1.symm, pop, h2, h3⟩

theorem yields_takeResult (r : Bool × RunState I A Q) (o : Option I) (st : RunState I A Q) :
    (takeResult r).yields (.ok (o, st)) ↔ st = r.2 ∧
      ((r.1 = true ∧ ∃ x, r.2.population.takeFittest = .ok x ∧ o = some x) ∨ (r.1 = false ∧ o = none)) := by
  obtain ⟨b, s⟩ := r
  unfold takeResult
  cases b
  · simp only [Bool.false_eq_true, if_false, yields_pure, Res.ok.injEq, Prod.mk.injEq, false_and, false_or, true_and]
    exact and_comm
  · simp only [if_true, yields_bind_ok, yields_lift, yields_pure, Res.ok.injEq, Prod.mk.injEq, true_and, Bool.true_eq_false,
      false_and, or_false]
    constructor
    · rintro ⟨x, h1, rfl, rfl⟩; exact ⟨rfl, x, h1.symm, rfl⟩
    · rintro ⟨rfl, x, h1, rfl⟩; exact ⟨x, h1.symm, rfl, rfl⟩

/-! ### Monotonicity in the number of calls -/

theorem evolveLoop_more (alg : EvoAlgo I Mo U A P) (envs : Nat → Env I) (progress : Q → Population I → Prog (Bool × Q))
    (fuel k t : Nat) (st st' : RunState I A Q) (h : (evolveLoop alg envs progress fuel t st).yields (.ok (true, st'))) :
    (evolveLoop alg envs progress (fuel + k) t st).yields (.ok (true, st')) := by
  induction fuel generalizing t st with
  | zero => cases h
  | succ fuel ih =>
    rw [Nat.succ_add_eq_add_succ, Nat.add_succ, yields_evolveLoop_succ]
    rcases (yields_evolveLoop_succ _ _ _ _ _ _ _).1 h with h | ⟨q, st1, h1, h2, h3⟩
    · exact Or.inl h
    · exact Or.inr ⟨q, st1, h1, h2, ih _ _ h3⟩

/-! ### Invariants of runs -/

section runs
variable {M : EvoModel I Mo U} {alg : EvoAlgo I Mo U A P} {elite size : A → Nat} {eliteOf : P → Nat}

/-- The individuals are valid, in ascending order, and the statistics are theirs. -/
structure GoodPop (p : Population I) : Prop where
  wf : p.WF
  valid : ∀ x ∈ p.individuals, isValid x = true
  sorted : p.individuals.Pairwise fun a b => (fitness a).le (fitness b) = true

theorem mem_dedup_sort {sort : List I → List I} (hs : LawfulSort sort) {l : List I} {x : I} (h : x ∈ dedup (sort l)) : x ∈ l :=
  (hs.perm l).mem_iff.1 ((dedup_sublist _).subset h)

theorem length_dedup_sort {sort : List I → List I} (hs : LawfulSort sort) (l : List I) :
    (dedup (sort l)).length ≤ l.length :=
  ((dedup_sublist _).length_le).trans (hs.perm l).length_eq.le

theorem init_wf {env : Env I} (henv : env.Lawful) {model : Mo} {l : List I} {p : Population I}
    (h : (defaultInitialize M env model l).yields (.ok p)) :
    p.WF ∧ p.generation = 0 ∧ p.stagnation = 0 ∧ p.individuals.length ≤ l.length ∧ (∀ x ∈ p.individuals, isValid x = true) ∧
      (ValidNotNaN I → GoodPop p) := by
  unfold defaultInitialize at h
  simp only [yields_bind_ok, yields_mapList, yields_lift] at h
  obtain ⟨ev, h1, h2⟩ := h
  obtain ⟨w, -, h3, h4, h5⟩ := Population.wf_new henv.sort h2.symm
  have hval : ∀ x ∈ p.individuals, isValid x = true := fun x hx => by
    rw [h3] at hx; exact (List.mem_filter.1 (mem_dedup_sort henv.sort hx)).2
  refine ⟨w, h4, h5, ?_, hval, fun hv => ⟨w, hval, ?_⟩⟩
  · rw [h3, h1.length_eq]
    exact (length_dedup_sort henv.sort _).trans (List.length_filter_le _ _)
  · rw [h3]
    exact (henv.sort.sorted_le _ fun i hi => hv i (List.mem_filter.1 hi).2).sublist (dedup_sublist _)

theorem StepFacts.valid {env : Env I} (henv : env.Lawful) (hb : M.BreedsValid) {st st' : RunState I A Q}
    (hs : StepFacts M alg elite size env st st') (h : ∀ x ∈ st.population.individuals, isValid x = true) :
    ∀ x ∈ st'.population.individuals, isValid x = true := by
  intro x hx
  obtain ⟨new, h1, h2, -⟩ := hs.made
  rw [h1] at hx
  rcases List.mem_append.1 (mem_dedup_sort henv.sort hx) with hx | hx
  · exact h x (List.mem_of_mem_drop hx)
  · exact hb _ _ _ _ _ h (h2 x hx)

theorem StepFacts.good {env : Env I} (henv : env.Lawful) (hb : M.BreedsValid) (hv : ValidNotNaN I) {st st' : RunState I A Q}
    (hs : StepFacts M alg elite size env st st') (h : GoodPop st.population) : GoodPop st'.population := by
  refine ⟨hs.wf, hs.valid henv hb h.valid, ?_⟩
  obtain ⟨new, h1, h2, -⟩ := hs.made
  rw [h1]
  refine (henv.sort.sorted_le _ fun i hi => hv i ?_).sublist (dedup_sublist _)
  rcases List.mem_append.1 hi with hx | hx
  · exact h.valid i (List.mem_of_mem_drop hx)
  · exact hb _ _ _ _ _ h.valid (h2 i hx)

/-- In a good population some individual is at least as fit as every other and has the maximal fitness of the statistics. -/
theorem GoodPop.best (hv : ValidNotNaN I) {p : Population I} (h : GoodPop p) :
    ∃ x ∈ p.individuals, p.fittest = .ok x ∧ fitness x = p.stats.max ∧
      ∀ y ∈ p.individuals, (fitness y).le (fitness x) = true :=
  h.wf.fittest_spec fun i hi => hv i (h.valid i hi)

theorem StepFacts.best {env : Env I} (henv : env.Lawful) (hb : M.BreedsValid) (hv : ValidNotNaN I) (he : EqFitness I)
    {st st' : RunState I A Q} (hs : StepFacts M alg elite size env st st') (h : GoodPop st.population)
    (hel : 1 ≤ elite st.algo) : st.population.stats.max.le st'.population.stats.max = true := by
  obtain ⟨x, hx, -, hmax, hbest⟩ := h.best hv
  obtain ⟨x', -, -, hmax', hbest'⟩ := (hs.good henv hb hv h).best hv
  rw [← hmax, ← hmax']
  -- the last individual is an elite, and as fit as any
  have hne := h.wf.ne
  have hlast : (fitness x).le (fitness (st.population.individuals.getLast hne)) = true := by
    have hp := h.sorted
    have hx' := hx
    rw [← List.dropLast_append_getLast hne] at hp hx'
    rcases List.mem_append.1 hx' with hx' | hx'
    · exact (List.pairwise_append.1 hp).2.2 x hx' _ (by simp)
    · rw [← List.mem_singleton.1 hx']
      exact hbest x hx
  have hmem : st.population.individuals.getLast hne ∈
      st.population.individuals.drop (st.population.individuals.length - elite st.algo) := by
    have hl : 0 < st.population.individuals.length := List.length_pos_iff.2 hne
    rw [List.getLast_eq_getElem]
    refine List.mem_drop_iff_getElem.2 ⟨st.population.individuals.length - 1 -
      (st.population.individuals.length - elite st.algo), by omega, ?_⟩
    congr 1
    omega
  obtain ⟨new, h1, -, -⟩ := hs.made
  rcases dedup_covers _ _ ((henv.sort.perm _).mem_iff.2 (List.mem_append_left new hmem)) with hy | ⟨y, hy, heq⟩
  · exact F64.le_trans hlast (hbest' _ (h1 ▸ hy))
  · exact F64.le_trans (F64.le_trans hlast (F64.le_of_feq (he _ _ heq))) (hbest' _ (h1 ▸ hy))

end runs

end RG
