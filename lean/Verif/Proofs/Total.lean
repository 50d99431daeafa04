import Verif.Props.Evolution

/-!
# Helper lemmas for C64: what keeps a run from panicking

The hypotheses of C64 say that the user's operators are total and keep a property `P` of individuals, that the parameters are valid,
that the selection strategy is `Linear` only with a safe bias, and that there are at least two individuals per generation.
-/

set_option linter.unusedSectionVars false

namespace RG.Props
open RG RG.Prog
variable {I : Type} [Individual I] {Mo U A P Q : Type}

/-- The operators are total on individuals with property `Pr` and keep it; `pre_generation` and `breed` are the defaults. -/
structure SafeOps (M : EvoModel I Mo U) (Pr : I → Prop) : Prop where
  crossover : ∀ m a b, Pr a → Pr b → Always Pr (M.crossover m a b)
  mutate : ∀ m a, Pr a → Always Pr (M.mutate m a)
  improve : ∀ m a, Pr a → Always Pr (M.improve m a)
  evaluate : ∀ m a, Pr a → Always Pr (M.evaluate m a)
  canSurvive : ∀ m a f p, Pr a → Pr f → Always (fun _ => True) (M.canSurvive m a f p)
  preGeneration : ∀ m p b, M.preGeneration m p b = pure (m, b)
  breed : M.breed = defaultBreed M.toEvoOps

theorem forall₂_mem_right {α β : Type} {R : α → β → Prop} {l : List α} {l' : List β} (h : List.Forall₂ R l l') :
    ∀ b ∈ l', ∃ a ∈ l, R a b := by
  induction h with
  | nil => simp
  | @cons u v us vs hu _ ih =>
    intro b hb
    rcases List.mem_cons.1 hb with rfl | hb
    · exact ⟨u, by simp, hu⟩
    · obtain ⟨a, ha, h⟩ := ih b hb
      exact ⟨a, by simp [ha], h⟩

/-- A built-in selector with a parameter its constructor accepts, `Linear` only with a safe bias. -/
def SafeSel (s : DynSel U) : Prop := ∃ sel, s = .builtin sel ∧ sel.InRange ∧ ∀ b, sel = .linear b → SafeBias b.bias

theorem safeSel_prepare {s : DynSel U} (h : SafeSel s) (env : NumEnv) (cs : CustomSelector I U) (p : Population I) :
    SafeSel (s.prepare env cs p) := by
  obtain ⟨sel, rfl, h1, h2⟩ := h
  cases sel with
  | linear b => exact ⟨_, rfl, h1, h2⟩
  | tournament s => exact ⟨_, rfl, h1, h2⟩
  | rouletteWheel s => exact ⟨_, rfl, trivial, by simp [Selector.prepare]⟩
  | boltzmann s => exact ⟨_, rfl, h1, by simp [Selector.prepare]⟩
  | rank => exact ⟨_, rfl, h1, h2⟩
  | elitist s => exact ⟨_, rfl, h1, h2⟩

/-- What a run needs to know about the algorithm besides `Standard`. -/
structure SafeAlgo (alg : EvoAlgo I Mo U A P) (okP : P → Prop) : Prop where
  configure : ∀ a p, okP p → ∃ a', alg.configure a p = .ok a' ∧ SafeSel (alg.repro a').1.parentSelector
  prepare : ∀ env a p, SafeSel (alg.repro a).1.parentSelector →
    Always (fun a' => SafeSel (alg.repro a').1.parentSelector) (alg.prepare env a p)

theorem createSelector_safe {U : Type} {s : SelectionStrategy} (h : s.Valid) (hl : ∀ b, s = .linear b → SafeBias b) {sel : Selector}
    (hs : s.createSelector = .ok sel) : SafeSel (.builtin sel : DynSel U) := by
  obtain ⟨sel', h1, h2⟩ := (createSelector_spec s).1 h
  rw [hs] at h1
  cases h1
  refine ⟨sel, rfl, h2, ?_⟩
  rintro b rfl
  cases s with
  | linear b' => cases hs; exact hl b' rfl
  | tournament n =>
    simp only [SelectionStrategy.createSelector] at hs
    cases hn : TournamentSelection.new n <;> rw [hn] at hs <;> cases hs
  | rouletteWheel => cases hs
  | rank => cases hs
  | boltzmann t c =>
    simp only [SelectionStrategy.createSelector] at hs
    cases hn : BoltzmannSelection.new t c <;> rw [hn] at hs <;> cases hs
  | elitist r =>
    simp only [SelectionStrategy.createSelector] at hs
    cases hn : ElitistSelection.new r <;> rw [hn] at hs <;> cases hs

theorem ga_safe {M : EvoModel I Mo U} {Pr : I → Prop} (hM : SafeOps M Pr) : SafeAlgo (ga M)
    (fun p => p.Valid ∧ p.selectionStrategy.Valid ∧ ∀ b, p.selectionStrategy = .linear b → SafeBias b) where
  configure a p h := by
    obtain ⟨a', h'⟩ := (C50_ga_configure a p).1 ⟨h.1, h.2.1⟩
    refine ⟨a', h', ?_⟩
    obtain ⟨sel, hsel, _⟩ := (createSelector_spec _).1 h.2.1
    obtain ⟨k, hk⟩ : ∃ k, interpolateUsize 0 p.populationSize p.elitismRate = .ok k := by
      unfold interpolateUsize usizeSub; rw [if_pos (Nat.zero_le _)]; exact ⟨_, rfl⟩
    unfold Ga.configure at h'
    rw [(C50_ga p).1 h.1, hk, hsel] at h'
    cases h'
    exact createSelector_safe h.2.1 h.2.2 hsel
  prepare env a p h := by
    show Always _ (Ga.prepare M env a p)
    unfold Ga.prepare
    rw [hM.preGeneration, always_bind, always_pure, always_pure]
    exact safeSel_prepare h env M.selectors p

theorem aga_safe {M : EvoModel I Mo U} {Pr : I → Prop} (hM : SafeOps M Pr) : SafeAlgo (aga M)
    (fun p => p.Valid ∧ p.selectionStrategy.Valid ∧ ∀ b, p.selectionStrategy = .linear b → SafeBias b) where
  configure a p h := by
    obtain ⟨a', h'⟩ := (C50_aga_configure a p).1 ⟨h.1, h.2.1⟩
    refine ⟨a', h', ?_⟩
    obtain ⟨sel, hsel, _⟩ := (createSelector_spec _).1 h.2.1
    obtain ⟨k, hk⟩ : ∃ k, interpolateUsize 0 p.populationSize p.elitismRate = .ok k := by
      unfold interpolateUsize usizeSub; rw [if_pos (Nat.zero_le _)]; exact ⟨_, rfl⟩
    unfold Aga.configure at h'
    rw [(C50_aga p).1 h.1, hk, hsel] at h'
    cases h'
    exact createSelector_safe h.2.1 h.2.2 hsel
  prepare env a p h := by
    show Always _ (Aga.prepare M env a p)
    unfold Aga.prepare
    simp only
    rw [hM.preGeneration, always_bind, always_pure, always_pure]
    refine safeSel_prepare ?_ env M.selectors p
    show SafeSel (a.adjust p.generation p.stats.std).breeding.parentSelector
    unfold Aga.adjust
    split
    · exact h
    · split <;> exact h

section
variable {M : EvoModel I Mo U} {alg : EvoAlgo I Mo U A P} {elite size : A → Nat} {eliteOf : P → Nat} {okP : P → Prop}
  {Pr : I → Prop}

/-- Breeding is total. -/
theorem breed_always (hM : SafeOps M Pr) (env : NumEnv) (m : Mo) (p : Population I) (r : ReproParams U)
    (hp : p.individuals ≠ []) (hn : p.individuals.length < 2 ^ 32) (hP : ∀ x ∈ p.individuals, Pr x)
    (hs : SafeSel r.parentSelector) : Always Pr (M.breed env m p r) := by
  obtain ⟨sel, hsel, h1, h2⟩ := hs
  have hmem : Always (IsMember p) (sel.select env p) :=
    C38_member env p hp (hn.le.trans (by norm_num)) sel h1 h2 fun _ => hn
  have him : ∀ x, IsMember p x → Pr x.2 := fun x hx => hP _ (List.mem_of_getElem? hx.2)
  rw [hM.breed]
  refine defaultBreed_always Pr M.toEvoOps env m p r ?_ ?_ (hM.crossover m) (hM.mutate m) (hM.improve m) (hM.evaluate m)
    fun a f => hM.canSurvive m a f p
  · rw [hsel]; exact hmem.mono him
  · intro ex _
    rw [hsel]
    exact (C45_distinct p _ hmem ex 3).mono fun o ho c hc => him c (ho c hc).1

/-- The states that occur at the calls of `progress`. -/
structure Safe (alg : EvoAlgo I Mo U A P) (elite size : A → Nat) (Pr : I → Prop) (st : RunState I A Q) : Prop where
  wf : st.population.WF
  len : st.population.individuals.length < 2 ^ 32
  prop : ∀ x ∈ st.population.individuals, Pr x
  sel : SafeSel (alg.repro st.algo).1.parentSelector
  two : 2 ≤ size st.algo
  sizeLt : size st.algo < 2 ^ 32
  eliteLe : elite st.algo ≤ size st.algo
  shown : ∀ pop ∈ st.shown, ∀ x ∈ pop.individuals, Pr x

theorem step_always (hstd : Standard M alg elite size eliteOf) (halg : SafeAlgo alg okP) (hM : SafeOps M Pr) (env : Env I)
    (henv : env.Lawful) (st : RunState I A Q) (hs : Safe alg elite size Pr st) :
    Always (Safe alg elite size Pr) (generationStep alg env st) := by
  have htot : Always (fun _ => True) (generationStep alg env st) := by
    unfold generationStep
    rw [always_bind]
    refine ((halg.prepare env.num st.algo st.population hs.sel).and
      (hstd.prepare env.num st.algo st.population)).mono fun a ⟨hsel, he, hz⟩ => ?_
    rw [hstd.elites]
    simp only [lift_ok, bind_pure_left]
    rw [hstd.generate, always_bind]
    have hb := breed_always hM env.num (alg.model a) st.population (alg.repro a).1 hs.wf.ne hs.len hs.prop hsel
    have hel : (takeElites (elite a) st.population []).length ≤ elite a := by
      rw [takeElites_eq]; simp only [List.nil_append, List.length_drop]; omega
    have hgen : Always (fun l => l ≠ []) (defaultGenerate M env.num (alg.model a) (alg.repro a) st.population
        (takeElites (elite a) st.population [])) := by
      have hn2 : (alg.repro a).2 = size st.algo := by rw [hstd.bred, hz]
      have h2 := hs.two
      unfold defaultGenerate
      simp only [hn2]
      rcases hk : size st.algo - (takeElites (elite a) st.population []).length with _ | _ | k
      · simp only [always_pure]
        rintro h
        rw [h] at hk; simp at hk; omega
      · simp only [always_bind, always_pure]
        refine hb.mono fun _ _ h => ?_
        rw [h] at hk; simp at hk; omega
      · simp only [always_bind, always_pure]
        refine (always_replicate _ _ hb _).mono fun new hnew h => ?_
        have := congrArg List.length h
        simp [hnew.1] at this
    refine hgen.mono fun buf hbuf => ?_
    rw [hstd.replace]
    unfold defaultReplace
    rw [Population.replace_eq henv.sort, if_neg hbuf]
    simp
  refine (htot.and fun st' h => ?_).mono fun _ h => h.2
  obtain ⟨a, el, buf, pop, old, g1, g2, g3, g4, e⟩ := (yields_generationStep alg env st st').1 h
  have hf := hstd.step henv h
  obtain ⟨new, m1, m2, m3⟩ := hf.made
  have hsel : SafeSel (alg.repro st'.algo).1.parentSelector := by
    rw [e]
    exact (halg.prepare env.num st.algo st.population hs.sel).partially a g1
  have hb := breed_always hM env.num (alg.model st'.algo) st.population (alg.repro st'.algo).1 hs.wf.ne hs.len hs.prop hsel
  refine ⟨hf.wf, ?_, fun x hx => ?_, hsel, by rw [hf.sizeEq]; exact hs.two, by rw [hf.sizeEq]; exact hs.sizeLt,
    by rw [hf.sizeEq, hf.eliteEq]; exact hs.eliteLe, by rw [hf.shown]; exact hs.shown⟩
  · rw [m1]
    exact ((length_dedup_sort henv.sort _).trans (m3 hs.eliteLe)).trans_lt hs.sizeLt
  · rw [m1] at hx
    rcases List.mem_append.1 (mem_dedup_sort henv.sort hx) with hx | hx
    · exact hs.prop x (List.mem_of_mem_drop hx)
    · exact hb.partially x (m2 x hx)

theorem loop_always (hstd : Standard M alg elite size eliteOf) (halg : SafeAlgo alg okP) (hM : SafeOps M Pr)
    (envs : Nat → Env I) (henv : ∀ t, (envs t).Lawful) (progress : Q → Population I → Prog (Bool × Q))
    (hpr : ∀ q p, p.WF → Always (fun _ => True) (progress q p)) (fuel t : Nat) (st : RunState I A Q)
    (hs : Safe alg elite size Pr st) :
    Always (fun r => Safe alg elite size Pr r.2) (evolveLoop alg envs progress fuel t st) := by
  induction fuel generalizing t st with
  | zero => simpa [evolveLoop] using hs
  | succ fuel ih =>
    rw [evolveLoop, always_bind]
    refine (hpr _ _ hs.wf).mono fun ⟨b, q⟩ _ => ?_
    have hs' : Safe alg elite size Pr { st with q, shown := st.shown ++ [st.population] } :=
      ⟨hs.wf, hs.len, hs.prop, hs.sel, hs.two, hs.sizeLt, hs.eliteLe, fun pop hp => by
        rcases List.mem_append.1 hp with hp | hp
        · exact hs.shown pop hp
        · rw [List.mem_singleton.1 hp]; exact hs.prop⟩
    cases b with
    | false => simpa using hs'
    | true =>
      simp only [if_true]
      rw [always_bind]
      exact (step_always hstd halg hM (envs t) (henv t) _ hs').mono fun st1 h1 => ih (t + 1) st1 h1

/-- The initial population exists. -/
theorem init_always (hM : SafeOps M Pr) (env : Env I) (henv : env.Lawful) (model : Mo) (init : List I)
    (hinit : ∀ x ∈ init, Pr x) (hvalid : ∃ x ∈ init, Always (fun e => isValid e = true) (M.evaluate model x)) :
    Always (fun pop : Population I => pop.WF ∧ pop.individuals.length ≤ init.length ∧ ∀ x ∈ pop.individuals, Pr x)
      (defaultInitialize M env model init) := by
  have hev := always_mapList Pr Pr (M.evaluate model) (fun x hx => hM.evaluate _ x hx) init hinit
  intro r hr
  unfold defaultInitialize at hr
  rw [yields_bind] at hr
  rcases hr with ⟨ev, g1, g2⟩ | ⟨g1, -⟩ | ⟨g1, -⟩
  · obtain ⟨x, hx, hxv⟩ := hvalid
    have hne : ev.filter isValid ≠ [] := by
      have hf := (yields_mapList _ _ _).1 g1
      obtain ⟨e, he, hxe⟩ : ∃ e ∈ ev, (M.evaluate model x).yields (.ok e) := by
        clear g1 g2 hinit hev
        induction hf with
        | nil => cases hx
        | @cons u v us vs hu _ ih =>
          rcases List.mem_cons.1 hx with rfl | hx
          · exact ⟨v, by simp, hu⟩
          · obtain ⟨e, he, h⟩ := ih hx
            exact ⟨e, by simp [he], h⟩
      exact List.ne_nil_of_mem (List.mem_filter.2 ⟨he, hxv.partially e hxe⟩)
    have hr := (yields_lift _ _).1 g2
    rw [Population.new_eq henv.sort, if_neg hne] at hr
    refine ⟨_, hr, ?_⟩
    obtain ⟨w, -⟩ := Population.wf_new henv.sort (show Population.new env.sort (ev.filter isValid) = .ok _ by
      rw [Population.new_eq henv.sort, if_neg hne])
    obtain ⟨b1, b2⟩ := hev.partially ev g1
    refine ⟨w, ?_, fun y hy => b2 y (List.mem_filter.1 (mem_dedup_sort henv.sort hy)).1⟩
    rw [← b1]
    exact (length_dedup_sort henv.sort _).trans (List.length_filter_le _ _)
  · exact absurd g1 hev.not_panic
  · exact absurd g1 hev.not_diverge

theorem takeResult_always (Pr : I → Prop) (r : Bool × RunState I A Q) (hw : r.2.population.WF)
    (hP : ∀ x ∈ r.2.population.individuals, Pr x) :
    Always (fun o => o.2 = r.2 ∧ (o.1 = none ↔ r.1 = false) ∧ ∀ x, o.1 = some x → Pr x) (takeResult r) := by
  obtain ⟨h1, h2⟩ := hw.fittest_ok
  unfold takeResult
  obtain ⟨b, st⟩ := r
  cases b with
  | false => simp
  | true =>
    simp only [if_true]
    rw [h2, h1, lift_ok, bind_pure_left, always_pure]
    refine ⟨rfl, by simp, ?_⟩
    rintro x h
    cases h
    exact hP _ (List.getElem_mem _)

end
end RG.Props
