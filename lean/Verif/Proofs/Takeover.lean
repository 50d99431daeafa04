import Verif.Props.Ladder
import Verif.Props.Loci

/-!
# Helper lemmas for C112: runs without crossover and mutation
-/

set_option linter.unusedSectionVars false

namespace RG.Props
open RG RG.Prog
variable {I : Type} [Individual I] {Mo U A P Q B : Type}

/-- The individuals of the population have at most `k` different genes. -/
def FewGenes (gen : I → B) (k : Nat) (pop : Population I) : Prop := ∃ l : List B, l.length ≤ k ∧ ∀ x ∈ pop.individuals, gen x ∈ l

theorem FewGenes.copies {gen : I → B} {k : Nat} {pop pop' : Population I} (h : FewGenes gen k pop)
    (h' : ∀ x ∈ pop'.individuals, Copies gen pop.individuals x) : FewGenes gen k pop' := by
  obtain ⟨l, h1, h2⟩ := h
  refine ⟨l, h1, fun x hx => ?_⟩
  obtain ⟨y, hy, e⟩ := h' x hx
  rw [e]; exact h2 y hy

/-- Strategies that select the last individual, a fittest one, with probability at least `1 / n`, by C69. -/
def LastSelecting (s : SelectionStrategy) : Prop :=
  (∃ k, s = .tournament k ∧ k ≠ 0) ∨ s = .rank ∨
    (∃ r, s = .elitist r ∧ r.isFinite = true ∧ 0 ≤ r.val ∧ r.val < 1) ∨ ∃ b, s = .linear b ∧ GoodBias b

theorem LastSelecting.select {s : SelectionStrategy} (hs : LastSelecting s) {sel : Selector} (h : OfStrategy (I := I) s sel)
    (env : NumEnv) (pop : Population I) (hne : pop.individuals ≠ []) (hn : pop.individuals.length < 2 ^ 32) :
    1 / (pop.individuals.length : ℚ) ≤
      ((sel.prepare env pop).select env pop).prob (fun r => r.1 + 1 = pop.individuals.length) := by
  obtain ⟨s0, h0, l, rfl⟩ := h
  have hkind : ∀ env (pop : Population I), s0.prepare env pop = s0 ∧ ((∃ t, s0 = .tournament t ∧ t.size ≠ 0) ∨ s0 = .rank ∨
      (∃ e, s0 = .elitist e ∧ e.ratio.isFinite = true ∧ 0 ≤ e.ratio.val ∧ e.ratio.val < 1) ∨ ∃ l, s0 = .linear l ∧ GoodBias l.bias) := by
    intro env pop
    rcases hs with ⟨k, rfl, hk⟩ | rfl | ⟨r, rfl, hr⟩ | ⟨b, rfl, hb⟩
    · have h0 : (TournamentSelection.new k >>= fun t => pure (Selector.tournament t)) = Res.ok s0 := h0
      rw [(C46_tournament ⟨1⟩ k).1, if_neg hk] at h0
      cases h0
      exact ⟨rfl, Or.inl ⟨_, rfl, hk⟩⟩
    · cases h0
      exact ⟨rfl, Or.inr (Or.inl rfl)⟩
    · have h0 : (ElitistSelection.new r >>= fun t => pure (Selector.elitist t)) = Res.ok s0 := h0
      rw [((C46_elitist ⟨r⟩ r).1 hr).1] at h0
      cases h0
      exact ⟨rfl, Or.inr (Or.inr (Or.inl ⟨_, rfl, hr⟩))⟩
    · cases h0
      exact ⟨rfl, Or.inr (Or.inr (Or.inr ⟨_, rfl, hb⟩))⟩
  have hfold : ∀ l : List (NumEnv × Population I), l.foldl (fun s ep => s.prepare ep.1 ep.2) s0 = s0 := by
    intro l
    induction l with
    | nil => rfl
    | cons ep l ih => rw [List.foldl_cons, (hkind _ _).1, ih]
  rw [hfold, (hkind env pop).1]
  exact C69_selects_last env s0 (hkind env pop).2 pop hne hn

/-- A rate that is not positive never fires. -/
theorem never_fires {r : F64} (h : F64.zero.lt r = false) : Always (fun u => u.lt r = false) genF64 := by
  have ht : Always (fun _ => True) genF64 := by
    unfold genF64
    rw [always_bind, always_uniform]
    exact ⟨by norm_num, fun i _ => by simp⟩
  refine ht.mono' fun u hu _ => ?_
  cases hc : u.lt r
  · rfl
  · have := canFire_iff_pos.1 (canFire_iff.2 ⟨u, hu, hc⟩)
    rw [h] at this; cases this

/-- Without crossover and mutation the child has the genes of the last individual at least as often as that is selected. -/
theorem breed_last {M : EvoModel I Mo U} {Pr : I → Prop} {gen : I → B} [DecidableEq B] (hM : SafeOps M Pr) (hk : KeepsGenes M gen)
    (env : NumEnv) (model : Mo) (pop : Population I) (hP : ∀ x ∈ pop.individuals, Pr x) (r : ReproParams U) (sel : Selector)
    (hsel : r.parentSelector = .builtin sel) (hc : F64.zero.lt r.crossoverRate = false) (hm : F64.zero.lt r.mutationRate = false)
    (x : I) (hx : pop.individuals.getLast? = some x) :
    (sel.select env pop).prob (fun s => s.1 + 1 = pop.individuals.length) ≤
      (M.breed env model pop r).prob (fun c => gen c = gen x) := by
  rw [hM.breed, defaultBreed_eq]
  unfold breedParents
  rw [hsel]
  simp only [bind_assoc, bind_pure_left]
  refine prob_le_bind _ _ _ _ fun s hs hlast => prob_eq_one_of_always _ _ ?_
  have hs : (sel.select env pop).yields (.ok s) := hs
  obtain ⟨m1, m2⟩ := sel.select_isMember env pop s hs
  have e : s.2 = x := by
    rw [List.getLast?_eq_getElem?, show pop.individuals.length - 1 = s.1 by omega, m2] at hx
    exact Option.some.inj hx
  have hmem : s.2 ∈ pop.individuals := List.mem_of_getElem? m2
  rw [e] at hmem ⊢
  rw [always_bind]
  have hcross : Always (fun c => c = false)
      (if pop.len > 1 then genF64 >>= fun u => pure (u.lt r.crossoverRate) else pure false) := by
    split
    · rw [always_bind]
      exact (never_fires hc).mono fun u hu => by simpa using hu
    · simp
  refine hcross.mono fun c hc => ?_
  subst hc
  simp only [Bool.false_eq_true, if_false, bind_pure_left]
  show Always _ ((pure x : Prog I) >>= fun o => breedMutate M.toEvoOps model r.mutationRate o >>= fun o =>
    breedEnd M.toEvoOps model pop (fitterParent x none) o)
  rw [bind_pure_left, always_bind]
  have hmut : Always (fun o => o = x) (breedMutate M.toEvoOps model r.mutationRate x) := by
    unfold breedMutate
    rw [always_bind]
    exact (never_fires hm).mono fun u hu => by simp [hu]
  refine hmut.mono fun o ho => ?_
  subst ho
  unfold breedEnd
  rw [always_bind]
  refine ((hM.improve model o (hP o hmem)).and fun a ha => hk.improve _ _ _ ha).mono fun o1 ⟨p1, g1⟩ => ?_
  rw [always_bind]
  refine ((hM.evaluate model o1 p1).and fun a ha => hk.evaluate _ _ _ ha).mono fun o2 ⟨p2, g2⟩ => ?_
  rw [always_bind]
  have hsurv : Always (fun _ => True) (if isValid o2 then M.canSurvive model o2 (fitterParent o none) pop else pure false) := by
    split
    · exact hM.canSurvive _ _ _ _ p2 (hP o hmem)
    · simp
  refine hsurv.mono fun v _ => ?_
  rw [always_pure]
  split
  · rw [g2, g1]
  · rfl

section
variable {M : EvoModel I Mo U} {alg : EvoAlgo I Mo U A P} {elite size : A → Nat} {eliteOf : P → Nat} {gen : I → B} [DecidableEq B]

/-- One generation leaves more different genes than there are elites with probability at most `1 - σ ^ n`. -/
theorem prob_step_many (hstd : Standard M alg elite size eliteOf) {env : Env I} (henv : env.Lawful) (σ : ℚ) (h0 : 0 ≤ σ) (h1 : σ ≤ 1)
    (st : RunState I A Q) (htwo : elite st.algo + 2 ≤ size st.algo) (x : I) (hx : st.population.individuals.getLast? = some x)
    (hbreed : ∀ a, (alg.prepare env.num st.algo st.population).yields (.ok a) →
      σ ≤ (M.breed env.num (alg.model a) st.population (alg.repro a).1).prob (fun c => gen c = gen x))
    [DecidablePred fun st' : RunState I A Q => ¬ FewGenes gen (max (elite st.algo) 1) st'.population] :
    (generationStep alg env st).prob (fun st' => ¬ FewGenes gen (max (elite st.algo) 1) st'.population) ≤ 1 - σ ^ size st.algo := by
  have hpow : 0 ≤ 1 - σ ^ size st.algo := by have := pow_le_one₀ (n := size st.algo) h0 h1; linarith
  unfold generationStep
  refine prob_bind_le_const _ _ _ _ hpow fun a ha => ?_
  obtain ⟨e1, e2⟩ := hstd.prepare _ _ _ _ ha
  rw [hstd.elites, takeElites_eq, e1]
  obtain ⟨r, n, hr⟩ : ∃ r n, alg.repro a = (r, n) := ⟨_, _, rfl⟩
  have hn : n = size st.algo := by rw [← e2, ← hstd.bred a, hr]
  have hba := hbreed a ha
  rw [hr] at hba
  set el := ([] : List I) ++ st.population.individuals.drop (st.population.individuals.length - elite st.algo) with hel
  have hlen : el.length ≤ elite st.algo := by simp [hel]; omega
  have hgen : alg.generate env.num a st.population el =
      (replicate (n - el.length) (M.breed env.num (alg.model a) st.population r) >>= fun new => pure (el ++ new)) := by
    rw [hstd.generate, hr]
    unfold defaultGenerate
    simp only
    obtain ⟨k, hk⟩ : ∃ k, n - el.length = k + 2 := ⟨n - el.length - 2, by omega⟩
    rw [hk]
    rfl
  simp only [Prog.lift_ok, Prog.bind_pure_left]
  rw [hgen]
  simp only [bind_assoc, Prog.bind_pure_left]
  refine (prob_bind_le _ _ _ (fun new => ¬ ∀ c ∈ new, gen c = gen x) 1 (fun _ _ _ => prob_le_one _ _) ?_).trans ?_
  · intro new _ hnew
    have hnew : ∀ c ∈ new, gen c = gen x := not_not.1 hnew
    refine prob_eq_zero _ _ fun st' hst' => ?_
    rw [yields_bind_ok] at hst'
    obtain ⟨⟨pop, old⟩, h1, h2⟩ := hst'
    have h1 : alg.replace env a st.population (el ++ new) = .ok (pop, old) := h1.symm
    rw [hstd.replace] at h1
    obtain ⟨w1, w2, w3, -⟩ := Population.wf_replace henv.sort h1
    have h2 : st' = { st with algo := a, population := pop, buffer := old } := Res.ok.inj h2
    subst h2
    refine not_not.2 ?_
    by_cases hz : elite st.algo = 0
    · refine ⟨[gen x], by simp, fun y hy => ?_⟩
      rw [w3] at hy
      rcases List.mem_append.1 (mem_dedup_sort henv.sort hy) with hy | hy
      · have : el = [] := List.length_eq_zero_iff.1 (by omega)
        rw [this] at hy; cases hy
      · simp [hnew y hy]
    · refine ⟨el.map gen, by rw [List.length_map]; omega, fun y hy => ?_⟩
      rw [w3] at hy
      rcases List.mem_append.1 (mem_dedup_sort henv.sort hy) with hy | hy
      · exact List.mem_map_of_mem hy
      · rw [hnew y hy]
        refine List.mem_map_of_mem ?_
        rw [hel, List.nil_append]
        have hne : st.population.individuals ≠ [] := by rintro h; rw [h] at hx; cases hx
        have hpos := List.length_pos_of_ne_nil hne
        refine List.mem_of_getLast? ?_
        rw [List.getLast?_drop, if_neg (by omega)]
        exact hx
  · rw [one_mul]
    have hsum := prob_add_not (replicate (n - el.length) (M.breed env.num (alg.model a) st.population r))
      (fun new => ∀ c ∈ new, gen c = gen x)
    rw [prob_replicate_all] at hsum
    have hp : σ ^ size st.algo ≤
        (M.breed env.num (alg.model a) st.population r).prob (fun c => gen c = gen x) ^ (n - el.length) :=
      (pow_le_pow_of_le_one h0 h1 (by omega)).trans (pow_le_pow_left₀ h0 hba _)
    linarith

end

/-- An invariant `ok` under which the algorithm breeds without crossover and mutation, with selectors of the strategy `s`. -/
structure Still (alg : EvoAlgo I Mo U A P) (ok : A → Population I → Prop) (s : SelectionStrategy) : Prop where
  breeds : ∀ env a pop a', ok a pop → (alg.prepare env a pop).yields (.ok a') →
    F64.zero.lt (alg.repro a').1.crossoverRate = false ∧ F64.zero.lt (alg.repro a').1.mutationRate = false ∧
    ∃ sel, OfStrategy (I := I) s sel ∧ (alg.repro a').1.parentSelector = .builtin (sel.prepare env pop)
  next : ∀ env a pop a' pop', ok a pop → (alg.prepare env a pop).yields (.ok a') →
    pop'.generation = pop.generation + 1 → ok a' pop'

/-- The states of such a run. -/
structure StillState (alg : EvoAlgo I Mo U A P) (elite size : A → Nat) (Pr : I → Prop) (b e n : Nat) (ok : A → Population I → Prop)
    (st : RunState I A Q) : Prop where
  safe : Safe alg elite size Pr st
  ok : ok st.algo st.population
  len : st.population.individuals.length ≤ b
  elite : elite st.algo = e
  size : size st.algo = n

section
variable {M : EvoModel I Mo U} {alg : EvoAlgo I Mo U A P} {elite size : A → Nat} {eliteOf : P → Nat} {okP : P → Prop}
  {Pr : I → Prop} {ok : A → Population I → Prop} {s : SelectionStrategy} {gen : I → B} {b e n : Nat}

theorem StillState.show (st : RunState I A Q) (q' : Q) (hs : StillState alg elite size Pr b e n ok st) :
    StillState alg elite size Pr b e n ok { st with q := q', shown := st.shown ++ [st.population] } :=
  ⟨⟨hs.safe.wf, hs.safe.len, hs.safe.prop, hs.safe.sel, hs.safe.two, hs.safe.sizeLt, hs.safe.eliteLe, fun pop hp => by
    rcases List.mem_append.1 hp with hp | hp
    · exact hs.safe.shown pop hp
    · rw [List.mem_singleton.1 hp]; exact hs.safe.prop⟩, hs.ok, hs.len, hs.elite, hs.size⟩

theorem StillState.step (hstd : Standard M alg elite size eliteOf) (halg : SafeAlgo alg okP) (hM : SafeOps M Pr)
    (hk : KeepsGenes M gen) (hst : Still alg ok s) (hb : n ≤ b) {env : Env I} (henv : env.Lawful) (st st' : RunState I A Q)
    (hs : StillState alg elite size Pr b e n ok st) (h : (generationStep alg env st).yields (.ok st')) :
    StillState alg elite size Pr b e n ok st' ∧ ∀ x ∈ st'.population.individuals, Copies gen st.population.individuals x := by
  have h1 := (step_always hstd halg hM env henv st hs.safe).partially st' h
  have hf := hstd.step henv h
  obtain ⟨c, el, buf, pop, old, g1, -, -, -, e'⟩ := (yields_generationStep _ _ _ _).1 h
  have hc : st'.algo = c := by rw [e']
  obtain ⟨new, m1, m2, m3⟩ := hf.made
  refine ⟨⟨h1, ?_, ?_, hf.eliteEq.trans hs.elite, hf.sizeEq.trans hs.size⟩, fun x hx => ?_⟩
  · rw [hc]; exact hst.next _ _ _ _ _ hs.ok g1 hf.generation
  · rw [m1]
    refine (length_dedup_sort henv.sort _).trans ((m3 hs.safe.eliteLe).trans ?_)
    rw [hs.size]; exact hb
  · rw [m1] at hx
    rcases List.mem_append.1 (mem_dedup_sort henv.sort hx) with hx | hx
    · exact ⟨x, List.mem_of_mem_drop hx, rfl⟩
    · have := m2 x hx
      rw [hc] at this
      obtain ⟨z1, z2, -⟩ := hst.breeds _ _ _ _ hs.ok g1
      exact hk.descends.breed _ _ _ _ _ ⟨z1, z2⟩ this

/-- After `fuel` generations the run has more different genes than elites with probability at most `(1 - (1 / b) ^ n) ^ fuel`. -/
theorem prob_loop_many [DecidableEq B] (hstd : Standard M alg elite size eliteOf) (halg : SafeAlgo alg okP) (hM : SafeOps M Pr)
    (hk : KeepsGenes M gen) (hst : Still alg ok s) (hs : LastSelecting s) (hb : n ≤ b) (hen : e + 2 ≤ n) (envs : Nat → Env I)
    (henv : ∀ t, (envs t).Lawful) (progress : Q → Population I → Prog (Bool × Q)) (fuel t : Nat) (ht : 1 ≤ t) (st : RunState I A Q)
    (h : StillState alg elite size Pr b e n ok st)
    [DecidablePred fun r : Bool × RunState I A Q => r.1 = false ∧ ¬ FewGenes gen (max e 1) r.2.population] :
    (evolveLoop alg envs progress fuel t st).prob (fun r => r.1 = false ∧ ¬ FewGenes gen (max e 1) r.2.population) ≤
      (1 - (1 / (b : ℚ)) ^ n) ^ fuel := by
  classical
  have hb0 : (0 : ℚ) < b := by exact_mod_cast (by omega : 0 < b)
  have hσ0 : 0 ≤ 1 / (b : ℚ) := by positivity
  have hσ1 : 1 / (b : ℚ) ≤ 1 := by
    rw [div_le_one hb0]; exact_mod_cast (by omega : 1 ≤ b)
  have hpow : 0 ≤ 1 - (1 / (b : ℚ)) ^ n := by have := pow_le_one₀ (n := n) hσ0 hσ1; linarith
  induction fuel generalizing t st with
  | zero => simpa using prob_le_one _ _
  | succ fuel ih =>
    rw [evolveLoop]
    refine prob_bind_le_const _ _ _ _ (pow_nonneg hpow _) fun ⟨cont, q'⟩ _ => ?_
    cases cont
    · simp only [Bool.false_eq_true, if_false]
      refine (prob_eq_zero _ _ ?_).trans_le (pow_nonneg hpow _)
      rintro ⟨b, s⟩ h; cases h; simp
    · simp only [if_true]
      rw [pow_succ]
      have h' := h.show st q'
      refine (prob_bind_le _ _ _ (fun st' => ¬ FewGenes gen (max e 1) st'.population) ((1 - (1 / (b : ℚ)) ^ n) ^ fuel) ?_ ?_).trans ?_
      · intro st1 hs1 _
        exact ih (t + 1) (by omega) st1 (h'.step hstd halg hM hk hst hb (henv t) _ _ hs1).1
      · intro st1 hs1 hr
        have hr : FewGenes gen (max e 1) st1.population := not_not.1 hr
        refine prob_eq_zero _ _ ?_
        rintro ⟨fin, s'⟩ hbs ⟨-, hno⟩
        obtain ⟨h1, -⟩ := h'.step hstd halg hM hk hst hb (henv t) _ _ hs1
        exact hno (few_stays fuel (t + 1) st1 h1 hr fin s' hbs)
      · refine mul_le_mul_of_nonneg_left ?_ (pow_nonneg hpow _)
        have hne := h.safe.wf.ne
        obtain ⟨x, hx⟩ : ∃ x, st.population.individuals.getLast? = some x := by
          rw [List.getLast?_eq_some_getLast hne]; exact ⟨_, rfl⟩
        have key := prob_step_many (gen := gen) hstd (henv t) (1 / (b : ℚ)) hσ0 hσ1
          { st with q := q', shown := st.shown ++ [st.population] } (by rw [h'.elite, h'.size]; exact hen) x hx (fun a ha => by
            obtain ⟨z1, z2, sel, z3, z4⟩ := hst.breeds _ _ _ _ h'.ok ha
            refine le_trans ?_ (breed_last hM hk (envs t).num (alg.model a) st.population h.safe.prop (alg.repro a).1 _ z4 z1 z2 x hx)
            refine le_trans ?_ (hs.select z3 (envs t).num st.population hne h.safe.len)
            have hpos : (0 : ℚ) < st.population.individuals.length := by exact_mod_cast List.length_pos_of_ne_nil hne
            exact one_div_le_one_div_of_le hpos (by exact_mod_cast h.len))
        rw [h'.elite, h'.size] at key
        exact key
where
  few_stays (fuel t : Nat) (st : RunState I A Q) (h : StillState alg elite size Pr b e n ok st)
      (hr : FewGenes gen (max e 1) st.population) (fin : Bool) (s' : RunState I A Q)
      (hbs : (evolveLoop alg envs progress fuel t st).yields (.ok (fin, s'))) : FewGenes gen (max e 1) s'.population := by
    induction fuel generalizing t st with
    | zero => cases (yields_pure _ _).1 hbs; exact hr
    | succ fuel ih =>
      rcases (yields_evolveLoop_succ _ _ _ _ _ _ _).1 hbs with ⟨q1, _, r⟩ | ⟨q1, st2, g1, g2, g3⟩
      · cases r; exact hr
      · obtain ⟨k1, k2⟩ := (h.show st q1).step hstd halg hM hk hst hb (henv t) _ _ g2
        exact ih (t + 1) st2 k1 (hr.copies k2) g3

end
end RG.Props
