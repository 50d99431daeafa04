import Verif.Proofs.Total

/-!
# Property C64: runs of the built-in algorithms do not panic

The hypotheses say that the user's operators are total and keep a property `P` of individuals, that the parameters are valid,
that the selection strategy is `Linear` only with a safe bias (C44), and that there are at least two individuals per generation.
-/

set_option linter.unusedSectionVars false

namespace RG.Props
open RG RG.Prog
variable {I : Type} [Individual I] {Mo U A P Q : Type}

section
variable {M : EvoModel I Mo U} {alg : EvoAlgo I Mo U A P} {elite size : A → Nat} {eliteOf : P → Nat} {okP : P → Prop}
  {Pr : I → Prop}

/-- **C64** A run neither panics nor diverges, for any bound on the number of calls of `progress`, and every individual ever
shown (and of the final population) has the property `Pr` that the operators keep. -/
theorem C64_run (hstd : Standard M alg elite size eliteOf) (halg : SafeAlgo alg okP) (hM : SafeOps M Pr)
    (envs : Nat → Env I) (henv : ∀ t, (envs t).Lawful) (progress : Q → Population I → Prog (Bool × Q))
    (hpr : ∀ q p, p.WF → Always (fun _ => True) (progress q p)) (fuel : Nat) (a : A) (init : List I) (p : P) (q : Q)
    (hp : okP p) (h2 : 2 ≤ alg.initialSize p) (hn : alg.initialSize p < 2 ^ 32) (hl : init.length < 2 ^ 32)
    (hinit : ∀ x ∈ init, Pr x) (hvalid : ∃ x ∈ init, Always (fun e => isValid e = true) (M.evaluate (alg.model a) x)) :
    Always (fun r => r.2.population.WF ∧ (∀ pop ∈ r.2.shown, ∀ x ∈ pop.individuals, Pr x) ∧
      ∀ x ∈ r.2.population.individuals, Pr x) (evolvePopulation alg envs progress fuel a init p q) := by
  obtain ⟨a', hc, hsel⟩ := halg.configure a p hp
  obtain ⟨hm, s1, s2, s3⟩ := hstd.configure _ _ _ hc (hn.le.trans (by norm_num))
  unfold evolvePopulation
  rw [hc]
  simp only [lift_ok, bind_pure_left]
  rw [hstd.init, always_bind]
  have hi := init_always hM (envs 0) (henv 0) (alg.model a') init hinit (by rw [hm]; exact hvalid)
  refine hi.mono fun pop ⟨w, hlen, hP⟩ => ?_
  refine (loop_always hstd halg hM envs henv progress hpr fuel 1 _
    ⟨w, hlen.trans_lt hl, hP, hsel, by rw [s1]; exact h2, by rw [s1]; exact hn, by rw [s1, s2]; exact s3.le, by simp⟩).mono
    fun r hr => ⟨hr.wf, hr.shown, hr.prop⟩

/-- **C64** The same for `run`, when random individuals have the property and are valid once evaluated. -/
theorem C64_random (hstd : Standard M alg elite size eliteOf) (halg : SafeAlgo alg okP) (hM : SafeOps M Pr)
    (hx : M.extend = fun _ => defaultExtend) (envs : Nat → Env I) (henv : ∀ t, (envs t).Lawful)
    (progress : Q → Population I → Prog (Bool × Q)) (hpr : ∀ q p, p.WF → Always (fun _ => True) (progress q p)) (fuel : Nat) (a : A)
    (newRandom : Prog I) (p : P) (q : Q) (hp : okP p) (h2 : 2 ≤ alg.initialSize p) (hn : alg.initialSize p < 2 ^ 32)
    (hr : Always (fun x => Pr x ∧ Always (fun e => isValid e = true) (M.evaluate (alg.model a) x)) newRandom) :
    Always (fun r => (∀ x, r.1 = some x → Pr x) ∧ ∀ pop ∈ r.2.shown, ∀ x ∈ pop.individuals, Pr x)
      (runRandom M alg envs progress fuel a newRandom p q) := by
  unfold runRandom
  rw [hx, always_bind]
  have hext : Always (fun l : List I => l.length = alg.initialSize p ∧
      ∀ x ∈ l, Pr x ∧ Always (fun e => isValid e = true) (M.evaluate (alg.model a) x))
      (defaultExtend newRandom [] (alg.initialSize p)) := by
    unfold defaultExtend
    rw [if_neg (by omega), always_bind]
    exact (always_replicate _ _ hr _).mono fun l hl => by simpa using hl
  refine hext.mono fun init ⟨l1, l2⟩ => ?_
  rw [always_bind]
  refine (C64_run hstd halg hM envs henv progress hpr fuel a init p q hp h2 hn (by omega) (fun x hx => (l2 x hx).1) ?_).mono
    fun r ⟨w, s1, s2⟩ => (takeResult_always Pr r w s2).mono fun o ⟨e, _, o2⟩ => ⟨o2, by rw [e]; exact s1⟩
  cases init with
  | nil => simp at l1; omega
  | cons x l => exact ⟨x, by simp, (l2 x (by simp)).2⟩

/-- **C64** The same for `evolve_individual`, when the given individual has the property and is valid once evaluated. -/
theorem C64_individual (hstd : Standard M alg elite size eliteOf) (halg : SafeAlgo alg okP) (hM : SafeOps M Pr)
    (hx : M.extendWith = defaultExtendWith M.toEvoOps) (envs : Nat → Env I) (henv : ∀ t, (envs t).Lawful)
    (progress : Q → Population I → Prog (Bool × Q)) (hpr : ∀ q p, p.WF → Always (fun _ => True) (progress q p)) (fuel : Nat) (a : A)
    (individual : I) (p : P) (q : Q) (hp : okP p) (h2 : 2 ≤ alg.initialSize p) (hn : alg.initialSize p < 2 ^ 32)
    (hi : Pr individual) (hv : Always (fun e => isValid e = true) (M.evaluate (alg.model a) individual)) :
    Always (fun r => (∀ x, r.1 = some x → Pr x) ∧ ∀ pop ∈ r.2.shown, ∀ x ∈ pop.individuals, Pr x)
      (evolveIndividual M alg envs progress fuel a individual p q) := by
  unfold evolveIndividual
  rw [hx, always_bind]
  have hext : Always (fun l : List I => l.length = alg.initialSize p ∧ individual ∈ l ∧ ∀ x ∈ l, Pr x)
      (defaultExtendWith M.toEvoOps (alg.model a) [] (alg.initialSize p) individual) := by
    unfold defaultExtendWith
    rw [if_neg (by omega)]
    simp only [List.nil_append]
    rw [if_neg (by omega), usizeSub, if_pos (by omega), lift_ok, bind_pure_left, always_bind]
    refine (always_replicate _ _ (hM.mutate _ _ hi) _).mono fun l ⟨e, hl⟩ => ?_
    rw [always_pure]
    refine ⟨by simp [e]; omega, by simp, ?_⟩
    simpa using ⟨hi, hl⟩
  refine hext.mono fun init ⟨l1, l2, l3⟩ => ?_
  rw [always_bind]
  exact (C64_run hstd halg hM envs henv progress hpr fuel a init p q hp h2 hn (by omega) l3 ⟨_, l2, hv⟩).mono
    fun r ⟨w, s1, s2⟩ => (takeResult_always Pr r w s2).mono fun o ⟨e, _, o2⟩ => ⟨o2, by rw [e]; exact s1⟩

/-! ### C65 -/

/-- **C65** Every individual that `progress` ever sees, and every one of the final population, was returned by a call of
`evaluate` (nothing unevaluated or changed after its evaluation enters a population), if `breed` is the default. -/
theorem C65_evaluated (hstd : Standard M alg elite size eliteOf) (hb : M.breed = defaultBreed M.toEvoOps)
    (hs : M.selectors.ReturnsMembers) (hd : M.selectors.DistinctMembers) (envs : Nat → Env I) (henv : ∀ t, (envs t).Lawful)
    (progress : Q → Population I → Prog (Bool × Q)) (fuel : Nat) (a : A) (init : List I) (p : P) (q : Q) (fin : Bool)
    (st : RunState I A Q) (h : (evolvePopulation alg envs progress fuel a init p q).yields (.ok (fin, st))) :
    ∀ pop, pop ∈ st.shown ∨ pop = st.population → ∀ x ∈ pop.individuals, ∃ m y, (M.evaluate m y).yields (.ok x) := by
  obtain ⟨a', pop, c1, c2, c3⟩ := (yields_evolvePopulation _ _ _ _ _ _ _ _ _).1 h
  rw [hstd.init] at c2
  have h0 : ∀ x ∈ pop.individuals, ∃ m y, (M.evaluate m y).yields (.ok x) := by
    intro x hx
    unfold defaultInitialize at c2
    rw [yields_bind_ok] at c2
    obtain ⟨ev, e1, e2⟩ := c2
    have e2 := (yields_lift _ _).1 e2
    rw [Population.new_eq (henv 0).sort] at e2
    split at e2
    · cases e2
    · rename_i hne
      clear hne
      cases e2
      replace hx := (List.mem_filter.1 (mem_dedup_sort (henv 0).sort hx)).1
      have hf := (yields_mapList _ _ _).1 e1
      obtain ⟨u, -, hu⟩ := forall₂_mem_right hf x hx
      exact ⟨_, u, hu⟩
  obtain ⟨new, n1, -, -, n4, n5, -⟩ := evolveLoop_invariant alg envs progress
    (fun _ p => ∀ x ∈ p.individuals, ∃ m y, (M.evaluate m y).yields (.ok x)) (fun _ _ => True)
    (fun t st st' _ hi hst => by
      have hf := hstd.step (henv t) hst
      refine ⟨fun x hx => ?_, trivial, hf.q, hf.shown⟩
      obtain ⟨new, m1, m2, -⟩ := hf.made
      rw [m1] at hx
      rcases List.mem_append.1 (mem_dedup_sort (henv t).sort hx) with hx | hx
      · exact hi x (List.mem_of_mem_drop hx)
      · have hc := m2 x hx
        rw [hb] at hc
        obtain ⟨p1, p2, f, o, hm, hf', ⟨_, _, o2, _, _, _, he⟩, hcase⟩ := (C47_outcomes _ _ _ _ _ _).1 hc
        obtain ⟨k1, k2⟩ := hm.mem hs hd
        rcases hcase with ⟨_, _, rfl⟩ | ⟨_, rfl⟩
        · exact ⟨_, o2, he⟩
        · exact hi _ (hf'.mem k1 fun b hb => (k2 b hb).1))
    fuel 1 le_rfl _ h0 fin st c3
  rintro pop' (hp | rfl)
  · rw [n1] at hp
    obtain ⟨_, hp'⟩ := n4 pop' (by simpa using hp)
    exact hp'
  · exact n5

end

-- the hypotheses of C64 hold of the example model, both algorithms and the example parameters
example : SafeOps numModel (fun _ => True) where
  crossover _ a b _ _ := by show Always _ (pure _); simp
  mutate _ a _ := by show Always _ (pure _); simp
  improve _ a _ := by show Always _ (pure _); simp
  evaluate _ a _ := by show Always _ (pure _); simp
  canSurvive _ a f p _ _ := by show Always _ (pure _); simp
  preGeneration _ _ _ := rfl
  breed := rfl
example : smallParams.Valid ∧ smallParams.selectionStrategy.Valid ∧ (∀ b, smallParams.selectionStrategy = .linear b → SafeBias b) ∧
    2 ≤ (ga numModel).initialSize smallParams := by
  refine ⟨?_, by simp [smallParams, SelectionStrategy.Valid], by simp [smallParams], by decide⟩
  unfold GaParams.Valid F64.InHalfOpenUnit F64.InClosedUnit
  decide +kernel

end RG.Props
