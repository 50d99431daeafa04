import Verif.Proofs.Evolution

/-! # Helper lemmas: probability of missing a fitness level -/

set_option linter.unusedSectionVars false

namespace RG
open Prog

namespace Prog
variable {α β : Type}

theorem prob_mono (p : Prog α) (P Q : α → Prop) [DecidablePred P] [DecidablePred Q]
    (h : ∀ a, p.yields (.ok a) → P a → Q a) : p.prob P ≤ p.prob Q := by
  unfold prob
  refine expect_mono p _ _ fun r hr => ?_
  rcases r with a | _ | _
  · by_cases hp : P a
    · simp [hp, h a hr hp]
    · simp only [hp, if_false]; split <;> norm_num
  · exact le_rfl
  · exact le_rfl

theorem prob_le_one (p : Prog α) (P : α → Prop) [DecidablePred P] : p.prob P ≤ 1 := by
  unfold prob
  refine (expect_mono p _ (fun _ => 1) fun r _ => ?_).trans_eq (expect_const p 1)
  rcases r with a | _ | _
  · simp only; split <;> norm_num
  · norm_num
  · norm_num

theorem prob_add_not (p : Prog α) (P : α → Prop) [DecidablePred P] : p.prob P + p.prob (fun a => ¬ P a) ≤ 1 := by
  unfold prob
  rw [← expect_add]
  refine (expect_mono p _ (fun _ => 1) fun r _ => ?_).trans_eq (expect_const p 1)
  rcases r with a | _ | _
  · by_cases h : P a <;> simp [h]
  · norm_num
  · norm_num

theorem prob_add_not_of_always (p : Prog α) (P : α → Prop) [DecidablePred P] {S : α → Prop} (h : Always S p) :
    p.prob P + p.prob (fun a => ¬ P a) = 1 := by
  unfold prob
  rw [← expect_add]
  refine (expect_congr p _ (fun _ => 1) fun r hr => ?_).trans (expect_const p 1)
  obtain ⟨a, rfl, -⟩ := h r hr
  by_cases hp : P a <;> simp [hp]

/-- If after every result of `p` the event has probability at most `c` when `Q` holds, and 0 otherwise. -/
theorem prob_bind_le (p : Prog α) (f : α → Prog β) (P : β → Prop) [DecidablePred P] (Q : α → Prop) [DecidablePred Q] (c : ℚ)
    (h1 : ∀ a, p.yields (.ok a) → Q a → (f a).prob P ≤ c) (h0 : ∀ a, p.yields (.ok a) → ¬ Q a → (f a).prob P = 0) :
    (p >>= f).prob P ≤ c * p.prob Q := by
  unfold prob at *
  rw [expect_bind, ← expect_mul_left]
  refine expect_mono p _ _ fun r hr => ?_
  rcases r with a | _ | _
  · by_cases hq : Q a
    · simpa [hq] using h1 a hr hq
    · simpa [hq] using (h0 a hr hq).le
  · simp
  · simp

theorem prob_bind_le_const (p : Prog α) (f : α → Prog β) (P : β → Prop) [DecidablePred P] (c : ℚ) (hc : 0 ≤ c)
    (h : ∀ a, p.yields (.ok a) → (f a).prob P ≤ c) : (p >>= f).prob P ≤ c := by
  refine (prob_bind_le p f P (fun _ => True) c (fun a ha _ => h a ha) (fun a _ h => absurd trivial h)).trans ?_
  exact (mul_le_mul_of_nonneg_left (prob_le_one p _) hc).trans_eq (mul_one c)

theorem prob_bind_split (p : Prog α) (f : α → Prog β) (P : β → Prop) [DecidablePred P] (Q : α → Prop) [DecidablePred Q]
    (a b : ℚ) (h1 : ∀ x, p.yields (.ok x) → Q x → (f x).prob P ≤ a) (h0 : ∀ x, p.yields (.ok x) → ¬ Q x → (f x).prob P ≤ b) :
    (p >>= f).prob P ≤ a * p.prob Q + b * p.prob (fun x => ¬ Q x) := by
  unfold prob at *
  rw [expect_bind, ← expect_mul_left, ← expect_mul_left, ← expect_add]
  refine expect_mono p _ _ fun r hr => ?_
  rcases r with x | _ | _
  · by_cases hq : Q x
    · simpa [hq] using h1 x hr hq
    · simpa [hq] using h0 x hr hq
  · simp
  · simp

theorem Always.exists_yields {p : Prog α} {S : α → Prop} (h : Always S p) : ∃ a, p.yields (.ok a) := by
  obtain ⟨r, hr⟩ := Prog.exists_yields p
  obtain ⟨a, rfl, -⟩ := h r hr
  exact ⟨a, hr⟩

theorem le_prob_bind_of_always (p : Prog α) (f : α → Prog β) (P : β → Prop) [DecidablePred P] (c : ℚ) {S : α → Prop}
    (h : Always S p) (hf : ∀ a, S a → c ≤ (f a).prob P) : c ≤ (p >>= f).prob P := by
  unfold prob at *
  rw [expect_bind, ← expect_const p c]
  refine expect_mono p _ _ fun r hr => ?_
  obtain ⟨a, rfl, ha⟩ := h r hr
  exact hf a ha

/-- If the continuation certainly succeeds after `Q`. -/
theorem prob_le_bind (p : Prog α) (f : α → Prog β) (Q : α → Prop) [DecidablePred Q] (P : β → Prop) [DecidablePred P]
    (h : ∀ a, p.yields (.ok a) → Q a → (f a).prob P = 1) : p.prob Q ≤ (p >>= f).prob P := by
  unfold prob at *
  rw [expect_bind]
  refine expect_mono p _ _ fun r hr => ?_
  rcases r with a | _ | _
  · by_cases hq : Q a
    · simp [hq, h a hr hq]
    · have := prob_nonneg (f a) P
      unfold prob at this
      simpa [hq] using this
  · simp
  · simp

end Prog

variable {I : Type} [Individual I] {Mo U A P Q : Type}

/-- Some individual has a fitness of at least `target`. -/
def Reached (target : F64) (p : Population I) : Prop := ∃ x ∈ p.individuals, target.le (fitness x) = true

instance (target : F64) (p : Population I) : Decidable (Reached target p) := by unfold Reached; infer_instance

section
variable {M : EvoModel I Mo U} {alg : EvoAlgo I Mo U A P} {elite size : A → Nat} {eliteOf : P → Nat}

theorem reached_dedup_sort (he : EqFitness I) {env : Env I} (henv : env.Lawful) {target : F64} {p : Population I} {l : List I}
    (hp : p.individuals = dedup (env.sort l)) {x : I} (hx : x ∈ l) (ht : target.le (fitness x) = true) : Reached target p := by
  rcases dedup_covers _ _ ((henv.sort.perm _).mem_iff.2 hx) with hy | ⟨y, hy, heq⟩
  · exact ⟨x, hp ▸ hy, ht⟩
  · exact ⟨y, hp ▸ hy, F64.le_trans ht (F64.le_of_feq (he _ _ heq))⟩

theorem StepFacts.reached {env : Env I} (henv : env.Lawful) (hb : M.BreedsValid) (hv : ValidNotNaN I) (he : EqFitness I)
    {target : F64} {st st' : RunState I A Q} (hs : StepFacts M alg elite size env st st') (h : GoodPop st.population)
    (hel : 1 ≤ elite st.algo) (hr : Reached target st.population) : Reached target st'.population := by
  obtain ⟨x, hx, hxt⟩ := hr
  obtain ⟨b, hb1, -, hbm, hble⟩ := h.best hv
  obtain ⟨b', hb1', -, hbm', -⟩ := (hs.good henv hb hv h).best hv
  refine ⟨b', hb1', ?_⟩
  have := hs.best henv hb hv he h hel
  rw [← hbm, ← hbm'] at this
  exact F64.le_trans (F64.le_trans hxt (hble x hx)) this

/-- In one generation the level is missed with probability at most `q ^ m`, if at least `m ≥ 2` individuals are bred, each
missing it with probability at most `q`. -/
theorem prob_step_missed (hstd : Standard M alg elite size eliteOf) {env : Env I} (henv : env.Lawful)
    (he : EqFitness I) (target : F64) (q : ℚ) (hq0 : 0 ≤ q) (hq1 : q ≤ 1) (m : Nat) (st : RunState I A Q)
    (hm : 2 ≤ m) (hsz : m + elite st.algo ≤ size st.algo)
    (hbreed : ∀ a, (alg.prepare env.num st.algo st.population).yields (.ok a) →
      (M.breed env.num (alg.model a) st.population (alg.repro a).1).prob (fun c => ¬ target.le (fitness c) = true) ≤ q) :
    (generationStep alg env st).prob (fun st' => ¬ Reached target st'.population) ≤ q ^ m := by
  unfold generationStep
  refine prob_bind_le_const _ _ _ _ (pow_nonneg hq0 _) fun a ha => ?_
  obtain ⟨e1, e2⟩ := hstd.prepare _ _ _ _ ha
  rw [hstd.elites, takeElites_eq, e1]
  obtain ⟨r, n, hr⟩ : ∃ r n, alg.repro a = (r, n) := ⟨_, _, rfl⟩
  have hn : n = size a := by rw [← hstd.bred a, hr]
  have hba := hbreed a ha
  rw [hr] at hba
  set el := ([] : List I) ++ st.population.individuals.drop (st.population.individuals.length - elite st.algo) with hel
  have hlen : el.length ≤ elite st.algo := by simp [hel]; omega
  have hgen : alg.generate env.num a st.population el =
      (replicate (n - el.length) (M.breed env.num (alg.model a) st.population r) >>= fun new => pure (el ++ new)) := by
    rw [hstd.generate, hr]
    unfold defaultGenerate
    simp only
    obtain ⟨k, hk⟩ : ∃ k, n - el.length = k + 2 := ⟨n - el.length - 2, by omega⟩
    rw [hk]
    rfl
  simp only [Prog.lift_ok, Prog.bind_pure_left]
  rw [hgen]
  simp only [bind_assoc, Prog.bind_pure_left]
  refine (prob_bind_le _ _ _ (fun new => ∀ c ∈ new, ¬ target.le (fitness c) = true) 1 (fun _ _ _ => prob_le_one _ _) ?_).trans ?_
  · intro new _ hnew
    refine prob_eq_zero _ _ fun st' hst' => ?_
    rw [yields_bind_ok] at hst'
    obtain ⟨⟨pop, old⟩, h1, h2⟩ := hst'
    have h1 : alg.replace env a st.population (el ++ new) = .ok (pop, old) := h1.symm
    rw [hstd.replace] at h1
    obtain ⟨w1, w2, w3, -⟩ := Population.wf_replace henv.sort h1
    have h2 : st' = { st with algo := a, population := pop, buffer := old } := Res.ok.inj h2
    subst h2
    push Not at hnew ⊢
    obtain ⟨c, hc, hct⟩ := hnew
    exact reached_dedup_sort he henv w3 (List.mem_append_right _ hc) hct
  · rw [one_mul, prob_replicate_all]
    calc (M.breed env.num (alg.model a) st.population r).prob (fun c => ¬ target.le (fitness c) = true) ^ (n - el.length)
        ≤ q ^ (n - el.length) := pow_le_pow_left₀ (prob_nonneg _ _) hba _
      _ ≤ q ^ m := pow_le_pow_of_le_one hq0 hq1 (by omega)

section
variable (hstd : Standard M alg elite size eliteOf) (envs : Nat → Env I) (henv : ∀ t, (envs t).Lawful)
  (hb : M.BreedsValid) (hv : ValidNotNaN I) (he : EqFitness I) (progress : Q → Population I → Prog (Bool × Q))
  (target : F64) (q : ℚ) (hq0 : 0 ≤ q) (hq1 : q ≤ 1) (m e n : Nat) (hm : 2 ≤ m) (hsz : m + e ≤ n)
  (R : RunState I A Q → Prop)
  (hR : ∀ st q', R st → R { st with q := q', shown := st.shown ++ [st.population] })
  (hstep : ∀ t st st', R st → (generationStep alg (envs t) st).yields (.ok st') → R st')
  (hbreed : ∀ t st a, R st → GoodPop st.population → (alg.prepare (envs t).num st.algo st.population).yields (.ok a) →
    (M.breed (envs t).num (alg.model a) st.population (alg.repro a).1).prob (fun c => ¬ target.le (fitness c) = true) ≤ q)

include hstd henv hb hv he hq0 hq1 hm hsz hR hstep hbreed

/-- The loop misses the level and goes on for `fuel` generations with probability at most `q ^ (m * fuel)`. -/
theorem prob_loop_missed (hel : 1 ≤ e) (fuel t : Nat) (st : RunState I A Q) (h1 : R st) (h2 : GoodPop st.population)
    (h3 : elite st.algo = e) (h4 : size st.algo = n) :
    (evolveLoop alg envs progress fuel t st).prob (fun r => r.1 = false ∧ ¬ Reached target r.2.population) ≤ q ^ (m * fuel) := by
  induction fuel generalizing t st with
  | zero => simpa using prob_le_one _ _
  | succ fuel ih =>
    rw [evolveLoop]
    refine prob_bind_le_const _ _ _ _ (pow_nonneg hq0 _) fun ⟨cont, q'⟩ _ => ?_
    cases cont
    · simp only [Bool.false_eq_true, if_false]
      refine (prob_eq_zero _ _ ?_).trans_le (pow_nonneg hq0 _)
      rintro ⟨b, s⟩ h; cases h; simp
    · simp only [if_true]
      rw [Nat.mul_succ, pow_add]
      refine (prob_bind_le _ _ _ (fun st' => ¬ Reached target st'.population) (q ^ (m * fuel)) ?_ ?_).trans ?_
      · intro st1 hs1 _
        have hf := hstd.step (henv t) hs1
        exact ih (t + 1) _ (hstep t _ _ (hR st q' h1) hs1) (hf.good (henv t) hb hv h2) (hf.eliteEq.trans h3) (hf.sizeEq.trans h4)
      · intro st1 hs1 hr
        have hr : Reached target st1.population := not_not.1 hr
        have hf := hstd.step (henv t) hs1
        refine prob_eq_zero _ _ ?_
        rintro ⟨b, s⟩ hbs ⟨-, hno⟩
        obtain ⟨_, _, _, _, _, hi, _⟩ := evolveLoop_invariant alg envs progress
          (fun a pop => elite a = e ∧ GoodPop pop ∧ Reached target pop) (fun _ _ => True)
          (fun t st st' _ hi hs => by
            have hf := hstd.step (henv t) hs
            exact ⟨⟨hf.eliteEq.trans hi.1, hf.good (henv t) hb hv hi.2.1,
              hf.reached (henv t) hb hv he hi.2.1 (by rw [hi.1]; exact hel) hi.2.2⟩, trivial, hf.q, hf.shown⟩)
          fuel (t + 1) (by omega) st1 ⟨hf.eliteEq.trans h3, hf.good (henv t) hb hv h2, hr⟩ b s hbs
        exact hno hi.2.2
      · refine mul_le_mul_of_nonneg_left ?_ (pow_nonneg hq0 _)
        exact prob_step_missed hstd (henv t) he target q hq0 hq1 m { st with q := q', shown := st.shown ++ [st.population] } hm
          (by rw [show elite _ = e from h3, show size _ = n from h4]; exact hsz)
          fun a ha => hbreed t _ a (hR st q' h1) h2 ha

/-- If `progress` stops at the level, the loop has not ended after `fuel + 1` calls with probability at most `q ^ (m * fuel)`. -/
theorem prob_loop_runs (hstop : ∀ q pop q', GoodPop pop → Reached target pop → ¬ (progress q pop).yields (.ok (true, q')))
    (fuel t : Nat) (st : RunState I A Q) (h1 : R st) (h2 : GoodPop st.population) (h3 : elite st.algo = e)
    (h4 : size st.algo = n) :
    (evolveLoop alg envs progress (fuel + 1) t st).prob (fun r => r.1 = false) ≤ q ^ (m * fuel) := by
  induction fuel generalizing t st with
  | zero => simpa using prob_le_one _ _
  | succ fuel ih =>
    rw [evolveLoop]
    refine prob_bind_le_const _ _ _ _ (pow_nonneg hq0 _) fun ⟨cont, q'⟩ _ => ?_
    cases cont
    · simp only [Bool.false_eq_true, if_false]
      refine (prob_eq_zero _ _ ?_).trans_le (pow_nonneg hq0 _)
      rintro ⟨b, s⟩ h; cases h; simp
    · simp only [if_true]
      rw [Nat.mul_succ, pow_add]
      refine (prob_bind_le _ _ _ (fun st' => ¬ Reached target st'.population) (q ^ (m * fuel)) ?_ ?_).trans ?_
      · intro st1 hs1 _
        have hf := hstd.step (henv t) hs1
        exact ih (t + 1) _ (hstep t _ _ (hR st q' h1) hs1) (hf.good (henv t) hb hv h2) (hf.eliteEq.trans h3) (hf.sizeEq.trans h4)
      · intro st1 hs1 hr
        refine prob_eq_zero _ _ ?_
        rintro ⟨b, s⟩ hbs hno
        rcases (yields_evolveLoop_succ _ _ _ _ _ _ _).1 hbs with ⟨q1, _, r⟩ | ⟨q1, st2, g, _⟩
        · cases r; cases hno
        · exact hstop _ _ _ ((hstd.step (henv t) hs1).good (henv t) hb hv h2) (not_not.1 hr) g
      · refine mul_le_mul_of_nonneg_left ?_ (pow_nonneg hq0 _)
        exact prob_step_missed hstd (henv t) he target q hq0 hq1 m { st with q := q', shown := st.shown ++ [st.population] } hm
          (by rw [show elite _ = e from h3, show size _ = n from h4]; exact hsz)
          fun a ha => hbreed t _ a (hR st q' h1) h2 ha

end

end

/-! ### Breeding -/

/-- If the mutation fires with probability at least `ρ` and then the evaluated child is valid and at least as fit as `target`
with probability at least `δ`, breeding misses the level with probability at most `1 - ρ δ`. -/
theorem prob_breed_missed (M : EvoOps I Mo U) (hs : M.selectors.ReturnsMembers) (hd : M.selectors.DistinctMembers)
    (hcs : M.canSurvive = fun _ offspring parent _ => pure ((fitness parent).le (fitness offspring)))
    (env : NumEnv) (model : Mo) (p : Population I) (r : ReproParams U) (Pr : I → Prop)
    (hPr : ∀ x ∈ p.individuals, Pr x) (hcr : ∀ a b, Pr a → Pr b → Partially Pr (M.crossover model a b)) (hnan : ∀ x ∈ p.individuals, (fitness x).isNaN = false)
    (target : F64) (ρ δ : ℚ) (hδ : 0 ≤ δ) (hρδ : ρ * δ ≤ 1) (hρ : ρ ≤ genF64.prob (fun u => u.lt r.mutationRate = true))
    (hmut : ∀ o, Pr o → δ ≤ (M.mutate model o >>= fun o => M.improve model o >>= fun o => M.evaluate model o).prob
      (fun c => isValid c = true ∧ target.le (fitness c) = true)) :
    (defaultBreed M env model p r).prob (fun c => ¬ target.le (fitness c) = true) ≤ 1 - ρ * δ := by
  rw [defaultBreed_eq]
  refine prob_bind_le_const _ _ _ _ (by linarith) fun ⟨p1, p2⟩ hps => ?_
  obtain ⟨m1, m2⟩ := ((yields_breedParents M env p r p1 p2).1 hps).mem hs hd
  have mf : fitterParent p1 p2 ∈ p.individuals := (isFittestParent_iff.2 rfl).mem m1 fun b hb => (m2 b hb).1
  set fp := fitterParent p1 p2 with hfp
  refine prob_bind_le_const _ _ _ _ (by linarith) fun o ho => ?_
  have ho : Pr o := by
    rcases p2 with _ | b
    · rw [show o = p1 from Res.ok.inj ho]; exact hPr _ m1
    · exact hcr _ _ (hPr _ m1) (hPr _ (m2 b rfl).1) _ ho
  -- after a mutation that fired
  have key : (M.mutate model o >>= fun o => breedEnd M model p fp o).prob (fun c => ¬ target.le (fitness c) = true) ≤ 1 - δ := by
    have e : (M.mutate model o >>= fun o => breedEnd M model p fp o) =
        (M.mutate model o >>= fun o => M.improve model o >>= fun o => M.evaluate model o) >>= fun c =>
          (if isValid c then M.canSurvive model c fp p else pure false) >>= fun survives => pure (if survives then c else fp) := by
      unfold breedEnd; simp only [bind_assoc]
    rw [e]
    refine (prob_bind_le _ _ _ (fun c => ¬ (isValid c = true ∧ target.le (fitness c) = true)) 1
      (fun _ _ _ => prob_le_one _ _) ?_).trans ?_
    · intro c _ hc
      obtain ⟨hc1, hc2⟩ := not_not.1 hc
      refine prob_eq_zero _ _ fun c' hc' => ?_
      rw [if_pos hc1, hcs] at hc'
      simp only [Prog.bind_pure_left, yields_pure, Res.ok.injEq] at hc'
      rw [not_not]
      cases hle : (fitness fp).le (fitness c) with
      | true => rw [hle] at hc'; simp only [if_true] at hc'; rw [hc']; exact hc2
      | false =>
        rw [hle] at hc'
        simp only [Bool.false_eq_true, if_false] at hc'
        rw [hc']
        obtain ⟨t1, t2, t3⟩ := F64.le_iff.1 hc2
        have hfn := hnan fp mf
        refine F64.le_iff.2 ⟨t1, hfn, ?_⟩
        by_contra hlt
        have : (fitness fp).le (fitness c) = true := F64.le_iff.2 ⟨hfn, t2, (le_of_not_ge hlt).trans t3⟩
        rw [this] at hle; cases hle
    · rw [one_mul]
      have := prob_add_not (M.mutate model o >>= fun o => M.improve model o >>= fun o => M.evaluate model o)
        (fun c => isValid c = true ∧ target.le (fitness c) = true)
      have := hmut o ho
      linarith
  unfold breedMutate
  rw [bind_assoc]
  refine (prob_bind_split _ _ _ (fun u => u.lt r.mutationRate = true) (1 - δ) 1 (fun u _ hu => ?_)
    (fun u _ _ => prob_le_one _ _)).trans ?_
  · rw [if_pos hu]; exact key
  · have h1 := prob_add_not genF64 (fun u => u.lt r.mutationRate = true)
    have h2 := mul_le_mul_of_nonneg_right hρ hδ
    linarith

end RG
