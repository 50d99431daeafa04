import Verif.Proofs.GaConvergence
import Verif.Proofs.GaLadder
import Verif.Props.Total

/-! # How slowly a level is reached: one generation and the loop -/

set_option linter.unusedSectionVars false

namespace RG
open Prog Props
variable {I : Type} [Individual I] {Mo U A P Q : Type}

namespace Prog
variable {α β : Type}

theorem mul_le_prob_bind (p : Prog α) (f : α → Prog β) (P : β → Prop) [DecidablePred P] (R : α → Prop) [DecidablePred R] (c : ℚ)
    (h : ∀ a, p.yields (.ok a) → R a → c ≤ (f a).prob P) : c * p.prob R ≤ (p >>= f).prob P := by
  unfold prob at *
  rw [expect_bind, ← expect_mul_left]
  refine expect_mono p _ _ fun r hr => ?_
  rcases r with a | _ | _
  · by_cases hq : R a
    · simpa [hq] using h a hr hq
    · have := prob_nonneg (f a) P
      unfold prob at this
      simpa [hq] using this
  · simp
  · simp

end Prog

section
variable {M : EvoModel I Mo U} {alg : EvoAlgo I Mo U A P} {elite size : A → Nat} {eliteOf : P → Nat} {okP : P → Prop} {Pr : I → Prop}

theorem prob_generate_reached (env : NumEnv) (model : Mo) (r : ReproParams U) (n : Nat) (p : Population I) (el : List I)
    (target : F64) (ε : ℚ) (h0 : 0 ≤ ε) (h1 : ε ≤ 1) (hel : ∀ x ∈ el, ¬ target.le (fitness x) = true)
    (hbreed : 1 - ε ≤ (M.breed env model p r).prob (fun c => ¬ target.le (fitness c) = true)) :
    (defaultGenerate M env model (r, n) p el).prob (fun l => ∃ c ∈ l, target.le (fitness c) = true) ≤ 1 - (1 - ε) ^ n := by
  have hpow : (1 - ε) ^ n ≤ 1 := pow_le_one₀ (by linarith) (by linarith)
  have hno : ∀ q : Prog (List I), (∀ l, q.yields (.ok l) → l = el) → q.prob (fun l => ∃ c ∈ l, target.le (fitness c) = true) ≤ 1 - (1 - ε) ^ n :=
    fun q hq => by
      rw [prob_eq_zero _ _ fun l hl => by rw [hq l hl]; rintro ⟨c, hc, ht⟩; exact hel c hc ht]
      linarith
  unfold defaultGenerate
  simp only
  rcases hk : n - el.length with _ | _ | k
  · exact hno _ fun l hl => Res.ok.inj hl
  · refine hno _ fun l hl => ?_
    obtain ⟨_, _, hl⟩ := (yields_bind_ok _ _ _).1 hl
    exact Res.ok.inj hl
  · show (replicate (k + 2) (M.breed env model p r) >>= fun new => pure (el ++ new)).prob _ ≤ _
    refine (prob_bind_le _ _ _ (fun new => ¬ ∀ c ∈ new, ¬ target.le (fitness c) = true) 1 (fun _ _ _ => prob_le_one _ _) ?_).trans ?_
    · intro new _ hnew
      have hnew := not_not.1 hnew
      refine prob_eq_zero _ _ fun l hl => ?_
      rw [show l = el ++ new from Res.ok.inj hl]
      rintro ⟨c, hc, ht⟩
      rcases List.mem_append.1 hc with hc | hc
      · exact hel c hc ht
      · exact hnew c hc ht
    · have h2 := prob_add_not (replicate (k + 2) (M.breed env model p r)) (fun new => ∀ c ∈ new, ¬ target.le (fitness c) = true)
      have h3 := prob_replicate_all (M.breed env model p r) (fun c => ¬ target.le (fitness c) = true) (k + 2)
      have h4 : (1 - ε) ^ n ≤ (M.breed env model p r).prob (fun c => ¬ target.le (fitness c) = true) ^ (k + 2) :=
        (pow_le_pow_of_le_one (by linarith) (by linarith) (by omega : k + 2 ≤ n)).trans (pow_le_pow_left₀ (by linarith) hbreed _)
      linarith

/-- If each bred individual stays below the level with probability at least `1 - ε`, the next population does with at least
`(1 - ε) ^ n`. -/
theorem prob_step_unreached (hstd : Standard M alg elite size eliteOf) (halg : SafeAlgo alg okP) (hM : SafeOps M Pr) {env : Env I}
    (henv : env.Lawful) (target : F64) (ε : ℚ) (h0 : 0 ≤ ε) (h1 : ε ≤ 1) (st : RunState I A Q) (hs : Safe alg elite size Pr st)
    (hno : ¬ Reached target st.population)
    (hbreed : ∀ a, (alg.prepare env.num st.algo st.population).yields (.ok a) →
      1 - ε ≤ (M.breed env.num (alg.model a) st.population (alg.repro a).1).prob (fun c => ¬ target.le (fitness c) = true)) :
    (1 - ε) ^ (size st.algo) ≤ (generationStep alg env st).prob (fun st' => ¬ Reached target st'.population) := by
  have hsum := prob_add_not_of_always _ (fun st' : RunState I A Q => Reached target st'.population) (step_always hstd halg hM env henv st hs)
  suffices (generationStep alg env st).prob (fun st' => Reached target st'.population) ≤ 1 - (1 - ε) ^ (size st.algo) by linarith
  have hpow : (1 - ε) ^ (size st.algo) ≤ 1 := pow_le_one₀ (by linarith) (by linarith)
  unfold generationStep
  refine prob_bind_le_const _ _ _ _ (by linarith) fun a ha => ?_
  obtain ⟨e1, e2⟩ := hstd.prepare _ _ _ _ ha
  rw [hstd.elites, takeElites_eq, e1]
  obtain ⟨r, n, hr⟩ : ∃ r n, alg.repro a = (r, n) := ⟨_, _, rfl⟩
  have hn : n = size st.algo := by rw [← e2, ← hstd.bred a, hr]
  have hba := hbreed a ha
  rw [hr] at hba
  simp only [Prog.lift_ok, Prog.bind_pure_left]
  rw [hstd.generate, hr, ← hn]
  refine (prob_bind_le _ _ _ (fun l => ∃ c ∈ l, target.le (fitness c) = true) 1 (fun _ _ _ => prob_le_one _ _) ?_).trans ?_
  · intro l _ hl
    refine prob_eq_zero _ _ fun st' hst' => ?_
    rw [yields_bind_ok] at hst'
    obtain ⟨⟨pop, old⟩, g1, g2⟩ := hst'
    have g1 : alg.replace env a st.population l = .ok (pop, old) := g1.symm
    rw [hstd.replace] at g1
    obtain ⟨-, -, w3, -⟩ := Population.wf_replace henv.sort g1
    have g2 : st' = { st with algo := a, population := pop, buffer := old } := Res.ok.inj g2
    subst g2
    rintro ⟨x, hx, ht⟩
    rw [w3] at hx
    exact hl ⟨x, mem_dedup_sort henv.sort hx, ht⟩
  · rw [one_mul]
    refine prob_generate_reached env.num (alg.model a) r n st.population _ target ε h0 h1 (fun x hx ht => hno ⟨x, ?_, ht⟩) hba
    rw [List.nil_append] at hx
    exact List.mem_of_mem_drop hx

/-- The loop has not ended after `k + 1` calls with probability at least `(1 - ε) ^ (n k)`. -/
theorem prob_loop_unended (hstd : Standard M alg elite size eliteOf) (halg : SafeAlgo alg okP) (hM : SafeOps M Pr)
    (envs : Nat → Env I) (henv : ∀ t, (envs t).Lawful) (progress : Q → Population I → Prog (Bool × Q))
    (target : F64) (ε : ℚ) (h0 : 0 ≤ ε) (h1 : ε ≤ 1) (n : Nat) (R : RunState I A Q → Prop)
    (hgo : ∀ q pop, pop.WF → ¬ Reached target pop → Always (fun r => r.1 = true) (progress q pop))
    (hsafe : ∀ st, R st → Safe alg elite size Pr st)
    (hR : ∀ st q', R st → R { st with q := q', shown := st.shown ++ [st.population] })
    (hstep : ∀ t st st', R st → (generationStep alg (envs t) st).yields (.ok st') → R st')
    (hbreed : ∀ t st a, R st → ¬ Reached target st.population → (alg.prepare (envs t).num st.algo st.population).yields (.ok a) →
      1 - ε ≤ (M.breed (envs t).num (alg.model a) st.population (alg.repro a).1).prob (fun c => ¬ target.le (fitness c) = true))
    (k t : Nat) (st : RunState I A Q) (hst : R st) (hno : ¬ Reached target st.population) (hn : size st.algo = n) :
    (1 - ε) ^ (n * k) ≤ (evolveLoop alg envs progress (k + 1) t st).prob (fun r => r.1 = false) := by
  induction k generalizing t st with
  | zero =>
    rw [evolveLoop]
    refine le_prob_bind_of_always _ _ _ _ (hgo st.q st.population (hsafe st hst).wf hno) fun ⟨cont, q'⟩ hc => ?_
    cases hc
    simp only [if_true]
    refine le_prob_bind_of_always _ _ _ _ (step_always hstd halg hM (envs t) (henv t) _ (hsafe _ (hR st q' hst))) fun st1 _ => ?_
    rw [evolveLoop, Nat.mul_zero, pow_zero]
    exact le_of_eq (by simp)
  | succ k ih =>
    rw [evolveLoop]
    refine le_prob_bind_of_always _ _ _ _ (hgo st.q st.population (hsafe st hst).wf hno) fun ⟨cont, q'⟩ hc => ?_
    cases hc
    simp only [if_true]
    refine le_trans ?_ (mul_le_prob_bind _ _ _ (fun st' => ¬ Reached target st'.population) ((1 - ε) ^ (n * k)) fun st1 hs1 hno1 => ?_)
    · rw [Nat.mul_succ, pow_add]
      refine mul_le_mul_of_nonneg_left ?_ (pow_nonneg (by linarith) _)
      have := prob_step_unreached hstd halg hM (henv t) target ε h0 h1 _ (hsafe _ (hR st q' hst)) hno
        fun a ha => hbreed t _ a (hR st q' hst) hno ha
      rwa [show size _ = n from hn] at this
    · exact ih (t + 1) st1 (hstep t _ _ (hR st q' hst) hs1) hno1 ((hstd.step (henv t) hs1).sizeEq.trans hn)

/-- All individuals of a population stay evaluated. -/
theorem step_evaluated (hstd : Standard M alg elite size eliteOf) (hM : SafeOps M Pr) (hmem : M.selectors.ReturnsMembers)
    (hdis : M.selectors.DistinctMembers) {env : Env I} (henv : env.Lawful) (st st' : RunState I A Q)
    (hs : ∀ x ∈ st.population.individuals, Evaluated M x) (h : (generationStep alg env st).yields (.ok st')) :
    ∀ x ∈ st'.population.individuals, Evaluated M x := by
  intro x hx
  obtain ⟨new, m1, m2, -⟩ := (hstd.step henv h).made
  rw [m1] at hx
  rcases List.mem_append.1 (mem_dedup_sort henv.sort hx) with hx | hx
  · exact hs x (List.mem_of_mem_drop hx)
  · exact bred_evaluated hM.breed hmem hdis _ _ _ _ hs x (m2 x hx)

theorem init_evaluated {env : Env I} (henv : env.Lawful) {model : Mo} {init : List I} :
    Partially (fun pop => ∀ x ∈ pop.individuals, Evaluated M x) (defaultInitialize M env model init) := by
  intro pop hpop
  unfold defaultInitialize at hpop
  simp only [yields_bind_ok, yields_mapList, yields_lift] at hpop
  obtain ⟨ev, h1, h2⟩ := hpop
  obtain ⟨-, -, h3, -⟩ := Population.wf_new henv.sort h2.symm
  intro x hx
  rw [h3] at hx
  obtain ⟨y, hy, hyx⟩ := forall₂_mem_right h1 x (List.mem_filter.1 (mem_dedup_sort henv.sort hx)).1
  exact ⟨_, _, hyx⟩

end
end RG
