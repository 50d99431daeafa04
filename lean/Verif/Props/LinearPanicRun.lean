import Verif.Props.LoneRun

/-!
# C139 — Runs with a linear selection that panics
-/

namespace RG.Props
open RG RG.Prog Arith
variable {I Mo U Q : Type} [Individual I]

/-- **C139** With a bias between `-2^1020` and `-2^512`, no generation of the genetic algorithm that has something to breed comes to an end. -/
theorem C139_generation (M : EvoModel I Mo U) (hb : M.breed = defaultBreed M.toEvoOps) (hpre : ∀ m p r, M.preGeneration m p r = pure (m, r))
    (env : Env I) (henv : env.Lawful) (st : RunState I (Ga Mo U) Q) (b : F64) (hf : b.isFinite = true) (h1 : - pow2 1020 ≤ b.val)
    (h2 : b.val ≤ - pow2 512) (hsel : st.algo.breeding.parentSelector = .builtin (.linear ⟨b⟩)) (hne : st.population.individuals ≠ [])
    (hlen : st.population.individuals.length < 2 ^ 64) (he : st.algo.eliteSize < st.algo.populationSize) (st' : RunState I (Ga Mo U) Q) :
    ¬ (generationStep (ga M) env st).yields (.ok st') := by
  intro hs
  obtain ⟨⟨r, g1, g2, -, -, mem, g5, -⟩, -⟩ := (C73_ga_generation M env henv st st').1 hs
  rw [hpre] at g1
  obtain ⟨-, e2⟩ := Prod.mk.inj (Res.ok.inj ((yields_pure _ _).1 g1))
  have j3 : st'.algo.breeding.parentSelector = .builtin (.linear ⟨b⟩) := by
    rw [g2, e2]; show DynSel.prepare _ _ _ _ = _; rw [hsel]; rfl
  obtain ⟨el, new, bred, -, s2, -, s3, s4, -⟩ := g5
  have hpos : 0 < bred.length := by rw [s3, s2]; omega
  obtain ⟨c, hc⟩ := List.exists_mem_of_length_pos hpos
  have hbr := s4 c hc
  rw [hb, defaultBreed_eq, yields_bind_ok] at hbr
  obtain ⟨ps, hps, -⟩ := hbr
  unfold breedParents at hps
  rw [yields_bind_ok] at hps
  obtain ⟨x, hx, -⟩ := hps
  rw [j3] at hx
  cases (C139_select_panics b hf h1 h2 st.population hne hlen _).1 hx

/-- **C139** So a run that returns has shown only its initial population: `progress` ended it at the first call. -/
theorem C139_run (M : EvoModel I Mo U) (hb : M.breed = defaultBreed M.toEvoOps) (hpre : ∀ m p r, M.preGeneration m p r = pure (m, r))
    (envs : Nat → Env I) (henv : ∀ t, (envs t).Lawful) (progress : Q → Population I → Prog (Bool × Q)) (fuel : Nat) (a : Ga Mo U) (l : List I)
    (hl : l.length < 2 ^ 64) (p : GaParams) (b : F64) (hf : b.isFinite = true) (h1 : - pow2 1020 ≤ b.val) (h2 : b.val ≤ - pow2 512)
    (hp : p.selectionStrategy = .linear b)
    (he : ∀ k, interpolateUsize 0 p.populationSize p.elitismRate = .ok k → k < p.populationSize) (q : Q) (fin : Bool)
    (st : RunState I (Ga Mo U) Q) (h : (evolvePopulation (ga M) envs progress fuel a l p q).yields (.ok (fin, st))) :
    (fuel = 0 ∧ st.shown = []) ∨ (fin = true ∧ st.shown = [st.population]) := by
  rw [yields_evolvePopulation] at h
  obtain ⟨b', pop, c1, c2, c3⟩ := h
  cases fuel with
  | zero =>
    cases c3
    exact .inl ⟨rfl, rfl⟩
  | succ fuel =>
    right
    rcases (yields_evolveLoop_succ _ _ _ _ _ _ _).1 c3 with ⟨q', -, e⟩ | ⟨q', st1, -, e, -⟩
    · cases e
      exact ⟨rfl, rfl⟩
    · obtain ⟨ev, hev, hs⟩ := (init_iff M (envs 0) (henv 0) _ l pop).1 c2
      have hne := made_ne (henv 0).sort hs.toMadeOf
      have hlen : pop.individuals.length < 2 ^ 64 := by
        rw [hs.individuals]
        have e1 := (List.destutter_sublist (fun a b : I => Individual.eq b a = false) ((envs 0).sort (ev.filter isValid))).length_le
        have e2 := ((henv 0).sort.perm (ev.filter isValid)).length_eq
        have e3 := List.length_filter_le (isValid : I → Bool) ev
        have e4 := hev.length_eq
        omega
      have c1 : a.configure p = .ok b' := c1
      unfold Ga.configure at c1
      obtain ⟨-, -, c1⟩ := res_bind_ok c1
      obtain ⟨k, hk, c1⟩ := res_bind_ok c1
      obtain ⟨sel, hsel, c1⟩ := res_bind_ok c1
      rw [hp] at hsel
      cases hsel
      cases c1
      exact absurd e (C139_generation M hb hpre (envs 1) (henv 1) _ b hf h1 h2 rfl hne hlen (he k hk) st1)

/-! ### Example -/

/-- Default parameters but for the bias: OneMax. -/
example (envs : Nat → Env OneMax) (henv : ∀ t, (envs t).Lawful) (progress : Q → Population OneMax → Prog (Bool × Q)) (fuel : Nat)
    (a : Ga Unit Empty) (l : List OneMax) (hl : l.length < 2 ^ 64) (q : Q) (fin : Bool) (st : RunState OneMax (Ga Unit Empty) Q)
    (h : (evolvePopulation (ga OneMax.model) envs progress (fuel + 1) a l { GaParams.default with selectionStrategy := .linear hugeBias } q).yields
      (.ok (fin, st))) : fin = true ∧ st.shown = [st.population] := by
  refine (C139_run OneMax.model rfl (fun _ _ _ => rfl) envs henv progress (fuel + 1) a l hl
    { GaParams.default with selectionStrategy := .linear hugeBias } hugeBias hugeBias_facts.1
    (by rw [hugeBias_facts.2]; exact neg_le_neg (pow2_le.2 (by norm_num)))
    (by rw [hugeBias_facts.2]; exact neg_le_neg (pow2_le.2 (by norm_num))) rfl (fun k hk => ?_) q fin st h).resolve_left (by simp)
  have : interpolateUsize 0 GaParams.default.populationSize GaParams.default.elitismRate = .ok 1 := by decide +kernel
  have hk : interpolateUsize 0 GaParams.default.populationSize GaParams.default.elitismRate = .ok k := hk
  rw [this] at hk
  cases hk
  decide

end RG.Props
