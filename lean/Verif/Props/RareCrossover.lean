import Verif.Props.LoneRun
import Verif.Props.Cooling
import Verif.Props.WheelNeg

/-!
# C141 — Selection that nearly always gives the same individual makes crossover rare
-/

namespace RG.Props
open RG RG.Prog Arith
variable {I Mo U : Type} [Individual I]

/-- How likely something else than the individual `i` is selected, or nothing. -/
def strays (select : Prog (Nat × I)) (i : Nat) : ℚ := 1 - select.prob fun r => r.1 = i

/-- The indicator of anything else than the individual `i`. -/
def missed (i : Nat) : Res (Nat × I) → ℚ
  | .ok c => if c.1 = i then 0 else 1
  | _ => 1

omit [Individual I] in
theorem strays_eq (select : Prog (Nat × I)) (i : Nat) : strays select i = select.expect (missed i) := by
  unfold strays prob
  rw [sub_eq_iff_eq_add, ← expect_add]
  refine (expect_const select 1).symm.trans (expect_congr _ _ _ fun r _ => ?_)
  rcases r with c | _ | _
  · by_cases hc : c.1 = i <;> simp [missed, hc]
  · simp [missed]
  · simp [missed]

/-- The indicator of a second parent. -/
def found {α : Type} : Res (Option α) → ℚ
  | .ok (some _) => 1
  | _ => 0

theorem found_le {α : Type} (r : Res (Option α)) : 0 ≤ found r ∧ found r ≤ 1 := by
  rcases r with (_ | _) | _ | _ <;> exact ⟨by norm_num [found], by norm_num [found]⟩

theorem expect_unit {α : Type} (p : Prog α) (g : Res α → ℚ) (h : ∀ r, 0 ≤ g r ∧ g r ≤ 1) : 0 ≤ p.expect g ∧ p.expect g ≤ 1 := by
  constructor
  · rw [← expect_const p 0]; exact expect_mono _ _ _ fun r _ => (h r).1
  · rw [← expect_const p 1]; exact expect_mono _ _ _ fun r _ => (h r).2

theorem distinct_rare {select : Prog (Nat × I)} {i : Nat} {x : I} (hx : Individual.eq x x = true)
    (hi : ∀ c, select.yields (.ok c) → c.1 = i → c.2 = x) (n : Nat) :
    (selectDistinct select x n).expect found ≤ n * strays select i := by
  induction n with
  | zero => simp [selectDistinct, found]
  | succ n ih =>
    unfold selectDistinct
    rw [expect_bind]
    obtain ⟨r0, r1⟩ := expect_unit (selectDistinct select x n) found found_le
    refine le_trans (expect_mono _ _ (fun r => missed i r + (selectDistinct select x n).expect found) fun r hr => ?_) ?_
    · rcases r with ⟨j, y⟩ | _ | _
      · show Prog.expect (if Individual.eq y x = false then _ else _) found ≤ (if j = i then 0 else 1) + _
        by_cases hj : j = i
        · have : y = x := hi _ hr hj
          subst this
          rw [if_neg (by rw [hx]; exact Bool.noConfusion), if_pos hj]
          linarith
        · rw [if_neg hj]
          refine (expect_unit _ found found_le).2.trans ?_
          linarith
      · show (0 : ℚ) ≤ 1 + _
        linarith
      · show (0 : ℚ) ≤ 1 + _
        linarith
    · rw [expect_add, expect_const, ← strays_eq]
      push_cast
      linarith

/-- Whether there is a second parent. -/
def paired : Res (I × Option I) → ℚ
  | .ok (_, some _) => 1
  | _ => 0

omit [Individual I] in
theorem paired_le (r : Res (I × Option I)) : 0 ≤ paired r ∧ paired r ≤ 1 := by
  rcases r with ⟨_, _ | _⟩ | _ | _ <;> exact ⟨by norm_num [paired], by norm_num [paired]⟩

theorem parents_rare (M : EvoOps I Mo U) (env : NumEnv) (p : Population I) (r : ReproParams U) (s : Selector)
    (hs : r.parentSelector = .builtin s) (i : Nat) (x : I) (hx : Individual.eq x x = true)
    (hi : ∀ c, (s.select env p).yields (.ok c) → c.1 = i → c.2 = x) :
    (breedParents M env p r).expect paired ≤ 4 * strays (s.select env p) i := by
  unfold breedParents
  rw [hs, expect_bind]
  have hs0 : 0 ≤ strays (s.select env p) i := by
    rw [strays_eq]
    exact (expect_unit _ _ fun r => by
      rcases r with c | _ | _
      · by_cases hc : c.1 = i <;> simp [missed, hc]
      · simp [missed]
      · simp [missed]).1
  have hle : ∀ c : Nat × I, c.2 = x → Prog.expect
      ((if p.len > 1 then genF64 >>= fun u => pure (u.lt r.crossoverRate) else pure false) >>= fun cross =>
        (if cross then DynSel.selectDistinct env M.selectors p 3 c.2 (.builtin s) >>= fun r => pure (r.map Prod.snd) else pure none) >>= fun parent2 =>
        (pure (c.2, parent2) : Prog (I × Option I))) paired ≤ 3 * strays (s.select env p) i := by
    intro c hc
    rw [hc, expect_bind, ← expect_const (if p.len > 1 then _ else _) (3 * strays (s.select env p) i)]
    refine expect_mono _ _ _ fun b _ => ?_
    rcases b with b | _ | _
    · show Prog.expect (_ >>= _) paired ≤ _
      cases b with
      | false => show (0 : ℚ) ≤ _; linarith
      | true =>
        show Prog.expect ((selectDistinct (s.select env p) x 3 >>= fun r => pure (r.map Prod.snd)) >>= fun parent2 => pure (x, parent2)) paired ≤ _
        have := distinct_rare hx hi 3
        rw [bind_assoc, expect_bind]
        refine le_trans (expect_mono _ _ found fun z _ => ?_) (by exact_mod_cast this)
        rcases z with (_ | _) | _ | _ <;> exact le_refl _
    · show (0 : ℚ) ≤ _; linarith
    · show (0 : ℚ) ≤ _; linarith
  refine le_trans (expect_mono _ _ (fun r => missed i r + 3 * strays (s.select env p) i) fun c hc => ?_) ?_
  · rcases c with c | _ | _
    · by_cases hj : c.1 = i
      · refine (hle c (hi c hc hj)).trans ?_
        show _ ≤ (if c.1 = i then (0 : ℚ) else 1) + _
        rw [if_pos hj]; linarith
      · refine (expect_unit _ paired paired_le).2.trans ?_
        show _ ≤ (if c.1 = i then (0 : ℚ) else 1) + _
        rw [if_neg hj]; linarith
    · show (0 : ℚ) ≤ 1 + _; linarith
    · show (0 : ℚ) ≤ 1 + _; linarith
  · rw [expect_add, expect_const]
    have := strays_eq (s.select env p) i
    have h2 : DynSel.select env M.selectors p (.builtin s) = s.select env p := rfl
    rw [h2, ← this]
    linarith

/-! ### Theorems -/

/-- **C141** If a selector selects the individual `x`, at the index `i`, with probability `1 - ε`, then `breed` hardly depends on the crossover:
with any other method in its place, the expected value of a function between 0 and 1 changes by at most `4 ε`. -/
theorem C141_breed (M : EvoOps I Mo U) (other : Mo → I → I → Prog I) (env : NumEnv) (model : Mo) (p : Population I)
    (r : ReproParams U) (s : Selector) (hs : r.parentSelector = .builtin s) (i : Nat) (x : I) (hx : Individual.eq x x = true)
    (hi : ∀ c, (s.select env p).yields (.ok c) → c.1 = i → c.2 = x) (g : Res I → ℚ) (hg : ∀ r, 0 ≤ g r ∧ g r ≤ 1) :
    |(defaultBreed M env model p r).expect g - (defaultBreed { M with crossover := other } env model p r).expect g| ≤
      4 * (1 - (s.select env p).prob fun c => c.1 = i) := by
  refine le_trans ?_ (parents_rare M env p r s hs i x hx hi)
  have key : ∀ c c' : Mo → I → I → Prog I, (defaultBreed { M with crossover := c } env model p r).expect g ≤
      (defaultBreed { M with crossover := c' } env model p r).expect g + (breedParents M env p r).expect paired := by
    intro c c'
    rw [defaultBreed_eq, defaultBreed_eq, expect_bind, expect_bind]
    show (breedParents M env p r).expect _ ≤ (breedParents M env p r).expect _ + _
    rw [← expect_add]
    refine expect_mono _ _ _ fun z _ => ?_
    rcases z with ⟨y, _ | y'⟩ | _ | _
    · show _ ≤ Prog.expect _ g + 0
      rw [add_zero]
      exact le_refl _
    · show Prog.expect _ g ≤ Prog.expect _ g + 1
      exact (expect_unit _ g hg).2.trans (by have := (expect_unit (breedStart { M with crossover := c' } model y (some y') >>= fun o =>
        breedMutate { M with crossover := c' } model r.mutationRate o >>= fun o =>
        breedEnd { M with crossover := c' } model p (fitterParent y (some y')) o) g hg).1; exact le_add_of_nonneg_left this)
    · show g .panic ≤ g .panic + 0; linarith
    · show g .diverge ≤ g .diverge + 0; linarith
  rw [abs_le]
  constructor
  · have := key other M.crossover
    change (defaultBreed { M with crossover := other } env model p r).expect g ≤ (defaultBreed M env model p r).expect g + _ at this
    linarith
  · have := key M.crossover other
    change (defaultBreed M env model p r).expect g ≤ (defaultBreed { M with crossover := other } env model p r).expect g + _ at this
    linarith

/-- **C141** A Boltzmann selector that has cooled down selects the worst individual of positive fitness with probability `1 - 2^-53`, at least: the
crossover method matters at most `2^-51`. -/
theorem C141_cold (M : EvoOps I Mo U) (other : Mo → I → I → Prog I) (env : NumEnv) (henv : env.LawfulSum) (hexp : ExpRange env.exp) (model : Mo)
    (p : Population I) (r : ReproParams U) (s : BoltzmannSelection F64) (hs : r.parentSelector = .builtin (.boltzmann (s.prepare env p)))
    (hT : Cold (s.temperature.mul s.coolingRate)) (worse : List I) (x : I) (better : List I) (hp : p.individuals = worse ++ x :: better)
    (h1 : ∀ y ∈ worse, Negative y) (h2 : ∀ y ∈ x :: better, Positive y) (hx : Individual.eq x x = true)
    (g : Res I → ℚ) (hg : ∀ r, 0 ≤ g r ∧ g r ≤ 1) :
    |(defaultBreed M env model p r).expect g - (defaultBreed { M with crossover := other } env model p r).expect g| ≤ 1 / 2 ^ 51 := by
  have hne : p.individuals ≠ [] := by rw [hp]; simp
  have hat : p.individuals[worse.length]? = some x := by rw [hp]; simp
  have h := C141_breed M other env model p r _ hs worse.length x hx (fun c hc hj => by
    obtain ⟨k, j, y, -, e, hy, -⟩ := (C43_select env _ p hne _).1 hc
    cases e
    rw [show j = worse.length from hj, hat] at hy
    exact (Option.some.inj hy).symm) g hg
  have hpr : ((Selector.boltzmann (s.prepare env p)).select env p).prob (fun c => c.1 = worse.length) = _ :=
    C105_positive env henv hexp s p hT worse x better hp h1 h2 worse.length
  rw [hpr, if_pos rfl] at h
  refine h.trans ?_
  split <;> norm_num

/-- **C141** If all are of negative fitness, it gives only the worst of them, and breeding makes mutants of it. -/
theorem C141_cold_negative (env : NumEnv) (henv : env.LawfulSum) (hexp : ExpRange env.exp) (s : BoltzmannSelection F64) (p : Population I)
    (hT : Cold (s.temperature.mul s.coolingRate)) (hp : p.individuals ≠ []) (h1 : ∀ y ∈ p.individuals, Negative y) :
    GivesOnly env (.boltzmann (s.prepare env p)) p (p.individuals.head hp) := by
  intro c hc
  obtain ⟨d, rfl, -, hd⟩ := C105_negative env henv hexp s p hT hp h1 c hc
  refine ⟨d, rfl, ?_⟩
  rw [← List.head?_eq_getElem?, List.head?_eq_some_head hp] at hd
  exact (Option.some.inj hd).symm

/-- **C141** So does the roulette wheel, the default strategy, as long as all have the fitness zero. -/
theorem C141_flat (env : NumEnv) (henv : env.LawfulSum) (s : RouletteWheelSelection) (p : Population I) (hp : p.individuals ≠ [])
    (hw : ∀ x ∈ p.individuals, (fitness x).isFinite = true ∧ (fitness x).val = 0) :
    GivesOnly env (.rouletteWheel (s.prepare env p)) p (p.individuals.head hp) := by
  intro c hc
  obtain ⟨d, rfl, hd⟩ := C83_zero env henv s p hp hw c hc
  refine ⟨d, rfl, ?_⟩
  obtain ⟨k, j, x, -, e, hx, -⟩ := (C42_f64_wheel _ p hp _).1 hc
  cases e
  rw [show j = 0 from hd, ← List.head?_eq_getElem?, List.head?_eq_some_head hp] at hx
  exact (Option.some.inj hx).symm

/-- **C141** The offspring is then a mutant of the first individual, whatever the crossover rate and the crossover. -/
theorem C141_flat_breed (M : EvoOps I Mo U) (env : NumEnv) (henv : env.LawfulSum) (model : Mo) (p : Population I) (r : ReproParams U)
    (s : RouletteWheelSelection) (hs : r.parentSelector = .builtin (.rouletteWheel (s.prepare env p))) (hp : p.individuals ≠ [])
    (hw : ∀ x ∈ p.individuals, (fitness x).isFinite = true ∧ (fitness x).val = 0)
    (hx : Individual.eq (p.individuals.head hp) (p.individuals.head hp) = true) (g : Res I → ℚ) :
    (defaultBreed M env model p r).expect g = (mutantOf M model p r.mutationRate (p.individuals.head hp)).expect g :=
  C140_breed M env model p r _ hs _ hx (C141_flat env henv s p hp hw) g

/-- All individuals have the fitness zero. -/
def AllZero (p : Population I) : Prop := ∀ x ∈ p.individuals, (fitness x).isFinite = true ∧ (fitness x).val = 0

/-- A generation of individuals of the one before, and mutants of its first. -/
def MutantsOfFirst (M : EvoOps I Mo U) (model : Mo) (rate : F64) (p p' : Population I) : Prop :=
  ∀ x ∈ p'.individuals, x ∈ p.individuals ∨ ∃ f, p.individuals.head? = some f ∧ (mutantOf M model p rate f).yields (.ok x)

/-- **C141** In a run of the genetic algorithm with the roulette wheel, every population in which all have the fitness zero is followed by one of
its own individuals and mutants of its first, whatever the crossover rate and the crossover are. -/
theorem C141_ga {Q : Type} (M : EvoModel I Mo U) (hb : M.breed = defaultBreed M.toEvoOps) (hpre : ∀ m p r, M.preGeneration m p r = pure (m, r))
    (hm : M.selectors.ReturnsMembers) (hd : M.selectors.DistinctMembers) (heq : ∀ x : I, isValid x = true → Individual.eq x x = true) (envs : Nat → Env I) (henv : ∀ t, (envs t).Lawful)
    (progress : Q → Population I → Prog (Bool × Q)) (fuel : Nat) (a : Ga Mo U) (l : List I) (p : GaParams)
    (hp : p.selectionStrategy = .rouletteWheel) (q : Q) (fin : Bool)
    (st : RunState I (Ga Mo U) Q) (h : (evolvePopulation (ga M) envs progress fuel a l p q).yields (.ok (fin, st))) :
    (st.shown ++ [st.population]).IsChain fun pop pop' =>
      AllZero pop → MutantsOfFirst M.toEvoOps a.model p.mutationRate pop pop' := by
  rw [yields_evolvePopulation] at h
  obtain ⟨b', pop, h1, h2, h3⟩ := h
  obtain ⟨new, k1, k2, -⟩ := evolveLoop_invariant (ga M) envs progress
    (fun c pop => c.model = a.model ∧ c.breeding.mutationRate = p.mutationRate ∧ (∃ s, c.breeding.parentSelector = .builtin (.rouletteWheel s)) ∧
      pop.individuals ≠ [] ∧ ∀ x ∈ pop.individuals, isValid x = true)
    (fun pop pop' => AllZero pop → MutantsOfFirst M.toEvoOps a.model p.mutationRate pop pop')
    (fun t st st' _ hst hs => by
      obtain ⟨⟨r, g1, g2, -, -, mem, g5, g6⟩, -, g8, g9⟩ := (C73_ga_generation M (envs t) (henv t) st st').1 hs
      obtain ⟨i1, i2, ⟨s, i3⟩, i4, i5⟩ := hst
      rw [hpre] at g1
      obtain ⟨e1, e2⟩ := Prod.mk.inj (Res.ok.inj ((yields_pure _ _).1 g1))
      have j1 : st'.algo.model = a.model := e1.trans i1
      have j2 : st'.algo.breeding.mutationRate = p.mutationRate := by rw [g2, e2]; exact i2
      have j3 : st'.algo.breeding.parentSelector = .builtin (.rouletteWheel (s.prepare (envs t).num st.population)) := by
        rw [g2, e2]; show DynSel.prepare _ _ _ _ = _; rw [i3]; rfl
      have hfrom : ∀ x ∈ st'.population.individuals, x ∈ st.population.individuals ∨
          (defaultBreed M.toEvoOps (envs t).num st'.algo.model st.population st'.algo.breeding).yields (.ok x) := by
        intro x hx
        obtain ⟨el, new, bred, s1, -, rfl, -, s4, s5⟩ := g5
        rcases List.mem_append.1 (made_mem (henv t).sort g6.toMadeOf x hx) with hx | hx
        · exact .inl (s1.subset hx)
        · have hx : x ∈ bred := by
            rw [s5] at hx
            split at hx
            · cases hx
            · exact hx
          rw [← hb]
          exact .inr (s4 x hx)
      refine ⟨⟨j1, j2, ⟨_, j3⟩, made_ne (henv t).sort g6.toMadeOf, fun x hx => ?_⟩, fun hn x hx => ?_, g8, g9⟩
      · rcases hfrom x hx with h | h
        · exact i5 x h
        · exact C47_valid M.toEvoOps hm hd _ _ _ i5 _ x h
      rcases hfrom x hx with h | hbr
      · exact .inl h
      · right
        refine ⟨_, List.head?_eq_some_head i4, ?_⟩
        have := (C140_results M.toEvoOps (envs t).num st'.algo.model st.population st'.algo.breeding _ j3 _ (heq _ (i5 _ (List.head_mem i4)))
          (C141_flat (envs t).num (henv t).sum s st.population i4 hn) x).1 hbr
        rwa [j1, j2] at this)
    fuel 1 (le_refl _) _ (by
      obtain ⟨ev, -, hs⟩ := (init_iff M (envs 0) (henv 0) _ l pop).1 h2
      have h1 : a.configure p = .ok b' := h1
      unfold Ga.configure at h1
      obtain ⟨-, -, h1⟩ := res_bind_ok h1
      obtain ⟨k, -, h1⟩ := res_bind_ok h1
      obtain ⟨sel', hsel', h1⟩ := res_bind_ok h1
      rw [hp] at hsel'
      cases hsel'
      cases h1
      exact ⟨rfl, rfl, ⟨_, rfl⟩, made_ne (henv 0).sort hs.toMadeOf,
        fun x hx => (List.mem_filter.1 (made_mem (henv 0).sort hs.toMadeOf x hx)).2⟩) fin st h3
  have k1 : st.shown = new := k1
  rw [k1]
  refine k2.imp fun pop pop' hk => ?_
  rcases hk with hk | rfl
  · exact hk
  · exact fun _ x hx => .inl hx

/-- **C141** The same for the adaptive genetic algorithm, with the mutation rate of that generation. -/
theorem C141_aga {Q : Type} (M : EvoModel I Mo U) (hb : M.breed = defaultBreed M.toEvoOps) (hpre : ∀ m p r, M.preGeneration m p r = pure (m, r))
    (hm : M.selectors.ReturnsMembers) (hd : M.selectors.DistinctMembers) (heq : ∀ x : I, isValid x = true → Individual.eq x x = true) (envs : Nat → Env I) (henv : ∀ t, (envs t).Lawful)
    (progress : Q → Population I → Prog (Bool × Q)) (fuel : Nat) (a : Aga Mo U) (l : List I) (p : AgaParams)
    (hp : p.selectionStrategy = .rouletteWheel) (q : Q) (fin : Bool)
    (st : RunState I (Aga Mo U) Q) (h : (evolvePopulation (aga M) envs progress fuel a l p q).yields (.ok (fin, st))) :
    (st.shown ++ [st.population]).IsChain fun pop pop' =>
      AllZero pop → ∃ rate, MutantsOfFirst M.toEvoOps a.model rate pop pop' := by
  rw [yields_evolvePopulation] at h
  obtain ⟨b', pop, h1, h2, h3⟩ := h
  obtain ⟨new, k1, k2, -⟩ := evolveLoop_invariant (aga M) envs progress
    (fun c pop => c.model = a.model ∧ (∃ s, c.breeding.parentSelector = .builtin (.rouletteWheel s)) ∧
      pop.individuals ≠ [] ∧ ∀ x ∈ pop.individuals, isValid x = true)
    (fun pop pop' => AllZero pop → ∃ rate, MutantsOfFirst M.toEvoOps a.model rate pop pop')
    (fun t st st' _ hst hs => by
      obtain ⟨⟨c, hc, r, g1, g2, mem, g5, g6⟩, -, g8, g9⟩ := (C73_aga_generation M (envs t) (henv t) st st').1 hs
      obtain ⟨i1, ⟨s, i3⟩, i4, i5⟩ := hst
      rw [hpre] at g1
      obtain ⟨e1, e2⟩ := Prod.mk.inj (Res.ok.inj ((yields_pure _ _).1 g1))
      have j1 : st'.algo.model = a.model := e1.trans i1
      have j3 : st'.algo.breeding.parentSelector = .builtin (.rouletteWheel (s.prepare (envs t).num st.population)) := by
        rw [g2, e2, hc]; show DynSel.prepare _ _ _ _ = _; rw [adjust_selector, i3]; rfl
      have hfrom : ∀ x ∈ st'.population.individuals, x ∈ st.population.individuals ∨
          (defaultBreed M.toEvoOps (envs t).num st'.algo.model st.population st'.algo.breeding).yields (.ok x) := by
        intro x hx
        obtain ⟨el, new, bred, s1, -, rfl, -, s4, s5⟩ := g5
        rcases List.mem_append.1 (made_mem (henv t).sort g6.toMadeOf x hx) with hx | hx
        · exact .inl (s1.subset hx)
        · have hx : x ∈ bred := by
            rw [s5] at hx
            split at hx
            · cases hx
            · exact hx
          rw [← hb]
          exact .inr (s4 x hx)
      refine ⟨⟨j1, ⟨_, j3⟩, made_ne (henv t).sort g6.toMadeOf, fun x hx => ?_⟩, fun hn => ⟨st'.algo.breeding.mutationRate, fun x hx => ?_⟩, g8, g9⟩
      · rcases hfrom x hx with h | h
        · exact i5 x h
        · exact C47_valid M.toEvoOps hm hd _ _ _ i5 _ x h
      rcases hfrom x hx with h | hbr
      · exact .inl h
      · right
        refine ⟨_, List.head?_eq_some_head i4, ?_⟩
        have := (C140_results M.toEvoOps (envs t).num st'.algo.model st.population st'.algo.breeding _ j3 _ (heq _ (i5 _ (List.head_mem i4)))
          (C141_flat (envs t).num (henv t).sum s st.population i4 hn) x).1 hbr
        rwa [j1] at this)
    fuel 1 (le_refl _) _ (by
      obtain ⟨ev, -, hs⟩ := (init_iff M (envs 0) (henv 0) _ l pop).1 h2
      have h1 : a.configure p = .ok b' := h1
      unfold Aga.configure at h1
      obtain ⟨-, -, h1⟩ := res_bind_ok h1
      obtain ⟨k, -, h1⟩ := res_bind_ok h1
      obtain ⟨sel', hsel', h1⟩ := res_bind_ok h1
      rw [hp] at hsel'
      cases hsel'
      cases h1
      exact ⟨rfl, ⟨_, rfl⟩, made_ne (henv 0).sort hs.toMadeOf,
        fun x hx => (List.mem_filter.1 (made_mem (henv 0).sort hs.toMadeOf x hx)).2⟩) fin st h3
  have k1 : st.shown = new := k1
  rw [k1]
  refine k2.imp fun pop pop' hk => ?_
  rcases hk with hk | rfl
  · exact hk
  · exact fun _ => ⟨F64.zero, fun x hx => .inl hx⟩

/-- The roulette wheel is the default strategy. -/
example : GaParams.default.selectionStrategy = .rouletteWheel := rfl

/-- Bit strings without a one have the fitness zero. -/
example : AllZero (⟨[⟨[false], F64.zero⟩, ⟨[false, false], F64.zero⟩], 0, 0, ⟨Stats.collect [F64.zero, F64.zero]⟩⟩ : Population OneMax) := by
  intro x hx
  simp only [List.mem_cons, List.not_mem_nil, or_false] at hx
  rcases hx with rfl | rfl <;> exact ⟨by decide +kernel, by decide +kernel⟩

/-- The default parameters on OneMax: as long as there is no one in any of the strings, there is no crossover. -/
example {Q : Type} (envs : Nat → Env OneMax) (henv : ∀ t, (envs t).Lawful) (progress : Q → Population OneMax → Prog (Bool × Q)) (fuel : Nat)
    (a : Ga Unit Empty) (l : List OneMax) (q : Q) (fin : Bool) (st : RunState OneMax (Ga Unit Empty) Q)
    (h : (evolvePopulation (ga OneMax.model) envs progress fuel a l GaParams.default q).yields (.ok (fin, st))) :
    (st.shown ++ [st.population]).IsChain fun pop pop' =>
      AllZero pop → MutantsOfFirst OneMax.ops a.model GaParams.default.mutationRate pop pop' :=
  C141_ga OneMax.model rfl (fun _ _ _ => rfl) (fun u => u.elim) (fun u => u.elim) oneMax_eq_self envs henv progress fuel a l _ rfl q fin st h

/-- Three numbers at a low temperature: a second parent is a rarity. -/
example (other : Unit → Num → Num → Prog Num) (M : EvoOps Num Unit Empty) (r : ReproParams Empty)
    (hs : r.parentSelector = .builtin (.boltzmann ((⟨F64.fin (pow2 (-1029)) (rep_pow2 (by norm_num) (by norm_num)), F64.lit (1 / 2), F64.zero⟩ :
      BoltzmannSelection F64).prepare stepEnv numPop))) (g : Res Num → ℚ) (hg : ∀ r, 0 ≤ g r ∧ g r ≤ 1) :
    |(defaultBreed M stepEnv () numPop r).expect g - (defaultBreed { M with crossover := other } stepEnv () numPop r).expect g| ≤ 1 / 2 ^ 51 := by
  refine C141_cold M other stepEnv stepEnv_lawful stepExp_range () numPop r _ hs ⟨?_, ?_, ?_⟩ [] (num 1) [num 2, num 5] rfl (by simp) ?_
    (by decide +kernel) g hg
  · decide +kernel
  · decide +kernel
  · decide +kernel
  · intro y hy
    simp only [List.mem_cons, List.not_mem_nil, or_false] at hy
    rcases hy with rfl | rfl | rfl <;> exact num_positive _ (by decide +kernel) (by decide +kernel)

end RG.Props
