import Verif.Props.LoneParent

/-!
# C140 — Runs whose selector gives only the fittest
-/

namespace RG.Props
open RG RG.Prog Arith
variable {I Mo U : Type} [Individual I]

/-- The selector is not changed by `prepare`, and of up to `N` individuals it selects only the fittest. -/
def OnlyFittest (sel : Selector) (N : Nat) : Prop :=
  (∀ (env : NumEnv) (p : Population I), sel.prepare env p = sel) ∧
  ∀ (env : NumEnv) (p : Population I) (hp : p.individuals ≠ []), p.individuals.length ≤ N → GivesOnly env sel p (p.individuals.getLast hp)

theorem adjust_selector {a : Aga Mo U} {n : Nat} {std : F64} :
    (a.adjust n std).breeding.parentSelector = a.breeding.parentSelector := by
  unfold Aga.adjust
  split
  · rfl
  · split <;> rfl

/-- **C140** The same for every selector that selects only the fittest of up to `N` individuals, in a run of the genetic algorithm. -/
theorem C140_ga_any {Q : Type} (M : EvoModel I Mo U) (hb : M.breed = defaultBreed M.toEvoOps) (hpre : ∀ m p r, M.preGeneration m p r = pure (m, r))
    (hm : M.selectors.ReturnsMembers) (hd : M.selectors.DistinctMembers) (heq : ∀ x : I, isValid x = true → Individual.eq x x = true) (envs : Nat → Env I) (henv : ∀ t, (envs t).Lawful)
    (progress : Q → Population I → Prog (Bool × Q)) (fuel : Nat) (a : Ga Mo U) (l : List I) (p : GaParams) (sel : Selector)
    (hp : p.selectionStrategy.createSelector = .ok sel) (N : Nat) (hsel : OnlyFittest (I := I) sel N) (q : Q) (fin : Bool)
    (st : RunState I (Ga Mo U) Q) (h : (evolvePopulation (ga M) envs progress fuel a l p q).yields (.ok (fin, st))) :
    (st.shown ++ [st.population]).IsChain fun pop pop' =>
      pop.individuals.length ≤ N → MutantsOfFittest M.toEvoOps a.model p.mutationRate pop pop' := by
  rw [yields_evolvePopulation] at h
  obtain ⟨b', pop, h1, h2, h3⟩ := h
  obtain ⟨new, k1, k2, -⟩ := evolveLoop_invariant (ga M) envs progress
    (fun c pop => c.model = a.model ∧ c.breeding.mutationRate = p.mutationRate ∧ c.breeding.parentSelector = .builtin sel ∧
      pop.individuals ≠ [] ∧ ∀ x ∈ pop.individuals, isValid x = true)
    (fun pop pop' => pop.individuals.length ≤ N → MutantsOfFittest M.toEvoOps a.model p.mutationRate pop pop')
    (fun t st st' _ hst hs => by
      obtain ⟨⟨r, g1, g2, -, -, mem, g5, g6⟩, -, g8, g9⟩ := (C73_ga_generation M (envs t) (henv t) st st').1 hs
      obtain ⟨i1, i2, i3, i4, i5⟩ := hst
      rw [hpre] at g1
      obtain ⟨e1, e2⟩ := Prod.mk.inj (Res.ok.inj ((yields_pure _ _).1 g1))
      have j1 : st'.algo.model = a.model := e1.trans i1
      have j2 : st'.algo.breeding.mutationRate = p.mutationRate := by rw [g2, e2]; exact i2
      have j3 : st'.algo.breeding.parentSelector = .builtin sel := by rw [g2, e2]; show DynSel.prepare _ _ _ _ = _; rw [i3]; exact congrArg DynSel.builtin (hsel.1 _ _)
      have hfrom : ∀ x ∈ st'.population.individuals, x ∈ st.population.individuals ∨
          (defaultBreed M.toEvoOps (envs t).num st'.algo.model st.population st'.algo.breeding).yields (.ok x) := by
        intro x hx
        obtain ⟨el, new, bred, s1, -, rfl, -, s4, s5⟩ := g5
        rcases List.mem_append.1 (made_mem (henv t).sort g6.toMadeOf x hx) with hx | hx
        · exact .inl (s1.subset hx)
        · have hx : x ∈ bred := by
            rw [s5] at hx
            split at hx
            · cases hx
            · exact hx
          rw [← hb]
          exact .inr (s4 x hx)
      refine ⟨⟨j1, j2, j3, made_ne (henv t).sort g6.toMadeOf, fun x hx => ?_⟩, fun hn x hx => ?_, g8, g9⟩
      · rcases hfrom x hx with h | h
        · exact i5 x h
        · exact C47_valid M.toEvoOps hm hd _ _ _ i5 _ x h
      rcases hfrom x hx with h | hbr
      · exact .inl h
      · right
        refine ⟨_, List.getLast?_eq_some_getLast i4, ?_⟩
        have := (C140_results M.toEvoOps (envs t).num st'.algo.model st.population st'.algo.breeding _ j3 _ (heq _ (i5 _ (List.getLast_mem i4)))
          (hsel.2 (envs t).num st.population i4 hn) x).1 hbr
        rwa [j1, j2] at this)
    fuel 1 (le_refl _) _ (by
      obtain ⟨ev, -, hs⟩ := (init_iff M (envs 0) (henv 0) _ l pop).1 h2
      have h1 : a.configure p = .ok b' := h1
      unfold Ga.configure at h1
      obtain ⟨-, -, h1⟩ := res_bind_ok h1
      obtain ⟨k, -, h1⟩ := res_bind_ok h1
      obtain ⟨sel', hsel', h1⟩ := res_bind_ok h1
      rw [hp] at hsel'
      cases hsel'
      cases h1
      exact ⟨rfl, rfl, rfl, made_ne (henv 0).sort hs.toMadeOf,
        fun x hx => (List.mem_filter.1 (made_mem (henv 0).sort hs.toMadeOf x hx)).2⟩) fin st h3
  have k1 : st.shown = new := k1
  rw [k1]
  refine k2.imp fun pop pop' hk => ?_
  rcases hk with hk | rfl
  · exact hk
  · exact fun _ x hx => .inl hx

/-- **C140** The same for every selector that selects only the fittest of up to `N` individuals, in a run of the adaptive genetic algorithm. -/
theorem C140_aga_any {Q : Type} (M : EvoModel I Mo U) (hb : M.breed = defaultBreed M.toEvoOps) (hpre : ∀ m p r, M.preGeneration m p r = pure (m, r))
    (hm : M.selectors.ReturnsMembers) (hd : M.selectors.DistinctMembers) (heq : ∀ x : I, isValid x = true → Individual.eq x x = true) (envs : Nat → Env I) (henv : ∀ t, (envs t).Lawful)
    (progress : Q → Population I → Prog (Bool × Q)) (fuel : Nat) (a : Aga Mo U) (l : List I) (p : AgaParams) (sel : Selector)
    (hp : p.selectionStrategy.createSelector = .ok sel) (N : Nat) (hsel : OnlyFittest (I := I) sel N) (q : Q) (fin : Bool)
    (st : RunState I (Aga Mo U) Q) (h : (evolvePopulation (aga M) envs progress fuel a l p q).yields (.ok (fin, st))) :
    (st.shown ++ [st.population]).IsChain fun pop pop' =>
      pop.individuals.length ≤ N → ∃ rate, MutantsOfFittest M.toEvoOps a.model rate pop pop' := by
  rw [yields_evolvePopulation] at h
  obtain ⟨b', pop, h1, h2, h3⟩ := h
  obtain ⟨new, k1, k2, -⟩ := evolveLoop_invariant (aga M) envs progress
    (fun c pop => c.model = a.model ∧ c.breeding.parentSelector = .builtin sel ∧
      pop.individuals ≠ [] ∧ ∀ x ∈ pop.individuals, isValid x = true)
    (fun pop pop' => pop.individuals.length ≤ N → ∃ rate, MutantsOfFittest M.toEvoOps a.model rate pop pop')
    (fun t st st' _ hst hs => by
      obtain ⟨⟨c, hc, r, g1, g2, mem, g5, g6⟩, -, g8, g9⟩ := (C73_aga_generation M (envs t) (henv t) st st').1 hs
      obtain ⟨i1, i3, i4, i5⟩ := hst
      rw [hpre] at g1
      obtain ⟨e1, e2⟩ := Prod.mk.inj (Res.ok.inj ((yields_pure _ _).1 g1))
      have j1 : st'.algo.model = a.model := e1.trans i1
      have j3 : st'.algo.breeding.parentSelector = .builtin sel := by
        rw [g2, e2, hc]; show DynSel.prepare _ _ _ _ = _; rw [adjust_selector, i3]; exact congrArg DynSel.builtin (hsel.1 _ _)
      have hfrom : ∀ x ∈ st'.population.individuals, x ∈ st.population.individuals ∨
          (defaultBreed M.toEvoOps (envs t).num st'.algo.model st.population st'.algo.breeding).yields (.ok x) := by
        intro x hx
        obtain ⟨el, new, bred, s1, -, rfl, -, s4, s5⟩ := g5
        rcases List.mem_append.1 (made_mem (henv t).sort g6.toMadeOf x hx) with hx | hx
        · exact .inl (s1.subset hx)
        · have hx : x ∈ bred := by
            rw [s5] at hx
            split at hx
            · cases hx
            · exact hx
          rw [← hb]
          exact .inr (s4 x hx)
      refine ⟨⟨j1, j3, made_ne (henv t).sort g6.toMadeOf, fun x hx => ?_⟩, fun hn => ⟨st'.algo.breeding.mutationRate, fun x hx => ?_⟩, g8, g9⟩
      · rcases hfrom x hx with h | h
        · exact i5 x h
        · exact C47_valid M.toEvoOps hm hd _ _ _ i5 _ x h
      rcases hfrom x hx with h | hbr
      · exact .inl h
      · right
        refine ⟨_, List.getLast?_eq_some_getLast i4, ?_⟩
        have := (C140_results M.toEvoOps (envs t).num st'.algo.model st.population st'.algo.breeding _ j3 _ (heq _ (i5 _ (List.getLast_mem i4)))
          (hsel.2 (envs t).num st.population i4 hn) x).1 hbr
        rwa [j1] at this)
    fuel 1 (le_refl _) _ (by
      obtain ⟨ev, -, hs⟩ := (init_iff M (envs 0) (henv 0) _ l pop).1 h2
      have h1 : a.configure p = .ok b' := h1
      unfold Aga.configure at h1
      obtain ⟨-, -, h1⟩ := res_bind_ok h1
      obtain ⟨k, -, h1⟩ := res_bind_ok h1
      obtain ⟨sel', hsel', h1⟩ := res_bind_ok h1
      rw [hp] at hsel'
      cases hsel'
      cases h1
      exact ⟨rfl, rfl, made_ne (henv 0).sort hs.toMadeOf,
        fun x hx => (List.mem_filter.1 (made_mem (henv 0).sort hs.toMadeOf x hx)).2⟩) fin st h3
  have k1 : st.shown = new := k1
  rw [k1]
  refine k2.imp fun pop pop' hk => ?_
  rcases hk with hk | rfl
  · exact hk
  · exact fun _ => ⟨F64.zero, fun x hx => .inl hx⟩

/-- **C140** Elitist selection is such a selector if `N` times the share not left out, `1 - ratio`, is at most one; and linear selection with the
biases above. -/
theorem C140_fixed : (∀ (s : ElitistSelection) (N : Nat), s.ratio.isFinite = true ∧ 0 ≤ s.ratio.val ∧ s.ratio.val < 1 → N ≤ 2 ^ 53 →
      N * (1 - s.ratio.val) ≤ 1 → OnlyFittest (I := I) (.elitist s) N) ∧
    ∀ b : F64, b = .one ∨ b = .nan ∨ (∃ s, b = .inf s) ∨ (b.isFinite = true ∧ pow2 512 ≤ b.val) →
      OnlyFittest (I := I) (.linear ⟨b⟩) (2 ^ 53) := by
  refine ⟨fun s N hs hN h => ⟨fun _ _ => rfl, fun env p hp hn => ?_⟩,
    fun b hb => ⟨fun _ _ => rfl, fun env p hp hn => (C140_only_fittest env p hp hn).1 b hb⟩⟩
  refine (C140_only_fittest env p hp (hn.trans hN)).2.2 s hs ?_
  have hlen : 0 < p.individuals.length := List.length_pos_of_ne_nil hp
  have hc : ((p.individuals.length - 1 : Nat) : ℚ) = (p.individuals.length : ℚ) - 1 := by
    rw [Nat.cast_sub hlen]; norm_num
  rw [← hc]
  refine le_rndQ (rep_nat (by omega)).1 ?_
  rw [hc]
  have h2 : (p.individuals.length : ℚ) ≤ N := by exact_mod_cast hn
  have h3 := mul_le_mul_of_nonneg_right h2 (show (0 : ℚ) ≤ 1 - s.ratio.val by linarith [hs.2.2])
  linarith

/-! ### Example -/

/-- `Elitist(0.9)` with up to ten individuals. -/
example : OnlyFittest (I := OneMax) (.elitist ⟨F64.lit (9 / 10)⟩) 10 :=
  C140_fixed.1 _ _ (by decide +kernel) (by norm_num) (by decide +kernel)

theorem oneMax_eq_self (x : OneMax) (hx : isValid x = true) : Individual.eq x x = true := by
  have hf : x.fit.isFinite = true := hx
  show (x.genome == x.genome && x.fit.feq x.fit) = true
  have : x.fit.isNaN = false := by cases he : x.fit <;> first | rfl | (rw [he] at hf; cases hf)
  simp [F64.feq, this]

/-- With it the adaptive algorithm does not cross over on OneMax either. -/
example {Q : Type} (envs : Nat → Env OneMax) (henv : ∀ t, (envs t).Lawful) (progress : Q → Population OneMax → Prog (Bool × Q)) (fuel : Nat)
    (a : Aga Unit Empty) (l : List OneMax) (q : Q) (fin : Bool) (st : RunState OneMax (Aga Unit Empty) Q) (p : AgaParams)
    (hp : p.selectionStrategy = .elitist (F64.lit (9 / 10)))
    (h : (evolvePopulation (aga OneMax.model) envs progress fuel a l p q).yields (.ok (fin, st))) :
    (st.shown ++ [st.population]).IsChain fun pop pop' =>
      pop.individuals.length ≤ 10 → ∃ rate, MutantsOfFittest OneMax.ops a.model rate pop pop' :=
  C140_aga_any OneMax.model rfl (fun _ _ _ => rfl) (fun u => u.elim) (fun u => u.elim) oneMax_eq_self envs henv progress fuel a l p
    (.elitist ⟨F64.lit (9 / 10)⟩) (by rw [hp]; decide +kernel) 10
    (C140_fixed.1 _ _ (by decide +kernel) (by norm_num) (by decide +kernel)) q fin st h

end RG.Props
