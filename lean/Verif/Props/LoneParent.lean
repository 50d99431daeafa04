import Verif.Props.LinearHuge
import Verif.ProgSame
import Verif.Props.Loci

/-!
# C140 — Selection that always gives the same individual switches crossover off

`select_distinct` gives up after three tries (`model.rs:157`, `selection.rs:123-129`). With a selector that always selects the same individual,
no second parent is found, whatever the crossover rate is.
-/

namespace RG.Props
open RG RG.Prog Arith
variable {I Mo U : Type} [Individual I]

/-! ### Specification -/

/-- The selector gives nothing but `x`. -/
def GivesOnly (env : NumEnv) (s : Selector) (p : Population I) (x : I) : Prop := Always (fun r => r.2 = x) (s.select env p)

/-- Breeding from the one parent `x`: mutate with the given rate, improve, evaluate, and keep the better of the two. -/
def mutantOf (M : EvoOps I Mo U) (model : Mo) (p : Population I) (rate : F64) (x : I) : Prog I := do
  let u ← genF64
  let o ← if u.lt rate then M.mutate model x else pure x
  let o ← M.improve model o
  let o ← M.evaluate model o
  let survives ← if isValid o then M.canSurvive model o x p else pure false
  pure (if survives then o else x)

/-! ### Programs with one result -/

theorem expect_bind_only {α β : Type} {p : Prog α} {a : α} (h : Always (fun b => b = a) p) (f : α → Prog β) (g : Res β → ℚ) :
    (p >>= f).expect g = (f a).expect g := by
  rw [expect_bind, ← expect_const p ((f a).expect g)]
  refine expect_congr _ _ _ fun r hr => ?_
  obtain ⟨b, rfl, rfl⟩ := h r hr
  rfl

theorem distinct_only {select : Prog (Nat × I)} {x : I} (hx : Individual.eq x x = true) (h : Always (fun r => r.2 = x) select) (tries : Nat) :
    Always (fun r => r = none) (selectDistinct select x tries) := by
  induction tries with
  | zero => exact fun r hr => ⟨_, (yields_pure _ _).1 hr, rfl⟩
  | succ n ih =>
    unfold selectDistinct
    rw [always_bind]
    refine h.mono fun c hc => ?_
    obtain ⟨i, y⟩ := c
    cases hc
    show Always _ (if Individual.eq y y = false then _ else _)
    rw [if_neg (by rw [hx]; exact Bool.noConfusion)]
    exact ih

theorem parents_only (M : EvoOps I Mo U) (env : NumEnv) (p : Population I) (r : ReproParams U) (s : Selector)
    (hs : r.parentSelector = .builtin s) (x : I) (hx : Individual.eq x x = true) (h : GivesOnly env s p x) :
    Always (fun ps => ps = (x, none)) (breedParents M env p r) := by
  have hpure : ∀ {α : Type} {P : α → Prop} {a : α}, P a → Always P (pure a : Prog α) :=
    fun hP r hr => ⟨_, (yields_pure _ _).1 hr, hP⟩
  unfold breedParents
  rw [hs, always_bind]
  refine Always.mono (P := fun c : Nat × I => c.2 = x) h fun c hc => ?_
  rw [hc, always_bind]
  refine Always.mono (P := fun _ : Bool => True) ?_ fun b _ => ?_
  · split
    · rw [always_bind, always_genF64]
      exact fun k _ => hpure trivial
    · exact hpure trivial
  · rw [always_bind]
    refine Always.mono (P := fun z : Option I => z = none) ?_ fun z hz => ?_
    · split
      · rw [always_bind]
        refine Always.mono (P := fun z : Option (Nat × I) => z = none) (distinct_only hx h 3) fun z hz => ?_
        rw [hz]
        exact hpure rfl
      · exact hpure rfl
    · rw [hz]
      exact hpure rfl

theorem mutantOf_eq (M : EvoOps I Mo U) (model : Mo) (p : Population I) (rate : F64) (x : I) :
    mutantOf M model p rate x = breedMutate M model rate x >>= fun o => breedEnd M model p x o := by
  have hite : ∀ {α β : Type} (c : Prop) [Decidable c] (x y : Prog α) (k : α → Prog β),
      ((if c then x else y) >>= k) = if c then x >>= k else y >>= k := by
    intro α β c _ x y k; split <;> rfl
  unfold mutantOf breedMutate breedEnd
  simp only [bind_assoc, hite, Prog.bind_pure_left]

/-! ### Theorems -/

/-- **C140** With such a selector `breed` has the distribution of breeding from that one parent: no crossover, whatever the crossover rate. -/
theorem C140_breed (M : EvoOps I Mo U) (env : NumEnv) (model : Mo) (p : Population I) (r : ReproParams U) (s : Selector)
    (hs : r.parentSelector = .builtin s) (x : I) (hx : Individual.eq x x = true) (h : GivesOnly env s p x) (g : Res I → ℚ) :
    (defaultBreed M env model p r).expect g = (mutantOf M model p r.mutationRate x).expect g := by
  rw [defaultBreed_eq, expect_bind_only (parents_only M env p r s hs x hx h), mutantOf_eq]
  rfl

/-- **C140** And it has the same results. -/
theorem C140_results (M : EvoOps I Mo U) (env : NumEnv) (model : Mo) (p : Population I) (r : ReproParams U) (s : Selector)
    (hs : r.parentSelector = .builtin s) (x : I) (hx : Individual.eq x x = true) (h : GivesOnly env s p x) (c : I) :
    (defaultBreed M env model p r).yields (.ok c) ↔ (mutantOf M model p r.mutationRate x).yields (.ok c) := by
  have ho := parents_only M env p r s hs x hx h
  rw [defaultBreed_eq, mutantOf_eq, yields_bind_ok]
  constructor
  · rintro ⟨ps, h1, h2⟩
    obtain ⟨ps', e, hps⟩ := ho _ h1
    cases e
    subst hps
    exact h2
  · intro h2
    obtain ⟨ps, h1, hps⟩ := ho.exists
    subst hps
    exact ⟨_, h1, h2⟩

/-- **C140** And the crossover method is never called: with any other in its place, `breed` makes the same draws and gives the same result. -/
theorem C140_never_called (M : EvoOps I Mo U) (other : Mo → I → I → Prog I) (env : NumEnv) (model : Mo) (p : Population I)
    (r : ReproParams U) (s : Selector) (hs : r.parentSelector = .builtin s) (x : I) (hx : Individual.eq x x = true)
    (h : GivesOnly env s p x) :
    (defaultBreed M env model p r).Same (defaultBreed { M with crossover := other } env model p r) := by
  rw [defaultBreed_eq, defaultBreed_eq]
  refine Same.bind (p := breedParents M env p r) (q := breedParents { M with crossover := other } env p r) (Same.refl _) fun ps hps => ?_
  obtain ⟨ps', e, hps'⟩ := parents_only M env p r s hs x hx h _ hps
  cases e
  subst hps'
  exact Same.refl _

/-- A linear selector that takes the last index for every draw. -/
theorem linear_only (env : NumEnv) (b : F64) (p : Population I) (hp : p.individuals ≠ [])
    (h : ∀ k, k < 2 ^ 53 → (⟨b⟩ : LinearSelection F64).selectIndex F64.toUsize p.len (F64.unit k) = .ok (p.len - 1)) :
    GivesOnly env (.linear ⟨b⟩) p (p.individuals.getLast hp) := by
  have hlen : 0 < p.len := List.length_pos_of_ne_nil hp
  show Always _ (LinearSelection.select ⟨b⟩ p)
  unfold LinearSelection.select
  rw [always_bind, always_genF64]
  intro k hk
  rw [h k hk]
  show Always _ (Prog.lift (memberAt p (p.len - 1)))
  rw [memberAt_ok (by omega)]
  exact fun r hr => ⟨_, (yields_lift _ _).1 hr, (List.getLast_eq_getElem hp).symm⟩

/-- **C140** These select only the fittest individual: linear selection with the bias 1, NaN, infinity, or at least `2^512`; a Boltzmann selector
with a NaN temperature or cooling rate, once prepared; and elitist selection if the ratio times the number of individuals, rounded, is at least
that number less one. -/
theorem C140_only_fittest (env : NumEnv) (p : Population I) (hp : p.individuals ≠ []) (hn : p.individuals.length ≤ 2 ^ 53) :
    (∀ b : F64, b = .one ∨ b = .nan ∨ (∃ s, b = .inf s) ∨ (b.isFinite = true ∧ pow2 512 ≤ b.val) →
      GivesOnly env (.linear ⟨b⟩) p (p.individuals.getLast hp)) ∧
    (∀ s : BoltzmannSelection F64, env.exp .nan = .nan → (s.temperature = .nan ∨ s.coolingRate = .nan) → ∀ seen : List (Population I),
      seen ≠ [] → GivesOnly env (.boltzmann (preparedFor env s seen)) p (p.individuals.getLast hp)) ∧
    (∀ s : ElitistSelection, s.ratio.isFinite = true ∧ 0 ≤ s.ratio.val ∧ s.ratio.val < 1 →
      (p.individuals.length : ℚ) - 1 ≤ rndQ (p.individuals.length * s.ratio.val) →
      GivesOnly env (.elitist s) p (p.individuals.getLast hp)) := by
  have hlen : 0 < p.len := List.length_pos_of_ne_nil hp
  have hn' : p.len < 2 ^ 64 := lt_of_le_of_lt hn (by norm_num)
  refine ⟨fun b hb => linear_only env b p hp fun k hk => ?_, fun s he hs seen hseen => ?_, fun s hs hr => ?_⟩
  · rcases hb with rfl | rfl | ⟨s, rfl⟩ | ⟨h1, h2⟩
    · exact C44_bias_one _ hlen hn' k hk
    · exact C44_bias_nan _ hlen _
    · exact C139_infinite s _ hlen hn' _
    · exact C139_huge b h1 h2 _ hlen hn' _
  · refine Always.mono (C138_nan env he s hs seen hseen p hp) fun r hr => ?_
    obtain ⟨h1, h2⟩ := hr
    rw [List.getLast_eq_getElem hp]
    obtain ⟨h3, h4⟩ := List.getElem?_eq_some_iff.1 h2
    rw [← h4]
    congr 1
    omega
  · obtain ⟨hb, hb'⟩ := s.bound_spec (inHalfOpenUnit_iff.2 hs) (n := p.len) hn
    have hb1 : s.bound p.len = p.len - 1 := by
      have h1 := hb' hlen
      have h2 : ((p.len - 1 : Nat) : Int) ≤ ⌊rndQ (p.len * s.ratio.val)⌋ := by
        rw [Int.le_floor]
        have : ((p.len - 1 : Nat) : ℚ) = (p.len : ℚ) - 1 := by
          rw [Nat.cast_sub hlen]; norm_num
        push_cast
        rw [this]
        exact hr
      omega
    show Always _ (s.select p)
    unfold ElitistSelection.select
    rw [always_bind, hb1]
    intro r hr
    rcases (yields_rangeExcl _ _ _).1 hr with ⟨h, -⟩ | ⟨i, h1, h2, rfl⟩
    · omega
    · refine ⟨_, rfl, ?_⟩
      have hi : i = p.len - 1 := by omega
      subst hi
      show Always _ (Prog.lift (memberAt p (p.len - 1)))
      rw [memberAt_ok (by omega)]
      exact fun r hr => ⟨_, (yields_lift _ _).1 hr, (List.getLast_eq_getElem hp).symm⟩

/-- What such a generation consists of: individuals of the one before, and mutants of its fittest. -/
def MutantsOfFittest (M : EvoOps I Mo U) (model : Mo) (rate : F64) (p p' : Population I) : Prop :=
  ∀ x ∈ p'.individuals, x ∈ p.individuals ∨ ∃ f, p.individuals.getLast? = some f ∧ (mutantOf M model p rate f).yields (.ok x)

theorem made_ne {sort : List I → List I} (hs : LawfulSort sort) {members : List I} {pop : Population I} (h : MadeOf sort members pop) :
    pop.individuals ≠ [] := by
  rw [h.individuals]
  intro e
  rw [List.destutter_eq_nil] at e
  have hpm := hs.perm members
  rw [e] at hpm
  exact h.ne hpm.nil_eq.symm

/-- **C140** A run of the genetic algorithm with linear selection and such a bias, whatever the crossover rate and the crossover are: every
population consists of individuals of the one before it and of mutants of its fittest. -/
theorem C140_ga {Q : Type} (M : EvoModel I Mo U) (hb : M.breed = defaultBreed M.toEvoOps) (hpre : ∀ m p r, M.preGeneration m p r = pure (m, r))
    (hm : M.selectors.ReturnsMembers) (hd : M.selectors.DistinctMembers) (heq : ∀ x : I, isValid x = true → Individual.eq x x = true) (envs : Nat → Env I) (henv : ∀ t, (envs t).Lawful)
    (progress : Q → Population I → Prog (Bool × Q)) (fuel : Nat) (a : Ga Mo U) (l : List I) (p : GaParams) (b : F64)
    (hp : p.selectionStrategy = .linear b)
    (hbias : b = .one ∨ b = .nan ∨ (∃ s, b = .inf s) ∨ (b.isFinite = true ∧ pow2 512 ≤ b.val)) (q : Q) (fin : Bool)
    (st : RunState I (Ga Mo U) Q) (h : (evolvePopulation (ga M) envs progress fuel a l p q).yields (.ok (fin, st))) :
    (st.shown ++ [st.population]).IsChain fun pop pop' =>
      pop.individuals.length ≤ 2 ^ 53 → MutantsOfFittest M.toEvoOps a.model p.mutationRate pop pop' := by
  rw [yields_evolvePopulation] at h
  obtain ⟨b', pop, h1, h2, h3⟩ := h
  obtain ⟨new, k1, k2, -⟩ := evolveLoop_invariant (ga M) envs progress
    (fun c pop => c.model = a.model ∧ c.breeding.mutationRate = p.mutationRate ∧ c.breeding.parentSelector = .builtin (.linear ⟨b⟩) ∧
      pop.individuals ≠ [] ∧ ∀ x ∈ pop.individuals, isValid x = true)
    (fun pop pop' => pop.individuals.length ≤ 2 ^ 53 → MutantsOfFittest M.toEvoOps a.model p.mutationRate pop pop')
    (fun t st st' _ hst hs => by
      obtain ⟨⟨r, g1, g2, -, -, mem, g5, g6⟩, -, g8, g9⟩ := (C73_ga_generation M (envs t) (henv t) st st').1 hs
      obtain ⟨i1, i2, i3, i4, i5⟩ := hst
      rw [hpre] at g1
      obtain ⟨e1, e2⟩ := Prod.mk.inj (Res.ok.inj ((yields_pure _ _).1 g1))
      have j1 : st'.algo.model = a.model := e1.trans i1
      have j2 : st'.algo.breeding.mutationRate = p.mutationRate := by rw [g2, e2]; exact i2
      have j3 : st'.algo.breeding.parentSelector = .builtin (.linear ⟨b⟩) := by rw [g2, e2]; show DynSel.prepare _ _ _ _ = _; rw [i3]; rfl
      have hfrom : ∀ x ∈ st'.population.individuals, x ∈ st.population.individuals ∨
          (defaultBreed M.toEvoOps (envs t).num st'.algo.model st.population st'.algo.breeding).yields (.ok x) := by
        intro x hx
        obtain ⟨el, new, bred, s1, -, rfl, -, s4, s5⟩ := g5
        rcases List.mem_append.1 (made_mem (henv t).sort g6.toMadeOf x hx) with hx | hx
        · exact .inl (s1.subset hx)
        · have hx : x ∈ bred := by
            rw [s5] at hx
            split at hx
            · cases hx
            · exact hx
          rw [← hb]
          exact .inr (s4 x hx)
      refine ⟨⟨j1, j2, j3, made_ne (henv t).sort g6.toMadeOf, fun x hx => ?_⟩, fun hn x hx => ?_, g8, g9⟩
      · rcases hfrom x hx with h | h
        · exact i5 x h
        · exact C47_valid M.toEvoOps hm hd _ _ _ i5 _ x h
      rcases hfrom x hx with h | hbr
      · exact .inl h
      · right
        refine ⟨_, List.getLast?_eq_some_getLast i4, ?_⟩
        have := (C140_results M.toEvoOps (envs t).num st'.algo.model st.population st'.algo.breeding _ j3 _ (heq _ (i5 _ (List.getLast_mem i4)))
          ((C140_only_fittest (envs t).num st.population i4 hn).1 b hbias) x).1 hbr
        rwa [j1, j2] at this)
    fuel 1 (le_refl _) _ (by
      obtain ⟨ev, -, hs⟩ := (init_iff M (envs 0) (henv 0) _ l pop).1 h2
      have h1 : a.configure p = .ok b' := h1
      unfold Ga.configure at h1
      obtain ⟨-, -, h1⟩ := res_bind_ok h1
      obtain ⟨k, -, h1⟩ := res_bind_ok h1
      obtain ⟨sel, hsel, h1⟩ := res_bind_ok h1
      rw [hp] at hsel
      cases hsel
      cases h1
      exact ⟨rfl, rfl, rfl, made_ne (henv 0).sort hs.toMadeOf,
        fun x hx => (List.mem_filter.1 (made_mem (henv 0).sort hs.toMadeOf x hx)).2⟩) fin st h3
  have k1 : st.shown = new := k1
  rw [k1]
  refine k2.imp fun pop pop' hk => ?_
  rcases hk with hk | rfl
  · exact hk
  · exact fun _ x hx => .inl hx

/-! ### Examples -/

/-- `Elitist(0.9)` in a population of ten: the fittest is the only parent. -/
example (env : NumEnv) (p : Population I) (hp : p.individuals ≠ []) (h : p.individuals.length = 10) :
    GivesOnly env (.elitist ⟨F64.lit (9 / 10)⟩) p (p.individuals.getLast hp) := by
  refine (C140_only_fittest env p hp (by rw [h]; norm_num)).2.2 _ (by decide +kernel) ?_
  rw [h]
  have : rndQ (((10 : Nat) : ℚ) * (F64.lit (9 / 10)).val) = 9 := by decide +kernel
  rw [this]
  norm_num

/-- OneMax with linear selection and the bias 1, otherwise with the default parameters: only mutants of the fittest are new. -/
example {Q : Type} (envs : Nat → Env OneMax) (henv : ∀ t, (envs t).Lawful) (progress : Q → Population OneMax → Prog (Bool × Q)) (fuel : Nat)
    (a : Ga Unit Empty) (l : List OneMax) (q : Q) (fin : Bool) (st : RunState OneMax (Ga Unit Empty) Q)
    (h : (evolvePopulation (ga OneMax.model) envs progress fuel a l { GaParams.default with selectionStrategy := .linear .one } q).yields
      (.ok (fin, st))) :
    (st.shown ++ [st.population]).IsChain fun pop pop' =>
      pop.individuals.length ≤ 2 ^ 53 → MutantsOfFittest OneMax.ops a.model GaParams.default.mutationRate pop pop' :=
  C140_ga OneMax.model rfl (fun _ _ _ => rfl) (fun u => u.elim) (fun u => u.elim) (fun x hx => by
    have hf : x.fit.isFinite = true := hx
    show (x.genome == x.genome && x.fit.feq x.fit) = true
    have : x.fit.isNaN = false := by cases he : x.fit <;> first | rfl | (rw [he] at hf; cases hf)
    simp [F64.feq, this]) envs henv progress fuel a l
    { GaParams.default with selectionStrategy := .linear .one } .one rfl (.inl rfl) q fin st h

/-- Linear selection with the bias 1. -/
example (env : NumEnv) (p : Population I) (hp : p.individuals ≠ []) (hn : p.individuals.length ≤ 2 ^ 53) :
    GivesOnly env (.linear ⟨.one⟩) p (p.individuals.getLast hp) := (C140_only_fittest env p hp hn).1 _ (.inl rfl)

end RG.Props
