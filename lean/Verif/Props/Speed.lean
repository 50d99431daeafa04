import Verif.Props.Loci
import Verif.Props.Tour
import Verif.Props.OneMax
import Verif.Route

/-!
# Property C111: no run is faster than its operators

What one crossover, one mutation and one generation can change at most limits what a run can reach in a given number of
generations, whatever it draws. A run of OneMax can at most double the ones of its best individual and add one per generation, and
without crossover only add one; a problem over round trips that only mutates by swapping, inserting or reversing changes at most
4, 3 or 2 edges per generation.
-/

set_option linter.unusedSectionVars false

namespace RG.Props
open RG RG.Prog
variable {I Mo U Q : Type} [Individual I]

/-- `R k` is what can be reached in `k` generations: `C k` is what crossover can make of two individuals with `R k`, or a copy of
one; what mutation can make of these, or they themselves, has `R (k + 1)`. If `X` does not hold, crossover is not considered. -/
structure Paced (M : EvoModel I Mo U) (R C : Nat → I → Prop) (X : Prop) : Prop where
  copy : ∀ k a, R k a → C k a
  crossover : X → ∀ m k a b c, R k a → R k b → (M.crossover m a b).yields (.ok c) → C k c
  mutate : ∀ m k a c, C k a → (M.mutate m a).yields (.ok c) → R (k + 1) c
  keep : ∀ k a, C k a → R (k + 1) a
  improve : ∀ m k a c, R k a → (M.improve m a).yields (.ok c) → R k c
  evaluate : ∀ m k a c, R k a → (M.evaluate m a).yields (.ok c) → R k c
  preGeneration : ∀ m p b, M.preGeneration m p b = pure (m, b)
  breed : M.breed = defaultBreed M.toEvoOps
  members : M.selectors.ReturnsMembers
  distinct : M.selectors.DistinctMembers

theorem Paced.bred {M : EvoModel I Mo U} {R C : Nat → I → Prop} {X : Prop} (hM : Paced M R C X) {env : NumEnv} {m : Mo}
    {p : Population I} {r : ReproParams U} (hr : X ∨ F64.zero.lt r.crossoverRate = false) {c : I}
    (h : (M.breed env m p r).yields (.ok c)) {k : Nat} (hk : ∀ y ∈ p.individuals, R k y) : R (k + 1) c := by
  rw [hM.breed] at h
  obtain ⟨p1, p2, f, o, hm, hf, ⟨o0, o1, o2, h0, h1, h2, h3⟩, h⟩ := (yields_defaultBreed _ env m p r c).1 h
  obtain ⟨m1, m2⟩ := hm.mem hM.members hM.distinct
  rcases h with ⟨-, -, rfl⟩ | ⟨-, rfl⟩
  · refine hM.evaluate _ _ _ _ (hM.improve _ _ _ _ ?_ h2) h3
    have hC : C k o0 := by
      rcases h0 with ⟨-, rfl⟩ | ⟨b, hb, h0⟩
      · exact hM.copy _ _ (hk _ m1)
      · rcases hr with hx | hr
        · exact hM.crossover hx _ _ _ _ _ (hk _ m1) (hk _ (m2 b hb).1) h0
        · subst hb
          cases hm with
          | pair _ _ h => rw [canFire_iff_pos, hr] at h; cases h
    rcases h1 with ⟨-, rfl⟩ | ⟨-, h1⟩
    · exact hM.keep _ _ hC
    · exact hM.mutate _ _ _ _ hC h1
  · exact hM.keep _ _ (hM.copy _ _ (hk _ (hf.mem m1 fun b hb => (m2 b hb).1)))

theorem Paced.next {M : EvoModel I Mo U} {R C : Nat → I → Prop} {X : Prop} (hM : Paced M R C X) {env : Env I}
    (henv : env.Lawful) {model : Mo} {r : ReproParams U} (hr : X ∨ F64.zero.lt r.crossoverRate = false) {e n : Nat}
    {pop pop' : Population I} {members : List I} (h : NextMembers M env.num model r e n pop members)
    (h' : Replaces env.sort pop members pop') (hk : ∀ x ∈ pop.individuals, R pop.generation x) :
    ∀ x ∈ pop'.individuals, R pop'.generation x := by
  intro x hx
  rw [h'.generation]
  obtain ⟨el, new, bred, s1, -, rfl, -, s4, s5⟩ := h
  rcases List.mem_append.1 (made_mem henv.sort h'.toMadeOf x hx) with hx | hx
  · exact hM.keep _ _ (hM.copy _ _ (hk x (s1.subset hx)))
  · have hx : x ∈ bred := by
      rw [s5] at hx
      split at hx
      · cases hx
      · exact hx
    exact hM.bred hr (s4 x hx) hk

theorem Paced.start {M : EvoModel I Mo U} {R C : Nat → I → Prop} {X : Prop} (hM : Paced M R C X) {env : Env I}
    (henv : env.Lawful) {model : Mo} {l : List I} {pop : Population I} (h : (defaultInitialize M env model l).yields (.ok pop))
    (hl : ∀ x ∈ l, R 0 x) : ∀ x ∈ pop.individuals, R pop.generation x := by
  obtain ⟨ev, h1, h2⟩ := (init_iff M env henv model l pop).1 h
  intro x hx
  rw [h2.generation]
  obtain ⟨y, hy, e⟩ := forall₂_mem_right h1 x (List.mem_of_mem_filter (made_mem henv.sort h2.toMadeOf x hx))
  exact hM.evaluate model 0 y x (hl y hy) e

/-- **C111** Runs of the genetic algorithm: the individuals of generation `g` are among what can be reached in `g` generations. -/
theorem C111_ga (M : EvoModel I Mo U) (R C : Nat → I → Prop) (X : Prop) (hM : Paced M R C X) (envs : Nat → Env I)
    (henv : ∀ t, (envs t).Lawful) (progress : Q → Population I → Prog (Bool × Q)) (fuel : Nat) (a : Ga Mo U) (l : List I)
    (hl : ∀ x ∈ l, R 0 x) (p : GaParams) (hp : X ∨ F64.zero.lt p.crossoverRate = false) (q : Q) (fin : Bool)
    (st : RunState I (Ga Mo U) Q) (h : (evolvePopulation (ga M) envs progress fuel a l p q).yields (.ok (fin, st))) :
    ∀ pop ∈ st.shown ++ [st.population], ∀ x ∈ pop.individuals, R pop.generation x := by
  rw [yields_evolvePopulation] at h
  obtain ⟨b, pop, h1, h2, h3⟩ := h
  obtain ⟨new, k1, -, -, k4, k5, -⟩ := evolveLoop_invariant (ga M) envs progress
    (fun a p => (X ∨ F64.zero.lt a.breeding.crossoverRate = false) ∧ ∀ x ∈ p.individuals, R p.generation x)
    (fun _ _ => True) (fun t st st' _ hst hs => by
      obtain ⟨⟨r, g1, g2, -, -, mem, g5, g6⟩, -, g8, g9⟩ := (C73_ga_generation M (envs t) (henv t) st st').1 hs
      rw [hM.preGeneration] at g1
      have g1 := (yields_pure _ _).1 g1
      obtain ⟨-, e⟩ := Prod.mk.inj (Res.ok.inj g1)
      have hr : X ∨ F64.zero.lt st'.algo.breeding.crossoverRate = false := by rw [g2, e]; exact hst.1
      exact ⟨⟨hr, hM.next (henv t) hr g5 g6 hst.2⟩, trivial, g8, g9⟩) fuel 1 (le_refl _) _ (by
      refine ⟨?_, hM.start (henv 0) h2 hl⟩
      show X ∨ F64.zero.lt b.breeding.crossoverRate = false
      have h1 : a.configure p = .ok b := h1
      unfold Ga.configure at h1
      obtain ⟨-, -, h1⟩ := res_bind_ok h1
      obtain ⟨k, -, h1⟩ := res_bind_ok h1
      obtain ⟨sel, hsel, h1⟩ := res_bind_ok h1
      cases h1
      exact hp) fin st h3
  have k1 : st.shown = new := k1
  rw [k1]
  intro pop hpop
  rcases List.mem_append.1 hpop with hpop | hpop
  · exact (k4 pop hpop).choose_spec.2
  · cases List.mem_singleton.1 hpop
    exact k5.2

/-- **C111** The same for the adaptive genetic algorithm. -/
theorem C111_aga (M : EvoModel I Mo U) (R C : Nat → I → Prop) (X : Prop) (hM : Paced M R C X) (envs : Nat → Env I)
    (henv : ∀ t, (envs t).Lawful) (progress : Q → Population I → Prog (Bool × Q)) (fuel : Nat) (a : Aga Mo U) (l : List I)
    (hl : ∀ x ∈ l, R 0 x) (p : AgaParams) (hp : X ∨ ZeroRange p.crossoverRateRange) (q : Q) (fin : Bool)
    (st : RunState I (Aga Mo U) Q) (h : (evolvePopulation (aga M) envs progress fuel a l p q).yields (.ok (fin, st))) :
    ∀ pop ∈ st.shown ++ [st.population], ∀ x ∈ pop.individuals, R pop.generation x := by
  rw [yields_evolvePopulation] at h
  obtain ⟨b, pop, h1, h2, h3⟩ := h
  obtain ⟨new, k1, -, -, k4, k5, -⟩ := evolveLoop_invariant (aga M) envs progress
    (fun a p' => (X ∨ p'.generation = 0 ∨ F64.zero.lt a.breeding.crossoverRate = false) ∧
      a.crossoverRateRange = p.crossoverRateRange ∧ ∀ x ∈ p'.individuals, R p'.generation x)
    (fun _ _ => True) (fun t st st' _ hst hs => by
      obtain ⟨⟨b, hb, r, g1, g2, mem, g5, g6⟩, -, g8, g9⟩ := (C73_aga_generation M (envs t) (henv t) st st').1 hs
      obtain ⟨s1, s2, s3⟩ := hst
      rw [hM.preGeneration] at g1
      have g1 := (yields_pure _ _).1 g1
      obtain ⟨-, e⟩ := Prod.mk.inj (Res.ok.inj g1)
      obtain ⟨-, i2, -, i4⟩ := adjust_zero (a := st.algo) (n := st.population.generation) (std := st.population.stats.std)
      have hr : X ∨ F64.zero.lt st'.algo.breeding.crossoverRate = false := by
        rcases hp with hx | hp
        · exact Or.inl hx
        · rcases s1 with hx | s1
          · exact Or.inl hx
          · right
            rw [g2, e, hb]
            exact i4 (s2 ▸ hp) s1
      refine ⟨⟨hr.imp_right Or.inr, ?_, hM.next (henv t) hr g5 g6 s3⟩, trivial, g8, g9⟩
      rw [g2, hb]; exact i2.trans s2) fuel 1 (le_refl _) _ (by
      refine ⟨Or.inr (Or.inl (init_wf (henv 0) h2).2.1), ?_⟩
      show b.crossoverRateRange = _ ∧ _
      have h1 : a.configure p = .ok b := h1
      unfold Aga.configure at h1
      obtain ⟨-, -, h1⟩ := res_bind_ok h1
      obtain ⟨k, -, h1⟩ := res_bind_ok h1
      obtain ⟨sel, hsel, h1⟩ := res_bind_ok h1
      cases h1
      exact ⟨rfl, hM.start (henv 0) h2 hl⟩) fin st h3
  have k1 : st.shown = new := k1
  rw [k1]
  intro pop hpop
  rcases List.mem_append.1 hpop with hpop | hpop
  · exact (k4 pop hpop).choose_spec.2.2
  · cases List.mem_singleton.1 hpop
    exact k5.2.2

/-! ### OneMax -/

theorem duplicate_ones (g g' : List Bool) (h : (MutationStrategy.duplicate.mutate g).yields (.ok g')) : ones g' ≤ ones g + 1 := by
  by_cases hn : g.length < 2
  · rw [C37_short _ g hn, yields_pure] at h
    cases h
    omega
  obtain ⟨_, i, j, e, hs⟩ := (C36_duplicate g (by omega) _).1 h
  cases e
  obtain ⟨a, x, y, c, rfl, rfl⟩ := copied_pieces hs
  unfold ones
  rw [List.count_append, List.count_append, List.count_cons, List.count_cons]
  split <;> split <;> omega

theorem single_point_ones (lt : Bool → Bool → Bool) (ord : Nat → List Bool → List Bool) (fuel : Nat) (p₁ p₂ c : List Bool)
    (h : (CrossoverStrategy.singlePoint.crossover lt ord fuel p₁ p₂).yields (.ok c)) : ones c ≤ ones p₁ + ones p₂ := by
  unfold CrossoverStrategy.crossover at h
  obtain ⟨k, -, h⟩ := (yields_bind_ok _ _ _).1 h
  have h := (yields_lift _ _).1 h
  by_cases hl : p₁.length = p₂.length
  · rw [C28_spx p₁ p₂ hl] at h
    cases h
    unfold ones
    rw [List.count_append]
    exact Nat.add_le_add ((List.take_sublist _ _).count_le _) ((List.drop_sublist _ _).count_le _)
  · unfold spx at h
    rw [decide_eq_false hl] at h
    cases h

/-- With crossover: the ones of the best individual are at most doubled and one more. -/
theorem oneMax_paced (B : Nat) : Paced OneMax.model (fun k x => ones x.genome + 1 ≤ 2 ^ k * (B + 1))
    (fun k x => ones x.genome + 2 ≤ 2 ^ (k + 1) * (B + 1)) True where
  copy k a h := by
    have h : ones a.genome + 1 ≤ 2 ^ k * (B + 1) := h
    show ones a.genome + 2 ≤ _
    rw [pow_succ, mul_assoc, Nat.mul_comm 2, ← mul_assoc]; omega
  crossover _ m k a b c ha hb h := by
    have ha : ones a.genome + 1 ≤ 2 ^ k * (B + 1) := ha
    have hb : ones b.genome + 1 ≤ 2 ^ k * (B + 1) := hb
    have h : (OneMax.crossover a b).yields (.ok c) := h
    unfold OneMax.crossover at h
    obtain ⟨g, h1, h2⟩ := (yields_bind_ok _ _ _).1 h
    cases (yields_pure _ _).1 h2
    have := single_point_ones _ _ _ _ _ _ h1
    show ones g + 2 ≤ _
    rw [pow_succ, mul_assoc, Nat.mul_comm 2, ← mul_assoc]; omega
  mutate m k a c ha h := by
    have ha : ones a.genome + 2 ≤ 2 ^ (k + 1) * (B + 1) := ha
    have h : (OneMax.mutate a).yields (.ok c) := h
    unfold OneMax.mutate at h
    obtain ⟨g, h1, h2⟩ := (yields_bind_ok _ _ _).1 h
    cases (yields_pure _ _).1 h2
    have := duplicate_ones _ _ h1
    show ones g + 1 ≤ _
    omega
  keep k a h := by
    have h : ones a.genome + 2 ≤ 2 ^ (k + 1) * (B + 1) := h
    show ones a.genome + 1 ≤ _
    omega
  improve m k a c ha h := by cases (yields_pure _ _).1 h; exact ha
  evaluate m k a c ha h := by cases (yields_pure _ _).1 h; exact ha
  preGeneration m p b := rfl
  breed := rfl
  members := oneMax_members
  distinct := fun u => u.elim

/-- Without crossover: one more. -/
theorem oneMax_paced_mutation (B : Nat) : Paced OneMax.model (fun k x => ones x.genome ≤ B + k)
    (fun k x => ones x.genome ≤ B + k) False where
  copy k a h := h
  crossover h := h.elim
  mutate m k a c ha h := by
    have ha : ones a.genome ≤ B + k := ha
    have h : (OneMax.mutate a).yields (.ok c) := h
    unfold OneMax.mutate at h
    obtain ⟨g, h1, h2⟩ := (yields_bind_ok _ _ _).1 h
    cases (yields_pure _ _).1 h2
    have := duplicate_ones _ _ h1
    show ones g ≤ _
    omega
  keep k a h := by
    have h : ones a.genome ≤ B + k := h
    show ones a.genome ≤ _
    omega
  improve m k a c ha h := by cases (yields_pure _ _).1 h; exact ha
  evaluate m k a c ha h := by cases (yields_pure _ _).1 h; exact ha
  preGeneration m p b := rfl
  breed := rfl
  members := oneMax_members
  distinct := fun u => u.elim

/-- **C111** OneMax, any run of the genetic algorithm: if no initial individual has more than `B` ones, no individual of generation
`g` has more than `2^g (B + 1) - 1`; and no more than `B + g` if the crossover rate is zero. -/
theorem C111_one_max (envs : Nat → Env OneMax) (henv : ∀ t, (envs t).Lawful)
    (progress : Q → Population OneMax → Prog (Bool × Q)) (fuel : Nat) (a : Ga Unit Empty) (l : List OneMax) (B : Nat)
    (hl : ∀ x ∈ l, ones x.genome ≤ B) (p : GaParams) (q : Q) (fin : Bool) (st : RunState OneMax (Ga Unit Empty) Q)
    (h : (evolvePopulation (ga OneMax.model) envs progress fuel a l p q).yields (.ok (fin, st))) :
    ∀ pop ∈ st.shown ++ [st.population], ∀ x ∈ pop.individuals,
      ones x.genome + 1 ≤ 2 ^ pop.generation * (B + 1) ∧
      (F64.zero.lt p.crossoverRate = false → ones x.genome ≤ B + pop.generation) := fun pop hpop x hx =>
  ⟨C111_ga OneMax.model _ _ True (oneMax_paced B) envs henv progress fuel a l
      (fun x hx => by have := hl x hx; show ones x.genome + 1 ≤ _; rw [pow_zero]; omega) p (Or.inl trivial) q fin st h pop hpop x hx,
    fun hp => C111_ga OneMax.model _ _ False (oneMax_paced_mutation B) envs henv progress fuel a l
      (fun x hx => by have := hl x hx; show ones x.genome ≤ _; omega) p (Or.inr hp) q fin st h pop hpop x hx⟩

/-- **C111** The same for the adaptive genetic algorithm. -/
theorem C111_one_max_aga (envs : Nat → Env OneMax) (henv : ∀ t, (envs t).Lawful)
    (progress : Q → Population OneMax → Prog (Bool × Q)) (fuel : Nat) (a : Aga Unit Empty) (l : List OneMax) (B : Nat)
    (hl : ∀ x ∈ l, ones x.genome ≤ B) (p : AgaParams) (q : Q) (fin : Bool) (st : RunState OneMax (Aga Unit Empty) Q)
    (h : (evolvePopulation (aga OneMax.model) envs progress fuel a l p q).yields (.ok (fin, st))) :
    ∀ pop ∈ st.shown ++ [st.population], ∀ x ∈ pop.individuals,
      ones x.genome + 1 ≤ 2 ^ pop.generation * (B + 1) ∧
      (ZeroRange p.crossoverRateRange → ones x.genome ≤ B + pop.generation) := fun pop hpop x hx =>
  ⟨C111_aga OneMax.model _ _ True (oneMax_paced B) envs henv progress fuel a l
      (fun x hx => by have := hl x hx; show ones x.genome + 1 ≤ _; rw [pow_zero]; omega) p (Or.inl trivial) q fin st h pop hpop x hx,
    fun hp => C111_aga OneMax.model _ _ False (oneMax_paced_mutation B) envs henv progress fuel a l
      (fun x hx => by have := hl x hx; show ones x.genome ≤ _; omega) p (Or.inr hp) q fin st h pop hpop x hx⟩

/-! ### Round trips -/

variable {G E : Type} [DecidableEq G] [DecidableEq E]

omit [DecidableEq G] in
theorem lostEdges_triangle (f : G → G → E) (a b c : List G) : lostEdges f a c ≤ lostEdges f a b + lostEdges f b c := by
  unfold lostEdges
  rw [← Multiset.card_add]
  exact Multiset.card_le_card tsub_le_tsub_add_tsub

/-- How many edges one mutation changes at most. -/
def mutationReach (f : G → G → E) (s : MutationStrategy) (n : Nat) : Prop :=
  ∀ g g', (s.mutate g).yields (.ok g') → lostEdges f g g' ≤ n

/-- Without crossover: every individual is the result of at most one mutation per generation. -/
theorem route_paced (Pb : Route.Problem G) (f : G → G → E) (n : Nat) (h : mutationReach f Pb.mutation n) (l : List (Route G)) :
    Paced (Route.model Pb) (fun k x => ∃ y ∈ l, lostEdges f y.genome x.genome ≤ n * k)
      (fun k x => ∃ y ∈ l, lostEdges f y.genome x.genome ≤ n * k) False where
  copy k a h := h
  crossover h := h.elim
  mutate m k a c ha hc := by
    obtain ⟨y, hy, ha⟩ := ha
    obtain ⟨g, h1, h2⟩ := (yields_bind_ok _ _ _).1 hc
    cases (yields_pure _ _).1 h2
    refine ⟨y, hy, ?_⟩
    have h3 := h _ _ h1
    have h4 := lostEdges_triangle f y.genome a.genome g
    show lostEdges f y.genome g ≤ _
    rw [Nat.mul_succ]
    omega
  keep k a ha := by
    obtain ⟨y, hy, ha⟩ := ha
    exact ⟨y, hy, ha.trans (Nat.mul_le_mul_left _ (Nat.le_succ k))⟩
  improve m k a c ha hc := by cases (yields_pure _ _).1 hc; exact ha
  evaluate m k a c ha hc := by cases (yields_pure _ _).1 hc; exact ha
  preGeneration m p b := rfl
  breed := rfl
  members := fun u => u.elim
  distinct := fun u => u.elim

/-- **C111** What the mutations reach: 4 edges by swapping, 3 by insertion, 2 by reversing (undirected edges) and duplicating. -/
theorem C111_reach (f : G → G → E) : mutationReach f .swap 4 ∧ mutationReach f .insertion 3 ∧ mutationReach f .duplicate 2 ∧
    ((∀ a b, f a b = f b a) → mutationReach f .inversion 2) :=
  ⟨C107_swap f, C107_insertion f, C107_duplicate f, fun hf => C107_inversion f hf⟩

/-- **C111** A problem over round trips with crossover rate zero: every individual of generation `g` lacks at most `n g` edges of some
initial individual, if one mutation changes at most `n`. So a trip that lacks at least `d` edges of every initial individual is not found
before generation `d / n`. -/
theorem C111_round_trips (Pb : Route.Problem G) (f : G → G → E) (n : Nat) (hn : mutationReach f Pb.mutation n)
    (envs : Nat → Env (Route G)) (henv : ∀ t, (envs t).Lawful) (progress : Q → Population (Route G) → Prog (Bool × Q)) (fuel : Nat)
    (a : Ga Unit Empty) (l : List (Route G)) (p : GaParams) (hp : F64.zero.lt p.crossoverRate = false) (q : Q) (fin : Bool)
    (st : RunState (Route G) (Ga Unit Empty) Q)
    (h : (evolvePopulation (ga (Route.model Pb)) envs progress fuel a l p q).yields (.ok (fin, st))) :
    ∀ pop ∈ st.shown ++ [st.population], ∀ x ∈ pop.individuals,
      (∃ y ∈ l, lostEdges f y.genome x.genome ≤ n * pop.generation) ∧
      ∀ d, (∀ y ∈ l, d ≤ lostEdges f y.genome x.genome) → d ≤ n * pop.generation := fun pop hpop x hx => by
  obtain ⟨y, hy, e⟩ := C111_ga (Route.model Pb) _ _ False (route_paced Pb f n hn l) envs henv progress fuel a l
    (fun x hx => ⟨x, hx, by simp [lostEdges]⟩) p (Or.inr hp) q fin st h pop hpop x hx
  exact ⟨⟨y, hy, e⟩, fun d hd => (hd y hy).trans e⟩

/-- **C111** The same for the adaptive genetic algorithm with the crossover range zero. -/
theorem C111_round_trips_aga (Pb : Route.Problem G) (f : G → G → E) (n : Nat) (hn : mutationReach f Pb.mutation n)
    (envs : Nat → Env (Route G)) (henv : ∀ t, (envs t).Lawful) (progress : Q → Population (Route G) → Prog (Bool × Q)) (fuel : Nat)
    (a : Aga Unit Empty) (l : List (Route G)) (p : AgaParams) (hp : ZeroRange p.crossoverRateRange) (q : Q) (fin : Bool)
    (st : RunState (Route G) (Aga Unit Empty) Q)
    (h : (evolvePopulation (aga (Route.model Pb)) envs progress fuel a l p q).yields (.ok (fin, st))) :
    ∀ pop ∈ st.shown ++ [st.population], ∀ x ∈ pop.individuals,
      (∃ y ∈ l, lostEdges f y.genome x.genome ≤ n * pop.generation) ∧
      ∀ d, (∀ y ∈ l, d ≤ lostEdges f y.genome x.genome) → d ≤ n * pop.generation := fun pop hpop x hx => by
  obtain ⟨y, hy, e⟩ := C111_aga (Route.model Pb) _ _ False (route_paced Pb f n hn l) envs henv progress fuel a l
    (fun x hx => ⟨x, hx, by simp [lostEdges]⟩) p (Or.inr hp) q fin st h pop hpop x hx
  exact ⟨⟨y, hy, e⟩, fun d hd => (hd y hy).trans e⟩

/-! Examples: the pace of OneMax is met, by mutation and by crossover. -/

example : (MutationStrategy.duplicate.mutate [false, true]).yields (.ok [true, true]) ∧ ones [true, true] = ones [false, true] + 1 := by
  refine ⟨(C36_duplicate [false, true] (by decide) _).2 ⟨[true, true], 1, 0, rfl, ?_⟩, by decide⟩
  exact (copiedOver_iff [false, true] _ 1 0 (by decide) (by decide) (by decide)).2 (by decide)
/-- Two parents with one 1 each give a child with three, so that generation 1 meets the bound `2 (1 + 1) - 1`. -/
example : spx [true, false, false] [false, false, true] 1 = .ok [true, false, true] ∧
    (MutationStrategy.duplicate.mutate [true, false, true]).yields (.ok [true, true, true]) := by
  refine ⟨by decide, (C36_duplicate [true, false, true] (by decide) _).2 ⟨[true, true, true], 0, 1, rfl, ?_⟩⟩
  exact (copiedOver_iff [true, false, true] _ 0 1 (by decide) (by decide) (by decide)).2 (by decide)
example : spx [true, false] [false, true] 1 = .ok [true, true] ∧ ones [true, true] = ones [true, false] + ones [false, true] := by decide
/-- A directed trip of six genes that shares no edge with the initial one takes at least two generations of swaps. -/
example : lostEdges Prod.mk [0, 1, 2, 3, 4, 5] [1, 0, 3, 2, 5, 4] = 6 ∧ ¬ 6 ≤ 4 * 1 := by decide +kernel

end RG.Props
