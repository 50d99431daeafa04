import Verif.Props.Route

/-!
# Property C89: local optima

Breeding keeps the best (C47), so a population all of whose possible children are worse never changes again.
-/

set_option linter.unusedSectionVars false

namespace RG.Props
open RG RG.Prog
variable {I : Type} [Individual I] {Mo U A P Q : Type}

/-- `o` can be made from the individual `o0` by perhaps mutating it, improving it and evaluating it. -/
def Develops (M : EvoModel I Mo U) (m : Mo) (o0 o : I) : Prop :=
  ∃ o1 o2, (o1 = o0 ∨ (M.mutate m o0).yields (.ok o1)) ∧ (M.improve m o1).yields (.ok o2) ∧ (M.evaluate m o2).yields (.ok o)

/-- A set of individuals, none with fitness NaN, whose children are in the set again, or not valid, or worse than a parent. -/
structure Trap (M : EvoModel I Mo U) (S : I → Prop) : Prop where
  number : ∀ x, S x → (fitness x).isNaN = false
  alone : ∀ m x o, S x → Develops M m x o → S o ∨ isValid o = false ∨ (fitness x).le (fitness o) = false
  pair : ∀ m x y o0 o, S x → S y → Individual.eq y x = false → (M.crossover m x y).yields (.ok o0) → Develops M m o0 o →
    S o ∨ isValid o = false ∨ (fitness x).le (fitness o) = false ∨ (fitness y).le (fitness o) = false

theorem Trap.breed {M : EvoModel I Mo U} {S : I → Prop} (h : Trap M S) (hs : M.selectors.ReturnsMembers)
    (hd : M.selectors.DistinctMembers)
    (hsv : M.canSurvive = fun _ offspring parent _ => pure ((fitness parent).le (fitness offspring)))
    (env : NumEnv) (model : Mo) (p : Population I) (r : ReproParams U) (hp : ∀ x ∈ p.individuals, S x) (c : I)
    (hc : (defaultBreed M.toEvoOps env model p r).yields (.ok c)) : S c := by
  obtain ⟨p1, p2, f, o, hm, hf, ⟨o0, o1, o2, c1, c2, c3, c4⟩, hres⟩ := (yields_defaultBreed M.toEvoOps env model p r c).1 hc
  obtain ⟨m1, m2⟩ := hm.mem hs hd
  have mf := hf.mem m1 fun b hb => (m2 b hb).1
  have hdev : Develops M model o0 o := ⟨o1, o2, c2.imp (fun h => h.2) fun h => h.2, c3, c4⟩
  have hle : ∀ y : I, (M.canSurvive model o f p).yields (.ok true) → (fitness y).isNaN = false → (fitness f).isNaN = false →
      ((fitness y).le (fitness f) = true) → (fitness y).le (fitness o) = true := by
    intro y hy n1 n2 hyf
    rw [hsv, yields_pure, Res.ok.injEq] at hy
    have h1 := F64.le_iff.1 hyf
    have h2 := F64.le_iff.1 hy.symm
    exact F64.le_iff.2 ⟨h1.1, h2.2.1, h1.2.2.trans h2.2.2⟩
  have hrefl : ∀ x : F64, x.isNaN = false → x.le x = true := fun x hx => F64.le_iff.2 ⟨hx, hx, le_rfl⟩
  have nf := h.number f (hp f mf)
  rcases hres with ⟨hv, hsur, rfl⟩ | ⟨-, rfl⟩
  · cases hp2 : p2 with
    | none =>
      subst hp2
      have hf : f = p1 := hf
      subst hf
      rcases c1 with ⟨-, rfl⟩ | ⟨b, hb, -⟩
      · rcases h.alone model o0 c (hp _ m1) hdev with h1 | h1 | h1
        · exact h1
        · rw [hv] at h1; cases h1
        · rw [hle o0 hsur nf nf (hrefl _ nf)] at h1; cases h1
      · cases hb
    | some b =>
      subst hp2
      rcases c1 with ⟨hb, -⟩ | ⟨b', hb, hx⟩
      · cases hb
      · cases hb
        obtain ⟨mb, hne⟩ := m2 b rfl
        have n1 := h.number p1 (hp _ m1)
        have nb := h.number b (hp _ mb)
        have hpf : (fitness p1).le (fitness f) = true ∧ (fitness b).le (fitness f) = true := by
          rcases hf with ⟨rfl, hlt⟩ | ⟨rfl, hlt⟩
          · have := F64.lt_iff.1 hlt
            exact ⟨F64.le_iff.2 ⟨this.1, this.2.1, this.2.2.le⟩, hrefl _ nb⟩
          · refine ⟨hrefl _ n1, F64.le_iff.2 ⟨nb, n1, ?_⟩⟩
            by_contra hcon
            have := F64.lt_iff.2 ⟨n1, nb, not_le.1 hcon⟩
            rw [hlt] at this; cases this
        rcases h.pair model p1 b o0 c (hp _ m1) (hp _ mb) hne hx hdev with h1 | h1 | h1 | h1
        · exact h1
        · rw [hv] at h1; cases h1
        · rw [hle p1 hsur n1 nf hpf.1] at h1; cases h1
        · rw [hle b hsur nb nf hpf.2] at h1; cases h1
  · exact hp _ mf

/-- **C89** Once all individuals are in a trap, no population ever contains anything else: for any algorithm with the default
generation of new populations (both built-in ones), whatever the parameters, `pre_generation` and the number of generations. -/
theorem C89_trapped {M : EvoModel I Mo U} {alg : EvoAlgo I Mo U A P} {elite size : A → Nat} {eliteOf : P → Nat}
    (hstd : Standard M alg elite size eliteOf) {S : I → Prop} (h : Trap M S) (hb : M.breed = defaultBreed M.toEvoOps)
    (hs : M.selectors.ReturnsMembers) (hd : M.selectors.DistinctMembers)
    (hsv : M.canSurvive = fun _ offspring parent _ => pure ((fitness parent).le (fitness offspring)))
    (envs : Nat → Env I) (henv : ∀ t, (envs t).Lawful) (progress : Q → Population I → Prog (Bool × Q)) (fuel : Nat) (a : A)
    (init : List I) (p : P) (q : Q) (hinit : ∀ m, ∀ x ∈ init, ∀ e, (M.evaluate m x).yields (.ok e) → isValid e = true → S e)
    (fin : Bool) (st : RunState I A Q) (hst : (evolvePopulation alg envs progress fuel a init p q).yields (.ok (fin, st))) :
    (∀ pop ∈ st.shown, ∀ x ∈ pop.individuals, S x) ∧ ∀ x ∈ st.population.individuals, S x := by
  unfold evolvePopulation at hst
  simp only [yields_bind_ok, yields_lift] at hst
  obtain ⟨a', -, pop, hpop, hloop⟩ := hst
  rw [hstd.init] at hpop
  have h0 : ∀ x ∈ pop.individuals, S x := by
    intro x hx
    obtain ⟨ev, e1, -, -, -, e2, -⟩ := C62_initialize M (envs 0) (henv 0) _ init pop hpop
    obtain ⟨hx1, hx2⟩ := e2 x hx
    obtain ⟨y, hy, hxy⟩ := forall₂_mem_right e1 x hx1
    exact hinit _ y hy x hxy hx2
  obtain ⟨new, n1, -, -, n4, n5, -⟩ := evolveLoop_invariant alg envs progress (fun _ pop => ∀ x ∈ pop.individuals, S x)
    (fun _ _ => True) (fun t st st' _ hi hst => by
      have hf := hstd.step (henv t) hst
      refine ⟨fun x hx => ?_, trivial, hf.q, hf.shown⟩
      obtain ⟨new, m1, m2, -⟩ := hf.made
      rw [m1] at hx
      rcases List.mem_append.1 (mem_dedup_sort (henv t).sort hx) with hx | hx
      · exact hi x (List.mem_of_mem_drop hx)
      · have hc := m2 x hx
        rw [hb] at hc
        exact h.breed hs hd hsv _ _ _ _ hi x hc) fuel 1 le_rfl _ h0 fin st hloop
  refine ⟨fun pop hp => ?_, n5⟩
  rw [n1] at hp
  rcases List.mem_append.1 hp with hp | hp
  · cases hp
  · exact (n4 pop hp).choose_spec

/-! ### Arrangements -/

section
variable {G : Type} [DecidableEq G]

/-- `g` is a strict local optimum of the mutation: every other genome it may give is worse or not valid. -/
def LocalOptimum (Pb : Route.Problem G) (g : List G) : Prop :=
  (Pb.objective g).isFinite = true ∧ ∀ g', (Pb.mutation.mutate g).yields (.ok g') → g' ≠ g →
    (Pb.objective g').isFinite = false ∨ (Pb.objective g').lt (Pb.objective g) = true

theorem LocalOptimum.trap {Pb : Route.Problem G} {g : List G} (h : LocalOptimum Pb g) :
    Trap (Route.model Pb) (fun x => x.genome = g ∧ x.fit = Pb.objective g) where
  number x hx := by
    show x.fit.isNaN = false
    rw [hx.2]; exact F64.isNaN_of_finite h.1
  alone m x o hx hd := by
    obtain ⟨o1, o2, h1, h2, h3⟩ := hd
    have h2 : (pure o1 : Prog (Route G)).yields (.ok o2) := h2
    have h3 : (pure ({ o2 with fit := Pb.objective o2.genome } : Route G) : Prog (Route G)).yields (.ok o) := h3
    rw [yields_pure, Res.ok.injEq] at h2 h3
    subst h2 h3
    have key : o2.genome = g ∨ (Pb.mutation.mutate g).yields (.ok o2.genome) := by
      rcases h1 with rfl | h1
      · exact Or.inl hx.1
      · have h1 : (Pb.mutation.mutate x.genome >>= fun g => pure ({ x with genome := g } : Route G)).yields (.ok o2) := h1
        rw [yields_bind_ok] at h1
        obtain ⟨g', hg, e⟩ := h1
        rw [yields_pure, Res.ok.injEq] at e
        subst e
        rw [hx.1] at hg
        exact Or.inr hg
    by_cases hg : o2.genome = g
    · exact Or.inl ⟨hg, by rw [hg]⟩
    · rcases h.2 _ (key.resolve_left hg) hg with hw | hw
      · exact Or.inr (Or.inl hw)
      · refine Or.inr (Or.inr ?_)
        show x.fit.le (Pb.objective o2.genome) = false
        rw [hx.2]
        obtain ⟨-, -, hlt⟩ := F64.lt_iff.1 hw
        by_contra hc
        have := (F64.le_iff.1 (by simpa using hc : (Pb.objective g).le (Pb.objective o2.genome) = true)).2.2
        exact absurd hlt (not_lt.2 this)
  pair m x y o0 o hx hy hne _ _ := by
    exfalso
    have hk : x.fit.feq x.fit = true := by
      rw [hx.2]
      exact F64.feq_iff.2 ⟨F64.isNaN_of_finite h.1, F64.isNaN_of_finite h.1, rfl⟩
    have : (y.genome == x.genome && y.fit.feq x.fit) = true := by
      rw [hy.1, hx.1, hy.2, ← hx.2, hk]; simp
    have hne : (y.genome == x.genome && y.fit.feq x.fit) = false := hne
    rw [this] at hne; cases hne

/-- **C89** A run from copies of a strict local optimum of the mutation never finds anything else, whatever the crossover, the
algorithm, its parameters and the number of generations. -/
theorem C89_local_optimum {Pb : Route.Problem G} {g : List G} (h : LocalOptimum Pb g) (envs : Nat → Env (Route G))
    (henv : ∀ t, (envs t).Lawful) (progress : Q → Population (Route G) → Prog (Bool × Q)) (fuel : Nat) (init : List (Route G))
    (hinit : ∀ x ∈ init, x.genome = g) (q : Q) :
    (∀ (a : Ga Unit Empty) (p : GaParams), Partially (fun r => (∀ pop ∈ r.2.shown, ∀ x ∈ pop.individuals, x.genome = g) ∧
      ∀ x ∈ r.2.population.individuals, x.genome = g) (evolvePopulation (ga (Route.model Pb)) envs progress fuel a init p q)) ∧
    (∀ (a : Aga Unit Empty) (p : AgaParams), Partially (fun r => (∀ pop ∈ r.2.shown, ∀ x ∈ pop.individuals, x.genome = g) ∧
      ∀ x ∈ r.2.population.individuals, x.genome = g) (evolvePopulation (aga (Route.model Pb)) envs progress fuel a init p q)) := by
  have hi : ∀ m, ∀ x ∈ init, ∀ e, ((Route.model Pb).evaluate m x).yields (.ok e) → isValid e = true →
      e.genome = g ∧ e.fit = Pb.objective g := by
    intro m x hx e he _
    have he : (pure ({ x with fit := Pb.objective x.genome } : Route G) : Prog (Route G)).yields (.ok e) := he
    rw [yields_pure, Res.ok.injEq] at he
    subst he
    exact ⟨hinit x hx, by rw [hinit x hx]⟩
  constructor
  · rintro a p ⟨fin, st⟩ hst
    obtain ⟨h1, h2⟩ := C89_trapped (ga_standard _) h.trap rfl (fun u => u.elim) (fun u => u.elim) rfl envs henv progress fuel a init
      p q hi fin st hst
    exact ⟨fun pop hp x hx => (h1 pop hp x hx).1, fun x hx => (h2 x hx).1⟩
  · rintro a p ⟨fin, st⟩ hst
    obtain ⟨h1, h2⟩ := C89_trapped (aga_standard _) h.trap rfl (fun u => u.elim) (fun u => u.elim) rfl envs henv progress fuel a init
      p q hi fin st hst
    exact ⟨fun pop hp x hx => (h1 pop hp x hx).1, fun x hx => (h2 x hx).1⟩

end

/-! ### The mutation strategies compared -/

/-- Four genes; one arrangement is good, a far one is better, all others are bad. -/
def fourObjective (g : List Nat) : F64 := if g = [0, 1, 2, 3] then F64.lit 1 else if g = [2, 0, 3, 1] then F64.lit 2 else F64.lit 0

/-- The problem with given strategies. -/
def fourProblem (cx : CrossoverStrategy) (mu : MutationStrategy) : Route.Problem Nat :=
  ⟨fun a b => decide (a < b), fun _ l => l, 5, cx, mu, fourObjective⟩

/-- An ordinary environment. -/
def fourEnv : Env (Route Nat) := ⟨refSort, exEnv⟩

theorem fourEnv_lawful : fourEnv.Lawful := ⟨refSort_lawful, exEnv_lawful⟩

theorem prob_pos_of_yields {α : Type} {p : Prog α} {a : α} (h : p.yields (.ok a)) (P : α → Prop) [DecidablePred P] (hP : P a) :
    0 < p.prob P := by
  induction p with
  | done r => cases h; simp [prob, expect, hP]
  | pick n k ih =>
    obtain ⟨i, hi, h⟩ := h
    have := ih i h
    rw [prob_pick]
    refine div_pos (lt_of_lt_of_le this ?_) (by positivity)
    exact Finset.single_le_sum (f := fun j => (k j).prob P) (fun j _ => prob_nonneg _ _) (Finset.mem_range.2 (by omega))

theorem four_localOptimum (cx : CrossoverStrategy) (mu : MutationStrategy) (hmu : mu ≠ .scramble) :
    LocalOptimum (fourProblem cx mu) [0, 1, 2, 3] := by
  refine ⟨show (fourObjective [0, 1, 2, 3]).isFinite = true by decide +kernel, fun g' hg hne => Or.inr ?_⟩
  have hne' : g' ≠ [2, 0, 3, 1] := by
    intro he
    have hp := prob_pos_of_yields hg (fun g => g = [2, 0, 3, 1]) he
    have h0 : (mu.mutate [0, 1, 2, 3]).prob (fun g => g = [2, 0, 3, 1]) = 0 := by
      cases mu with
      | swap => decide +kernel
      | scramble => exact absurd rfl hmu
      | inversion => decide +kernel
      | insertion => decide +kernel
      | duplicate => decide +kernel
    exact absurd h0 hp.ne'
  show (fourObjective g').lt (fourObjective [0, 1, 2, 3]) = true
  unfold fourObjective
  rw [if_neg hne, if_neg hne']
  decide +kernel

theorem four_run (cx : CrossoverStrategy) (hcx : cx ≠ .singlePoint) :
    RouteRun (fourProblem cx .scramble) [0, 1, 2, 3] (fun _ => fourEnv) GaParams.default [⟨[0, 1, 2, 3], F64.zero⟩] where
  arranges := ⟨hcx, by simp [fourProblem], fun _ _ => List.Perm.refl _, by simp [fourProblem], by decide, by simp⟩
  env _ := fourEnv_lawful
  valid := C50_defaults.1
  strategy := C50_defaults.2.1
  linear := by simp [GaParams.default]
  size := by simp [GaParams.default]
  two := by decide +kernel
  len := by simp
  genomes := by simp
  start := ⟨⟨[0, 1, 2, 3], F64.zero⟩, by simp, show (fourObjective [0, 1, 2, 3]).isFinite = true by decide +kernel⟩

/-- Goes on until the best arrangement is found. -/
def untilBest (q : Unit) (pop : Population (Route Nat)) : Prog (Bool × Unit) :=
  pure (pop.individuals.all fun x => !(F64.lit 2).le x.fit, q)

/-- **C89** The same problem, the same start and the default parameters, any crossover strategy: with `Scramble` the genetic algorithm
finds the best arrangement almost surely; with `Swap`, `Inversion`, `Insertion` or `Duplicate` it never does, however long it runs. -/
theorem C89_contrast (cx : CrossoverStrategy) (hcx : cx ≠ .singlePoint) :
    (∀ ε : ℚ, 0 < ε → ∃ K, ∀ k, K ≤ k → 1 - ε ≤ (evolvePopulation (ga (Route.model (fourProblem cx .scramble))) (fun _ => fourEnv)
      untilBest k (Ga.ofModel ()) [⟨[0, 1, 2, 3], F64.zero⟩] GaParams.default ()).prob (fun r => r.1 = true)) ∧
    (∀ mu : MutationStrategy, mu ≠ .scramble → ∀ k, (evolvePopulation (ga (Route.model (fourProblem cx mu))) (fun _ => fourEnv)
      untilBest k (Ga.ofModel ()) [⟨[0, 1, 2, 3], F64.zero⟩] GaParams.default ()).prob
        (fun r => ∃ x ∈ r.2.population.individuals, x.genome = [2, 0, 3, 1]) = 0) := by
  constructor
  · refine (C88_scramble_solves (best := [2, 0, 3, 1]) (four_run cx hcx) (Ga.ofModel ()) rfl (by decide) (by decide)
      (show (fourObjective [2, 0, 3, 1]).isFinite = true by decide +kernel) untilBest (fun _ _ _ => by simp [untilBest]) ?_ ()).2
      (by decide +kernel)
    rintro q pop q' - ⟨x, hx, hx2⟩ hy
    have hx2 : (fourObjective [2, 0, 3, 1]).le x.fit = true := hx2
    have e : fourObjective [2, 0, 3, 1] = F64.lit 2 := by decide +kernel
    rw [e] at hx2
    unfold untilBest at hy
    simp only [yields_pure, Res.ok.injEq, Prod.mk.injEq] at hy
    have := List.all_eq_true.1 hy.1.symm x hx
    rw [hx2] at this
    cases this
  · intro mu hmu k
    refine prob_eq_zero _ _ fun r hr => ?_
    rintro ⟨x, hx, he⟩
    have := ((C89_local_optimum (four_localOptimum cx mu hmu) (fun _ => fourEnv) (fun _ => fourEnv_lawful) untilBest k
      [⟨[0, 1, 2, 3], F64.zero⟩] (by simp) ()).1 (Ga.ofModel ()) GaParams.default r hr).2 x hx
    rw [this] at he
    exact absurd he (by decide)

end RG.Props
