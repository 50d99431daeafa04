import Verif.Props.Route
import Verif.Props.Spread
import Verif.Props.Stuck
import Verif.Props.FromIndividual
import Verif.Props.Trap
import Verif.Proofs.Bench

/-!
# C116: the adaptive algorithm on problems over permutations

What C88 says of the genetic algorithm, for the adaptive one (`aga.rs:141-225`), whose rates depend on the spread of the fitness
values.
-/

namespace RG.Props
open RG RG.Prog
variable {G : Type} [DecidableEq G] {Q : Type}

/-- On all arrangements of the genes, the objective is an integer of magnitude at most `2^50` (such as minus the length of a tour). -/
def IntegerObjective (Pb : Route.Problem G) (genes : List G) : Prop :=
  ∀ g : List G, g.Perm genes → (Pb.objective g).isFinite = true ∧ ∃ z : ℤ, (Pb.objective g).val = z ∧ |z| ≤ 2 ^ 50

/-- A run of the adaptive algorithm on arrangements. Either its rates are never adjusted, or the objective is an integer and two of
the initial individuals differ in it. -/
structure RouteAgaRun (Pb : Route.Problem G) (genes : List G) (envs : Nat → Env (Route G)) (p : AgaParams)
    (init : List (Route G)) : Prop where
  arranges : Arranges Pb genes
  env : ∀ t, (envs t).Lawful
  valid : p.Valid
  strategy : p.selectionStrategy.Valid
  linear : ∀ b, p.selectionStrategy = .linear b → SafeBias b
  size : p.populationSize < 2 ^ 32
  two : eliteCount p.populationSize p.elitismRate + 2 ≤ p.populationSize
  len : init.length < 2 ^ 32
  genomes : ∀ x ∈ init, x.genome.Perm genes
  start : ∃ x ∈ init, (Pb.objective x.genome).isFinite = true
  crossOrder : p.crossoverRateRange.start.le p.crossoverRateRange.stop = true
  mutOrder : p.mutationRateRange.start.le p.mutationRateRange.stop = true
  spread : p.adjustmentInterval = 0 ∨ IntegerObjective Pb genes ∧
    ∃ x ∈ init, ∃ y ∈ init, (Pb.objective x.genome).val ≠ (Pb.objective y.genome).val

/-- The fitness values of the initial population. -/
theorem route_initial {Pb : Route.Problem G} {env : Env (Route G)} (henv : env.Lawful) {init : List (Route G)}
    {pop : Population (Route G)} (hpop : (defaultInitialize (Route.model Pb) env () init).yields (.ok pop)) :
    (∀ x ∈ pop.individuals, ∃ u ∈ init, x = { u with fit := Pb.objective u.genome }) ∧
      ∀ u ∈ init, (Pb.objective u.genome).isFinite = true → ∃ x ∈ pop.individuals, (Pb.objective u.genome).feq (fitness x) = true := by
  obtain ⟨ev, e1, -, -, -, e2, e3⟩ := C62_initialize (Route.model Pb) env henv () init pop hpop
  refine ⟨fun x hx => ?_, fun u hu hf => ?_⟩
  · obtain ⟨u, hu, hux⟩ := forall₂_mem_right e1 x (e2 x hx).1
    exact ⟨u, hu, Res.ok.inj hux⟩
  · obtain ⟨e, he, hue⟩ := forall₂_mem_left e1 u hu
    have hue : e = ({ u with fit := Pb.objective u.genome } : Route G) := Res.ok.inj hue
    subst hue
    rcases e3 _ he hf with h | ⟨y, hy, hyx⟩
    · exact ⟨_, h, by show (Pb.objective u.genome).feq (Pb.objective u.genome) = true; rw [feq_finite hf hf]⟩
    · exact ⟨y, hy, route_eqFitness _ _ hyx⟩

/-- **C116** (spread) With an integer objective, the standard deviation of the initial population is zero exactly if all initial
individuals have the same objective; otherwise it is finite and positive. -/
theorem C116_spread {Pb : Route.Problem G} {genes : List G} (hint : IntegerObjective Pb genes) {env : Env (Route G)}
    (henv : env.Lawful) {init : List (Route G)} (hl : init.length ≤ 2 ^ 53) (hg : ∀ x ∈ init, x.genome.Perm genes)
    {pop : Population (Route G)} (hpop : (defaultInitialize (Route.model Pb) env () init).yields (.ok pop)) :
    (pop.stats.std.feq F64.zero = true ↔ ∀ x ∈ init, ∀ y ∈ init, (Pb.objective x.genome).val = (Pb.objective y.genome).val) ∧
    ((∃ x ∈ init, ∃ y ∈ init, (Pb.objective x.genome).val ≠ (Pb.objective y.genome).val) → GoodSpread pop.stats.std) := by
  obtain ⟨hwf, -, -, hlen, -⟩ := init_wf henv hpop
  obtain ⟨i1, i2⟩ := route_initial henv hpop
  have hfit : ∀ x ∈ pop.individuals, (fitness x).isFinite = true ∧ ∃ z : ℤ, (fitness x).val = z ∧ |z| ≤ 2 ^ 50 := fun x hx => by
    obtain ⟨u, hu, rfl⟩ := i1 x hx
    exact hint _ (hg u hu)
  obtain ⟨hsam, hsep⟩ := C78_integers (pop.individuals.map fitness) (by
      rw [List.length_map]; exact lt_of_le_of_lt (hlen.trans hl) (by norm_num)) (by
      intro f hf; obtain ⟨x, hx, rfl⟩ := List.mem_map.1 hf; exact hfit x hx)
  have hplain : PlainFitness pop :=
    { size := hlen.trans hl
      finite := fun x hx => by
        obtain ⟨f1, z, hz, hb⟩ := hfit x hx
        refine ⟨f1, ?_⟩
        rw [hz]
        have h1 : |(z : ℚ)| ≤ pow2 50 := by
          rw [show (50 : Int) = ((50 : Nat) : Int) from rfl, pow2_natCast]; exact_mod_cast hb
        exact h1.trans (pow2_le.2 (by norm_num))
      apart := fun x hx y hy h => ⟨hsam.apart _ (List.mem_map_of_mem hx) _ (List.mem_map_of_mem hy) h,
        hsep _ (List.mem_map_of_mem hx) _ (List.mem_map_of_mem hy) h⟩ }
  obtain ⟨c1, c2⟩ := C78_population pop hwf hplain
  have key : (∀ x ∈ pop.individuals, ∀ y ∈ pop.individuals, (fitness x).feq (fitness y) = true) ↔
      ∀ x ∈ init, ∀ y ∈ init, (Pb.objective x.genome).val = (Pb.objective y.genome).val := by
    constructor
    · intro h x hx y hy
      obtain ⟨fx, -⟩ := hint _ (hg x hx)
      obtain ⟨fy, -⟩ := hint _ (hg y hy)
      obtain ⟨x', hx', ex⟩ := i2 x hx fx
      obtain ⟨y', hy', ey⟩ := i2 y hy fy
      have h3 := h x' hx' y' hy'
      rw [feq_finite fx (hfit x' hx').1] at ex
      rw [feq_finite fy (hfit y' hy').1] at ey
      rw [feq_finite (hfit x' hx').1 (hfit y' hy').1] at h3
      rw [ex, ey, h3]
    · intro h x hx y hy
      obtain ⟨u, hu, rfl⟩ := i1 x hx
      obtain ⟨w, hw, rfl⟩ := i1 y hy
      show (Pb.objective u.genome).feq (Pb.objective w.genome) = true
      rw [feq_finite (hint _ (hg u hu)).1 (hint _ (hg w hw)).1]
      exact h u hu w hw
  refine ⟨c1.trans key, fun hne => c2 ?_⟩
  by_contra hno
  push Not at hno
  have := key.1 fun x hx y hy => by simpa using hno x hx y hy
  obtain ⟨x, hx, y, hy, hxy⟩ := hne
  exact hxy (this x hx y hy)

section
variable {Pb : Route.Problem G} {genes best : List G} {envs : Nat → Env (Route G)} {p : AgaParams} {init : List (Route G)}

theorem RouteAgaRun.agaRun (h : RouteAgaRun Pb genes envs p init) (a : Aga Unit Empty) :
    AgaRun (Route.model Pb) (fun x => x.genome.Perm genes) envs a p init where
  ops := h.arranges.safe
  survive := rfl
  members := fun u => u.elim
  distinct := fun u => u.elim
  notNaN := validNotNaN_default
  eqFitness := route_eqFitness
  env := h.env
  valid := h.valid
  strategy := h.strategy
  linear := h.linear
  size := h.size
  two := h.two
  len := h.len
  prop := h.genomes
  start := by
    obtain ⟨x, hx, hv⟩ := h.start
    exact ⟨x, hx, by show Always _ (pure ({ x with fit := Pb.objective x.genome } : Route G)); rw [always_pure]; exact hv⟩
  crossOrder := h.crossOrder
  mutOrder := h.mutOrder
  spread := by
    rcases h.spread with h0 | ⟨hint, hxy⟩
    · exact Or.inl h0
    refine Or.inr ⟨fun x hx hev _ => ?_, fun pop hpop => ?_⟩
    · obtain ⟨m, u, hu⟩ := hev
      have hu : x = ({ u with fit := Pb.objective u.genome } : Route G) := Res.ok.inj hu
      subst hu
      obtain ⟨f1, z, hz, hb⟩ := hint u.genome hx
      refine ⟨f1, ?_⟩
      show |(Pb.objective u.genome).val| < _
      rw [hz]
      have h1 : |(z : ℚ)| ≤ pow2 50 := by
        rw [show (50 : Int) = ((50 : Nat) : Int) from rfl, pow2_natCast]; exact_mod_cast hb
      exact h1.trans_lt (pow2_lt.2 (by norm_num))
    · exact (C116_spread hint (h.env 0) (h.len.le.trans (by norm_num)) h.genomes hpop).2 hxy

/-- **C116** With `Scramble` as mutation the adaptive algorithm solves every problem over arrangements with an integer objective, if two
initial individuals differ in it (or its rates are never adjusted): whatever the crossover and the selection strategy, a run that stops
at the fitness of an arrangement `best` ends within `k + 1` calls of `progress` with at least this probability, and almost surely. -/
theorem C116_scramble_solves (h : RouteAgaRun Pb genes envs p init) (a : Aga Unit Empty) (hs : Pb.mutation = .scramble)
    (hn : 2 ≤ genes.length) (hb : best.Perm genes) (hfin : (Pb.objective best).isFinite = true)
    (progress : Q → Population (Route G) → Prog (Bool × Q)) (hpr : ∀ q p, p.WF → Always (fun _ => True) (progress q p))
    (hstop : ∀ q pop q', GoodPop pop → Reached (Pb.objective best) pop → ¬ (progress q pop).yields (.ok (true, q'))) (q : Q) :
    (∀ k, 1 - (1 - p.mutationRateRange.start.val * (1 / ((genes.length - 1) * genes.length.factorial))) ^
        ((p.populationSize - eliteCount p.populationSize p.elitismRate) * k) ≤
      (evolvePopulation (aga (Route.model Pb)) envs progress (k + 1) a init p q).prob (fun r => r.1 = true)) ∧
    (0 < p.mutationRateRange.start.val → ∀ ε : ℚ, 0 < ε → ∃ K, ∀ k, K ≤ k →
      1 - ε ≤ (evolvePopulation (aga (Route.model Pb)) envs progress k a init p q).prob (fun r => r.1 = true)) := by
  have : (2 : ℚ) ≤ genes.length := by exact_mod_cast hn
  have hδ : (0 : ℚ) < 1 / ((genes.length - 1) * genes.length.factorial) :=
    div_pos one_pos (mul_pos (by linarith) (by positivity))
  have hr := route_reaches Pb genes best hs hn hb hfin
  exact ⟨fun k => C72_ends (h.agaRun a) hδ.le hr progress hpr hstop k q,
    fun hρ ε hε => C72_almost_surely (h.agaRun a) hr hδ hρ progress hpr hstop q ε hε⟩

/-- How likely independent draws all have the same value. -/
theorem prob_all_same {α β : Type} [DecidableEq β] (r : Prog α) (f : α → β) (s : ℚ) (h0 : 0 ≤ s)
    (hs : ∀ v, r.prob (fun x => f x = v) ≤ s) (n : Nat) :
    (Prog.replicate (n + 1) r).prob (fun l => ∀ x ∈ l, ∀ y ∈ l, f x = f y) ≤ s ^ n := by
  unfold Prog.replicate
  refine prob_bind_le_const _ _ _ _ (pow_nonneg h0 _) fun a _ => ?_
  rw [prob_bind_pure _ _ (fun l => a :: l) (fun _ _ => rfl)]
  refine (prob_mono _ _ (fun l => ∀ x ∈ l, f x = f a) fun l _ h x hx => h x (by simp [hx]) a (by simp)).trans ?_
  rw [prob_replicate_all r (fun x => f x = f a)]
  exact pow_le_pow_left₀ (prob_nonneg _ _) (hs _) n

/-- **C116** (`run`) With random arrangements, none of whose objective values is likelier than `s`: `run` of the adaptive algorithm,
stopped at the fitness of an arrangement `best`, returns an individual at least as fit within `k + 1` calls of `progress` with at
least this probability. The first factor is the chance that the random individuals do not all have the same objective. -/
theorem C116_run (har : Arranges Pb genes) (henv : ∀ t, (envs t).Lawful) (hv : p.Valid) (hst : p.selectionStrategy.Valid)
    (hlin : ∀ b, p.selectionStrategy = .linear b → SafeBias b) (hsz : p.populationSize < 2 ^ 32)
    (htwo : eliteCount p.populationSize p.elitismRate + 2 ≤ p.populationSize)
    (hcr : p.crossoverRateRange.start.le p.crossoverRateRange.stop = true)
    (hmr : p.mutationRateRange.start.le p.mutationRateRange.stop = true) (hint : IntegerObjective Pb genes)
    (newRandom : Prog (Route G)) (hr : Always (fun x => x.genome.Perm genes) newRandom) (s : ℚ) (h0 : 0 ≤ s)
    (hs : ∀ v, newRandom.prob (fun x => (Pb.objective x.genome).val = v) ≤ s)
    (a : Aga Unit Empty) (hsc : Pb.mutation = .scramble) (hn : 2 ≤ genes.length) (hb : best.Perm genes)
    (progress : Q → Population (Route G) → Prog (Bool × Q)) (hpr : ∀ q p, p.WF → Always (fun _ => True) (progress q p))
    (hstop : ∀ q pop b q', GoodPop pop → (progress q pop).yields (.ok (b, q')) → (b = false ↔ Reached (Pb.objective best) pop))
    (k : Nat) (q : Q) :
    (1 - s ^ (p.populationSize - 1)) *
        (1 - (1 - p.mutationRateRange.start.val * (1 / ((genes.length - 1) * genes.length.factorial))) ^
          ((p.populationSize - eliteCount p.populationSize p.elitismRate) * k)) ≤
      (runRandom (Route.model Pb) (aga (Route.model Pb)) envs progress (k + 1) a newRandom p q).prob
        (fun r => r.1.any (fun y => (Pb.objective best).le (fitness y)) = true) := by
  obtain ⟨s1, s2⟩ := stops_at validNotNaN_default hstop
  set c := 1 - (1 - p.mutationRateRange.start.val * (1 / ((genes.length - 1) * genes.length.factorial))) ^
          ((p.populationSize - eliteCount p.populationSize p.elitismRate) * k) with hc
  obtain ⟨N, hN⟩ : ∃ N, p.populationSize = N + 1 := ⟨p.populationSize - 1, by omega⟩
  have hext : (Route.model Pb).extend ((aga (Route.model Pb)).model a) newRandom [] ((aga (Route.model Pb)).initialSize p) =
      Prog.replicate (N + 1) newRandom := by
    show defaultExtend newRandom [] p.populationSize = _
    unfold defaultExtend
    rw [if_neg (by omega), hN]
    simp only [List.nil_append]
    exact Prog.bind_pure_right _
  have hal := always_replicate _ _ hr (N + 1)
  have hspread : 1 - s ^ N ≤ (Prog.replicate (N + 1) newRandom).prob
      (fun l => ¬ ∀ x ∈ l, ∀ y ∈ l, (Pb.objective x.genome).val = (Pb.objective y.genome).val) := by
    have h1 := prob_all_same newRandom (fun x => (Pb.objective x.genome).val) s h0 hs N
    have h2 := prob_add_not_of_always _ (fun l : List (Route G) =>
      ∀ x ∈ l, ∀ y ∈ l, (Pb.objective x.genome).val = (Pb.objective y.genome).val) hal
    linarith
  have hbest := hint best hb
  have hc0 : 0 ≤ c := by
    have hq : (2 : ℚ) ≤ genes.length := by exact_mod_cast hn
    have hf : (1 : ℚ) ≤ genes.length.factorial := by exact_mod_cast Nat.one_le_iff_ne_zero.2 (Nat.factorial_ne_zero _)
    have h1 : (1 : ℚ) / ((genes.length - 1) * genes.length.factorial) ≤ 1 := by
      rw [div_le_one (mul_pos (by linarith) (by linarith))]
      nlinarith
    have h2 : (0 : ℚ) ≤ 1 / ((genes.length - 1) * genes.length.factorial) :=
      div_nonneg zero_le_one (mul_nonneg (by linarith) (by linarith))
    obtain ⟨r0, r1⟩ := hv.2.2.2.2.1.2
    have h3 := mul_nonneg r0 h2
    have h4 := mul_le_one₀ r1 h2 h1
    have := pow_le_one₀ (n := (p.populationSize - eliteCount p.populationSize p.elitismRate) * k) (by linarith :
      0 ≤ 1 - p.mutationRateRange.start.val * (1 / ((genes.length - 1) * genes.length.factorial))) (by linarith)
    rw [hc]; linarith
  unfold runRandom
  rw [hext, show p.populationSize - 1 = N by omega, mul_comm]
  refine (mul_le_mul_of_nonneg_left hspread hc0).trans (mul_prob_le_bind _ _ _ _ _ fun init hi hne => ?_)
  obtain ⟨b, hb1, hb2⟩ := hal _ hi
  cases hb1
  push Not at hne
  obtain ⟨x, hx, y, hy, hxy⟩ := hne
  have hrun : RouteAgaRun Pb genes envs p init :=
    { arranges := har, env := henv, valid := hv, strategy := hst, linear := hlin, size := hsz, two := htwo
      len := by rw [hb2.1]; omega
      genomes := hb2.2, start := ⟨x, hx, (hint _ (hb2.2 x hx)).1⟩, crossOrder := hcr, mutOrder := hmr
      spread := Or.inr ⟨hint, x, hx, y, hy, hxy⟩ }
  refine ((C116_scramble_solves hrun a hsc hn hb hbest.1 progress hpr s1 q).1 k).trans ?_
  refine prob_le_bind _ _ _ _ fun r hy hfin => ?_
  obtain ⟨fin, st⟩ := r
  cases hfin
  obtain ⟨g1, g2⟩ := ended_good (aga_standard _) henv (breedsValid_default _ rfl (fun u => u.elim) (fun u => u.elim))
    validNotNaN_default progress _ s2 (k + 1) a init p q st hy
  exact takeResult_good g1 g2

end

deriving instance DecidableEq for Route

/-- **C116** (stuck) Without a spread the adaptive algorithm can get stuck, whatever its operators: from a single evaluated arrangement,
with rates adjusted in every generation, a run that is not stopped at that arrangement goes on forever and never sees another one,
with at least this probability. -/
theorem C116_stuck {Pb : Route.Problem G} {genes : List G} (har : Arranges Pb genes) {envs : Nat → Env (Route G)}
    (henv : ∀ t, (envs t).Lawful) {p : AgaParams} (hv : p.Valid) (hst : p.selectionStrategy.Valid)
    (hlin : ∀ b, p.selectionStrategy = .linear b → SafeBias b) (hsz : p.populationSize < 2 ^ 32)
    (htwo : eliteCount p.populationSize p.elitismRate + 2 ≤ p.populationSize) (hi : p.adjustmentInterval = 1)
    (x : Route G) (hx : x.genome.Perm genes) (he : x.fit = Pb.objective x.genome) (hfin : x.fit.isFinite = true)
    (hne : x.fit ≠ F64.nzero) (progress : Q → Population (Route G) → Prog (Bool × Q))
    (hgo : ∀ s pop, pop.WF → (∀ y ∈ pop.individuals, y = x) → Always (fun r => r.1 = true) (progress s pop)) (k : Nat)
    (a : Aga Unit Empty) (q : Q) :
    (1 - (⌈p.mutationRateRange.start.val * 2 ^ 53⌉ : ℤ) / 2 ^ 53) ^ p.populationSize ≤
      (evolvePopulation (aga (Route.model Pb)) envs progress k a [x] p q).prob
        (fun r => r.1 = false ∧ ∀ y ∈ r.2.population.individuals, y = x) := by
  obtain ⟨v, hv', e⟩ : ∃ v hv', x.fit = F64.fin v hv' := by
    cases h : x.fit with
    | nan => rw [h] at hfin; cases hfin
    | inf b => rw [h] at hfin; cases hfin
    | nzero => exact absurd h hne
    | fin v hv' => exact ⟨v, hv', rfl⟩
  have hself : ({ x with fit := Pb.objective x.genome } : Route G) = x := by rw [← he]
  have hstick : MayStick (Route.model Pb) (fun x => x.genome.Perm genes) envs p x v hv' :=
    { ops := har.safe, members := fun u => u.elim, distinct := fun u => u.elim, env := henv, valid := hv, strategy := hst,
      linear := hlin, size := hsz, two := htwo, interval := hi, prop := hx, isValid := hfin, fitness := e,
      evaluate := fun _ o ho => (Res.ok.inj ho).trans hself
      fixed := fun _ o ho => (Res.ok.inj ho).trans hself }
  obtain ⟨-, -, -, -, m1, -⟩ := hv
  have := C68_probability hstick progress hgo k a q
  rwa [prob_fire m1.1 m1.2.1 m1.2.2] at this

/-! ### An example -/

theorem four_integer (cx : CrossoverStrategy) (mu : MutationStrategy) (genes : List Nat) :
    IntegerObjective (fourProblem cx mu) genes := by
  intro g _
  show (fourObjective g).isFinite = true ∧ ∃ z : ℤ, (fourObjective g).val = z ∧ |z| ≤ 2 ^ 50
  unfold fourObjective
  split
  · exact ⟨by decide +kernel, 1, by decide +kernel, by decide +kernel⟩
  split
  · exact ⟨by decide +kernel, 2, by decide +kernel, by decide +kernel⟩
  · exact ⟨by decide +kernel, 0, by decide +kernel, by decide +kernel⟩

theorem four_arranges (cx : CrossoverStrategy) (hcx : cx ≠ .singlePoint) : Arranges (fourProblem cx .scramble) [0, 1, 2, 3] :=
  ⟨hcx, by simp [fourProblem], fun _ _ => List.Perm.refl _, by simp [fourProblem], by decide, by simp⟩

theorem four_aga_run (cx : CrossoverStrategy) (hcx : cx ≠ .singlePoint) :
    RouteAgaRun (fourProblem cx .scramble) [0, 1, 2, 3] (fun _ => fourEnv) AgaParams.default
      [⟨[0, 1, 2, 3], F64.lit 1⟩, ⟨[1, 0, 2, 3], F64.lit 0⟩] where
  arranges := four_arranges cx hcx
  env _ := fourEnv_lawful
  valid := C50_defaults.2.2.1
  strategy := C50_defaults.2.2.2
  linear := by simp [AgaParams.default]
  size := by simp [AgaParams.default]
  two := by decide +kernel
  len := by simp
  genomes := by
    intro x hx
    simp only [List.mem_cons, List.not_mem_nil, or_false] at hx
    rcases hx with rfl | rfl
    · exact List.Perm.refl _
    · show [1, 0, 2, 3].Perm [0, 1, 2, 3]; decide
  start := ⟨⟨[0, 1, 2, 3], F64.lit 1⟩, by simp, show (fourObjective [0, 1, 2, 3]).isFinite = true by decide +kernel⟩
  crossOrder := by decide +kernel
  mutOrder := by decide +kernel
  spread := Or.inr ⟨four_integer _ _ _, ⟨[0, 1, 2, 3], F64.lit 1⟩, by simp, ⟨[1, 0, 2, 3], F64.lit 0⟩, by simp,
    show (fourObjective [0, 1, 2, 3]).val ≠ (fourObjective [1, 0, 2, 3]).val by decide +kernel⟩

/-- `untilBest` stops exactly at the best arrangement's fitness. -/
theorem untilBest_iff (q : Unit) (pop : Population (Route Nat)) (b : Bool) (q' : Unit)
    (hy : (untilBest q pop).yields (.ok (b, q'))) : b = false ↔ Reached (fourObjective [2, 0, 3, 1]) pop := by
  have e : fourObjective [2, 0, 3, 1] = F64.lit 2 := by decide +kernel
  unfold untilBest at hy
  simp only [yields_pure, Res.ok.injEq, Prod.mk.injEq] at hy
  rw [hy.1, e, Reached, List.all_eq_false]
  refine exists_congr fun x => and_congr_right fun _ => ?_
  show ¬(!(F64.lit 2).le x.fit) = true ↔ (F64.lit 2).le x.fit = true
  simp

/-- **C116** (contrast) The same problem, strategies and default parameters: from two arrangements with different objectives the adaptive
algorithm almost surely finds the best arrangement; from a single one it runs forever with a probability above one in a hundred thousand. -/
theorem C116_contrast (cx : CrossoverStrategy) (hcx : cx ≠ .singlePoint) :
    (∀ ε : ℚ, 0 < ε → ∃ K, ∀ k, K ≤ k → 1 - ε ≤ (evolvePopulation (aga (Route.model (fourProblem cx .scramble))) (fun _ => fourEnv)
      untilBest k (Aga.ofModel ()) [⟨[0, 1, 2, 3], F64.lit 1⟩, ⟨[1, 0, 2, 3], F64.lit 0⟩] AgaParams.default ()).prob
        (fun r => r.1 = true)) ∧
    (∀ k, 1 / 100000 < (evolvePopulation (aga (Route.model (fourProblem cx .scramble))) (fun _ => fourEnv)
      untilBest k (Aga.ofModel ()) [⟨[0, 1, 2, 3], F64.lit 1⟩] AgaParams.default ()).prob (fun r => r.1 = false)) := by
  constructor
  · refine (C116_scramble_solves (best := [2, 0, 3, 1]) (four_aga_run cx hcx) (Aga.ofModel ()) rfl (by decide) (by decide)
      (show (fourObjective [2, 0, 3, 1]).isFinite = true by decide +kernel) untilBest (fun _ _ _ => by simp [untilBest]) ?_ ()).2
      (by decide +kernel)
    intro q pop q' _ hr hy
    exact absurd ((untilBest_iff q pop true q' hy).2 hr) (by simp)
  · intro k
    have h := C116_stuck (four_arranges cx hcx) (fun _ => fourEnv_lawful) C50_defaults.2.2.1 C50_defaults.2.2.2
      (by simp [AgaParams.default]) (by simp [AgaParams.default]) (by decide +kernel) rfl ⟨[0, 1, 2, 3], F64.lit 1⟩ (List.Perm.refl _)
      (show F64.lit 1 = fourObjective [0, 1, 2, 3] by decide +kernel) (show (F64.lit 1).isFinite = true by decide +kernel)
      (show F64.lit 1 ≠ F64.nzero by decide +kernel) untilBest (fun q pop _ hall => by
        rw [untilBest, always_pure, List.all_eq_true]
        intro x hx
        rw [hall x hx]
        show (!(F64.lit 2).le (F64.lit 1)) = true
        decide +kernel) k (Aga.ofModel ()) ()
    refine lt_of_lt_of_le ?_ (h.trans (prob_mono _ _ _ fun r _ hr => hr.1))
    decide +kernel

/-- A random arrangement of the four genes. -/
def fourRandom : Prog (Route Nat) := do
  let genome ← shuffle [0, 1, 2, 3]
  pure ⟨genome, F64.zero⟩

-- `run` with random arrangements
example (cx : CrossoverStrategy) (hcx : cx ≠ .singlePoint) (k : Nat) :
    (1 - (11 / 12) ^ 99) * (1 - (1 - 3602879701896397 / 2 ^ 55 * (1 / 72)) ^ (99 * k)) ≤
      (runRandom (Route.model (fourProblem cx .scramble)) (aga (Route.model (fourProblem cx .scramble))) (fun _ => fourEnv) untilBest
        (k + 1) (Aga.ofModel ()) fourRandom AgaParams.default ()).prob
        (fun r => r.1.any (fun y => (fourObjective [2, 0, 3, 1]).le (fitness y)) = true) := by
  have h2 : AgaParams.default.mutationRateRange.start.val = 3602879701896397 / 2 ^ 55 := by decide +kernel
  have h3 : AgaParams.default.populationSize - eliteCount AgaParams.default.populationSize AgaParams.default.elitismRate = 99 := by
    decide +kernel
  have h := C116_run (best := [2, 0, 3, 1]) (four_arranges cx hcx) (envs := fun _ => fourEnv) (fun _ => fourEnv_lawful)
    C50_defaults.2.2.1 C50_defaults.2.2.2 (by simp [AgaParams.default]) (by simp [AgaParams.default]) (by decide +kernel)
    (by decide +kernel) (by decide +kernel) (four_integer _ _ _) fourRandom
    (by
      unfold fourRandom
      rw [always_bind]
      refine (shuffle_always _).mono fun g hg => ?_
      rw [always_pure]
      exact hg)
    (11 / 12) (by norm_num) (fun v => ?_) (Aga.ofModel ()) rfl (by decide) (by decide) untilBest (fun _ _ _ => by simp [untilBest])
    (fun q pop b q' _ hy => untilBest_iff q pop b q' hy) k ()
  · rw [h2, h3] at h
    have e : (1 : ℚ) / (((([0, 1, 2, 3] : List Nat).length : ℕ) - 1) * ([0, 1, 2, 3] : List Nat).length.factorial) = 1 / 72 := by
      norm_num [Nat.factorial]
    rw [e] at h
    exact h
  · show fourRandom.prob (fun x => (fourObjective x.genome).val = v) ≤ _
    by_cases hv : v = 0
    · subst hv; decide +kernel
    · refine (prob_mono _ _ (fun x => (fourObjective x.genome).val ≠ 0) fun x _ h => by rw [h]; exact hv).trans ?_
      decide +kernel

end RG.Props
