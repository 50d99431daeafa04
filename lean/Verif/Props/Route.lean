import Verif.Route
import Verif.Props.Crossover
import Verif.Props.Distribution
import Verif.Props.Convergence
import Verif.Props.AgaConvergence

/-!
# Property C88: problems over permutations

Runs of the algorithms on a problem whose individuals are arrangements of given genes (`Route.lean`), with the strategies of the
library as operators.
-/

namespace RG.Props
open RG RG.Prog
variable {G : Type} [DecidableEq G] {Q A P : Type}

/-- The strategies keep arrangements: a crossover other than `SinglePoint`, a mutation other than `Duplicate`, distinct genes. -/
structure Arranges (Pb : Route.Problem G) (genes : List G) : Prop where
  cross : Pb.crossover ≠ .singlePoint
  mutation : Pb.mutation ≠ .duplicate
  ord : ∀ k l, (Pb.ord k l).Perm l
  fuel : genes.length < Pb.fuel
  nodup : genes.Nodup
  nonempty : genes ≠ []

theorem Arranges.safe {Pb : Route.Problem G} {genes : List G} (h : Arranges Pb genes) :
    SafeOps (Route.model Pb) (fun x => x.genome.Perm genes) where
  crossover _ a b ha hb := by
    show Always _ (Pb.crossover.crossover Pb.lt Pb.ord Pb.fuel a.genome b.genome >>= fun g => pure (⟨g, F64.zero⟩ : Route G))
    rw [always_bind]
    refine (C30_permutation Pb.lt Pb.ord h.ord Pb.crossover h.cross a.genome b.genome (ha.nodup_iff.2 h.nodup)
      (hb.trans ha.symm) (fun e => h.nonempty (by rw [e] at ha; exact ha.nil_eq.symm)) Pb.fuel
      (by rw [ha.length_eq]; exact h.fuel)).mono fun g hg => ?_
    rw [always_pure]
    exact hg.trans ha
  mutate _ a ha := by
    show Always _ (Pb.mutation.mutate a.genome >>= fun g => pure ({ a with genome := g } : Route G))
    rw [always_bind]
    refine (C37_permutation Pb.mutation h.mutation a.genome).mono fun g hg => ?_
    rw [always_pure]
    exact hg.trans ha
  improve _ a ha := by show Always _ (pure a); simpa using ha
  evaluate _ a ha := by show Always _ (pure ({ a with fit := Pb.objective a.genome } : Route G)); simpa using ha
  canSurvive _ _ _ _ _ _ := by show Always _ (pure _); simp
  preGeneration _ _ _ := rfl
  breed := rfl

theorem route_eqFitness : EqFitness (Route G) := by
  intro x y h
  exact (Bool.and_eq_true_iff.1 h).2

/-- **C88** A run of the genetic or the adaptive algorithm on arrangements of genes neither panics nor hangs, and every individual
of every population in it is an arrangement of the genes. -/
theorem C88_arrangements (Pb : Route.Problem G) (genes : List G) (h : Arranges Pb genes) (envs : Nat → Env (Route G))
    (henv : ∀ t, (envs t).Lawful) (progress : Q → Population (Route G) → Prog (Bool × Q))
    (hpr : ∀ q p, p.WF → Always (fun _ => True) (progress q p)) (fuel : Nat) (init : List (Route G)) (q : Q)
    (hl : init.length < 2 ^ 32) (hinit : ∀ x ∈ init, x.genome.Perm genes)
    (hvalid : ∃ x ∈ init, (Pb.objective x.genome).isFinite = true) :
    (∀ (a : Ga Unit Empty) (p : GaParams), p.Valid ∧ p.selectionStrategy.Valid ∧ (∀ b, p.selectionStrategy = .linear b → SafeBias b) →
      2 ≤ p.populationSize → p.populationSize < 2 ^ 32 →
      Always (fun r => (∀ pop ∈ r.2.shown, ∀ x ∈ pop.individuals, x.genome.Perm genes) ∧
        ∀ x ∈ r.2.population.individuals, x.genome.Perm genes)
        (evolvePopulation (ga (Route.model Pb)) envs progress fuel a init p q)) ∧
    (∀ (a : Aga Unit Empty) (p : AgaParams), p.Valid ∧ p.selectionStrategy.Valid ∧ (∀ b, p.selectionStrategy = .linear b → SafeBias b) →
      2 ≤ p.populationSize → p.populationSize < 2 ^ 32 →
      Always (fun r => (∀ pop ∈ r.2.shown, ∀ x ∈ pop.individuals, x.genome.Perm genes) ∧
        ∀ x ∈ r.2.population.individuals, x.genome.Perm genes)
        (evolvePopulation (aga (Route.model Pb)) envs progress fuel a init p q)) := by
  obtain ⟨x, hx, hv⟩ := hvalid
  have hstart : ∀ m, ∃ x ∈ init, Always (fun e => isValid e = true) ((Route.model Pb).evaluate m x) := fun m =>
    ⟨x, hx, by show Always _ (pure ({ x with fit := Pb.objective x.genome } : Route G)); rw [always_pure]; exact hv⟩
  exact ⟨fun a p hp h2 hn => (C64_run (ga_standard _) (ga_safe h.safe) h.safe envs henv progress hpr fuel a init p q hp h2 hn hl
      hinit (hstart _)).mono fun r hr => hr.2,
    fun a p hp h2 hn => (C64_run (aga_standard _) (aga_safe h.safe) h.safe envs henv progress hpr fuel a init p q hp h2 hn hl
      hinit (hstart _)).mono fun r hr => hr.2⟩

/-! ### `Scramble` reaches every arrangement -/

/-- **C88** `scramble_mutation` turns a genome into any given arrangement of its genes with at least this probability. -/
theorem C88_scramble_reaches (g y : List G) (hn : 2 ≤ g.length) (hy : y.Perm g) :
    1 / ((g.length - 1) * g.length.factorial : ℚ) ≤ (scrambleMutation g).prob (fun g' => g' = y) := by
  have hq : (2 : ℚ) ≤ g.length := by exact_mod_cast hn
  unfold prob
  rw [C66_scramble g hn]
  unfold windowAverage
  rw [one_div, mul_inv, ← div_eq_inv_mul]
  refine div_le_div_of_nonneg_right ?_ (by linarith)
  have h0 : ∀ (s len : Nat), (0 : ℚ) ≤ (((g.drop s).take len).permutations.map fun w =>
      if g.take s ++ w ++ g.drop (s + len) = y then (1 : ℚ) else 0).sum / (len.factorial : ℚ) := fun s len => by
    refine div_nonneg (List.sum_nonneg fun x hx => ?_) (by positivity)
    obtain ⟨w, -, rfl⟩ := List.mem_map.1 hx
    split <;> norm_num
  have h1 : ∀ len ∈ Finset.Icc 2 g.length, (0 : ℚ) ≤ (∑ s ∈ Finset.range (g.length - len + 1),
      (((g.drop s).take len).permutations.map fun w => if g.take s ++ w ++ g.drop (s + len) = y then (1 : ℚ) else 0).sum /
        (len.factorial : ℚ)) / (g.length - len + 1 : ℚ) := fun len hlen => by
    refine div_nonneg (Finset.sum_nonneg fun s _ => h0 s len) ?_
    have : (len : ℚ) ≤ g.length := by exact_mod_cast (Finset.mem_Icc.1 hlen).2
    linarith
  refine le_trans ?_ (Finset.single_le_sum h1 (Finset.mem_Icc.2 ⟨hn, le_rfl⟩))
  rw [Nat.sub_self, sub_self, zero_add, zero_add, div_one, Finset.sum_range_one, Nat.zero_add]
  simp only [List.drop_zero, List.take_length, List.take_zero, List.nil_append, List.drop_length, List.append_nil]
  rw [inv_eq_one_div]
  refine div_le_div_of_nonneg_right ?_ (by positivity)
  refine List.single_le_sum (l := g.permutations.map fun w => if w = y then (1 : ℚ) else 0) (fun x hx => ?_) 1
    (List.mem_map.2 ⟨y, List.mem_permutations.2 hy, if_pos rfl⟩)
  obtain ⟨w, -, rfl⟩ := List.mem_map.1 hx
  split <;> norm_num

/-- A genome of three genes: a given arrangement has a probability of at least `1/12`. -/
example : (1 / ((3 - 1) * 6) : ℚ) ≤ (scrambleMutation [1, 2, 3]).prob (fun g' => g' = [2, 3, 1]) := by
  have h := C88_scramble_reaches [1, 2, 3] [2, 3, 1] (by decide) (by decide)
  norm_num [Nat.factorial] at h ⊢
  exact h

/-- `scramble_mutation` reaches a level that some arrangement has. -/
theorem route_reaches (Pb : Route.Problem G) (genes best : List G) (hs : Pb.mutation = .scramble) (hn : 2 ≤ genes.length)
    (hb : best.Perm genes) (hfin : (Pb.objective best).isFinite = true) :
    MutationReaches (Route.model Pb) () (fun x => x.genome.Perm genes) (Pb.objective best)
      (1 / ((genes.length - 1) * genes.length.factorial)) := by
  intro o ho
  have hl := ho.length_eq
  have h := C88_scramble_reaches o.genome best (by omega) (hb.trans ho.symm)
  rw [hl] at h
  refine h.trans ?_
  show _ ≤ ((Pb.mutation.mutate o.genome >>= fun g => pure ({ o with genome := g } : Route G)) >>= fun o => pure o >>= fun o =>
    pure ({ o with fit := Pb.objective o.genome } : Route G)).prob _
  rw [hs, Prog.bind_assoc']
  refine prob_le_bind _ _ (fun g => g = best) _ fun g _ hg => ?_
  subst hg
  simp only [bind_pure_left, prob_pure]
  rw [if_pos]
  refine ⟨hfin, ?_⟩
  rw [F64.le_iff]
  exact ⟨F64.isNaN_of_finite hfin, F64.isNaN_of_finite hfin, le_rfl⟩

/-- A run of the genetic algorithm on arrangements. -/
structure RouteRun (Pb : Route.Problem G) (genes : List G) (envs : Nat → Env (Route G)) (p : GaParams)
    (init : List (Route G)) : Prop where
  arranges : Arranges Pb genes
  env : ∀ t, (envs t).Lawful
  valid : p.Valid
  strategy : p.selectionStrategy.Valid
  linear : ∀ b, p.selectionStrategy = .linear b → SafeBias b
  size : p.populationSize < 2 ^ 32
  two : eliteCount p.populationSize p.elitismRate + 2 ≤ p.populationSize
  len : init.length < 2 ^ 32
  genomes : ∀ x ∈ init, x.genome.Perm genes
  start : ∃ x ∈ init, (Pb.objective x.genome).isFinite = true

theorem RouteRun.converges {Pb : Route.Problem G} {genes best : List G} {envs : Nat → Env (Route G)} {p : GaParams}
    {init : List (Route G)} (h : RouteRun Pb genes envs p init) (a : Ga Unit Empty) (hs : Pb.mutation = .scramble)
    (hn : 2 ≤ genes.length) (hb : best.Perm genes) (hfin : (Pb.objective best).isFinite = true) :
    Converges (Route.model Pb) (fun x => x.genome.Perm genes) envs a p init (Pb.objective best)
      (1 / ((genes.length - 1) * genes.length.factorial)) where
  ops := h.arranges.safe
  survive := rfl
  members := fun u => u.elim
  distinct := fun u => u.elim
  notNaN := validNotNaN_default
  eqFitness := route_eqFitness
  env := h.env
  valid := h.valid
  strategy := h.strategy
  linear := h.linear
  size := h.size
  two := h.two
  len := h.len
  prop := h.genomes
  start := by
    obtain ⟨x, hx, hv⟩ := h.start
    exact ⟨x, hx, by show Always _ (pure ({ x with fit := Pb.objective x.genome } : Route G)); rw [always_pure]; exact hv⟩
  nonneg := by
    have : (2 : ℚ) ≤ genes.length := by exact_mod_cast hn
    exact div_nonneg zero_le_one (mul_nonneg (by linarith) (by positivity))
  reaches := route_reaches Pb genes best hs hn hb hfin

/-- **C88** With `Scramble` as mutation the genetic algorithm solves every problem over arrangements: whatever the objective, the
crossover and the selection strategy, a run that stops at the fitness of an arrangement `best` (such as an optimal one) ends almost
surely, and within `k + 1` calls of `progress` with at least this probability. -/
theorem C88_scramble_solves {Pb : Route.Problem G} {genes best : List G} {envs : Nat → Env (Route G)} {p : GaParams}
    {init : List (Route G)} (h : RouteRun Pb genes envs p init) (a : Ga Unit Empty) (hs : Pb.mutation = .scramble)
    (hn : 2 ≤ genes.length) (hb : best.Perm genes) (hfin : (Pb.objective best).isFinite = true)
    (progress : Q → Population (Route G) → Prog (Bool × Q)) (hpr : ∀ q p, p.WF → Always (fun _ => True) (progress q p))
    (hstop : ∀ q pop q', GoodPop pop → Reached (Pb.objective best) pop → ¬ (progress q pop).yields (.ok (true, q'))) (q : Q) :
    (∀ k, 1 - (1 - p.mutationRate.val * (1 / ((genes.length - 1) * genes.length.factorial))) ^
        ((p.populationSize - eliteCount p.populationSize p.elitismRate) * k) ≤
      (evolvePopulation (ga (Route.model Pb)) envs progress (k + 1) a init p q).prob (fun r => r.1 = true)) ∧
    (0 < p.mutationRate.val → ∀ ε : ℚ, 0 < ε → ∃ K, ∀ k, K ≤ k →
      1 - ε ≤ (evolvePopulation (ga (Route.model Pb)) envs progress k a init p q).prob (fun r => r.1 = true)) := by
  have hc := h.converges a hs hn hb hfin
  refine ⟨fun k => C67_ends hc progress hpr hstop k q, fun hρ ε hε => C67_almost_surely hc (mul_pos hρ ?_) progress hpr hstop q ε hε⟩
  have : (2 : ℚ) ≤ genes.length := by exact_mod_cast hn
  exact div_pos one_pos (mul_pos (by linarith) (by positivity))

end RG.Props
