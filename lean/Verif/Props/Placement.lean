import Verif.Proofs.Placement
import Verif.Props.FromIndividual
import Verif.Props.Trap

/-!
# Property C119: putting genes in their places

A problem over arrangements in which the fitness is the number of genes that are where they are in a given arrangement (sorting is
the case of an ascending one), with `Swap` as mutation (`mutation.rs:91-99`): both algorithms solve it, in an expected number of
generations that is bounded by a polynomial. With `Insertion` they may be stuck for ever.
-/

set_option linter.unusedSectionVars false

namespace RG.Props
open RG RG.Prog
variable {G : Type} [DecidableEq G] {Q : Type}

/-- **C119** `swap_mutation` of an arrangement of `n` distinct genes, `k` of which are not in their place, puts more genes in their
place with probability at least `k / (n (n - 1))`. -/
theorem C119_swap (best g : List G) (hnd : best.Nodup) (hg : g.Perm best) (hn : 2 ≤ best.length) :
    (best.length - placed best g : ℚ) / (best.length * (best.length - 1)) ≤
      (swapMutation g).prob (fun g' => placed best g < placed best g') := by
  have hl := hg.length_eq
  obtain ⟨sw, h1, h2⟩ := C66_swap g (by omega) fun r => match r with
    | .ok g' => if placed best g < placed best g' then 1 else 0
    | _ => 0
  have hq : (2 : ℚ) ≤ best.length := by exact_mod_cast hn
  have hp : (swapMutation g).prob (fun g' => placed best g < placed best g') =
      pairAverage g.length fun a b => if placed best g < placed best (sw a b) then 1 else 0 := by
    refine Eq.trans ?_ h2
    unfold prob
    refine congrArg _ (funext fun r => ?_)
    cases r with
    | ok a => simp only []
    | panic => rfl
    | diverge => rfl
  rw [hp]
  unfold pairAverage
  rw [hl]
  refine div_le_div_of_nonneg_right ?_ (mul_nonneg (by linarith) (by linarith))
  have hF : ∀ a b, (0 : ℚ) ≤ if placed best g < placed best (sw a b) then 1 else 0 := fun a b => by split <;> norm_num
  have hcard : (best.length - placed best g : ℚ) = ∑ a ∈ (Finset.range best.length).filter (fun i => ¬ g[i]? = best[i]?), (1 : ℚ) := by
    have := Finset.card_filter_add_card_filter_not (s := Finset.range best.length) (fun i => g[i]? = best[i]?)
    rw [Finset.card_range] at this
    rw [Finset.sum_const, nsmul_eq_mul, mul_one]
    unfold placed
    have h : (((Finset.range best.length).filter fun i => g[i]? = best[i]?).card : ℚ) +
      ((Finset.range best.length).filter fun i => ¬ g[i]? = best[i]?).card = best.length := by exact_mod_cast this
    linarith
  rw [hcard]
  refine le_trans (Finset.sum_le_sum fun a ha => ?_)
    (Finset.sum_le_sum_of_subset_of_nonneg (Finset.filter_subset _ _) fun a _ _ => Finset.sum_nonneg fun b _ => hF a b)
  rw [Finset.mem_filter, Finset.mem_range] at ha
  obtain ⟨ha, hne⟩ := ha
  obtain ⟨b, hb, hgb⟩ := List.getElem_of_mem (hg.mem_iff.2 (List.getElem_mem ha))
  have hgb : g[b]? = best[a]? := by rw [List.getElem?_eq_getElem hb, List.getElem?_eq_getElem ha, hgb]
  have hab : a ≠ b := by rintro rfl; exact hne hgb
  refine le_trans ?_ (Finset.single_le_sum (f := fun b => if placed best g < placed best (sw a b) then (1 : ℚ) else 0)
    (fun b _ => hF a b) (Finset.mem_erase.2 ⟨hab.symm, Finset.mem_range.2 (by omega : b < best.length)⟩))
  rw [if_pos (placed_swapped hnd ha (by omega) hne hgb (h1 a b (by omega) hb hab))]

/-- Five genes, three of them in their place: one of the ten swaps puts the others in theirs. -/
example : (2 / 20 : ℚ) ≤ (swapMutation [0, 4, 2, 3, 1]).prob (fun g' => 3 < placed [0, 1, 2, 3, 4] g') := by
  have h := C119_swap [0, 1, 2, 3, 4] [0, 4, 2, 3, 1] (by decide) (by decide) (by decide)
  have e : placed [0, 1, 2, 3, 4] [0, 4, 2, 3, 1] = 3 := by decide
  rw [e] at h
  norm_num at h ⊢
  exact h

/-- **C119** `Order` and `PartiallyMapped` crossover copy the first parent with probability at least `1 / n`. -/
theorem C119_copies (lt : G → G → Bool) (ord : Nat → List G → List G) (fuel : Nat) (p₁ p₂ : List G) (hnd : p₁.Nodup)
    (hp : p₂.Perm p₁) (hn : 2 ≤ p₁.length) (hf : p₁.length < fuel) (s : CrossoverStrategy) (hs : s = .order ∨ s = .partiallyMapped) :
    1 / (p₁.length : ℚ) ≤ (s.crossover lt ord fuel p₁ p₂).prob (fun g => g = p₁) := by
  have hne : p₁ ≠ [] := by rintro rfl; simp at hn
  have hq : (2 : ℚ) ≤ p₁.length := by exact_mod_cast hn
  have key : ∀ F : URange → ℚ, (∀ r, 0 ≤ F r) → F ⟨0, p₁.length⟩ = 1 → 1 / (p₁.length : ℚ) ≤ rangeAverage p₁.length F := by
    intro F h0 h1
    unfold rangeAverage
    refine div_le_div_of_nonneg_right ?_ (by linarith)
    refine le_trans ?_ (Finset.single_le_sum (fun len hlen => ?_) (Finset.mem_Icc.2 ⟨(by omega : 1 ≤ p₁.length), le_rfl⟩))
    · simp [h1]
    · refine div_nonneg (Finset.sum_nonneg fun s _ => h0 _) ?_
      have : (len : ℚ) ≤ p₁.length := by exact_mod_cast (Finset.mem_Icc.1 hlen).2
      linarith
  have whole : ∀ off : List G, off.Perm p₁ → (∀ i, 0 ≤ i → i < p₁.length → off[i]? = p₁[i]?) → off = p₁ := fun off h1 h2 => by
    apply List.ext_getElem?
    intro i
    by_cases hi : i < p₁.length
    · exact h2 i (Nat.zero_le _) hi
    · rw [List.getElem?_eq_none (by rw [h1.length_eq]; omega), List.getElem?_eq_none (by omega)]
  unfold prob
  rcases hs with rfl | rfl
  · rw [C66_ox lt ord fuel p₁ p₂ hne]
    refine key _ (fun r => by dsimp only; split <;> [split; skip] <;> norm_num) ?_
    obtain ⟨off, o1, o2, o3, -⟩ := C26_ox p₁ p₂ hnd hp hn 0 p₁.length (by omega) le_rfl
    rw [o1 fuel hf, whole off o2 o3]
    exact if_pos rfl
  · rw [C66_pmx lt ord fuel p₁ p₂ hne]
    refine key _ (fun r => by dsimp only; split <;> [split; skip] <;> norm_num) ?_
    obtain ⟨off, o1, o2, o3, -⟩ := C25_pmx p₁ p₂ hnd hp hn 0 p₁.length (by omega) le_rfl
    rw [o1 fuel hf, whole off o2 o3]
    exact if_pos rfl

/-! ### Climbing, if crossover can keep the first parent -/

section
variable {I : Type} [Individual I] {Mo U : Type} {M : EvoModel I Mo U} {Pr : I → Prop} {envs : Nat → Env I}
  {init : List I} {level : Nat → F64} {L : Nat} {σ : ℚ} {δ : Nat → ℚ}

theorem firstChance_mem {σ ρ δ : ℚ} (hσ : 0 ≤ σ ∧ σ ≤ 1) (hρ : 0 ≤ ρ ∧ ρ ≤ 1) (hδ : 0 ≤ δ ∧ δ ≤ 1) :
    0 ≤ σ * ρ * δ ∧ σ * ρ * δ ≤ 1 :=
  ⟨mul_nonneg (mul_nonneg hσ.1 hρ.1) hδ.1, mul_le_one₀ (mul_le_one₀ hσ.2 hρ.1 hρ.2) hδ.1 hδ.2⟩

/-- **C119** C79 for a crossover that can climb from the first parent instead of the second (`FirstClimbs`): the chance of climbing
is twice that of C79, `σ ρ δ`, at any crossover rate. -/
theorem C119_ladder {a : Ga Mo U} {p : GaParams} (h : Climbs M Pr envs a p init level L σ δ)
    (hx : ∀ i, i < L → FirstClimbs M a.model Pr (level i) (level (i + 1)) (δ i))
    (hpos : ∀ i, i < L → 0 < σ * p.mutationRate.val * δ i) (progress : Q → Population I → Prog (Bool × Q))
    (hstop : ∀ q pop q', GoodPop pop → Reached (level L) pop → ¬ (progress q pop).yields (.ok (true, q'))) (k : Nat) (q : Q) :
    (evolvePopulation (ga M) envs progress k a init p q).expect callsOf ≤
      1 + ∑ i ∈ Finset.range L, 1 / (1 - (1 - σ * p.mutationRate.val * δ i) ^
        (p.populationSize - eliteCount p.populationSize p.elitismRate)) := by
  obtain ⟨hs, hd⟩ := h.bounds
  refine ladder_run_expected (ga_standard M) envs h.env (breedsValid_default M h.ops.breed h.members h.distinct) h.notNaN h.eqFitness
    progress level (fun i => σ * p.mutationRate.val * δ i) (fun i => firstChance_mem hs h.rate_mem.2 (hd i)) _ _ L h.two h.elites
    (ClimbState M (ga M) Ga.eliteSize Ga.populationSize Pr (max p.populationSize init.length) (GaOk p a.model))
    (fun st hs => hs.fine.good) ClimbState.show
    (fun t st st' hs hst => hs.step (ga_standard M) (ga_safe h.ops) h.ops h.members h.distinct h.notNaN (ga_steady h.toGaRun _)
      (h.env t) st st' hst)
    (fun t st b i hs _ hi hr hb => hs.breed_first (ga_safe h.ops) h.ops h.survive h.notNaN (ga_steady h.toGaRun _) _
      (level i) (level (i + 1)) σ (δ i) h.rate_mem.2.1 (hd i) (h.select t i hi) (h.climbs i hi) (hx i hi) st b hr hb)
    a p init h.begin hstop hpos k q

/-- **C119** The same for the adaptive algorithm, with the lower end of the mutation range. -/
theorem C119_ladder_aga {a : Aga Mo U} {p : AgaParams} (h : AgaClimbs M Pr envs a p init level L σ δ)
    (hx : ∀ i, i < L → FirstClimbs M a.model Pr (level i) (level (i + 1)) (δ i))
    (hpos : ∀ i, i < L → 0 < σ * p.mutationRateRange.start.val * δ i) (progress : Q → Population I → Prog (Bool × Q))
    (hstop : ∀ q pop q', GoodPop pop → Reached (level L) pop → ¬ (progress q pop).yields (.ok (true, q'))) (k : Nat) (q : Q) :
    (evolvePopulation (aga M) envs progress k a init p q).expect callsOf ≤
      1 + ∑ i ∈ Finset.range L, 1 / (1 - (1 - σ * p.mutationRateRange.start.val * δ i) ^
        (p.populationSize - eliteCount p.populationSize p.elitismRate)) := by
  obtain ⟨hs, hd⟩ := h.bounds
  have hsz := h.size
  have hln := h.len
  exact ladder_run_expected (aga_standard M) envs h.env (breedsValid_default M h.ops.breed h.members h.distinct) h.notNaN h.eqFitness
    progress level (fun i => σ * p.mutationRateRange.start.val * δ i) (fun i => firstChance_mem hs h.rate_mem (hd i)) _ _ L h.two h.elites
    (ClimbState M (aga M) Aga.eliteSize Aga.populationSize Pr (max p.populationSize init.length) (AgaOk p a.model))
    (fun st hs => hs.fine.good) ClimbState.show h.step
    (fun t st b i hs _ hi hr hb => hs.breed_first (aga_safe h.ops) h.ops h.survive h.notNaN (aga_steady h.toAgaRun (by omega)) _
      (level i) (level (i + 1)) σ (δ i) h.rate_mem.1 (hd i) (h.select t i hi) (h.climbs i hi) (hx i hi) st b hr hb)
    a p init h.begins hstop hpos k q

/-- **C119** A bound on the expected number of calls of `progress` is one on the probability that the run has not ended (Markov's
inequality): for any algorithm, if the run neither panics nor hangs. -/
theorem C119_markov {A P : Type} {alg : EvoAlgo I Mo U A P} {elite size : A → Nat} {eliteOf : P → Nat}
    (hstd : Standard M alg elite size eliteOf) (henv : ∀ t, (envs t).Lawful) (progress : Q → Population I → Prog (Bool × Q)) (k : Nat)
    (a : A) (p : P) (q : Q) (hrun : Always (fun _ => True) (evolvePopulation alg envs progress k a init p q)) (c : ℚ)
    (hc : (evolvePopulation alg envs progress k a init p q).expect callsOf ≤ c) (hk : 0 < k) :
    1 - c / k ≤ (evolvePopulation alg envs progress k a init p q).prob (fun r => r.1 = true) := by
  have hsum := prob_add_not_of_always _ (fun r : Bool × RunState I A Q => r.1 = true) hrun
  have hkq : (0 : ℚ) < k := by exact_mod_cast hk
  have h : (evolvePopulation alg envs progress k a init p q).prob (fun r => ¬ r.1 = true) * k ≤ c := by
    refine le_trans ?_ hc
    unfold prob
    rw [mul_comm, ← expect_mul_left]
    refine expect_mono _ _ _ fun r hr => ?_
    cases r with
    | ok r =>
      obtain ⟨fin, st⟩ := r
      cases fin with
      | true => simp [callsOf]
      | false =>
        obtain ⟨-, -, -, -, -, -, -, -, -, -, -, -, h⟩ := C56_protocol hstd envs henv progress k a init p q false st hr
        simp [callsOf, (h rfl).1]
    | panic => simp [callsOf]
    | diverge => simp [callsOf]
  have : (evolvePopulation alg envs progress k a init p q).prob (fun r => ¬ r.1 = true) ≤ c / k := by
    rw [le_div_iff₀ hkq]; exact h
  linarith

end

/-! ### The problem -/

/-- The fitness of an arrangement is the number of its genes that are where they are in `best`; the mutation is `Swap`. -/
structure Placement (Pb : Route.Problem G) (best : List G) : Prop where
  arranges : Arranges Pb best
  swap : Pb.mutation = .swap
  objective : ∀ g : List G, g.Perm best → Pb.objective g = F64.ofNat (placed best g)
  genes : 2 ≤ best.length ∧ best.length ≤ 2 ^ 50

/-- The chance that a swap puts one more of `n` genes in its place, if `i` are. -/
def placeChance (n i : Nat) : ℚ := if i < n then (n - i) / (n * (n - 1)) else 0

theorem placeChance_mem {n : Nat} (hn : 2 ≤ n) (i : Nat) : 0 ≤ placeChance n i ∧ placeChance n i ≤ 1 := by
  have hq : (2 : ℚ) ≤ n := by exact_mod_cast hn
  unfold placeChance
  split
  · rename_i h
    have hi : (i : ℚ) < n := by exact_mod_cast h
    have hi0 : (0 : ℚ) ≤ i := by positivity
    have hp : (0 : ℚ) < n * (n - 1) := mul_pos (by linarith) (by linarith)
    refine ⟨div_nonneg (by linarith) hp.le, ?_⟩
    rw [div_le_one hp]
    nlinarith
  · norm_num

section
variable {Pb : Route.Problem G} {best : List G}

theorem Placement.evaluated (h : Placement Pb best) {x : Route G} (hx : x.genome.Perm best) (hev : Evaluated (Route.model Pb) x) :
    fitness x = F64.ofNat (placed best x.genome) := by
  obtain ⟨m, u, hu⟩ := hev
  have hu : x = ({ u with fit := Pb.objective u.genome } : Route G) := Res.ok.inj hu
  subst hu
  exact h.objective _ hx

theorem Placement.bound (h : Placement Pb best) (g : List G) : placed best g ≤ 2 ^ 53 :=
  (placed_le best g).trans (h.genes.2.trans (by norm_num))

theorem Placement.finite (h : Placement Pb best) {g : List G} (hg : g.Perm best) :
    (Pb.objective g).isFinite = true ∧ (Pb.objective g).val = placed best g := by
  rw [h.objective g hg]
  exact F64.ofNat_exact (h.bound g)

theorem Placement.integer (h : Placement Pb best) : IntegerObjective Pb best := fun g hg => by
  obtain ⟨h1, h2⟩ := h.finite hg
  refine ⟨h1, placed best g, by rw [h2]; norm_cast, ?_⟩
  have := (placed_le best g).trans h.genes.2
  rw [abs_of_nonneg (by positivity)]
  exact_mod_cast this

/-- Swapping two genes of an individual, and evaluating it. -/
theorem Placement.mutates (h : Placement Pb best) (o : Route G) (ho : o.genome.Perm best) (i : Nat)
    (hi : placed best o.genome = i) : placeChance best.length i ≤ ((Route.model Pb).mutate () o >>= fun o =>
      (Route.model Pb).improve () o >>= fun o => (Route.model Pb).evaluate () o).prob
      (fun c => isValid c = true ∧ (F64.ofNat (i + 1)).le (fitness c) = true) := by
  by_cases hin : i < best.length
  · have hsw := C119_swap best o.genome h.arranges.nodup ho h.genes.1
    unfold placeChance
    rw [if_pos hin]
    rw [hi] at hsw
    refine hsw.trans ?_
    show _ ≤ ((Pb.mutation.mutate o.genome >>= fun g => pure ({ o with genome := g } : Route G)) >>= fun o => pure o >>= fun o =>
      pure ({ o with fit := Pb.objective o.genome } : Route G)).prob _
    rw [h.swap, Prog.bind_assoc']
    refine prob_le_bind _ _ _ _ fun g hy hg => ?_
    have hperm : g.Perm best := by
      refine List.Perm.trans ?_ ho
      exact (C37_permutation .swap (by simp) o.genome).partially g hy
    simp only [bind_pure_left, prob_pure]
    rw [if_pos]
    refine ⟨(h.finite hperm).1, ?_⟩
    show (F64.ofNat (i + 1)).le (Pb.objective g) = true
    rw [h.objective g hperm, ofNat_le (by have := h.genes.2; omega) (h.bound g)]
    omega
  · unfold placeChance
    rw [if_neg hin]
    exact prob_nonneg _ _

theorem Placement.level (h : Placement Pb best) {o : Route G} (ho : o.genome.Perm best) (hev : Evaluated (Route.model Pb) o) (i : Nat)
    (hi : i < best.length) (h1 : (F64.ofNat i).le (fitness o) = true) (h2 : (F64.ofNat (i + 1)).le (fitness o) = false) :
    placed best o.genome = i := by
  have hn := h.genes.2
  rw [h.evaluated ho hev, ofNat_le (by omega) (h.bound _)] at h1
  rw [h.evaluated ho hev, ← Bool.not_eq_true, ofNat_le (by omega) (h.bound _)] at h2
  omega

theorem Placement.climbs (h : Placement Pb best) (i : Nat) (hi : i < best.length) :
    MutationClimbs (Route.model Pb) () (fun x => x.genome.Perm best) (F64.ofNat i) (F64.ofNat (i + 1)) (placeChance best.length i) :=
  fun o ho hev _ h1 h2 => h.mutates o ho i (h.level ho hev i hi h1 h2)

/-- `Order` and `PartiallyMapped` crossover may copy the first parent before. -/
theorem Placement.first (h : Placement Pb best) (hcx : Pb.crossover = .order ∨ Pb.crossover = .partiallyMapped) (i : Nat)
    (hi : i < best.length) : FirstClimbs (Route.model Pb) () (fun x => x.genome.Perm best) (F64.ofNat i) (F64.ofNat (i + 1))
      (placeChance best.length i / best.length) := by
  rintro a b ⟨ha, hev, -⟩ ⟨hb, -, -⟩ h1 h2 -
  have hpl := h.level ha hev i hi h1 h2
  have hl := ha.length_eq
  have hcopy := C119_copies Pb.lt Pb.ord Pb.fuel a.genome b.genome (ha.nodup_iff.2 h.arranges.nodup) (hb.trans ha.symm)
    (by rw [hl]; exact h.genes.1) (by rw [hl]; exact h.arranges.fuel) Pb.crossover hcx
  rw [hl] at hcopy
  show _ ≤ ((Pb.crossover.crossover Pb.lt Pb.ord Pb.fuel a.genome b.genome >>= fun g => pure (⟨g, F64.zero⟩ : Route G)) >>= fun o =>
    (Route.model Pb).mutate () o >>= fun o => (Route.model Pb).improve () o >>= fun o => (Route.model Pb).evaluate () o).prob _
  rw [Prog.bind_assoc']
  refine le_trans ?_ (mul_prob_le_bind _ _ (fun g => g = a.genome) _ (placeChance best.length i) fun g _ hg => ?_)
  · rw [div_eq_mul_one_div]
    exact mul_le_mul_of_nonneg_left hcopy (placeChance_mem h.genes.1 i).1
  · subst hg
    rw [bind_pure_left]
    exact h.mutates ⟨a.genome, F64.zero⟩ ha i hpl

/-- Every strategy that prefers fitter individuals selects one at the level. -/
theorem Placement.selects (h : Placement Pb best) {s : SelectionStrategy} (hs : Prefers s) {env : Env (Route G)} (henv : env.Lawful)
    {B : Nat} (hB1 : 1 ≤ B) (hB2 : B ≤ 2 ^ 24) (i : Nat) (hi : i < best.length) :
    SelectsFit s env.num (FinePop (Route.model Pb) (fun x => x.genome.Perm best) B) (F64.ofNat i) (1 / (2 * B)) := by
  have hBq : (1 : ℚ) ≤ B := by exact_mod_cast hB1
  have hBl : B < 2 ^ 32 := lt_of_le_of_lt hB2 (by norm_num)
  obtain ⟨l1, l2⟩ := F64.ofNat_exact (n := i) (by have := h.genes.2; omega)
  rcases hs with hs | hs | hs | hs | hs
  · exact selects_half (C69_selects _ _ _ hBl _ _ _ (Or.inl hs)) hBq
  · exact selects_half (C69_selects _ _ _ hBl _ _ _ (Or.inr (Or.inl hs))) hBq
  · exact selects_half (C69_selects _ _ _ hBl _ _ _ (Or.inr (Or.inr (Or.inl hs)))) hBq
  · rw [hs]
    rcases Nat.eq_zero_or_pos i with rfl | hi0
    · rintro sel ⟨s0, h0, l, rfl⟩ pop hpop ⟨x, hx, -⟩
      have hfold : ∃ r, l.foldl (fun s ep => s.prepare ep.1 ep.2) s0 = .rouletteWheel r := by
        have hs0 : ∃ r, s0 = .rouletteWheel r := by cases h0; exact ⟨_, rfl⟩
        clear h0
        induction l generalizing s0 with
        | nil => exact hs0
        | cons ep l ih =>
          obtain ⟨r, rfl⟩ := hs0
          exact ih _ ⟨_, rfl⟩
      obtain ⟨r, hr⟩ := hfold
      rw [hr]
      have hall : Always (fun y : Nat × Route G => (F64.ofNat 0).le (fitness y.2) = true)
          (((Selector.rouletteWheel r).prepare env.num pop).select env.num pop) := by
        refine (C38_member env.num pop (List.ne_nil_of_mem hx) (hpop.len.trans (hB2.trans (by norm_num)))
          (.rouletteWheel (r.prepare env.num pop)) trivial (by simp) (by simp)).mono fun y hy => ?_
        rw [h.evaluated (hpop.prop _ hy.mem) (hpop.evaluated _ hy.mem), ofNat_le (by norm_num) (h.bound _)]
        omega
      rw [prob_eq_one_of_always _ (fun y : Nat × Route G => (F64.ofNat 0).le (fitness y.2) = true) hall, div_le_one (by linarith)]
      linarith
    · refine C69_selects_roulette _ _ _ hB2 _ henv.2 ?_ _ l1 ?_
      · rintro x hx hev -
        rw [h.evaluated hx hev]
        obtain ⟨f1, f2⟩ := F64.ofNat_exact (h.bound x.genome)
        refine ⟨f1, by rw [f2]; positivity, ?_⟩
        rw [f2]
        calc ((placed best x.genome : Nat) : ℚ) ≤ ((2 ^ 53 : Nat) : ℚ) := by exact_mod_cast h.bound x.genome
          _ = (2 : ℚ) ^ (53 : Int) := by norm_num
          _ ≤ (2 : ℚ) ^ (900 : Int) := zpow_le_zpow_right₀ (by norm_num) (by norm_num)
      · rw [l2]
        have : (1 : ℚ) ≤ i := by exact_mod_cast hi0
        exact le_trans (zpow_le_one_of_nonpos₀ (by norm_num) (by norm_num)) this
  · exact selects_half (C69_selects _ _ _ hBl _ _ _ (Or.inr (Or.inr (Or.inr hs)))) hBq

end

/-! ### The runs -/

/-- A run of the genetic algorithm on this problem: valid parameters, at least one elite and two bred individuals, sizes up to `2^24`,
any strategy but the random one, and an initial population of arrangements. -/
structure PlacementRun (Pb : Route.Problem G) (best : List G) (envs : Nat → Env (Route G)) (p : GaParams) (init : List (Route G)) :
    Prop where
  problem : Placement Pb best
  env : ∀ t, (envs t).Lawful
  valid : p.Valid
  strategy : Prefers p.selectionStrategy
  size : p.populationSize ≤ 2 ^ 24
  len : init.length ≤ 2 ^ 24
  elites : 1 ≤ eliteCount p.populationSize p.elitismRate
  two : eliteCount p.populationSize p.elitismRate + 2 ≤ p.populationSize
  genomes : ∀ x ∈ init, x.genome.Perm best
  nonempty : init ≠ []

/-- A run of the adaptive algorithm. Either its rates are never adjusted, or two initial individuals have different numbers of genes
in their places. -/
structure PlacementAgaRun (Pb : Route.Problem G) (best : List G) (envs : Nat → Env (Route G)) (p : AgaParams) (init : List (Route G)) :
    Prop where
  problem : Placement Pb best
  env : ∀ t, (envs t).Lawful
  valid : p.Valid
  strategy : Prefers p.selectionStrategy
  size : p.populationSize ≤ 2 ^ 24
  len : init.length ≤ 2 ^ 24
  elites : 1 ≤ eliteCount p.populationSize p.elitismRate
  two : eliteCount p.populationSize p.elitismRate + 2 ≤ p.populationSize
  genomes : ∀ x ∈ init, x.genome.Perm best
  nonempty : init ≠ []
  crossOrder : p.crossoverRateRange.start.le p.crossoverRateRange.stop = true
  mutOrder : p.mutationRateRange.start.le p.mutationRateRange.stop = true
  spread : p.adjustmentInterval = 0 ∨ ∃ x ∈ init, ∃ y ∈ init, placed best x.genome ≠ placed best y.genome

section
variable {Pb : Route.Problem G} {best : List G} {envs : Nat → Env (Route G)} {init : List (Route G)}

theorem Placement.starts (h : Placement Pb best) (hg : ∀ x ∈ init, x.genome.Perm best) (hne : init ≠ []) (m : Unit) :
    ∃ x ∈ init, Always (fun e => isValid e = true ∧ (F64.ofNat 0).le (fitness e) = true) ((Route.model Pb).evaluate m x) := by
  obtain ⟨x, hx⟩ := List.exists_mem_of_ne_nil _ hne
  refine ⟨x, hx, ?_⟩
  show Always _ (pure ({ x with fit := Pb.objective x.genome } : Route G))
  rw [always_pure]
  refine ⟨(h.finite (hg x hx)).1, ?_⟩
  show (F64.ofNat 0).le (Pb.objective x.genome) = true
  rw [h.objective _ (hg x hx), ofNat_le (by norm_num) (h.bound _)]
  omega

theorem PlacementRun.climbs {p : GaParams} (h : PlacementRun Pb best envs p init) (a : Ga Unit Empty) (δ : Nat → ℚ)
    (hδ0 : ∀ i, 0 ≤ δ i ∧ δ i ≤ 1) (hδ : ∀ i, δ i ≤ placeChance best.length i) :
    Climbs (Route.model Pb) (fun x => x.genome.Perm best) envs a p init F64.ofNat best.length
      (1 / (2 * (max p.populationSize init.length : Nat))) δ := by
  have hB1 : 1 ≤ max p.populationSize init.length := le_trans (by have := h.two; omega) (le_max_left _ _)
  have hBq : (1 : ℚ) ≤ (max p.populationSize init.length : Nat) := by exact_mod_cast hB1
  have hst := h.problem.starts h.genomes h.nonempty a.model
  exact { ops := h.problem.arranges.safe, survive := rfl, members := fun u => u.elim, distinct := fun u => u.elim
          notNaN := validNotNaN_default, eqFitness := route_eqFitness, env := h.env, valid := h.valid
          strategy := h.strategy.valid, linear := h.strategy.linear
          size := lt_of_le_of_lt h.size (by norm_num), two := h.two, len := lt_of_le_of_lt h.len (by norm_num)
          prop := h.genomes
          start := by obtain ⟨x, hx, hx'⟩ := hst; exact ⟨x, hx, hx'.mono fun e he => he.1⟩
          elites := h.elites, bottom := hst
          bounds := ⟨⟨by positivity, by rw [div_le_one (by linarith)]; linarith⟩, hδ0⟩
          select := fun t i hi => h.problem.selects h.strategy (h.env t) hB1 (max_le h.size h.len) i hi
          climbs := fun i hi o h1 h2 h3 h4 h5 => (hδ i).trans (h.problem.climbs i hi o h1 h2 h3 h4 h5) }

theorem PlacementAgaRun.climbs {p : AgaParams} (h : PlacementAgaRun Pb best envs p init) (a : Aga Unit Empty) (δ : Nat → ℚ)
    (hδ0 : ∀ i, 0 ≤ δ i ∧ δ i ≤ 1) (hδ : ∀ i, δ i ≤ placeChance best.length i) :
    AgaClimbs (Route.model Pb) (fun x => x.genome.Perm best) envs a p init F64.ofNat best.length
      (1 / (2 * (max p.populationSize init.length : Nat))) δ := by
  have hB1 : 1 ≤ max p.populationSize init.length := le_trans (by have := h.two; omega) (le_max_left _ _)
  have hBq : (1 : ℚ) ≤ (max p.populationSize init.length : Nat) := by exact_mod_cast hB1
  have hst := h.problem.starts h.genomes h.nonempty a.model
  have hr : RouteAgaRun Pb best envs p init :=
    { arranges := h.problem.arranges, env := h.env, valid := h.valid, strategy := h.strategy.valid, linear := h.strategy.linear
      size := lt_of_le_of_lt h.size (by norm_num), two := h.two, len := lt_of_le_of_lt h.len (by norm_num), genomes := h.genomes
      start := by
        obtain ⟨x, hx⟩ := List.exists_mem_of_ne_nil _ h.nonempty
        exact ⟨x, hx, (h.problem.finite (h.genomes x hx)).1⟩
      crossOrder := h.crossOrder, mutOrder := h.mutOrder
      spread := h.spread.imp id fun ⟨x, hx, y, hy, hxy⟩ => ⟨h.problem.integer, x, hx, y, hy, by
        rw [(h.problem.finite (h.genomes x hx)).2, (h.problem.finite (h.genomes y hy)).2]
        exact_mod_cast hxy⟩ }
  exact { hr.agaRun a with
          elites := h.elites, bottom := hst
          bounds := ⟨⟨by positivity, by rw [div_le_one (by linarith)]; linarith⟩, hδ0⟩
          select := fun t i hi => h.problem.selects h.strategy (h.env t) hB1 (max_le h.size h.len) i hi
          climbs := fun i hi o h1 h2 h3 h4 h5 => (hδ i).trans (h.problem.climbs i hi o h1 h2 h3 h4 h5) }

/-- The sum of the waiting times, with `c` as the other factors of the chance. -/
theorem placing_waits {n m : Nat} {c : ℚ} (hn : 2 ≤ n) (hm : 1 ≤ m) (hc : 0 < c ∧ c ≤ 1) (x : Nat → ℚ)
    (hx : ∀ i, x i = c * placeChance n i) :
    1 + ∑ i ∈ Finset.range n, 1 / (1 - (1 - x i) ^ m) ≤ n + 1 + n * (n - 1) * harmonic n / (m * c) :=
  sum_placing hn hm hc.1 x (fun i hi => by rw [hx, placeChance, if_pos hi]) fun i _ => by
    obtain ⟨p0, p1⟩ := placeChance_mem hn i
    rw [hx]; exact mul_le_one₀ hc.2 p0 p1

theorem placeChance_pos {n i : Nat} (hn : 2 ≤ n) (hi : i < n) : 0 < placeChance n i := by
  have hq : (2 : ℚ) ≤ n := by exact_mod_cast hn
  have hiq : (i : ℚ) < n := by exact_mod_cast hi
  unfold placeChance
  rw [if_pos hi]
  exact div_pos (by linarith) (mul_pos (by linarith) (by linarith))

/-- **C119** The genetic algorithm, with any crossover that preserves the genes: for `n` genes, populations of at most `B` individuals
of which `m` are bred, the probability `κ` of no crossover, and the mutation rate `ρ`, a run that stops when all genes are in their
places calls `progress` at most `n + 1 + 2 B n (n - 1) H(n) / (m κ ρ)` times on average. `H` are the harmonic numbers. -/
theorem C119_ga_expected {p : GaParams} (h : PlacementRun Pb best envs p init) (a : Ga Unit Empty)
    (hκ : 0 < skipChance p.crossoverRate) (hρ : 0 < p.mutationRate.val) (progress : Q → Population (Route G) → Prog (Bool × Q))
    (hstop : ∀ q pop q', GoodPop pop → Reached (F64.ofNat best.length) pop → ¬ (progress q pop).yields (.ok (true, q')))
    (k : Nat) (q : Q) :
    (evolvePopulation (ga (Route.model Pb)) envs progress k a init p q).expect callsOf ≤
      best.length + 1 + 2 * (max p.populationSize init.length : Nat) * best.length * (best.length - 1) * harmonic best.length /
        (((p.populationSize - eliteCount p.populationSize p.elitismRate : Nat) : ℚ) * skipChance p.crossoverRate *
          p.mutationRate.val) := by
  have h2 := h.problem.genes.1
  have htwo := h.two
  have hc := h.climbs a (placeChance best.length) (placeChance_mem h2) fun _ => le_rfl
  obtain ⟨⟨hs0, hs1⟩, -⟩ := hc.bounds
  have hB1 : 1 ≤ max p.populationSize init.length := le_trans (by omega) (le_max_left _ _)
  have hBq : (1 : ℚ) ≤ (max p.populationSize init.length : Nat) := by exact_mod_cast hB1
  have hmq : (1 : ℚ) ≤ (p.populationSize - eliteCount p.populationSize p.elitismRate : Nat) := by
    exact_mod_cast (by omega : 1 ≤ p.populationSize - eliteCount p.populationSize p.elitismRate)
  refine (C69_expected hc (fun i hi => ?_) progress hstop k q).trans ((placing_waits h2 (by omega)
    (c := 1 / (2 * (max p.populationSize init.length : Nat)) * skipChance p.crossoverRate * p.mutationRate.val) ⟨by positivity, ?_⟩ _
    (fun i => rfl)).trans (le_of_eq ?_))
  · have := placeChance_pos h2 hi
    unfold climbChance
    positivity
  · exact mul_le_one₀ (mul_le_one₀ hs1 hκ.le hc.skip.2.1) hρ.le hc.rate_mem.2.2
  · field_simp

/-- **C119** With `Order` or `PartiallyMapped` crossover, at any crossover rate, even 1: at most
`n + 1 + 2 B n² (n - 1) H(n) / (m ρ)` calls. -/
theorem C119_any_rate {p : GaParams} (h : PlacementRun Pb best envs p init) (a : Ga Unit Empty)
    (hcx : Pb.crossover = .order ∨ Pb.crossover = .partiallyMapped) (hρ : 0 < p.mutationRate.val)
    (progress : Q → Population (Route G) → Prog (Bool × Q))
    (hstop : ∀ q pop q', GoodPop pop → Reached (F64.ofNat best.length) pop → ¬ (progress q pop).yields (.ok (true, q')))
    (k : Nat) (q : Q) :
    (evolvePopulation (ga (Route.model Pb)) envs progress k a init p q).expect callsOf ≤
      best.length + 1 + 2 * (max p.populationSize init.length : Nat) * best.length ^ 2 * (best.length - 1) * harmonic best.length /
        (((p.populationSize - eliteCount p.populationSize p.elitismRate : Nat) : ℚ) * p.mutationRate.val) := by
  have h2 := h.problem.genes.1
  have hnq : (2 : ℚ) ≤ best.length := by exact_mod_cast h2
  have htwo := h.two
  have hle : ∀ i, placeChance best.length i / best.length ≤ placeChance best.length i := fun i =>
    div_le_self (placeChance_mem h2 i).1 (by linarith)
  have hc := h.climbs a (fun i => placeChance best.length i / best.length)
    (fun i => ⟨div_nonneg (placeChance_mem h2 i).1 (by linarith), (hle i).trans (placeChance_mem h2 i).2⟩) hle
  obtain ⟨⟨hs0, hs1⟩, -⟩ := hc.bounds
  have hB1 : 1 ≤ max p.populationSize init.length := le_trans (by omega) (le_max_left _ _)
  have hBq : (1 : ℚ) ≤ (max p.populationSize init.length : Nat) := by exact_mod_cast hB1
  have hmq : (1 : ℚ) ≤ (p.populationSize - eliteCount p.populationSize p.elitismRate : Nat) := by
    exact_mod_cast (by omega : 1 ≤ p.populationSize - eliteCount p.populationSize p.elitismRate)
  have hn0 : (0 : ℚ) < best.length := by linarith
  refine (C119_ladder hc (fun i hi => h.problem.first hcx i hi) (fun i hi => ?_) progress hstop k q).trans ((placing_waits h2 (by omega)
    (c := 1 / (2 * (max p.populationSize init.length : Nat)) * p.mutationRate.val / best.length) ⟨by positivity, ?_⟩ _
    (fun i => ?_)).trans (le_of_eq ?_))
  · have := placeChance_pos h2 hi
    positivity
  · rw [div_le_one hn0]
    exact (mul_le_one₀ hs1 hρ.le hc.rate_mem.2.2).trans (by linarith)
  · ring
  · field_simp

/-- **C119** The adaptive algorithm, with the lower ends of the ranges of its rates: `κ` is the probability of no crossover at the
highest crossover rate, `ρ` the lowest mutation rate. -/
theorem C119_aga_expected {p : AgaParams} (h : PlacementAgaRun Pb best envs p init) (a : Aga Unit Empty)
    (hκ : 0 < lowSkip p.crossoverRateRange) (hρ : 0 < p.mutationRateRange.start.val)
    (progress : Q → Population (Route G) → Prog (Bool × Q))
    (hstop : ∀ q pop q', GoodPop pop → Reached (F64.ofNat best.length) pop → ¬ (progress q pop).yields (.ok (true, q')))
    (k : Nat) (q : Q) :
    (evolvePopulation (aga (Route.model Pb)) envs progress k a init p q).expect callsOf ≤
      best.length + 1 + 2 * (max p.populationSize init.length : Nat) * best.length * (best.length - 1) * harmonic best.length /
        (((p.populationSize - eliteCount p.populationSize p.elitismRate : Nat) : ℚ) * lowSkip p.crossoverRateRange *
          p.mutationRateRange.start.val) := by
  have h2 := h.problem.genes.1
  have htwo := h.two
  have hc := h.climbs a (placeChance best.length) (placeChance_mem h2) fun _ => le_rfl
  obtain ⟨⟨hs0, hs1⟩, -⟩ := hc.bounds
  have hB1 : 1 ≤ max p.populationSize init.length := le_trans (by omega) (le_max_left _ _)
  have hBq : (1 : ℚ) ≤ (max p.populationSize init.length : Nat) := by exact_mod_cast hB1
  have hmq : (1 : ℚ) ≤ (p.populationSize - eliteCount p.populationSize p.elitismRate : Nat) := by
    exact_mod_cast (by omega : 1 ≤ p.populationSize - eliteCount p.populationSize p.elitismRate)
  refine (C72_expected hc (fun i hi => ?_) progress hstop k q).trans ((placing_waits h2 (by omega)
    (c := 1 / (2 * (max p.populationSize init.length : Nat)) * lowSkip p.crossoverRateRange * p.mutationRateRange.start.val)
    ⟨by positivity, ?_⟩ _ (fun i => rfl)).trans (le_of_eq ?_))
  · have := placeChance_pos h2 hi
    unfold agaChance
    positivity
  · exact mul_le_one₀ (mul_le_one₀ hs1 hκ.le hc.skip_mem.2) hρ.le hc.rate_mem.2
  · field_simp

/-- **C119** The adaptive algorithm with `Order` or `PartiallyMapped` crossover, whatever the range of the crossover rate. -/
theorem C119_aga_any_rate {p : AgaParams} (h : PlacementAgaRun Pb best envs p init) (a : Aga Unit Empty)
    (hcx : Pb.crossover = .order ∨ Pb.crossover = .partiallyMapped) (hρ : 0 < p.mutationRateRange.start.val)
    (progress : Q → Population (Route G) → Prog (Bool × Q))
    (hstop : ∀ q pop q', GoodPop pop → Reached (F64.ofNat best.length) pop → ¬ (progress q pop).yields (.ok (true, q')))
    (k : Nat) (q : Q) :
    (evolvePopulation (aga (Route.model Pb)) envs progress k a init p q).expect callsOf ≤
      best.length + 1 + 2 * (max p.populationSize init.length : Nat) * best.length ^ 2 * (best.length - 1) * harmonic best.length /
        (((p.populationSize - eliteCount p.populationSize p.elitismRate : Nat) : ℚ) * p.mutationRateRange.start.val) := by
  have h2 := h.problem.genes.1
  have hnq : (2 : ℚ) ≤ best.length := by exact_mod_cast h2
  have htwo := h.two
  have hle : ∀ i, placeChance best.length i / best.length ≤ placeChance best.length i := fun i =>
    div_le_self (placeChance_mem h2 i).1 (by linarith)
  have hc := h.climbs a (fun i => placeChance best.length i / best.length)
    (fun i => ⟨div_nonneg (placeChance_mem h2 i).1 (by linarith), (hle i).trans (placeChance_mem h2 i).2⟩) hle
  obtain ⟨⟨hs0, hs1⟩, -⟩ := hc.bounds
  have hB1 : 1 ≤ max p.populationSize init.length := le_trans (by omega) (le_max_left _ _)
  have hBq : (1 : ℚ) ≤ (max p.populationSize init.length : Nat) := by exact_mod_cast hB1
  have hmq : (1 : ℚ) ≤ (p.populationSize - eliteCount p.populationSize p.elitismRate : Nat) := by
    exact_mod_cast (by omega : 1 ≤ p.populationSize - eliteCount p.populationSize p.elitismRate)
  have hn0 : (0 : ℚ) < best.length := by linarith
  refine (C119_ladder_aga hc (fun i hi => h.problem.first hcx i hi) (fun i hi => ?_) progress hstop k q).trans ((placing_waits h2
    (by omega) (c := 1 / (2 * (max p.populationSize init.length : Nat)) * p.mutationRateRange.start.val / best.length)
    ⟨by positivity, ?_⟩ _ (fun i => ?_)).trans (le_of_eq ?_))
  · have := placeChance_pos h2 hi
    positivity
  · rw [div_le_one hn0]
    exact (mul_le_one₀ hs1 hρ.le hc.rate_mem.2).trans (by linarith)
  · ring
  · field_simp

/-- **C119** A run of either algorithm whose expected number of calls of `progress` is at most `c` has ended after `k` calls with
probability at least `1 - c / k`: so with the bounds above it ends almost surely. -/
theorem C119_ends (progress : Q → Population (Route G) → Prog (Bool × Q)) (hpr : ∀ q p, p.WF → Always (fun _ => True) (progress q p))
    (k : Nat) (hk : 0 < k) (q : Q) (c : ℚ) :
    (∀ (p : GaParams) (a : Ga Unit Empty), PlacementRun Pb best envs p init →
      (evolvePopulation (ga (Route.model Pb)) envs progress k a init p q).expect callsOf ≤ c →
      1 - c / k ≤ (evolvePopulation (ga (Route.model Pb)) envs progress k a init p q).prob (fun r => r.1 = true)) ∧
    (∀ (p : AgaParams) (a : Aga Unit Empty), PlacementAgaRun Pb best envs p init →
      (evolvePopulation (aga (Route.model Pb)) envs progress k a init p q).expect callsOf ≤ c →
      1 - c / k ≤ (evolvePopulation (aga (Route.model Pb)) envs progress k a init p q).prob (fun r => r.1 = true)) := by
  refine ⟨fun p a h hc => ?_, fun p a h hc => ?_⟩
  · obtain ⟨x, hx⟩ := List.exists_mem_of_ne_nil _ h.nonempty
    have htwo := h.two
    refine C119_markov (ga_standard _) h.env progress k a p q (((C88_arrangements Pb best h.problem.arranges envs h.env progress hpr k
      init q (lt_of_le_of_lt h.len (by norm_num)) h.genomes ⟨x, hx, (h.problem.finite (h.genomes x hx)).1⟩).1 a p
      ⟨h.valid, h.strategy.valid, h.strategy.linear⟩ (by omega) (lt_of_le_of_lt h.size (by norm_num))).mono fun _ _ => trivial) c hc hk
  · obtain ⟨x, hx⟩ := List.exists_mem_of_ne_nil _ h.nonempty
    have htwo := h.two
    refine C119_markov (aga_standard _) h.env progress k a p q (((C88_arrangements Pb best h.problem.arranges envs h.env progress hpr k
      init q (lt_of_le_of_lt h.len (by norm_num)) h.genomes ⟨x, hx, (h.problem.finite (h.genomes x hx)).1⟩).2 a p
      ⟨h.valid, h.strategy.valid, h.strategy.linear⟩ (by omega) (lt_of_le_of_lt h.size (by norm_num))).mono fun _ _ => trivial) c hc hk

/-- **C119** At the top level all genes are in their places. -/
theorem C119_solved (h : Placement Pb best) {x : Route G} (hx : x.genome.Perm best) (hev : Evaluated (Route.model Pb) x) :
    (F64.ofNat best.length).le (fitness x) = true ↔ x.genome = best := by
  rw [h.evaluated hx hev, ofNat_le (h.genes.2.trans (by norm_num)) (h.bound _)]
  refine ⟨fun hle => eq_of_placed hx.length_eq (le_antisymm (placed_le _ _) hle), fun he => ?_⟩
  rw [he, placed_self]

/-- **C119** (`evolve_individual`) From any arrangement, `evolve_individual` of the genetic algorithm with `Order` or
`PartiallyMapped` crossover, stopped when the fitness `n` is reached, calls `progress` at most
`C = n + 1 + 2 N n² (n - 1) H(n) / (m ρ)` times on average, and returns the arrangement `best` within `k` calls with probability at
least `1 - C / k`; `N` is the population size. -/
theorem C119_evolve_individual {p : GaParams} {x : Route G} (h : PlacementRun Pb best envs p [x]) (a : Ga Unit Empty)
    (hcx : Pb.crossover = .order ∨ Pb.crossover = .partiallyMapped) (hρ : 0 < p.mutationRate.val)
    (progress : Q → Population (Route G) → Prog (Bool × Q)) (hpr : ∀ q p, p.WF → Always (fun _ => True) (progress q p))
    (hstop : ∀ q pop b q', GoodPop pop → (progress q pop).yields (.ok (b, q')) → (b = false ↔ Reached (F64.ofNat best.length) pop))
    (k : Nat) (hk : 0 < k) (q : Q) (C : ℚ)
    (hC : C = best.length + 1 + 2 * p.populationSize * best.length ^ 2 * (best.length - 1) * harmonic best.length /
        (((p.populationSize - eliteCount p.populationSize p.elitismRate : Nat) : ℚ) * p.mutationRate.val)) :
    (evolveIndividual (Route.model Pb) (ga (Route.model Pb)) envs progress k a x p q).expect callsIn ≤ C ∧
    1 - C / k ≤ (evolveIndividual (Route.model Pb) (ga (Route.model Pb)) envs progress k a x p q).prob
      (fun r => r.1.any (fun y => y.genome = best) = true) := by
  obtain ⟨s1, s2⟩ := stops_at validNotNaN_default hstop
  have htwo := h.two
  have hx : x.genome.Perm best := h.genomes x (by simp)
  have hnq : (2 : ℚ) ≤ best.length := by exact_mod_cast h.problem.genes.1
  have hext := extendWith_always (Route.model Pb).toEvoOps () (fun y : Route G => y.genome.Perm best) x hx
    (h.problem.arranges.safe.mutate () x hx) p.populationSize (by omega)
  have hfrom : ∀ init : List (Route G), init.length = p.populationSize ∧ x ∈ init ∧ (∀ y ∈ init, y.genome.Perm best) →
      PlacementRun Pb best envs p init ∧ (evolvePopulation (ga (Route.model Pb)) envs progress k a init p q).expect callsOf ≤ C := by
    rintro init ⟨i1, i2, i3⟩
    have hr : PlacementRun Pb best envs p init :=
      { problem := h.problem, env := h.env, valid := h.valid, strategy := h.strategy, size := h.size, len := by rw [i1]; exact h.size
        elites := h.elites, two := h.two, genomes := i3, nonempty := List.ne_nil_of_mem i2 }
    have := C119_any_rate hr a hcx hρ progress s1 k q
    rw [i1, max_self] at this
    exact ⟨hr, by rw [hC]; exact this⟩
  have hC0 : 0 ≤ C := by
    have : (0 : ℚ) ≤ harmonic best.length := by unfold harmonic; positivity
    have : (0 : ℚ) ≤ best.length - 1 := by linarith
    rw [hC]
    positivity
  refine ⟨(C114_calls progress k a p q C hC0).2 x fun init hi => (hfrom init (hext.partially init hi)).2, ?_⟩
  unfold evolveIndividual
  refine le_prob_bind_of_always _ _ _ _ hext fun init hi => ?_
  obtain ⟨hr, hc⟩ := hfrom init hi
  refine ((C119_ends progress hpr k hk q C).1 p a hr hc).trans (prob_le_bind _ _ _ _ fun r hy hfin => ?_)
  obtain ⟨fin, st⟩ := r
  cases hfin
  obtain ⟨g1, g2⟩ := ended_good (ga_standard _) h.env (breedsValid_default _ rfl (fun u => u.elim) (fun u => u.elim))
    validNotNaN_default progress _ s2 k a init p q st hy
  refine takeResult_good g1 fun y hf => ?_
  have hym : y ∈ st.population.individuals := by
    obtain ⟨z, hz, e, -⟩ := g1.best validNotNaN_default
    rw [e] at hf; cases hf; exact hz
  have hperm : y.genome.Perm best :=
    ((C88_arrangements Pb best h.problem.arranges envs h.env progress hpr k init q (lt_of_le_of_lt hr.len (by norm_num)) hr.genomes
      ⟨x, hi.2.1, (h.problem.finite hx).1⟩).1 a p ⟨h.valid, h.strategy.valid, h.strategy.linear⟩ (by omega)
      (lt_of_le_of_lt h.size (by norm_num))).partially _ hy |>.2 y hym
  have hev := C65_evaluated (ga_standard _) rfl (fun u => u.elim) (fun u => u.elim) envs h.env progress k a init p q true st hy
    st.population (Or.inr rfl) y hym
  exact decide_eq_true ((C119_solved h.problem hperm hev).1 (g2 y hf))

end

/-! ### An example, and `Insertion` -/

/-- Sorting five numbers: the fitness is how many are in their place. -/
def sortProblem (cx : CrossoverStrategy) (mu : MutationStrategy) : Route.Problem Nat :=
  ⟨fun a b => decide (a < b), fun _ l => l, 6, cx, mu, fun g => F64.ofNat (placed [0, 1, 2, 3, 4] g)⟩

theorem sort_placement (cx : CrossoverStrategy) (hcx : cx ≠ .singlePoint) : Placement (sortProblem cx .swap) [0, 1, 2, 3, 4] where
  arranges := ⟨hcx, by simp [sortProblem], fun _ _ => List.Perm.refl _, by simp [sortProblem], by decide, by simp⟩
  swap := rfl
  objective _ _ := rfl
  genes := by simp

/-- All but two numbers in their place. -/
def unsorted : Route Nat := ⟨[4, 1, 2, 3, 0], F64.zero⟩

theorem sort_run (cx : CrossoverStrategy) (hcx : cx ≠ .singlePoint) :
    PlacementRun (sortProblem cx .swap) [0, 1, 2, 3, 4] (fun _ => fourEnv) GaParams.default [unsorted] where
  problem := sort_placement cx hcx
  env _ := fourEnv_lawful
  valid := C50_defaults.1
  strategy := Or.inr (Or.inr (Or.inr (Or.inl rfl)))
  size := by simp [GaParams.default]
  len := by simp
  elites := by decide +kernel
  two := by decide +kernel
  genomes := by
    intro x hx
    rw [List.mem_singleton] at hx
    subst hx
    show [4, 1, 2, 3, 0].Perm [0, 1, 2, 3, 4]
    decide
  nonempty := by simp

theorem sort_aga_run (cx : CrossoverStrategy) (hcx : cx ≠ .singlePoint) :
    PlacementAgaRun (sortProblem cx .swap) [0, 1, 2, 3, 4] (fun _ => fourEnv) AgaParams.default
      [unsorted, ⟨[1, 2, 3, 4, 0], F64.zero⟩] where
  problem := sort_placement cx hcx
  env _ := fourEnv_lawful
  valid := C50_defaults.2.2.1
  strategy := Or.inr (Or.inr (Or.inr (Or.inl rfl)))
  size := by simp [AgaParams.default]
  len := by simp
  elites := by decide +kernel
  two := by decide +kernel
  genomes := by
    intro x hx
    simp only [List.mem_cons, List.not_mem_nil, or_false] at hx
    rcases hx with rfl | rfl
    · show [4, 1, 2, 3, 0].Perm [0, 1, 2, 3, 4]; decide
    · show [1, 2, 3, 4, 0].Perm [0, 1, 2, 3, 4]; decide
  nonempty := by simp
  crossOrder := by decide +kernel
  mutOrder := by decide +kernel
  spread := Or.inr ⟨unsorted, by simp, ⟨[1, 2, 3, 4, 0], F64.zero⟩, by simp, by decide +kernel⟩

/-- Go on until some individual has the fitness 5. -/
def untilSorted (q : Unit) (pop : Population (Route Nat)) : Prog (Bool × Unit) :=
  pure (pop.individuals.all fun x => !(F64.ofNat 5).le x.fit, q)

theorem untilSorted_iff (q : Unit) (pop : Population (Route Nat)) (b : Bool) (q' : Unit)
    (hy : (untilSorted q pop).yields (.ok (b, q'))) : b = false ↔ Reached (F64.ofNat 5) pop := by
  unfold untilSorted at hy
  simp only [yields_pure, Res.ok.injEq, Prod.mk.injEq] at hy
  rw [hy.1, Reached, List.all_eq_false]
  refine exists_congr fun x => and_congr_right fun _ => ?_
  show ¬(!(F64.ofNat 5).le x.fit) = true ↔ (F64.ofNat 5).le x.fit = true
  simp

/-- **C119** (`Insertion`) The arrangement `4 1 2 3 0` is better than all that `insertion_mutation` makes of it. -/
theorem sort_localOptimum (cx : CrossoverStrategy) : LocalOptimum (sortProblem cx .insertion) [4, 1, 2, 3, 0] := by
  refine ⟨show (F64.ofNat (placed [0, 1, 2, 3, 4] [4, 1, 2, 3, 0])).isFinite = true by decide +kernel, fun g' hg hne => Or.inr ?_⟩
  have hp : ¬ (3 ≤ placed [0, 1, 2, 3, 4] g' ∧ g' ≠ [4, 1, 2, 3, 0]) := by
    intro hc
    have h1 := prob_pos_of_yields hg (fun g => 3 ≤ placed [0, 1, 2, 3, 4] g ∧ g ≠ [4, 1, 2, 3, 0]) hc
    have h0 : (insertionMutation [4, 1, 2, 3, 0]).prob (fun g => 3 ≤ placed [0, 1, 2, 3, 4] g ∧ g ≠ [4, 1, 2, 3, 0]) = 0 := by
      decide +kernel
    have h2 : 0 < (insertionMutation [4, 1, 2, 3, 0]).prob (fun g => 3 ≤ placed [0, 1, 2, 3, 4] g ∧ g ≠ [4, 1, 2, 3, 0]) := h1
    rw [h0] at h2
    exact lt_irrefl 0 h2
  show (F64.ofNat (placed [0, 1, 2, 3, 4] g')).lt (F64.ofNat (placed [0, 1, 2, 3, 4] [4, 1, 2, 3, 0])) = true
  have hlt : placed [0, 1, 2, 3, 4] g' < 3 := by
    by_contra hc
    exact hp ⟨by omega, hne⟩
  rw [show placed [0, 1, 2, 3, 4] [4, 1, 2, 3, 0] = 3 by decide]
  obtain ⟨f1, v1⟩ := F64.ofNat_exact (n := placed [0, 1, 2, 3, 4] g') (by omega)
  obtain ⟨f2, v2⟩ := F64.ofNat_exact (n := 3) (by norm_num)
  rw [F64.lt_finite f1 f2, v1, v2]
  exact_mod_cast hlt

/-- **C119** (contrast) Sorting five numbers of which three are in their place, with the default parameters and any crossover strategy
for arrangements: with `Swap` as mutation the genetic algorithm ends after at most 5000 calls of `progress` on average; with
`Insertion` it never does. -/
theorem C119_contrast (cx : CrossoverStrategy) (hcx : cx ≠ .singlePoint) (k : Nat) :
    (evolvePopulation (ga (Route.model (sortProblem cx .swap))) (fun _ => fourEnv) untilSorted k (Ga.ofModel ()) [unsorted]
      GaParams.default ()).expect callsOf ≤ 5000 ∧
    (evolvePopulation (ga (Route.model (sortProblem cx .insertion))) (fun _ => fourEnv) untilSorted k (Ga.ofModel ()) [unsorted]
      GaParams.default ()).prob (fun r => ∃ x ∈ r.2.population.individuals, x.genome = [0, 1, 2, 3, 4]) = 0 := by
  constructor
  · have h1 : skipChance GaParams.default.crossoverRate = (2 ^ 53 - 7205759403792794) / 2 ^ 53 := by decide +kernel
    have h2 : GaParams.default.mutationRate.val = 3602879701896397 / 2 ^ 55 := by decide +kernel
    have h3 : GaParams.default.populationSize - eliteCount GaParams.default.populationSize GaParams.default.elitismRate = 99 := by
      decide +kernel
    have h4 : max GaParams.default.populationSize [unsorted].length = 100 := by decide +kernel
    have h5 : harmonic 5 = 137 / 60 := by decide +kernel
    have h := C119_ga_expected (sort_run cx hcx) (Ga.ofModel ()) (by rw [h1]; norm_num) (by rw [h2]; norm_num) untilSorted
      (fun q pop q' _ hr hy => by simpa using (untilSorted_iff q pop true q' hy).2 hr) k ()
    rw [h1, h2, h3, h4, show [0, 1, 2, 3, 4].length = 5 from rfl, h5] at h
    refine h.trans ?_
    norm_num
  · refine prob_eq_zero _ _ fun r hr => ?_
    rintro ⟨x, hx, he⟩
    have := ((C89_local_optimum (sort_localOptimum cx) (fun _ => fourEnv) (fun _ => fourEnv_lawful) untilSorted k
      [unsorted] (by simp [unsorted]) ()).1 (Ga.ofModel ()) GaParams.default r hr).2 x hx
    rw [this] at he
    exact absurd he (by decide)

end RG.Props
