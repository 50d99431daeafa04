import Verif.Props.Total
import Verif.OneMax
import Verif.Props.Crossover
import Verif.Props.Mutation

/-!
# Property C63: OneMax
-/

set_option linter.unusedSectionVars false

namespace RG.Props
open RG RG.Prog F64
variable {Q A P : Type}

/-- The number of `true` bits. -/
abbrev ones (g : List Bool) : Nat := g.count true

theorem filter_ones (g : List Bool) : (g.filter fun one => one).length = ones g := by
  rw [ones, List.count_eq_length_filter]
  congr 2
  funext b; cases b <;> rfl

/-- **C63** The fitness is the `f64` nearest to the ratio of `true` bits, and lies in `[0, 1]`; the genome is unchanged. -/
theorem C63_ratio (x : OneMax) (h0 : x.genome ≠ []) (hn : x.genome.length ≤ 2 ^ 53) :
    (OneMax.evaluate x).genome = x.genome ∧ (fitness (OneMax.evaluate x)).isFinite = true ∧
    (fitness (OneMax.evaluate x)).val = rndQ (ones x.genome / x.genome.length) ∧
    0 ≤ (fitness (OneMax.evaluate x)).val ∧ (fitness (OneMax.evaluate x)).val ≤ 1 ∧ isValid (OneMax.evaluate x) = true := by
  have hpos : (0 : ℚ) < x.genome.length := by exact_mod_cast List.length_pos_of_ne_nil h0
  have hle : ones x.genome ≤ x.genome.length := List.count_le_length
  obtain ⟨f1, v1⟩ := F64.ofNat_exact (n := ones x.genome) (by omega)
  obtain ⟨f2, v2⟩ := F64.ofNat_exact hn
  have hq0 : (0 : ℚ) ≤ ones x.genome / x.genome.length := by positivity
  have hq1 : (ones x.genome : ℚ) / x.genome.length ≤ 1 := by
    rw [div_le_one hpos]; exact_mod_cast hle
  have hr : Rep (1 : ℚ) := by have := rep_nat (n := 1) (by norm_num); simpa using this
  have hd : fitness (OneMax.evaluate x) = (ofNat (ones x.genome)).div (ofNat x.genome.length) := by
    show (ofNat (x.genome.filter fun one => one).length).div _ = _
    rw [filter_ones]
  have e := F64.div_finite f1 f2 (by rw [v2]; exact hpos.ne')
  rw [v1, v2] at e
  obtain ⟨g1, g2⟩ := F64.round_of_abs_le (s := (ofNat (ones x.genome)).signBit ^^ (ofNat x.genome.length).signBit) hr
    (show |(ones x.genome : ℚ) / x.genome.length| ≤ 1 by rw [abs_of_nonneg hq0]; exact hq1)
  have hf : (fitness (OneMax.evaluate x)).isFinite = true := by rw [hd, e]; exact g1
  have hv : (fitness (OneMax.evaluate x)).val = rndQ (ones x.genome / x.genome.length) := by rw [hd, e]; exact g2
  refine ⟨rfl, hf, hv, ?_, ?_, ?_⟩
  · rw [hv]; exact rndQ_nonneg hq0
  · rw [hv]; exact rndQ_le hr.1 hq1
  · rw [DefaultValid.isValid_eq]; exact hf

theorem rndQ_err_unit {x : ℚ} (h0 : 0 ≤ x) (h1 : x ≤ 1) : |rndQ x - x| ≤ 1 / 2 ^ 54 := by
  rcases h1.lt_or_eq with h1 | rfl
  · rcases h0.eq_or_lt with rfl | h0
    · rw [rndQ_zero]; norm_num
    · refine (rndQ_err x).trans ?_
      have hx : flog2 x < 0 := flog2_lt_of_abs_lt h0.ne' (by rw [pow2_zero, abs_of_pos h0]; exact h1)
      have hc : cexp x ≤ -53 := by unfold cexp; omega
      have : pow2 (cexp x) ≤ 1 / 2 ^ 53 := by
        refine (pow2_le.2 hc).trans (le_of_eq ?_)
        rw [pow2_eq, zpow_neg]; norm_num
      linarith
  · rw [rndQ_of_fmt (by have := rep_nat (n := 1) (by norm_num); simpa using this.1)]; norm_num

/-- **C63** Rounding hides nothing: for genomes of the same length below `2^53` fewer `true` bits is a smaller fitness. -/
theorem C63_strict (x y : OneMax) (h0 : x.genome ≠ []) (hn : x.genome.length < 2 ^ 53)
    (hl : y.genome.length = x.genome.length) :
    (fitness (OneMax.evaluate x)).lt (fitness (OneMax.evaluate y)) = true ↔ ones x.genome < ones y.genome := by
  have hy0 : y.genome ≠ [] := by
    intro h; rw [h] at hl; exact h0 (List.eq_nil_of_length_eq_zero hl.symm)
  obtain ⟨-, f1, v1, -⟩ := C63_ratio x h0 hn.le
  obtain ⟨-, f2, v2, -⟩ := C63_ratio y hy0 (by omega)
  rw [F64.lt_finite f1 f2, v1, v2, hl]
  have hpos : (0 : ℚ) < x.genome.length := by exact_mod_cast List.length_pos_of_ne_nil h0
  have hk : ∀ z : OneMax, z.genome.length = x.genome.length →
      (0 : ℚ) ≤ ones z.genome / x.genome.length ∧ (ones z.genome : ℚ) / x.genome.length ≤ 1 := fun z hz =>
    ⟨by positivity, by rw [div_le_one hpos, ← hz]; exact_mod_cast List.count_le_length⟩
  constructor
  · intro h
    by_contra hc
    refine absurd h (not_lt.2 (rndQ_mono ?_))
    exact div_le_div_of_nonneg_right (by exact_mod_cast not_lt.1 hc) hpos.le
  · intro h
    have e1 := abs_le.1 (rndQ_err_unit (hk x rfl).1 (hk x rfl).2)
    have e2 := abs_le.1 (rndQ_err_unit (hk y hl).1 (hk y hl).2)
    have hstep : (ones x.genome : ℚ) / x.genome.length + 1 / x.genome.length ≤ ones y.genome / x.genome.length := by
      rw [← add_div]
      exact div_le_div_of_nonneg_right (by exact_mod_cast h) hpos.le
    have hbig : (1 : ℚ) / 2 ^ 53 < 1 / x.genome.length :=
      one_div_lt_one_div_of_lt hpos (by exact_mod_cast hn)
    have : (1 : ℚ) / 2 ^ 53 = 1 / 2 ^ 54 + 1 / 2 ^ 54 := by norm_num
    linarith [e1.2, e2.1]

/-- **C63** The fitness is 1 exactly when all bits are `true`. -/
theorem C63_one_iff (x : OneMax) (h0 : x.genome ≠ []) (hn : x.genome.length < 2 ^ 53) :
    fitness (OneMax.evaluate x) = F64.one ↔ ∀ b ∈ x.genome, b = true := by
  obtain ⟨-, f1, v1, -⟩ := C63_ratio x h0 hn.le
  have hpos : (0 : ℚ) < x.genome.length := by exact_mod_cast List.length_pos_of_ne_nil h0
  have hfmt : Fmt (1 : ℚ) := by have := rep_nat (n := 1) (by norm_num); simpa using this.1
  have hall : (∀ b ∈ x.genome, b = true) ↔ ones x.genome = x.genome.length := by
    rw [ones, List.count_eq_length]
    exact ⟨fun h b hb => (h b hb).symm, fun h b hb => (h b hb).symm⟩
  have hval : fitness (OneMax.evaluate x) = F64.one ↔ (fitness (OneMax.evaluate x)).val = 1 := by
    constructor
    · intro h; rw [h]; rfl
    · intro h
      cases hx : fitness (OneMax.evaluate x) with
      | nan => rw [hx] at f1; cases f1
      | inf s => rw [hx] at f1; cases f1
      | nzero => rw [hx] at h; norm_num at h
      | fin q hq => rw [hx] at h; simp only [val_fin] at h; subst h; rfl
  rw [hall, hval, v1]
  constructor
  · intro h
    have hle : ones x.genome ≤ x.genome.length := List.count_le_length
    by_contra hc
    have hlt : ones x.genome < x.genome.length := by omega
    have h1 := C63_strict x ⟨List.replicate x.genome.length true, F64.zero⟩ h0 hn (by simp)
    have h2 := h1.2 (by simpa [ones] using hlt)
    obtain ⟨-, f2, v2, -, u2, -⟩ := C63_ratio ⟨List.replicate x.genome.length true, F64.zero⟩
      (by simpa using h0) (by simpa using hn.le)
    rw [F64.lt_finite f1 f2, v1, h] at h2
    linarith
  · intro h
    rw [h, div_self hpos.ne', rndQ_of_fmt hfmt]

/-- **C63** An empty genome evaluates to NaN and is not valid. -/
theorem C63_empty (x : OneMax) (h : x.genome = []) :
    fitness (OneMax.evaluate x) = F64.nan ∧ isValid (OneMax.evaluate x) = false := by
  obtain ⟨g, f⟩ := x
  cases h
  have h0 : fitness (OneMax.evaluate ⟨[], f⟩) = F64.nan := by
    show (F64.ofNat 0).div (F64.ofNat 0) = F64.nan
    decide +kernel
  exact ⟨h0, by rw [DefaultValid.isValid_eq, h0]; rfl⟩

-- two of three bits
example : (fitness (OneMax.evaluate ⟨[true, false, true], F64.zero⟩)) = F64.lit (2 / 3) ∧
    (fitness (OneMax.evaluate ⟨[true, false, true], F64.zero⟩)).val ≠ 2 / 3 := by decide +kernel

/-- **C63** Crossover (of equally long non-empty genomes) and mutation never panic, keep the length, and only use bits of their
arguments. -/
theorem C63_operators (S : Bool → Prop) (n : Nat) (hn : n ≠ 0) :
    SafeOps OneMax.model (fun x => x.genome.length = n ∧ ∀ b ∈ x.genome, S b) where
  crossover _ a b ha hb := by
    show Always _ (OneMax.crossover a b)
    unfold OneMax.crossover
    rw [always_bind]
    intro r hr
    have hne : a.genome ≠ [] := by intro h; rw [h] at ha; exact hn ha.1.symm
    obtain ⟨k, hk, rfl⟩ := (C30_single_point _ _ _ _ _ (ha.1.trans hb.1.symm) hne _).1 hr
    refine ⟨_, rfl, ?_⟩
    beta_reduce
    rw [always_pure]
    refine ⟨?_, fun c hc => ?_⟩
    · show (a.genome.take k ++ b.genome.drop k).length = n
      simp only [List.length_append, List.length_take, List.length_drop, ha.1, hb.1]
      rw [ha.1] at hk
      omega
    · rcases List.mem_append.1 hc with hc | hc
      · exact ha.2 c (List.mem_of_mem_take hc)
      · exact hb.2 c (List.mem_of_mem_drop hc)
  mutate _ a ha := by
    show Always _ (OneMax.mutate a)
    unfold OneMax.mutate
    rw [always_bind]
    have hp : Partially (fun g' => ∀ c ∈ g', S c) (MutationStrategy.duplicate.mutate a.genome) := by
      intro g' hg
      by_cases h2 : 2 ≤ a.genome.length
      · obtain ⟨g'', i, j, e, hc⟩ := (C36_duplicate _ h2 _).1 hg
        cases e
        intro c hm
        rw [(copiedOver_iff _ _ i j hc.ne hc.ha hc.hb).1 hc] at hm
        rcases List.mem_or_eq_of_mem_set hm with hc | rfl
        · exact ha.2 c hc
        · exact ha.2 _ (List.getElem_mem _)
      · have : MutationStrategy.duplicate.mutate a.genome = pure a.genome := by
          simp [MutationStrategy.mutate, duplicateMutation, show a.genome.length < 2 by omega]
        rw [this, yields_pure] at hg
        cases hg
        exact ha.2
    refine ((C37_length .duplicate a.genome).and hp).mono fun g ⟨h1, h2⟩ => ?_
    rw [always_pure]
    exact ⟨h1.trans ha.1, h2⟩
  improve _ a ha := by show Always _ (pure a); simpa using ha
  evaluate _ a ha := by
    show Always _ (pure (OneMax.evaluate a))
    rw [always_pure]; exact ha
  canSurvive _ a f p _ _ := by show Always _ (pure _); simp
  preGeneration _ _ _ := rfl
  breed := rfl

theorem oneMax_members : OneMax.model.selectors.ReturnsMembers := fun u => u.elim
theorem oneMax_distinct : OneMax.model.selectors.DistinctMembers := fun u => u.elim

theorem oneMax_breedsValid : OneMax.model.BreedsValid :=
  breedsValid_default OneMax.model rfl oneMax_members oneMax_distinct

theorem oneMax_eqFitness : EqFitness OneMax := fun _ _ h => (Bool.and_eq_true_iff.1 h).2

theorem newRandom_length (n : Nat) : Always (fun x : OneMax => x.genome.length = n) (OneMax.newRandom n) := by
  unfold OneMax.newRandom
  rw [always_bind]
  have hb : Always (fun _ => True) OneMax.randomBit := by
    unfold OneMax.randomBit
    rw [always_bind, always_uniform]
    exact ⟨by norm_num, fun i _ => by simp⟩
  exact (always_replicate _ _ hb n).mono fun l hl => by rw [always_pure]; exact hl.1

section
variable {alg : EvoAlgo OneMax Unit Empty A P} {elite size : A → Nat} {eliteOf : P → Nat} {okP : P → Prop}

/-- Fitness and genome agree. -/
def Consistent (x : OneMax) : Prop := fitness x = fitness (OneMax.evaluate x)

/-- **C63** A run on genomes of `n` bits never panics. Every individual ever seen has `n` bits and the fitness of its genome;
so has the returned one. -/
theorem C63_run (hstd : Standard OneMax.model alg elite size eliteOf) (halg : SafeAlgo alg okP) (envs : Nat → Env OneMax)
    (henv : ∀ t, (envs t).Lawful) (progress : Q → Population OneMax → Prog (Bool × Q))
    (hpr : ∀ q p, p.WF → Always (fun _ => True) (progress q p)) (fuel : Nat) (a : A) (n : Nat) (h0 : n ≠ 0) (hn : n ≤ 2 ^ 53) (p : P)
    (q : Q) (hp : okP p) (h2 : 2 ≤ alg.initialSize p) (hs : alg.initialSize p < 2 ^ 32) :
    Always (fun r => (∀ x, r.1 = some x → x.genome.length = n ∧ Consistent x) ∧
      ∀ pop ∈ r.2.shown, ∀ x ∈ pop.individuals, x.genome.length = n ∧ Consistent x)
      (runRandom OneMax.model alg envs progress fuel a (OneMax.newRandom n) p q) := by
  have hops := C63_operators (fun _ => True) n h0
  have hrun := C64_random hstd halg hops rfl envs henv progress hpr fuel a (OneMax.newRandom n) p q hp h2 hs
    ((newRandom_length n).mono fun x hx => ⟨⟨hx, fun _ _ => trivial⟩, by
      show Always _ (pure (OneMax.evaluate x))
      rw [always_pure]
      exact (C63_ratio x (by intro h; rw [h] at hx; exact h0 hx.symm) (by omega)).2.2.2.2.2⟩)
  have hcons : Partially (fun r : Option OneMax × RunState OneMax A Q => (∀ x, r.1 = some x → Consistent x) ∧
      ∀ pop ∈ r.2.shown, ∀ x ∈ pop.individuals, Consistent x)
      (runRandom OneMax.model alg envs progress fuel a (OneMax.newRandom n) p q) := by
    rintro ⟨o, st⟩ h
    have hres := C56_result (M := OneMax.model) hstd envs henv progress fuel a p q
    have h' := h
    unfold runRandom at h
    simp only [yields_bind_ok] at h
    obtain ⟨init, _, ⟨fin, st1⟩, g2, g3⟩ := h
    obtain ⟨rfl, g3⟩ := (yields_takeResult _ _ _).1 g3
    have hev : ∀ pop ∈ st.shown, ∀ x ∈ pop.individuals, Consistent x := fun pop hp x hx => by
      obtain ⟨m, y, hy⟩ := C65_evaluated hstd rfl oneMax_members oneMax_distinct envs henv progress fuel a init p q fin st g2
        pop (Or.inl hp) x hx
      have hy : (pure (OneMax.evaluate y) : Prog OneMax).yields (.ok x) := hy
      rw [yields_pure] at hy
      cases hy
      rfl
    refine ⟨fun x hx => ?_, hev⟩
    subst hx
    obtain ⟨pop, k1, _, k3⟩ := (hres x st).1 _ h'
    exact hev pop (List.mem_of_getLast? k1) x k3
  exact (hrun.and hcons).mono fun r ⟨⟨a1, a2⟩, b1, b2⟩ =>
    ⟨fun x hx => ⟨(a1 x hx).1, b1 x hx⟩, fun pop hp x hx => ⟨(a2 pop hp x hx).1, b2 pop hp x hx⟩⟩

/-- **C63** So a run that returns an individual of fitness 1 has solved the problem: all bits are `true`. -/
theorem C63_solved (hstd : Standard OneMax.model alg elite size eliteOf) (halg : SafeAlgo alg okP) (envs : Nat → Env OneMax)
    (henv : ∀ t, (envs t).Lawful) (progress : Q → Population OneMax → Prog (Bool × Q))
    (hpr : ∀ q p, p.WF → Always (fun _ => True) (progress q p)) (fuel : Nat) (a : A) (n : Nat) (h0 : n ≠ 0) (hn : n < 2 ^ 53) (p : P)
    (q : Q) (hp : okP p) (h2 : 2 ≤ alg.initialSize p) (hs : alg.initialSize p < 2 ^ 32) (x : OneMax) (st : RunState OneMax A Q)
    (h : (runRandom OneMax.model alg envs progress fuel a (OneMax.newRandom n) p q).yields (.ok (some x, st)))
    (h1 : fitness x = F64.one) : x.genome = List.replicate n true := by
  obtain ⟨k1, k2⟩ := ((C63_run hstd halg envs henv progress hpr fuel a n h0 hn.le p q hp h2 hs).partially _ h).1 x rfl
  rw [k2] at h1
  exact List.eq_replicate_iff.2 ⟨k1, (C63_one_iff x (by intro h; rw [h] at k1; exact h0 k1.symm) (by omega)).1 h1⟩

/-- **C63** (a limit of the shipped operators) From individuals without any `true` bit no run ever produces one: crossover
and duplication only move bits around. -/
theorem C63_no_new_bits (hstd : Standard OneMax.model alg elite size eliteOf) (halg : SafeAlgo alg okP)
    (envs : Nat → Env OneMax) (henv : ∀ t, (envs t).Lawful) (progress : Q → Population OneMax → Prog (Bool × Q))
    (hpr : ∀ q p, p.WF → Always (fun _ => True) (progress q p)) (fuel : Nat) (a : A) (n : Nat) (h0 : n ≠ 0) (hn : n ≤ 2 ^ 53) (p : P)
    (q : Q) (hp : okP p) (h2 : 2 ≤ alg.initialSize p) (hs : alg.initialSize p < 2 ^ 32) (b : Bool) (init : List OneMax)
    (hne : init ≠ []) (hl : init.length < 2 ^ 32) (hinit : ∀ x ∈ init, x.genome = List.replicate n b) :
    Always (fun r => (∀ pop ∈ r.2.shown, ∀ x ∈ pop.individuals, x.genome = List.replicate n b) ∧
      ∀ x ∈ r.2.population.individuals, x.genome = List.replicate n b)
      (evolvePopulation alg envs progress fuel a init p q) := by
  have hops := C63_operators (fun c => c = b) n h0
  have hrep : ∀ x : OneMax, (x.genome.length = n ∧ ∀ c ∈ x.genome, c = b) ↔ x.genome = List.replicate n b :=
    fun x => List.eq_replicate_iff.symm
  refine (C64_run hstd halg hops envs henv progress hpr fuel a init p q hp h2 hs hl (fun x hx => (hrep x).2 (hinit x hx))
    ?_).mono fun r ⟨_, r1, r2⟩ => ⟨fun pop hp x hx => (hrep x).1 (r1 pop hp x hx), fun x hx => (hrep x).1 (r2 x hx)⟩
  obtain ⟨x, hx⟩ := List.exists_mem_of_ne_nil _ hne
  refine ⟨x, hx, ?_⟩
  show Always _ (pure (OneMax.evaluate x))
  rw [always_pure]
  have hg := hinit x hx
  exact (C63_ratio x (by rw [hg]; simpa using h0) (by rw [hg]; simpa using hn)).2.2.2.2.2

/-- **C63** With at least one elite, `run` returns an individual with at least as many `true` bits as any ever seen. -/
theorem C63_best (hstd : Standard OneMax.model alg elite size eliteOf) (halg : SafeAlgo alg okP) (envs : Nat → Env OneMax)
    (henv : ∀ t, (envs t).Lawful) (progress : Q → Population OneMax → Prog (Bool × Q))
    (hpr : ∀ q p, p.WF → Always (fun _ => True) (progress q p)) (fuel : Nat) (a : A) (n : Nat) (h0 : n ≠ 0) (hn : n < 2 ^ 53) (p : P)
    (q : Q) (hp : okP p) (h2 : 2 ≤ alg.initialSize p) (hs : alg.initialSize p < 2 ^ 32) (hel : 1 ≤ eliteOf p) (x : OneMax)
    (st : RunState OneMax A Q)
    (h : (runRandom OneMax.model alg envs progress fuel a (OneMax.newRandom n) p q).yields (.ok (some x, st))) :
    ∀ pop ∈ st.shown, ∀ y ∈ pop.individuals, ones y.genome ≤ ones x.genome := by
  intro pop hpop y hy
  obtain ⟨k1, k2⟩ := (C63_run hstd halg envs henv progress hpr fuel a n h0 hn.le p q hp h2 hs).partially _ h
  obtain ⟨x1, x2⟩ := k1 x rfl
  obtain ⟨y1, y2⟩ := k2 pop hpop y hy
  have hle := (C54_best_partial (M := OneMax.model) hstd envs henv oneMax_breedsValid validNotNaN_default oneMax_eqFitness
    progress fuel a p q x st (hs.le.trans (by norm_num)) hel).1 _ h pop hpop y hy
  by_contra hc
  have hlt := (C63_strict x y (by intro h; rw [h] at x1; exact h0 x1.symm) (by omega) (by omega)).2 (not_le.1 hc)
  rw [← x2, ← y2] at hlt
  have := F64.lt_of_lt_of_le hlt hle
  rw [F64.lt_irrefl] at this
  cases this

/-- **C63** `run` with length 0 always panics. -/
theorem C63_empty_run (hstd : Standard OneMax.model alg elite size eliteOf) (hcfg : ∀ a p, alg.configure a p ≠ .diverge)
    (envs : Nat → Env OneMax) (henv : ∀ t, (envs t).Lawful) (progress : Q → Population OneMax → Prog (Bool × Q)) (fuel : Nat)
    (a : A) (p : P) (q : Q) (r : Res (Option OneMax × RunState OneMax A Q))
    (h : (runRandom OneMax.model alg envs progress fuel a (OneMax.newRandom 0) p q).yields r) : r = .panic := by
  have hext : Always (fun l : List OneMax => ∀ x ∈ l, x.genome.length = 0)
      (defaultExtend (OneMax.newRandom 0) [] (alg.initialSize p)) := by
    unfold defaultExtend
    split
    · simp
    · rw [always_bind]
      exact (always_replicate _ _ (newRandom_length 0) _).mono fun l hl => by simpa using hl.2
  have hpop : ∀ init : List OneMax, (∀ x ∈ init, x.genome.length = 0) → ∀ r',
      (evolvePopulation alg envs progress fuel a init p q).yields r' → r' = .panic := by
    intro init hi r' hr
    unfold evolvePopulation at hr
    cases hc : alg.configure a p with
    | diverge => exact absurd hc (hcfg a p)
    | panic =>
      rw [hc, yields_bind] at hr
      rcases hr with ⟨a', g, _⟩ | ⟨_, rfl⟩ | ⟨g, _⟩
      · cases (yields_lift _ _).1 g
      · rfl
      · cases (yields_lift _ _).1 g
    | ok a' =>
      rw [hc, lift_ok, bind_pure_left, hstd.init] at hr
      have hev : Always (fun l : List OneMax => l.length = init.length ∧ ∀ e ∈ l, isValid e = false)
          (mapList (OneMax.model.evaluate (alg.model a')) init) :=
        always_mapList (fun x : OneMax => x.genome.length = 0) _ _ (fun x hx => by
          show Always _ (pure (OneMax.evaluate x))
          rw [always_pure]
          exact (C63_empty x (List.eq_nil_of_length_eq_zero hx)).2) init hi
      have hinit : ∀ r0, (defaultInitialize OneMax.model (envs 0) (alg.model a') init).yields r0 → r0 = .panic := by
        intro r0 h0
        unfold defaultInitialize at h0
        rw [yields_bind] at h0
        rcases h0 with ⟨ev, g1, g2⟩ | ⟨g1, -⟩ | ⟨g1, -⟩
        · have g2 := (yields_lift _ _).1 g2
          rw [Population.new_eq (henv 0).sort, if_pos ?_] at g2
          · exact g2
          · rw [List.filter_eq_nil_iff]
            intro e he
            rw [(hev.partially ev g1).2 e he]; simp
        · exact absurd g1 hev.not_panic
        · exact absurd g1 hev.not_diverge
      rw [yields_bind] at hr
      rcases hr with ⟨pop, g, _⟩ | ⟨_, rfl⟩ | ⟨g, _⟩
      · cases hinit _ g
      · rfl
      · cases hinit _ g
  unfold runRandom at h
  rw [yields_bind] at h
  rcases h with ⟨init, g1, g2⟩ | ⟨g, -⟩ | ⟨g, -⟩
  · rw [yields_bind] at g2
    rcases g2 with ⟨st, g, _⟩ | ⟨_, rfl⟩ | ⟨g, _⟩
    · cases hpop init (hext.partially init g1) _ g
    · rfl
    · cases hpop init (hext.partially init g1) _ g
  · exact absurd g hext.not_panic
  · exact absurd g hext.not_diverge

end

/-- **C63** Both built-in algorithms: the runs of `C63_run`. -/
theorem C63_both (envs : Nat → Env OneMax) (henv : ∀ t, (envs t).Lawful)
    (progress : Q → Population OneMax → Prog (Bool × Q)) (hpr : ∀ q p, p.WF → Always (fun _ => True) (progress q p)) (fuel n : Nat)
    (h0 : n ≠ 0) (hn : n ≤ 2 ^ 53) (q : Q) :
    (∀ (a : Ga Unit Empty) (p : GaParams), p.Valid → p.selectionStrategy.Valid → (∀ b, p.selectionStrategy = .linear b → SafeBias b) →
      2 ≤ p.populationSize → p.populationSize < 2 ^ 32 →
      Always (fun r => (∀ x, r.1 = some x → x.genome.length = n ∧ Consistent x) ∧
        ∀ pop ∈ r.2.shown, ∀ x ∈ pop.individuals, x.genome.length = n ∧ Consistent x)
        (runRandom OneMax.model (ga OneMax.model) envs progress fuel a (OneMax.newRandom n) p q)) ∧
    (∀ (a : Aga Unit Empty) (p : AgaParams), p.Valid → p.selectionStrategy.Valid → (∀ b, p.selectionStrategy = .linear b → SafeBias b) →
      2 ≤ p.populationSize → p.populationSize < 2 ^ 32 →
      Always (fun r => (∀ x, r.1 = some x → x.genome.length = n ∧ Consistent x) ∧
        ∀ pop ∈ r.2.shown, ∀ x ∈ pop.individuals, x.genome.length = n ∧ Consistent x)
        (runRandom OneMax.model (aga OneMax.model) envs progress fuel a (OneMax.newRandom n) p q)) :=
  ⟨fun a p h1 h2 h3 h4 h5 => C63_run (ga_standard _) (ga_safe (C63_operators (fun _ => True) n h0)) envs henv progress hpr fuel
      a n h0 hn p q ⟨h1, h2, h3⟩ h4 h5,
   fun a p h1 h2 h3 h4 h5 => C63_run (aga_standard _) (aga_safe (C63_operators (fun _ => True) n h0)) envs henv progress hpr
      fuel a n h0 hn p q ⟨h1, h2, h3⟩ h4 h5⟩

/-- An environment for OneMax. -/
def oneEnv : Env OneMax := ⟨refSort, exEnv⟩

theorem oneEnv_lawful : oneEnv.Lawful := ⟨refSort_lawful, exEnv_lawful⟩

-- the hypotheses hold of the default parameters of both algorithms
example : GaParams.default.Valid ∧ GaParams.default.selectionStrategy.Valid ∧
    (∀ b, GaParams.default.selectionStrategy = .linear b → SafeBias b) ∧ 2 ≤ GaParams.default.populationSize ∧
    AgaParams.default.Valid ∧ AgaParams.default.selectionStrategy.Valid ∧ 1 ≤ eliteCount 100 GaParams.default.elitismRate := by
  refine ⟨(C50_defaults).1, trivial, by simp [GaParams.default], by simp [GaParams.default], (C50_defaults).2.2.1, trivial,
    by decide +kernel⟩

-- a run of two generations on three bits in which every offspring is mutated
example : ((runRandom OneMax.model (ga OneMax.model) (fun _ => oneEnv)
      (fun q p => pure (decide (p.generation < 2), q)) 10 (Ga.ofModel ()) (OneMax.newRandom 3)
      { smallParams with mutationRate := F64.one } ()).exec drawList [1, 0, 0, 0, 0, 1, 0, 1, 1]).1.okAnd
    (fun r => (r.1.map fun x => x.genome.length) = some 3 ∧ r.2.shown.length = 3) = true := by decide +kernel

end RG.Props
