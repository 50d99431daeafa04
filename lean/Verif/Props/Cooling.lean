import Verif.Proofs.Cooling
import Verif.Props.Wheel
import Verif.Props.Generation
import Mathlib.Analysis.SpecialFunctions.Exp

/-!
# Property C105: Boltzmann selection when it has cooled down

"This strategy encourages exploration in the early stages and exploitation in the later stages" (`selection.rs:230-240`). In exact arithmetic that
is so: the share of the fittest individual tends to one. In `f64` the weights `exp(fitness / T)` overflow. Then the total is infinite, and so is
the target, which is first reached by the *least* fit individual with a positive fitness. If no fitness is positive, all weights become zero, and
the least fit individual of all is selected.
-/

set_option linter.unusedSectionVars false

namespace RG.Props
open RG RG.Prog Arith
variable {I : Type} [Individual I] {Mo U Q : Type}

/-- What is used of `f64::exp`: from 1024 on it is infinite (from 709.8 on, in fact), and up to -1024 it is zero (up to -745.2). -/
structure ExpRange (exp : F64 → F64) : Prop where
  overflow : ∀ x, (F64.lit 1024).le x = true → exp x = F64.inf false
  underflow : ∀ x, x.le (F64.lit (-1024)) = true → exp x = F64.zero

/-- Of the draws `k / 2^53` all but 0 lead to `m`, and 0 leads to the last of `n`. -/
def AlmostAlways (pr : Nat → ℚ) (n m : Nat) : Prop :=
  ∀ i, pr i = ((if i + 1 = n then 1 else 0) + (2 ^ 53 - 1) * (if i = m then 1 else 0)) / 2 ^ 53

/-- **C105** If the running sum of the weights is infinite from the individual `m` on, `m` is selected with probability `1 - 2^-53` and the last
individual otherwise. -/
theorem C105_overflow (env : NumEnv) (henv : env.LawfulSum) (s : BoltzmannSelection F64) (p : Population I) (weight : I → F64)
    (hweight : ∀ x, weight x = env.exp ((fitness x).div (s.temperature.mul s.coolingRate)))
    (hw : ∀ x ∈ p.individuals, F64.zero.le (weight x) = true) (m : Nat) (hm : m < p.individuals.length)
    (hlt : ∀ i, i < m → runningSum (lit 0) (p.individuals.map weight) i ≠ F64.inf false)
    (hat : ∃ x, p.individuals[m]? = some x ∧ weight x = F64.inf false) :
    AlmostAlways (fun i => ((s.prepare env p).select env p).prob fun r => r.1 = i) p.individuals.length m := by
  have hne : p.individuals ≠ [] := by rintro h; simp [h] at hm
  obtain rfl : weight = fun x => env.exp ((fitness x).div (s.temperature.mul s.coolingRate)) := funext hweight
  obtain ⟨t1, -, t3⟩ := C43_prepare env s p
  obtain ⟨x, hx, hxi⟩ := hat
  set weight := fun x : I => env.exp ((fitness x).div (s.temperature.mul s.coolingRate)) with hwt
  have hnn : ∀ w ∈ p.individuals.map weight, F64.zero.le w = true := by simpa using hw
  have htot : (s.prepare env p).totalScaledFitness = F64.inf false := by
    rw [t3]
    exact treeSum_inf (henv _) hnn (List.mem_map.2 ⟨x, List.mem_of_getElem? hx, hxi⟩)
  have hrun : runningSum (lit 0) (p.individuals.map weight) m = F64.inf false := by
    rw [runningSum_succ _ _ m (F64.inf false) (by rw [List.getElem?_map, hx]; exact congrArg some hxi)]
    exact (F64.inf_add_nonneg (runningSum_nonneg _ (fun w hw => hnn w (List.mem_of_mem_take hw)) _ zero_le_lit_zero)).2
  intro i
  show ((s.prepare env p).select env p).prob (fun r => r.1 = i) = _
  unfold BoltzmannSelection.select BoltzmannSelection.selectIndex
  rw [prob_memberAt genF64 _ _ p (by simp) hne (fun r => r.1 = i) (fun j => j = i) (fun j hj => Iff.rfl), t1, htot, List.map_map]
  show ((uniform (2 ^ 53) >>= fun k => pure (F64.unit k)) >>= fun u =>
    lift (wheelIndex (p.individuals.map weight) (F64.inf false) u)).prob (fun j => j = i) = _
  rw [bind_assoc]
  unfold prob
  rw [expect_bind]
  have hk : ∀ k, k < 2 ^ 53 → wheelIndex (p.individuals.map weight) (F64.inf false) (F64.unit k) =
      .ok (if k = 0 then p.individuals.length - 1 else m) := fun k hk => by
    rw [wheelIndex_inf _ m (by simpa using hm) hlt hrun k hk, List.length_map]
  refine (expect_zero_or (2 ^ 53) (by norm_num) _ (if p.individuals.length - 1 = i then 1 else 0) (if m = i then 1 else 0) ?_
    fun k h0 h1 => ?_).trans ?_
  · show (lift (wheelIndex (p.individuals.map weight) (F64.inf false) (F64.unit 0))).prob (fun j => j = i) = _
    rw [hk 0 (by norm_num), if_pos rfl, lift_ok, prob_pure]
  · show (lift (wheelIndex (p.individuals.map weight) (F64.inf false) (F64.unit k))).prob (fun j => j = i) = _
    rw [hk k h1, if_neg (by omega), lift_ok, prob_pure]
  · have e1 : (p.individuals.length - 1 = i) ↔ (i + 1 = p.individuals.length) := by omega
    rw [if_congr e1 rfl rfl, if_congr (eq_comm (a := m)) rfl rfl]
    push_cast
    rfl

theorem lit_1024 : F64.lit 1024 = F64.fin (pow2 10) (rep_pow2 (by norm_num) (by norm_num)) := by decide +kernel

theorem round_le_low {s : Bool} {q : ℚ} (h : q ≤ -pow2 10) : (F64.round s q).le (F64.lit (-1024)) = true := by
  have e : F64.lit (-1024) = F64.fin (-pow2 10) (rep_pow2 (by norm_num) (by norm_num)).neg := by decide +kernel
  rw [e]
  by_cases ho : |rndQ q| < pow2 1024
  · obtain ⟨h1, h2⟩ := F64.round_finite (s := s) ho
    rw [F64.le_finite h1 rfl, h2]
    exact rndQ_le (fmt_pow2 (by norm_num)).neg h
  · rw [F64.round_overflow ho]
    have : decide (q < 0) = true := by
      have := pow2_pos 10
      exact decide_eq_true (by linarith)
    rw [this, F64.le_iff]
    refine ⟨rfl, rfl, ?_⟩
    rw [F64.key, F64.key, Prod.Lex.toLex_le_toLex]
    left; simp [F64.cls]

theorem div_low {T f : F64} (hT : T.isFinite = true) (hs : T.signBit = false) (hv : T.val ≤ pow2 (-1022)) (hf : f.isFinite = true) :
    (pow2 (-1000) ≤ f.val → (F64.lit 1024).le (f.div T) = true) ∧ (f.val ≤ -pow2 (-1000) → (f.div T).le (F64.lit (-1024)) = true) := by
  have hfs : f.val ≠ 0 → f.signBit = decide (f.val < 0) := fun h => by
    cases f with
    | nan => cases hf
    | inf s => cases hf
    | nzero => exact absurd rfl h
    | fin q hq => rfl
  have hTv : 0 ≤ T.val := by
    cases T with
    | nan => exact le_refl _
    | inf s => exact le_refl _
    | nzero => exact le_refl _
    | fin q hq => simpa [F64.signBit] using hs
  have hp := pow2_pos (-1000)
  have hpp : pow2 10 * pow2 (-1022) ≤ pow2 (-1000) := by rw [← pow2_add]; exact pow2_le.2 (by norm_num)
  rw [F64.div_finite' hf hT]
  constructor
  · intro h
    have h0 : f.val ≠ 0 := by linarith
    have hn : ¬ f.val < 0 := by linarith
    split
    · rw [hfs h0, hs, decide_eq_false hn]
      decide +kernel
    · rename_i hT0
      have hTp : 0 < T.val := lt_of_le_of_ne hTv (Ne.symm hT0)
      rw [lit_1024]
      refine F64.le_round (by norm_num) (by norm_num) ?_
      rw [le_div_iff₀ hTp]
      have := pow2_pos 10
      nlinarith
  · intro h
    have h0 : f.val ≠ 0 := by linarith
    have hn : f.val < 0 := by linarith
    split
    · rw [hfs h0, hs, decide_eq_true hn]
      decide +kernel
    · rename_i hT0
      have hTp : 0 < T.val := lt_of_le_of_ne hTv (Ne.symm hT0)
      refine round_le_low ?_
      rw [div_le_iff₀ hTp]
      have := pow2_pos 10
      nlinarith

/-- The fitness is finite and at least `2^-1000`. -/
def Positive (x : I) : Prop := (fitness x).isFinite = true ∧ pow2 (-1000) ≤ (fitness x).val

/-- The fitness is finite and at most `-2^-1000`. -/
def Negative (x : I) : Prop := (fitness x).isFinite = true ∧ (fitness x).val ≤ -pow2 (-1000)

/-- The temperature is so low that no fitness of size `2^-1000` or more stays within the range of `exp`. -/
def Cold (T : F64) : Prop := T.isFinite = true ∧ T.signBit = false ∧ T.val ≤ pow2 (-1022)

/-- **C105** At a low temperature the least fit individual of positive fitness is selected with probability `1 - 2^-53`, and the fittest otherwise. -/
theorem C105_positive (env : NumEnv) (henv : env.LawfulSum) (hexp : ExpRange env.exp) (s : BoltzmannSelection F64) (p : Population I)
    (hT : Cold (s.temperature.mul s.coolingRate)) (worse : List I) (x : I) (better : List I) (hp : p.individuals = worse ++ x :: better)
    (h1 : ∀ y ∈ worse, Negative y) (h2 : ∀ y ∈ x :: better, Positive y) :
    AlmostAlways (fun i => ((s.prepare env p).select env p).prob fun r => r.1 = i) p.individuals.length worse.length := by
  have e1 : ∀ y ∈ worse, env.exp ((fitness y).div (s.temperature.mul s.coolingRate)) = F64.zero := fun y hy =>
    hexp.underflow _ ((div_low hT.1 hT.2.1 hT.2.2 (h1 y hy).1).2 (h1 y hy).2)
  have e2 : ∀ y ∈ x :: better, env.exp ((fitness y).div (s.temperature.mul s.coolingRate)) = F64.inf false := fun y hy =>
    hexp.overflow _ ((div_low hT.1 hT.2.1 hT.2.2 (h2 y hy).1).1 (h2 y hy).2)
  refine C105_overflow env henv s p (fun x => env.exp ((fitness x).div (s.temperature.mul s.coolingRate))) (fun _ => rfl) ?_ worse.length
    (by rw [hp]; simp) ?_ ⟨x, by rw [hp]; simp, e2 x (by simp)⟩
  · intro y hy
    rw [hp, List.mem_append] at hy
    rcases hy with hy | hy
    · rw [e1 y hy]; decide +kernel
    · rw [e2 y hy]; decide +kernel
  · intro i hi h
    have : (runningSum (lit 0) (p.individuals.map fun x => env.exp ((fitness x).div (s.temperature.mul s.coolingRate))) i).isFinite = true := by
      unfold runningSum
      rw [hp, List.map_append, List.take_append_of_le_length (by simpa using hi)]
      refine (foldl_zeros _ (fun w hw => ?_) _ ⟨by decide +kernel, by decide +kernel⟩).1
      obtain ⟨y, hy, rfl⟩ := List.mem_map.1 (List.mem_of_mem_take hw)
      exact e1 y hy
    rw [h] at this
    cases this

/-- **C105** If no fitness is positive, the least fit individual of all is selected. -/
theorem C105_negative (env : NumEnv) (henv : env.LawfulSum) (hexp : ExpRange env.exp) (s : BoltzmannSelection F64) (p : Population I)
    (hT : Cold (s.temperature.mul s.coolingRate)) (hp : p.individuals ≠ []) (h1 : ∀ y ∈ p.individuals, Negative y) :
    Always (fun r => r.1 = 0 ∧ p.individuals[0]? = some r.2) ((s.prepare env p).select env p) := by
  intro r hr
  obtain ⟨k, j, x, hk, rfl, hx, hpick⟩ := (C43_select env _ p hp r).1 hr
  obtain ⟨t1, -, t3⟩ := C43_prepare env s p
  have e1 : ∀ y ∈ p.individuals, env.exp ((fitness y).div (s.temperature.mul s.coolingRate)) = F64.zero := fun y hy =>
    hexp.underflow _ ((div_low hT.1 hT.2.1 hT.2.2 (h1 y hy).1).2 (h1 y hy).2)
  rw [t1, t3] at hpick
  have hz := treeSum_zeros (henv (p.individuals.map fun i => env.exp ((fitness i).div (s.temperature.mul s.coolingRate)))) (fun w hw => by
    obtain ⟨y, hy, rfl⟩ := List.mem_map.1 hw
    exact e1 y hy)
  have hj : j = 0 := by
    obtain ⟨y, l, hyl⟩ := List.exists_cons_of_ne_nil hp
    have h0 := e1 y (by rw [hyl]; simp)
    obtain ⟨j', hj', hpick'⟩ := wheelIndex_spec (p.individuals.map fun i => env.exp ((fitness i).div (s.temperature.mul s.coolingRate)))
      (env.parSum (p.individuals.map fun i => env.exp ((fitness i).div (s.temperature.mul s.coolingRate)))) (F64.unit k) (by simpa using hp)
    have e := hpick.unique hpick'
    generalize env.parSum (p.individuals.map fun i => env.exp ((fitness i).div (s.temperature.mul s.coolingRate))) = total at hz hj'
    rw [hyl, List.map_cons, wheelIndex_zeros _ _ h0 _ hz k hk] at hj'
    cases hj'
    exact e
  subst hj
  exact ⟨_, rfl, rfl, hx⟩

/-- **C105** The temperature falls geometrically, up to rounding, to `2^-1022` at least. -/
theorem C105_cools (c T : F64) (hT : T.isFinite = true) (h0 : T.signBit = false) (hc : c.isFinite = true) (hc0 : 0 < c.val)
    (hc1 : c.val < 1) (n : Nat) : (temperatures c T n).isFinite = true ∧ (temperatures c T n).signBit = false ∧
      (temperatures c T n).val ≤ max ((2 : ℚ) ^ (-1022 : Int)) (T.val * (c.val * (1 + 1 / 2 ^ 53)) ^ n) ∧ c.val * (1 + 1 / 2 ^ 53) < 1 := by
  obtain ⟨h1, h2, h3, h4⟩ := temperatures_spec hT h0 hc hc0 hc1 n
  have h5 := cooling_factor hc1
  have e : pow2 (-53) = 1 / 2 ^ 53 := by rw [pow2_eq]; norm_num
  rw [e] at h4 h5
  rw [pow2_eq] at h4
  exact ⟨h1, h2, h4, h5⟩

/-- **C105** So it is low for good after finitely many preparations. -/
theorem C105_cold (c T : F64) (hT : T.isFinite = true) (h0 : T.signBit = false) (hc : c.isFinite = true) (hc0 : 0 < c.val)
    (hc1 : c.val < 1) : ∃ N, ∀ n, N ≤ n → Cold (temperatures c T n) := by
  have hf := cooling_factor hc1
  have hf0 : 0 ≤ c.val * (1 + pow2 (-53)) := mul_nonneg hc0.le (by have := pow2_pos (-53); linarith)
  have hTv : 0 ≤ T.val := (temperatures_spec hT h0 hc hc0 hc1 0).2.2.1
  obtain ⟨N, hN⟩ := exists_pow_lt_of_lt_one (show 0 < pow2 (-1022) / (T.val + 1) from div_pos (pow2_pos _) (by linarith)) hf
  refine ⟨N, fun n hn => ?_⟩
  obtain ⟨h1, h2, h3, h4⟩ := temperatures_spec hT h0 hc hc0 hc1 n
  refine ⟨h1, h2, h4.trans (max_le (le_refl _) ?_)⟩
  have hle : (c.val * (1 + pow2 (-53))) ^ n ≤ (c.val * (1 + pow2 (-53))) ^ N := pow_le_pow_of_le_one hf0 hf.le hn
  rw [lt_div_iff₀ (by linarith)] at hN
  have := pow_nonneg hf0 N
  nlinarith

/-- **C105** Boltzmann selection that has been prepared often enough: whatever the populations were, it selects the least fit individual of
positive fitness, or the least fit one if none is positive. -/
theorem C105_late (env : NumEnv) (henv : env.LawfulSum) (hexp : ExpRange env.exp) (s : BoltzmannSelection F64)
    (hT : s.temperature.isFinite = true) (h0 : s.temperature.signBit = false) (hc : s.coolingRate.isFinite = true)
    (hc0 : 0 < s.coolingRate.val) (hc1 : s.coolingRate.val < 1) :
    ∃ N, ∀ ps : List (Population I), N ≤ ps.length → ∀ p : Population I,
      (∀ worse x better, p.individuals = worse ++ x :: better → (∀ y ∈ worse, Negative y) → (∀ y ∈ x :: better, Positive y) →
        AlmostAlways (fun i => (((ps.foldl (BoltzmannSelection.prepare env) s).prepare env p).select env p).prob fun r => r.1 = i)
          p.individuals.length worse.length) ∧
      (p.individuals ≠ [] → (∀ y ∈ p.individuals, Negative y) → Always (fun r => r.1 = 0 ∧ p.individuals[0]? = some r.2)
        (((ps.foldl (BoltzmannSelection.prepare env) s).prepare env p).select env p)) := by
  obtain ⟨N, hN⟩ := C105_cold s.coolingRate s.temperature hT h0 hc hc0 hc1
  refine ⟨N, fun ps hps p => ?_⟩
  have hs : ∀ (ps : List (Population I)) (s' : BoltzmannSelection F64) n, s'.temperature = temperatures s.coolingRate s.temperature n →
      s'.coolingRate = s.coolingRate → (ps.foldl (BoltzmannSelection.prepare env) s').temperature =
        temperatures s.coolingRate s.temperature (n + ps.length) ∧ (ps.foldl (BoltzmannSelection.prepare env) s').coolingRate = s.coolingRate := by
    intro ps
    induction ps with
    | nil => exact fun s' n a b => ⟨a, b⟩
    | cons p ps ih =>
      intro s' n a b
      obtain ⟨t1, t2, -⟩ := C43_prepare env s' p
      have := ih (s'.prepare env p) (n + 1) (by rw [t1, a, b]; rfl) (by rw [t2, b])
      rw [List.length_cons, List.foldl_cons, show n + (ps.length + 1) = n + 1 + ps.length by omega]
      exact this
  obtain ⟨g1, g2⟩ := hs ps s 0 rfl rfl
  have hcold : Cold ((ps.foldl (BoltzmannSelection.prepare env) s).temperature.mul (ps.foldl (BoltzmannSelection.prepare env) s).coolingRate) := by
    rw [g1, g2]
    exact hN (0 + ps.length + 1) (by omega)
  exact ⟨fun worse x better e h1 h2 => C105_positive env henv hexp _ p hcold worse x better e h1 h2,
    fun hp h1 => C105_negative env henv hexp _ p hcold hp h1⟩

/-! ### Runs -/

/-- `pre_generation` leaves the selector alone, as the default implementation does. -/
def KeepsSelector (M : EvoModel I Mo U) : Prop :=
  ∀ m p r m' r', (M.preGeneration m p r).yields (.ok (m', r')) → r'.parentSelector = r.parentSelector

/-- The selector of a run with this strategy, as it is after the preparations so far. -/
def Cooled (T c : F64) (sel : DynSel U) (n : Nat) : Prop :=
  ∃ s : BoltzmannSelection F64, sel = .builtin (.boltzmann s) ∧ s.coolingRate = c ∧ s.temperature = temperatures c T n

theorem Cooled.prepare {T c : F64} {sel : DynSel U} {n : Nat} (h : Cooled T c sel n) (env : NumEnv) (cs : CustomSelector I U)
    (p : Population I) : Cooled T c (sel.prepare env cs p) (n + 1) := by
  obtain ⟨s, rfl, h1, h2⟩ := h
  exact ⟨s.prepare env p, rfl, h1, by
    show s.temperature.mul s.coolingRate = _
    rw [h1, h2]; rfl⟩

theorem createSelector_cooled {T c : F64} {sel : Selector} (h : (SelectionStrategy.boltzmann T c).createSelector = .ok sel) :
    Cooled T c (.builtin sel : DynSel U) 0 := by
  by_cases hc : c.feq F64.zero = true
  · have : (SelectionStrategy.boltzmann T c).createSelector = .panic := by
      show (BoltzmannSelection.new T c >>= fun s => pure (Selector.boltzmann s)) = .panic
      unfold BoltzmannSelection.new
      rw [hc]; rfl
    rw [this] at h; cases h
  · have hc : c.feq F64.zero = false := by simpa using hc
    have : (SelectionStrategy.boltzmann T c).createSelector = .ok (.boltzmann ⟨T, c, F64.zero⟩) := by
      show (BoltzmannSelection.new T c >>= fun s => pure (Selector.boltzmann s)) = _
      unfold BoltzmannSelection.new
      rw [hc]; rfl
    rw [this] at h; cases h
    exact ⟨_, rfl, rfl, rfl⟩

/-- **C105** A run of the genetic algorithm with Boltzmann selection prepares the selector once per generation: in generation `n` its
temperature has been multiplied `n` times. -/
theorem C105_ga (M : EvoModel I Mo U) (hM : KeepsSelector M) (envs : Nat → Env I) (henv : ∀ t, (envs t).Lawful)
    (progress : Q → Population I → Prog (Bool × Q)) (fuel : Nat) (a : Ga Mo U) (l : List I) (p : GaParams) (T c : F64)
    (hp : p.selectionStrategy = .boltzmann T c) (q : Q) (fin : Bool) (st : RunState I (Ga Mo U) Q)
    (h : (evolvePopulation (ga M) envs progress fuel a l p q).yields (.ok (fin, st))) :
    Cooled T c st.algo.breeding.parentSelector st.population.generation := by
  rw [yields_evolvePopulation] at h
  obtain ⟨b, pop, h1, h2, h3⟩ := h
  refine (evolveLoop_invariant (ga M) envs progress (fun a p => Cooled T c a.breeding.parentSelector p.generation) (fun _ _ => True)
    (fun t st st' _ hst hs => ?_) fuel 1 (le_refl _) _ ?_ fin st h3).choose_spec.2.2.2.2.1
  · obtain ⟨⟨r, g1, g2, -, -, mem, -, g6⟩, -, g8, g9⟩ := (C73_ga_generation M (envs t) (henv t) st st').1 hs
    refine ⟨?_, trivial, g8, g9⟩
    rw [g2, g6.generation]
    refine Cooled.prepare ?_ _ _ _
    rw [hM _ _ _ _ _ g1]
    exact hst
  · show Cooled T c b.breeding.parentSelector pop.generation
    rw [(init_wf (henv 0) h2).2.1]
    have h1 : a.configure p = .ok b := h1
    unfold Ga.configure at h1
    obtain ⟨-, -, h1⟩ := res_bind_ok h1
    obtain ⟨k, -, h1⟩ := res_bind_ok h1
    obtain ⟨sel, hsel, h1⟩ := res_bind_ok h1
    cases h1
    exact createSelector_cooled (hp ▸ hsel)

/-- **C105** The same for the adaptive genetic algorithm. -/
theorem C105_aga (M : EvoModel I Mo U) (hM : KeepsSelector M) (envs : Nat → Env I) (henv : ∀ t, (envs t).Lawful)
    (progress : Q → Population I → Prog (Bool × Q)) (fuel : Nat) (a : Aga Mo U) (l : List I) (p : AgaParams) (T c : F64)
    (hp : p.selectionStrategy = .boltzmann T c) (q : Q) (fin : Bool) (st : RunState I (Aga Mo U) Q)
    (h : (evolvePopulation (aga M) envs progress fuel a l p q).yields (.ok (fin, st))) :
    Cooled T c st.algo.breeding.parentSelector st.population.generation := by
  rw [yields_evolvePopulation] at h
  obtain ⟨b, pop, h1, h2, h3⟩ := h
  refine (evolveLoop_invariant (aga M) envs progress (fun a p => Cooled T c a.breeding.parentSelector p.generation) (fun _ _ => True)
    (fun t st st' _ hst hs => ?_) fuel 1 (le_refl _) _ ?_ fin st h3).choose_spec.2.2.2.2.1
  · obtain ⟨⟨b, hb, r, g1, g2, mem, -, g6⟩, -, g8, g9⟩ := (C73_aga_generation M (envs t) (henv t) st st').1 hs
    refine ⟨?_, trivial, g8, g9⟩
    rw [g2, g6.generation]
    refine Cooled.prepare ?_ _ _ _
    rw [hM _ _ _ _ _ g1, hb]
    have : (st.algo.adjust st.population.generation st.population.stats.std).breeding.parentSelector = st.algo.breeding.parentSelector := by
      unfold Aga.adjust
      split
      · rfl
      · split <;> rfl
    rw [this]
    exact hst
  · show Cooled T c b.breeding.parentSelector pop.generation
    rw [(init_wf (henv 0) h2).2.1]
    have h1 : a.configure p = .ok b := h1
    unfold Aga.configure at h1
    obtain ⟨-, -, h1⟩ := res_bind_ok h1
    obtain ⟨k, -, h1⟩ := res_bind_ok h1
    obtain ⟨sel, hsel, h1⟩ := res_bind_ok h1
    cases h1
    exact createSelector_cooled (hp ▸ hsel)

/-- What a selector does in every late generation: it takes the least fit individual of positive fitness, or the least fit one if none is
positive. -/
def SelectsWorst (env : NumEnv) (cs : CustomSelector I U) (sel : DynSel U) (p : Population I) : Prop :=
  (∀ worse x better, p.individuals = worse ++ x :: better → (∀ y ∈ worse, Negative y) → (∀ y ∈ x :: better, Positive y) →
    AlmostAlways (fun i => (sel.select env cs p).prob fun r => r.1 = i) p.individuals.length worse.length) ∧
  (p.individuals ≠ [] → (∀ y ∈ p.individuals, Negative y) →
    Always (fun r => r.1 = 0 ∧ p.individuals[0]? = some r.2) (sel.select env cs p))

/-- **C105** There is a generation from which on every run of either algorithm with this strategy breeds from the worst. -/
theorem C105_run (T c : F64) (hT : T.isFinite = true) (h0 : T.signBit = false) (hc : c.isFinite = true) (hc0 : 0 < c.val) (hc1 : c.val < 1) :
    ∃ N, ∀ (M : EvoModel I Mo U), KeepsSelector M → ∀ (envs : Nat → Env I), (∀ t, (envs t).Lawful) →
      ∀ (progress : Q → Population I → Prog (Bool × Q)) (fuel : Nat) (l : List I) (q : Q) (fin : Bool) (env : NumEnv), env.LawfulSum →
        ExpRange env.exp →
      (∀ (a : Ga Mo U) (p : GaParams) (st : RunState I (Ga Mo U) Q), p.selectionStrategy = .boltzmann T c →
        (evolvePopulation (ga M) envs progress fuel a l p q).yields (.ok (fin, st)) → N ≤ st.population.generation →
        SelectsWorst env M.selectors (st.algo.breeding.parentSelector.prepare env M.selectors st.population) st.population) ∧
      (∀ (a : Aga Mo U) (p : AgaParams) (st : RunState I (Aga Mo U) Q), p.selectionStrategy = .boltzmann T c →
        (evolvePopulation (aga M) envs progress fuel a l p q).yields (.ok (fin, st)) → N ≤ st.population.generation →
        SelectsWorst env M.selectors (st.algo.breeding.parentSelector.prepare env M.selectors st.population) st.population) := by
  obtain ⟨N, hN⟩ := C105_cold c T hT h0 hc hc0 hc1
  have key : ∀ (M : EvoModel I Mo U) (env : NumEnv), env.LawfulSum → ExpRange env.exp → ∀ (sel : DynSel U) (p : Population I),
      Cooled T c sel p.generation → N ≤ p.generation → SelectsWorst env M.selectors (sel.prepare env M.selectors p) p := by
    rintro M env henv hexp sel p ⟨s, rfl, e1, e2⟩ hn
    have hcold : Cold (s.temperature.mul s.coolingRate) := by
      rw [e1, e2]
      exact hN (p.generation + 1) (by omega)
    exact ⟨fun worse x better e h1 h2 => C105_positive env henv hexp s p hcold worse x better e h1 h2,
      fun hp h1 => C105_negative env henv hexp s p hcold hp h1⟩
  exact ⟨N, fun M hM envs henvs progress fuel l q fin env henv hexp => ⟨fun a p st hp h hn => key M env henv hexp _ _
    (C105_ga M hM envs henvs progress fuel a l p T c hp q fin st h) hn, fun a p st hp h hn => key M env henv hexp _ _
    (C105_aga M hM envs henvs progress fuel a l p T c hp q fin st h) hn⟩⟩

/-! ### In exact arithmetic -/

/-- **C105** In exact arithmetic it is as documented: for any gap `δ` and any `ε` there is a number of preparations after which an individual whose
fitness is `δ` or more below another one's has a share of less than `ε` in the wheel. -/
theorem C105_exact (s : BoltzmannSelection ℝ) (hT : 0 < s.temperature) (hc0 : 0 < s.coolingRate) (hc1 : s.coolingRate < 1) (δ ε : ℝ)
    (hδ : 0 < δ) (hε : 0 < ε) : ∃ N, ∀ fss : List (List ℝ), N ≤ fss.length → ∀ (fs : List ℝ) (f g : ℝ), g ∈ fs → f + δ ≤ g →
      ∀ s', s' = (fss.foldl (BoltzmannSelection.prepareWith Real.exp List.sum) s).prepareWith Real.exp List.sum fs →
        Real.exp (f / s'.temperature) / s'.totalScaledFitness < ε := by
  obtain ⟨N, hN⟩ := exists_pow_lt_of_lt_one (show 0 < ε * δ / s.temperature by positivity) hc1
  refine ⟨N, fun fss hn fs f g hg hfg s' hs' => ?_⟩
  obtain ⟨t1, t2⟩ := C43_cooling Real.exp List.sum s fss
  set s1 := fss.foldl (BoltzmannSelection.prepareWith Real.exp List.sum) s with hs1
  have e1 : s'.temperature = s.temperature * s.coolingRate ^ fss.length * s.coolingRate := by
    rw [hs']
    show s1.temperature * s1.coolingRate = _
    rw [t1, t2]
  have e2 : s'.totalScaledFitness = (fs.map fun f => Real.exp (f / s'.temperature)).sum := by
    rw [hs']; rfl
  have hpos : 0 < s'.temperature := by rw [e1]; positivity
  have hlt : s'.temperature < ε * δ := by
    have h1 : s.coolingRate ^ fss.length ≤ s.coolingRate ^ N := pow_le_pow_of_le_one hc0.le hc1.le hn
    rw [lt_div_iff₀ hT] at hN
    have h2 : 0 < s.coolingRate ^ fss.length := by positivity
    rw [e1]
    calc s.temperature * s.coolingRate ^ fss.length * s.coolingRate ≤ s.temperature * s.coolingRate ^ fss.length * 1 :=
          mul_le_mul_of_nonneg_left hc1.le (by positivity)
      _ ≤ s.temperature * s.coolingRate ^ N := by rw [mul_one]; exact mul_le_mul_of_nonneg_left h1 hT.le
      _ < ε * δ := by linarith
  have htot : Real.exp (g / s'.temperature) ≤ s'.totalScaledFitness := by
    rw [e2]
    exact List.single_le_sum (fun x hx => by
      obtain ⟨y, -, rfl⟩ := List.mem_map.1 hx
      exact (Real.exp_pos _).le) _ (List.mem_map.2 ⟨g, hg, rfl⟩)
  rw [div_lt_iff₀ (lt_of_lt_of_le (Real.exp_pos _) htot)]
  refine lt_of_lt_of_le ?_ (mul_le_mul_of_nonneg_left htot hε.le)
  have hexp : Real.exp (δ / s'.temperature) * Real.exp (f / s'.temperature) ≤ Real.exp (g / s'.temperature) := by
    rw [← Real.exp_add, ← add_div]
    exact Real.exp_le_exp.2 (div_le_div_of_nonneg_right (by linarith) hpos.le)
  have h1 : 1 < ε * Real.exp (δ / s'.temperature) := by
    have h2 := Real.add_one_le_exp (δ / s'.temperature)
    have h3 : 1 < ε * (δ / s'.temperature) := by
      rw [← mul_div_assoc, lt_div_iff₀ hpos]; linarith
    nlinarith
  calc Real.exp (f / s'.temperature) < ε * Real.exp (δ / s'.temperature) * Real.exp (f / s'.temperature) := by
        have := Real.exp_pos (f / s'.temperature)
        nlinarith
    _ ≤ ε * Real.exp (g / s'.temperature) := by rw [mul_assoc]; exact mul_le_mul_of_nonneg_left hexp hε.le

/-! ### Examples -/

/-- A function with the range of `f64::exp`. -/
def stepExp (x : F64) : F64 :=
  if (F64.lit 1024).le x = true then F64.inf false else if x.le (F64.lit (-1024)) = true then F64.zero else F64.lit 1

theorem stepExp_range : ExpRange stepExp where
  overflow x h := if_pos h
  underflow x h := by
    have : (F64.lit 1024).le x = false := by
      by_contra hc
      have := F64.le_trans (by simpa using hc) h
      revert this
      decide +kernel
    unfold stepExp
    rw [this, if_neg (by decide), if_pos h]

def stepEnv : NumEnv := ⟨stepExp, fun l => l.foldl F64.add F64.zero⟩

theorem stepEnv_lawful : stepEnv.LawfulSum := fun l => TreeSum.leaf _ (Or.inl rfl) l

theorem num_positive (q : ℚ) (h : (F64.lit q).isFinite = true) (h1 : 1 ≤ (F64.lit q).val) : Positive (num q) :=
  ⟨h, le_trans (by rw [show (1 : ℚ) = pow2 0 by decide +kernel]; exact pow2_le.2 (by norm_num)) h1⟩

/-- Of three individuals of fitness 1, 2 and 5, the one of fitness 1 is selected with probability `1 - 2^-53`; the temperature is `2^-1030`. -/
example : AlmostAlways (fun i => (((⟨F64.fin (pow2 (-1029)) (rep_pow2 (by norm_num) (by norm_num)), F64.lit (1 / 2), F64.zero⟩ :
    BoltzmannSelection F64).prepare stepEnv numPop).select stepEnv numPop).prob fun r => r.1 = i) 3 0 := by
  refine C105_positive stepEnv stepEnv_lawful stepExp_range _ numPop ⟨?_, ?_, ?_⟩ [] (num 1) [num 2, num 5] rfl (by simp) ?_
  · decide +kernel
  · decide +kernel
  · decide +kernel
  · intro y hy
    simp only [List.mem_cons, List.not_mem_nil, or_false] at hy
    rcases hy with rfl | rfl | rfl <;> exact num_positive _ (by decide +kernel) (by decide +kernel)

/-- Started at temperature 100 with the cooling rate 0.95, every run ends up there. -/
example : ∃ N, ∀ n, N ≤ n → Cold (temperatures (F64.lit (95 / 100)) (F64.lit 100) n) :=
  C105_cold _ _ (by decide +kernel) (by decide +kernel) (by decide +kernel) (by decide +kernel) (by decide +kernel)

example : KeepsSelector numModel := fun _ _ _ _ _ h => by cases (yields_pure _ _).1 h; rfl

end RG.Props
