import Verif.Props.RareCrossover
import Verif.Proofs.Schema
import Verif.Proofs.Parallel
import Verif.Props.Pressure
import Mathlib.Algebra.Order.Chebyshev

/-!
# C142 — How often breed crosses over
-/

namespace RG.Props
open RG RG.Prog Arith
variable {I Mo U : Type} [Individual I]

/-- How likely the selection gives an individual equal to `x`. -/
def repeats (select : Prog (Nat × I)) (x : I) : ℚ := select.prob fun c => Individual.eq c.2 x = true

/-- The model, except that crossover panics: a panic of `breed` tells that crossover was called. -/
def crossPanics (M : EvoOps I Mo U) : EvoOps I Mo U := { M with crossover := fun _ _ _ => .done .panic }

/-- The other methods of the model return. -/
structure OthersReturn (M : EvoOps I Mo U) (model : Mo) : Prop where
  mutate : ∀ x, Always (fun _ => True) (M.mutate model x)
  improve : ∀ x, Always (fun _ => True) (M.improve model x)
  evaluate : ∀ x, Always (fun _ => True) (M.evaluate model x)
  canSurvive : ∀ x y p, Always (fun _ => True) (M.canSurvive model x y p)

/-- No two individuals at different places are equal, and each equals itself. -/
def PairwiseUnequal (p : Population I) : Prop :=
  ∀ (i j : Nat) (x y : I), p.individuals[i]? = some x → p.individuals[j]? = some y → (Individual.eq x y = true ↔ i = j)

/-! ### Theorems -/

/-- **C142** `select_distinct` finds nothing with the probability of selecting an equal individual in every try. -/
theorem C142_none (select : Prog (Nat × I)) (x : I) (n : Nat) :
    (selectDistinct select x n).prob (fun r => r.isNone = true) = repeats select x ^ n := by
  induction n with
  | zero => simp [selectDistinct, prob]
  | succ n ih =>
    unfold selectDistinct
    rw [prob, expect_bind, pow_succ', ← ih, repeats, prob, mul_comm, ← expect_mul_left]
    refine expect_congr _ _ _ fun r _ => ?_
    rcases r with ⟨j, y⟩ | _ | _
    · show Prog.expect (if Individual.eq y x = false then _ else _) _ = _ * (if Individual.eq y x = true then 1 else 0)
      cases he : Individual.eq y x with
      | false => simp
      | true => simp [prob]
    · simp
    · simp

/-- **C142** And it finds an individual with the property `P` with the probability of selecting an unequal one with this property, in the first try or
after up to `n - 1` tries that gave an equal one. -/
theorem C142_some (select : Prog (Nat × I)) (x : I) (n : Nat) (P : Nat × I → Bool) :
    (selectDistinct select x n).prob (fun r => r.any P = true) =
      select.prob (fun c => Individual.eq c.2 x = false ∧ P c = true) * ∑ k ∈ Finset.range n, repeats select x ^ k := by
  induction n with
  | zero => simp [selectDistinct, prob]
  | succ n ih =>
    have e : select.prob (fun c => Individual.eq c.2 x = false ∧ P c = true) * ∑ k ∈ Finset.range (n + 1), repeats select x ^ k =
        select.prob (fun c => Individual.eq c.2 x = false ∧ P c = true) +
          (selectDistinct select x n).prob (fun r => r.any P = true) * repeats select x := by
      rw [ih, Finset.sum_range_succ']
      simp only [pow_succ, ← Finset.sum_mul]
      ring
    unfold selectDistinct
    rw [e, prob, expect_bind, repeats, prob, prob, prob, ← expect_mul_left, ← expect_add]
    refine expect_congr _ _ _ fun r _ => ?_
    rcases r with ⟨j, y⟩ | _ | _
    · show Prog.expect (if Individual.eq y x = false then _ else _) _ =
        (if Individual.eq y x = false ∧ P (j, y) = true then 1 else 0) + _ * (if Individual.eq y x = true then 1 else 0)
      cases he : Individual.eq y x with
      | false => simp
      | true => simp
    · simp
    · simp

theorem distinct_total {select : Prog (Nat × I)} (h : Always (fun _ => True) select) (x : I) (n : Nat) :
    Always (fun _ => True) (selectDistinct select x n) := by
  induction n with
  | zero => exact fun r hr => ⟨_, hr, trivial⟩
  | succ n ih =>
    unfold selectDistinct
    rw [always_bind]
    intro r hr
    obtain ⟨c, rfl, -⟩ := h r hr
    refine ⟨c, rfl, ?_⟩
    show Always _ (if Individual.eq c.2 x = false then _ else _)
    split
    · exact fun r hr => ⟨_, hr, trivial⟩
    · exact ih

theorem expect_found {select : Prog (Nat × I)} (h : Always (fun _ => True) select) (x : I) (n : Nat) :
    (selectDistinct select x n).expect found = 1 - repeats select x ^ n := by
  rw [← C142_none, prob, eq_sub_iff_add_eq, ← expect_add]
  refine (expect_congr _ _ _ fun r hr => ?_).trans (expect_const (selectDistinct select x n) 1)
  obtain ⟨c, rfl, -⟩ := distinct_total h x n r hr
  rcases c with _ | c <;> simp [found]

/-- The chance that crossover is attempted. -/
def attempts (p : Population I) (rate : F64) : ℚ := if p.individuals.length > 1 then chance rate else 0

theorem expect_paired (M : EvoOps I Mo U) (env : NumEnv) (p : Population I) (r : ReproParams U) (s : Selector)
    (hs : r.parentSelector = .builtin s) (ht : Always (fun _ => True) (s.select env p)) :
    (breedParents M env p r).expect paired =
      attempts p r.crossoverRate * (s.select env p).average fun c => 1 - repeats (s.select env p) c.2 ^ 3 := by
  unfold breedParents average
  rw [hs, expect_bind, ← expect_mul_left]
  refine expect_congr _ _ _ fun c hc => ?_
  obtain ⟨c, rfl, -⟩ := ht c hc
  show Prog.expect _ paired = attempts p r.crossoverRate * (1 - repeats (s.select env p) c.2 ^ 3)
  rw [← expect_found ht]
  have hcross : ∀ b : Bool, Prog.expect ((if b then DynSel.selectDistinct env M.selectors p 3 c.2 (.builtin s) >>= fun r =>
      pure (r.map Prod.snd) else pure none) >>= fun parent2 => (pure (c.2, parent2) : Prog (I × Option I))) paired =
      (if b = true then 1 else 0) * (selectDistinct (s.select env p) c.2 3).expect found := by
    intro b
    cases b with
    | false => show (0 : ℚ) = 0 * _; rw [zero_mul]
    | true =>
      show Prog.expect ((selectDistinct (s.select env p) c.2 3 >>= fun r => pure (r.map Prod.snd)) >>= fun parent2 => pure (c.2, parent2)) paired = _
      rw [if_pos rfl, one_mul, bind_assoc, expect_bind]
      refine expect_congr _ _ _ fun z _ => ?_
      rcases z with (_ | _) | _ | _ <;> rfl
  unfold attempts
  by_cases hl : p.individuals.length > 1
  · rw [if_pos hl, if_pos (show p.len > 1 from hl), bind_assoc, expect_bind, mul_comm, chance, prob, ← expect_mul_left]
    refine expect_congr _ _ _ fun u hu => ?_
    obtain ⟨k, hk, rfl⟩ := (yields_genF64 _).1 hu
    refine (hcross _).trans ?_
    rw [mul_comm]
  · rw [if_neg hl, if_neg (show ¬ p.len > 1 from hl)]
    refine (hcross false).trans ?_
    simp

theorem parents_total (M : EvoOps I Mo U) (env : NumEnv) (p : Population I) (r : ReproParams U) (s : Selector)
    (hs : r.parentSelector = .builtin s) (ht : Always (fun _ => True) (s.select env p)) :
    Always (fun _ => True) (breedParents M env p r) := by
  unfold breedParents
  rw [hs, always_bind]
  refine Always.mono ht fun c _ => ?_
  rw [always_bind]
  have h1 : Always (fun _ => True) (if p.len > 1 then genF64 >>= fun u => pure (u.lt r.crossoverRate) else pure false) := by
    split
    · rw [always_bind, always_genF64]
      exact fun k _ => fun r hr => ⟨_, hr, trivial⟩
    · exact fun r hr => ⟨_, hr, trivial⟩
  refine Always.mono h1 fun b _ => ?_
  rw [always_bind]
  cases b with
  | false => exact fun r hr => ⟨none, hr, fun r hr => ⟨_, hr, trivial⟩⟩
  | true =>
    show Always _ (selectDistinct (s.select env p) c.2 3 >>= fun r => pure (r.map Prod.snd))
    rw [always_bind]
    exact Always.mono (distinct_total ht c.2 3) fun z _ r hr => ⟨_, hr, fun r hr => ⟨_, hr, trivial⟩⟩

theorem after_total {M : EvoOps I Mo U} {model : Mo} (h : OthersReturn M model) (rate : F64) (p : Population I) (fp x : I) :
    Always (fun _ => True) (breedMutate M model rate x >>= fun o => breedEnd M model p fp o) := by
  have hm : Always (fun _ => True) (breedMutate M model rate x) := by
    unfold breedMutate
    rw [always_bind, always_genF64]
    intro k _
    split
    · exact h.mutate x
    · exact fun r hr => ⟨_, hr, trivial⟩
  rw [always_bind]
  refine Always.mono hm fun o _ => ?_
  unfold breedEnd
  rw [always_bind]
  refine Always.mono (h.improve o) fun o _ => ?_
  rw [always_bind]
  refine Always.mono (h.evaluate o) fun o _ => ?_
  rw [always_bind]
  have hc : Always (fun _ => True) (if isValid o then M.canSurvive model o fp p else pure false) := by
    split
    · exact h.canSurvive o fp p
    · exact fun r hr => ⟨_, hr, trivial⟩
  exact Always.mono hc fun b _ r hr => ⟨_, hr, trivial⟩

/-- **C142** How often `breed` calls crossover: the chance of a draw below the crossover rate, times the chance that one of three tries gives an individual
that does not equal the first parent. -/
theorem C142_calls (M : EvoOps I Mo U) (env : NumEnv) (model : Mo) (hM : OthersReturn M model) (p : Population I) (r : ReproParams U)
    (s : Selector) (hs : r.parentSelector = .builtin s) (ht : Always (fun _ => True) (s.select env p)) :
    (defaultBreed (crossPanics M) env model p r).probFail =
      attempts p r.crossoverRate * (s.select env p).average fun c => 1 - repeats (s.select env p) c.2 ^ 3 := by
  rw [← expect_paired (crossPanics M) env p r s hs ht, defaultBreed_eq, probFail, expect_bind]
  refine expect_congr _ _ _ fun z hz => ?_
  obtain ⟨⟨y, o⟩, rfl, -⟩ := parents_total (crossPanics M) env p r s hs ht z hz
  cases o with
  | some y' => rfl
  | none =>
    show Prog.expect (breedMutate (crossPanics M) model r.mutationRate y >>= fun o => breedEnd (crossPanics M) model p y o) _ = 0
    rw [← expect_const (breedMutate (crossPanics M) model r.mutationRate y >>= fun o => breedEnd (crossPanics M) model p y o) 0]
    refine expect_congr _ _ _ fun z hz => ?_
    obtain ⟨c, rfl, -⟩ := after_total (M := crossPanics M) ⟨hM.mutate, hM.improve, hM.evaluate, hM.canSurvive⟩ _ _ _ _ z hz
    rw [expect_const]

omit [Individual I] in
theorem average_index {select : Prog (Nat × I)} {n : Nat} (h : Always (fun c => c.1 < n) select) (f : Nat → ℚ) :
    (select.average fun c => f c.1) = ∑ i ∈ Finset.range n, select.prob (fun c => c.1 = i) * f i := by
  have e : ∀ i, select.prob (fun c => c.1 = i) * f i = select.expect fun r => f i * (match r with
      | .ok c => if c.1 = i then (1 : ℚ) else 0
      | _ => 0) := fun i => by
    rw [expect_mul_left, mul_comm, prob]
    exact congrArg (f i * ·) (expect_congr _ _ _ fun r _ => by cases r <;> rfl)
  simp only [e]
  rw [← expect_finset_sum, average]
  refine expect_congr _ _ _ fun r hr => ?_
  obtain ⟨c, rfl, hc⟩ := h r hr
  show f c.1 = ∑ i ∈ Finset.range n, f i * (if c.1 = i then (1 : ℚ) else 0)
  simp [hc]

/-- **C142** If no two individuals of the population are equal, the fourth powers of the probabilities with which they are selected tell how often. -/
theorem C142_unequal (M : EvoOps I Mo U) (env : NumEnv) (model : Mo) (hM : OthersReturn M model) (p : Population I) (r : ReproParams U)
    (s : Selector) (hs : r.parentSelector = .builtin s) (ht : Always (IsMember p) (s.select env p)) (hu : PairwiseUnequal p) :
    (defaultBreed (crossPanics M) env model p r).probFail = attempts p r.crossoverRate *
      (1 - ∑ i ∈ Finset.range p.individuals.length, (s.select env p).prob (fun c => c.1 = i) ^ 4) := by
  rw [C142_calls M env model hM p r s hs (Always.mono ht fun _ _ => trivial)]
  congr 1
  have e : ((s.select env p).average fun c => 1 - repeats (s.select env p) c.2 ^ 3) =
      (s.select env p).average fun c => 1 - ((s.select env p).prob fun d => d.1 = c.1) ^ 3 := by
    refine expect_congr _ _ _ fun z hz => ?_
    obtain ⟨c, rfl, hc⟩ := ht z hz
    show 1 - repeats _ c.2 ^ 3 = 1 - _ ^ 3
    congr 2
    refine prob_congr _ _ _ fun d hd => ?_
    obtain ⟨d', e, hd'⟩ := ht _ hd
    cases e
    exact hu d.1 c.1 d.2 c.2 hd'.2 hc.2
  have hlt : Always (fun c : Nat × I => c.1 < p.individuals.length) (s.select env p) := Always.mono ht fun _ h => h.1
  have h1 : (∑ i ∈ Finset.range p.individuals.length, (s.select env p).prob fun c => c.1 = i) = 1 := by
    have := average_index hlt fun _ => 1
    simp only [mul_one] at this
    rw [← this, ← expect_const (s.select env p) 1, average]
    refine expect_congr _ _ _ fun z hz => ?_
    obtain ⟨c, rfl, -⟩ := ht z hz
    rw [expect_const]
  rw [e, average_index hlt fun i => 1 - ((s.select env p).prob fun d => d.1 = i) ^ 3]
  simp only [mul_sub, mul_one, Finset.sum_sub_distrib, h1]
  congr 1
  exact Finset.sum_congr rfl fun i _ => by ring

/-- **C142** In a population of `n` it is at most the share `1 - 1/n^3` of the attempts. -/
theorem C142_at_most (M : EvoOps I Mo U) (env : NumEnv) (model : Mo) (hM : OthersReturn M model) (p : Population I) (hp : p.individuals ≠ [])
    (r : ReproParams U) (s : Selector) (hs : r.parentSelector = .builtin s) (ht : Always (IsMember p) (s.select env p)) (hu : PairwiseUnequal p) :
    (defaultBreed (crossPanics M) env model p r).probFail ≤ attempts p r.crossoverRate * (1 - 1 / (p.individuals.length : ℚ) ^ 3) := by
  rw [C142_unequal M env model hM p r s hs ht hu]
  have h0 : 0 ≤ attempts p r.crossoverRate := by
    unfold attempts
    split
    · exact chance_nonneg _
    · exact le_refl _
  refine mul_le_mul_of_nonneg_left ?_ h0
  set n := p.individuals.length with hn
  set w := fun i => (s.select env p).prob fun c => c.1 = i with hw
  have hpos : (0 : ℚ) < n := by exact_mod_cast List.length_pos_of_ne_nil hp
  have h1 : ∑ i ∈ Finset.range n, w i = 1 := by
    have := average_index (n := n) (Always.mono ht fun _ h => h.1) fun _ => 1
    simp only [mul_one] at this
    rw [hw, ← this, ← expect_const (s.select env p) 1, average]
    refine expect_congr _ _ _ fun z hz => ?_
    obtain ⟨c, rfl, -⟩ := ht z hz
    rw [expect_const]
  have a := sq_sum_le_card_mul_sum_sq (s := Finset.range n) (f := w)
  have b := sq_sum_le_card_mul_sum_sq (s := Finset.range n) (f := fun i => w i ^ 2)
  rw [h1, Finset.card_range] at a
  rw [Finset.card_range] at b
  have e : ∑ i ∈ Finset.range n, (w i ^ 2) ^ 2 = ∑ i ∈ Finset.range n, w i ^ 4 := Finset.sum_congr rfl fun i _ => by ring
  rw [e] at b
  show 1 - ∑ i ∈ Finset.range n, w i ^ 4 ≤ 1 - 1 / (n : ℚ) ^ 3
  set S := ∑ i ∈ Finset.range n, w i ^ 2
  have c : 1 / (n : ℚ) ^ 3 ≤ ∑ i ∈ Finset.range n, w i ^ 4 := by
    rw [div_le_iff₀ (by positivity)]
    nlinarith [mul_le_mul_of_nonneg_left b (show (0 : ℚ) ≤ (n : ℚ) ^ 2 by positivity), mul_self_nonneg ((n : ℚ) * S - 1)]
  linarith

/-- **C142** For elitist selection among the top `m` the share is `1 - 1/m^3`. -/
theorem C142_elitist (M : EvoOps I Mo U) (env : NumEnv) (model : Mo) (hM : OthersReturn M model) (p : Population I) (hp : p.individuals ≠ [])
    (hn : p.individuals.length ≤ 2 ^ 53) (r : ReproParams U) (s : ElitistSelection)
    (hr : s.ratio.isFinite = true ∧ 0 ≤ s.ratio.val ∧ s.ratio.val < 1) (hs : r.parentSelector = .builtin (.elitist s)) (hu : PairwiseUnequal p) :
    ∃ m : Nat, m + ⌊rndQ (p.individuals.length * s.ratio.val)⌋.toNat = p.individuals.length ∧ 0 < m ∧
      (defaultBreed (crossPanics M) env model p r).probFail = attempts p r.crossoverRate * (1 - 1 / (m : ℚ) ^ 3) := by
  obtain ⟨b, hb, hlt, h1, h2⟩ := C41_uniform s hr p hp hn
  refine ⟨p.individuals.length - b, by omega, by omega, ?_⟩
  have ht : Always (IsMember p) ((Selector.elitist s).select env p) :=
    C38_member env p hp hn _ hr (by simp) (by simp)
  rw [C142_unequal M env model hM p r _ hs ht hu]
  congr 2
  have hm : ((p.individuals.length - b : Nat) : ℚ) = (p.individuals.length : ℚ) - b := by rw [Nat.cast_sub hlt.le]
  have hpos : (0 : ℚ) < ((p.individuals.length - b : Nat) : ℚ) := by exact_mod_cast (show 0 < p.individuals.length - b by omega)
  rw [← Finset.sum_range_add_sum_Ico _ hlt.le]
  have z : ∑ i ∈ Finset.range b, ((Selector.elitist s).select env p).prob (fun c => c.1 = i) ^ 4 = 0 := by
    refine Finset.sum_eq_zero fun i hi => ?_
    have : ((Selector.elitist s).select env p).prob (fun c => c.1 = i) = 0 := prob_eq_zero _ _ fun c hc => h2 i c (Finset.mem_range.1 hi) hc
    rw [this]
    norm_num
  have y : ∑ i ∈ Finset.Ico b p.individuals.length, ((Selector.elitist s).select env p).prob (fun c => c.1 = i) ^ 4 =
      ∑ _i ∈ Finset.Ico b p.individuals.length, (1 / ((p.individuals.length - b : Nat) : ℚ)) ^ 4 := by
    refine Finset.sum_congr rfl fun i hi => ?_
    obtain ⟨hi1, hi2⟩ := Finset.mem_Ico.1 hi
    rw [hm]
    exact congrArg (· ^ 4) (h1 i hi1 hi2)
  rw [z, y, Finset.sum_const, Nat.card_Ico, nsmul_eq_mul, zero_add]
  field_simp

/-! ### Examples -/

theorem numPop_unequal : PairwiseUnequal numPop := by
  intro i j x y hx hy
  have hi : i < 3 := (List.getElem?_eq_some_iff.1 hx).1
  have hj : j < 3 := (List.getElem?_eq_some_iff.1 hy).1
  have h : ∀ i : Fin 3, ∀ j : Fin 3, Individual.eq (numPop.individuals[i]'i.2) (numPop.individuals[j]'j.2) = true ↔ i = j := by decide +kernel
  have e := h ⟨i, hi⟩ ⟨j, hj⟩
  rw [Fin.mk.injEq] at e
  rw [← (List.getElem?_eq_some_iff.1 hx).2, ← (List.getElem?_eq_some_iff.1 hy).2]
  exact e

theorem numOps_return : OthersReturn numOps () where
  mutate _ := fun _ hr => ⟨_, hr, trivial⟩
  improve _ := fun _ hr => ⟨_, hr, trivial⟩
  evaluate _ := fun _ hr => ⟨_, hr, trivial⟩
  canSurvive _ _ _ := fun _ hr => ⟨_, hr, trivial⟩

/-- Three numbers, rank selection and the crossover rate 1: in 49 of 648 cases there is no crossover all the same. -/
theorem numPop_rank (env : NumEnv) (r : ReproParams Empty) (hs : r.parentSelector = .builtin .rank) (h1 : r.crossoverRate = F64.one) :
    (defaultBreed (crossPanics numOps) env () numPop r).probFail = 1 - 49 / 648 := by
  have hm : Always (IsMember numPop) (Selector.rank.select env numPop) :=
    C38_member env numPop (by decide) (by decide) .rank trivial (by simp) (by decide)
  rw [C142_unequal numOps env () numOps_return numPop r .rank hs hm numPop_unequal, h1, attempts, if_pos (by decide), chance_one]
  have e : ∀ i, i < 3 → (Selector.rank.select env numPop).prob (fun c => c.1 = i) = ((i : ℚ) + 1) / 6 := fun i hi => by
    refine (C40_probability numPop (by decide) i hi).trans ?_
    norm_num [numPop]
  have hl : numPop.individuals.length = 3 := rfl
  rw [hl, Finset.sum_range_succ, Finset.sum_range_succ, Finset.sum_range_succ, Finset.sum_range_zero, e 0 (by norm_num), e 1 (by norm_num), e 2 (by norm_num)]
  norm_num

end RG.Props
