import Verif.Props.CloneRate

/-!
# C143 — Which pairs breed crosses over, and in which order
-/

namespace RG.Props
open RG RG.Prog Arith
variable {I Mo U : Type} [Individual I]

/-- The model, except that crossover panics for the parents `x` and `y`, in this order: a panic of `breed` tells that it was called for them. -/
def pairPanics (M : EvoOps I Mo U) (x y : I) : EvoOps I Mo U :=
  { M with crossover := fun m a b => if (Individual.eq a x && Individual.eq b y) = true then .done .panic else M.crossover m a b }

/-- The indicator of these parents. -/
def isPair (x y : I) : Res (I × Option I) → ℚ
  | .ok (a, some b) => if (Individual.eq a x && Individual.eq b y) = true then 1 else 0
  | _ => 0

theorem expect_pair (M : EvoOps I Mo U) (env : NumEnv) (p : Population I) (r : ReproParams U) (s : Selector)
    (hs : r.parentSelector = .builtin s) (ht : Always (fun _ => True) (s.select env p)) (x y : I) :
    (breedParents M env p r).expect (isPair x y) =
      attempts p r.crossoverRate * (s.select env p).average fun c => (if Individual.eq c.2 x = true then 1 else 0) *
        (selectDistinct (s.select env p) c.2 3).prob fun d => d.any (fun d => Individual.eq d.2 y) = true := by
  unfold breedParents average
  rw [hs, expect_bind, ← expect_mul_left]
  refine expect_congr _ _ _ fun c hc => ?_
  obtain ⟨c, rfl, -⟩ := ht c hc
  show Prog.expect _ (isPair x y) = attempts p r.crossoverRate * ((if Individual.eq c.2 x = true then 1 else 0) *
    (selectDistinct (s.select env p) c.2 3).prob fun d => d.any (fun d => Individual.eq d.2 y) = true)
  set D := (if Individual.eq c.2 x = true then (1 : ℚ) else 0) *
    (selectDistinct (s.select env p) c.2 3).prob fun d => d.any (fun d => Individual.eq d.2 y) = true with hD
  have hcross : ∀ b : Bool, Prog.expect ((if b then DynSel.selectDistinct env M.selectors p 3 c.2 (.builtin s) >>= fun r =>
      pure (r.map Prod.snd) else pure none) >>= fun parent2 => (pure (c.2, parent2) : Prog (I × Option I))) (isPair x y) =
      (if b = true then 1 else 0) * D := by
    intro b
    cases b with
    | false => show (0 : ℚ) = 0 * _; rw [zero_mul]
    | true =>
      show Prog.expect ((selectDistinct (s.select env p) c.2 3 >>= fun r => pure (r.map Prod.snd)) >>= fun parent2 => pure (c.2, parent2)) (isPair x y) = _
      rw [if_pos rfl, one_mul, bind_assoc, expect_bind, hD, prob, ← expect_mul_left]
      refine expect_congr _ _ _ fun z _ => ?_
      rcases z with (_ | d) | _ | _
      · simp [isPair]
      · show (if (Individual.eq c.2 x && Individual.eq d.2 y) = true then (1 : ℚ) else 0) =
          (if Individual.eq c.2 x = true then 1 else 0) * (if Individual.eq d.2 y = true then 1 else 0)
        cases Individual.eq c.2 x <;> cases Individual.eq d.2 y <;> simp
      · simp [isPair]
      · simp [isPair]
  unfold attempts
  by_cases hl : p.individuals.length > 1
  · rw [if_pos hl, if_pos (show p.len > 1 from hl), bind_assoc, expect_bind, mul_comm, chance, prob, ← expect_mul_left]
    refine expect_congr _ _ _ fun u hu => ?_
    obtain ⟨k, hk, rfl⟩ := (yields_genF64 _).1 hu
    refine (hcross _).trans ?_
    rw [mul_comm]
  · rw [if_neg hl, if_neg (show ¬ p.len > 1 from hl)]
    refine (hcross false).trans ?_
    simp

/-! ### Theorems -/

/-- **C143** If no two individuals are equal, `breed` crosses over the individual `i` with the individual `j`, in this order, with the probability
`p i * p j * (1 + p i + p i ^ 2)`, times that of an attempt. -/
theorem C143_pair (M : EvoOps I Mo U) (env : NumEnv) (model : Mo) (hM : OthersReturn M model)
    (hc : ∀ a b, Always (fun _ => True) (M.crossover model a b)) (p : Population I) (r : ReproParams U)
    (s : Selector) (hs : r.parentSelector = .builtin s) (ht : Always (IsMember p) (s.select env p)) (hu : PairwiseUnequal p)
    (i j : Nat) (hij : i ≠ j) (x y : I) (hx : p.individuals[i]? = some x) (hy : p.individuals[j]? = some y) :
    (defaultBreed (pairPanics M x y) env model p r).probFail = attempts p r.crossoverRate *
      ((s.select env p).prob (fun c => c.1 = i) * (s.select env p).prob (fun c => c.1 = j) *
        (1 + (s.select env p).prob (fun c => c.1 = i) + (s.select env p).prob (fun c => c.1 = i) ^ 2)) := by
  have ht' : Always (fun _ => True) (s.select env p) := Always.mono ht fun _ _ => trivial
  have hM' : OthersReturn (pairPanics M x y) model := ⟨hM.mutate, hM.improve, hM.evaluate, hM.canSurvive⟩
  have hzero : ∀ (q : Prog I), Always (fun _ => True) q → q.probFail = 0 := fun q hq => by
    rw [probFail, ← expect_const q 0]
    refine expect_congr _ _ _ fun z hz => ?_
    obtain ⟨c, rfl, -⟩ := hq z hz
    rw [expect_const]
  have key : (defaultBreed (pairPanics M x y) env model p r).probFail = (breedParents (pairPanics M x y) env p r).expect (isPair x y) := by
    rw [defaultBreed_eq, probFail, expect_bind]
    refine expect_congr _ _ _ fun z hz => ?_
    obtain ⟨⟨a, o⟩, rfl, -⟩ := parents_total (pairPanics M x y) env p r s hs ht' z hz
    cases o with
    | none => exact hzero _ (after_total hM' r.mutationRate p a a)
    | some b =>
      show Prog.probFail ((if (Individual.eq a x && Individual.eq b y) = true then .done .panic else M.crossover model a b) >>= fun o =>
        breedMutate (pairPanics M x y) model r.mutationRate o >>= fun o => breedEnd (pairPanics M x y) model p (fitterParent a (some b)) o) =
        if (Individual.eq a x && Individual.eq b y) = true then 1 else 0
      split
      · rfl
      · refine hzero _ ?_
        rw [always_bind]
        exact Always.mono (hc a b) fun o _ => after_total hM' r.mutationRate p _ o
  rw [key, expect_pair _ env p r s hs ht']
  congr 1
  have e : ((s.select env p).average fun c => (if Individual.eq c.2 x = true then 1 else 0) *
        (selectDistinct (s.select env p) c.2 3).prob fun d => d.any (fun d => Individual.eq d.2 y) = true) =
      (s.select env p).average fun c => (if c.1 = i then (1 : ℚ) else 0) *
        ((s.select env p).prob (fun c => c.1 = j) *
          (1 + (s.select env p).prob (fun c => c.1 = i) + (s.select env p).prob (fun c => c.1 = i) ^ 2)) := by
    refine expect_congr _ _ _ fun z hz => ?_
    obtain ⟨c, rfl, hcm⟩ := ht z hz
    show (if Individual.eq c.2 x = true then (1 : ℚ) else 0) * _ = (if c.1 = i then (1 : ℚ) else 0) * _
    by_cases hci : c.1 = i
    · rw [if_pos hci, if_pos ((hu c.1 i c.2 x hcm.2 hx).2 hci), one_mul, one_mul, C142_some]
      have hrep : repeats (s.select env p) c.2 = (s.select env p).prob fun c => c.1 = i := by
        refine prob_congr _ _ _ fun d hd => ?_
        obtain ⟨d', e, hd'⟩ := ht _ hd
        cases e
        rw [hu d.1 c.1 d.2 c.2 hd'.2 hcm.2, hci]
      have hq : (s.select env p).prob (fun d => Individual.eq d.2 c.2 = false ∧ Individual.eq d.2 y = true) =
          (s.select env p).prob fun c => c.1 = j := by
        refine prob_congr _ _ _ fun d hd => ?_
        obtain ⟨d', e, hd'⟩ := ht _ hd
        cases e
        rw [hu d.1 j d.2 y hd'.2 hy, ← Bool.not_eq_true, hu d.1 c.1 d.2 c.2 hd'.2 hcm.2, hci]
        constructor
        · exact fun h => h.2
        · exact fun h => ⟨fun h' => hij (h'.symm.trans h), h⟩
      rw [hq, hrep, Finset.sum_range_succ, Finset.sum_range_succ, Finset.sum_range_succ, Finset.sum_range_zero]
      ring
    · rw [if_neg hci, if_neg fun h => hci ((hu c.1 i c.2 x hcm.2 hx).1 h), zero_mul, zero_mul]
  rw [e]
  have e2 : ∀ k : ℚ, ((s.select env p).average fun c => (if c.1 = i then (1 : ℚ) else 0) * k) = (s.select env p).prob (fun c => c.1 = i) * k := by
    intro k
    rw [mul_comm, prob, ← expect_mul_left]
    refine expect_congr _ _ _ fun z _ => ?_
    rcases z with z | _ | _
    · exact mul_comm _ _
    · simp
    · simp
  rw [e2]
  ring

/-- **C143** So of two individuals the one selected more often is more often the first parent of the two. -/
theorem C143_order (M : EvoOps I Mo U) (env : NumEnv) (model : Mo) (hM : OthersReturn M model)
    (hc : ∀ a b, Always (fun _ => True) (M.crossover model a b)) (p : Population I) (r : ReproParams U)
    (s : Selector) (hs : r.parentSelector = .builtin s) (ht : Always (IsMember p) (s.select env p)) (hu : PairwiseUnequal p)
    (i j : Nat) (hij : i ≠ j) (x y : I) (hx : p.individuals[i]? = some x) (hy : p.individuals[j]? = some y)
    (h : (s.select env p).prob (fun c => c.1 = i) ≤ (s.select env p).prob (fun c => c.1 = j)) :
    (defaultBreed (pairPanics M x y) env model p r).probFail ≤ (defaultBreed (pairPanics M y x) env model p r).probFail := by
  rw [C143_pair M env model hM hc p r s hs ht hu i j hij x y hx hy, C143_pair M env model hM hc p r s hs ht hu j i hij.symm y x hy hx]
  have ha : 0 ≤ attempts p r.crossoverRate := by
    unfold attempts
    split
    · exact chance_nonneg _
    · exact le_refl _
  have h1 := prob_nonneg (s.select env p) fun c => c.1 = i
  have h2 := prob_nonneg (s.select env p) fun c => c.1 = j
  set a := (s.select env p).prob fun c => c.1 = i
  set b := (s.select env p).prob fun c => c.1 = j
  refine mul_le_mul_of_nonneg_left ?_ ha
  rw [mul_comm b a]
  refine mul_le_mul_of_nonneg_left ?_ (mul_nonneg h1 h2)
  nlinarith

/-- **C143** By rank and by tournament the fitter of two is more often the first. -/
theorem C143_fitter_first (M : EvoOps I Mo U) (env : NumEnv) (model : Mo) (hM : OthersReturn M model)
    (hc : ∀ a b, Always (fun _ => True) (M.crossover model a b)) (p : Population I) (hn : p.individuals.length < 2 ^ 32) (r : ReproParams U)
    (hs : r.parentSelector = .builtin .rank ∨ ∃ s : TournamentSelection, s.size ≠ 0 ∧ r.parentSelector = .builtin (.tournament s))
    (hu : PairwiseUnequal p) (i j : Nat) (hij : i < j) (x y : I) (hx : p.individuals[i]? = some x) (hy : p.individuals[j]? = some y) :
    (defaultBreed (pairPanics M x y) env model p r).probFail ≤ (defaultBreed (pairPanics M y x) env model p r).probFail := by
  obtain ⟨hj, -⟩ := List.getElem?_eq_some_iff.1 hy
  have hp : p.individuals ≠ [] := by rintro h; rw [h] at hj; simp at hj
  have hpos : (0 : ℚ) < p.individuals.length := by exact_mod_cast List.length_pos_of_ne_nil hp
  have hijq : (i : ℚ) + 1 ≤ j := by exact_mod_cast hij
  have hi0 : (0 : ℚ) ≤ i := Nat.cast_nonneg i
  rcases hs with hs | ⟨s, h0, hs⟩
  · refine C143_order M env model hM hc p r .rank hs (C38_member env p hp (hn.le.trans (by norm_num)) .rank trivial (by simp) (fun _ => hn)) hu
      i j hij.ne x y hx hy ?_
    rw [show (Selector.rank.select env p).prob (fun c => c.1 = i) = _ from C40_probability p hn i (by omega),
      show (Selector.rank.select env p).prob (fun c => c.1 = j) = _ from C40_probability p hn j hj]
    exact div_le_div_of_nonneg_right (by linarith) (by positivity)
  · refine C143_order M env model hM hc p r (.tournament s) hs (C38_member env p hp (hn.le.trans (by norm_num)) _ h0 (by simp) (by simp)) hu
      i j hij.ne x y hx hy ?_
    rw [show ((Selector.tournament s).select env p).prob (fun c => c.1 = i) = _ from C39_probability s h0 p i (by omega),
      show ((Selector.tournament s).select env p).prob (fun c => c.1 = j) = _ from C39_probability s h0 p j hj]
    refine div_le_div_of_nonneg_right ?_ (by positivity)
    obtain ⟨k, hk⟩ := Nat.exists_eq_succ_of_ne_zero h0
    rw [hk]
    have step : ∀ a b : ℚ, 0 ≤ a → a ≤ b → ∀ n : Nat, (a + 1) ^ (n + 1) - a ^ (n + 1) ≤ (b + 1) ^ (n + 1) - b ^ (n + 1) := by
      intro a b ha hab n
      induction n with
      | zero => norm_num
      | succ n ih =>
        have h1 : (a + 1) ^ (n + 1) ≤ (b + 1) ^ (n + 1) := pow_le_pow_left₀ (by linarith) (by linarith) _
        have h2 : 0 ≤ (a + 1) ^ (n + 1) - a ^ (n + 1) := sub_nonneg.2 (pow_le_pow_left₀ ha (by linarith) _)
        have h3 : a * ((a + 1) ^ (n + 1) - a ^ (n + 1)) ≤ b * ((b + 1) ^ (n + 1) - b ^ (n + 1)) :=
          mul_le_mul hab ih h2 (ha.trans hab)
        have e : ∀ c : ℚ, (c + 1) ^ (n + 1 + 1) - c ^ (n + 1 + 1) = c * ((c + 1) ^ (n + 1) - c ^ (n + 1)) + (c + 1) ^ (n + 1) := fun c => by ring
        rw [e, e]
        linarith
    exact step i j hi0 (by linarith) k

/-- **C143** By elitist selection all ordered pairs of the top `m` are equally likely. -/
theorem C143_elitist (M : EvoOps I Mo U) (env : NumEnv) (model : Mo) (hM : OthersReturn M model)
    (hc : ∀ a b, Always (fun _ => True) (M.crossover model a b)) (p : Population I) (hn : p.individuals.length ≤ 2 ^ 53) (r : ReproParams U)
    (s : ElitistSelection) (hr : s.ratio.isFinite = true ∧ 0 ≤ s.ratio.val ∧ s.ratio.val < 1) (hs : r.parentSelector = .builtin (.elitist s))
    (hu : PairwiseUnequal p) (m : Nat) (hm : m + ⌊rndQ (p.individuals.length * s.ratio.val)⌋.toNat = p.individuals.length)
    (i j : Nat) (hij : i ≠ j) (x y : I) (hx : p.individuals[i]? = some x) (hy : p.individuals[j]? = some y) :
    (defaultBreed (pairPanics M x y) env model p r).probFail =
      if p.individuals.length ≤ i + m ∧ p.individuals.length ≤ j + m then
        attempts p r.crossoverRate * ((1 / (m : ℚ)) ^ 2 * (1 + 1 / (m : ℚ) + (1 / (m : ℚ)) ^ 2)) else 0 := by
  obtain ⟨hi, -⟩ := List.getElem?_eq_some_iff.1 hx
  obtain ⟨hj, -⟩ := List.getElem?_eq_some_iff.1 hy
  have hp : p.individuals ≠ [] := by rintro h; rw [h] at hj; simp at hj
  obtain ⟨b, hb, hlt, h1, h2⟩ := C41_uniform s hr p hp hn
  rw [← hb] at hm
  have hmq : (p.individuals.length : ℚ) - b = m := by rw [← hm]; push_cast; ring
  have hpr : ∀ k, k < p.individuals.length → ((Selector.elitist s).select env p).prob (fun c => c.1 = k) =
      if p.individuals.length ≤ k + m then 1 / (m : ℚ) else 0 := by
    intro k hk
    split
    · rw [← hmq]; exact h1 k (by omega) hk
    · exact prob_eq_zero _ _ fun c hc => h2 k c (by omega) hc
  rw [C143_pair M env model hM hc p r _ hs (C38_member env p hp hn _ hr (by simp) (by simp)) hu i j hij x y hx hy, hpr i hi, hpr j hj]
  by_cases h3 : p.individuals.length ≤ i + m
  · by_cases h4 : p.individuals.length ≤ j + m
    · simp only [h3, h4, and_self, if_true]
      ring
    · simp [h4]
  · simp [h3]

/-! ### Example -/

/-- Three numbers, rank selection and the crossover rate 1: 5 is crossed with 1 in 63 of 432 cases, 1 with 5 in 43. -/
example (env : NumEnv) (r : ReproParams Empty) (hs : r.parentSelector = .builtin .rank) (h1 : r.crossoverRate = F64.one) :
    (defaultBreed (pairPanics numOps (num 5) (num 1)) env () numPop r).probFail = 63 / 432 ∧
    (defaultBreed (pairPanics numOps (num 1) (num 5)) env () numPop r).probFail = 43 / 432 := by
  have hm : Always (IsMember numPop) (Selector.rank.select env numPop) :=
    C38_member env numPop (by decide) (by decide) .rank trivial (by simp) (by decide)
  have e : ∀ i, i < 3 → (Selector.rank.select env numPop).prob (fun c => c.1 = i) = ((i : ℚ) + 1) / 6 := fun i hi => by
    refine (C40_probability numPop (by decide) i hi).trans ?_
    norm_num [numPop]
  have hc : ∀ a b, Always (fun _ => True) (numOps.crossover () a b) := fun _ _ _ hr => ⟨_, hr, trivial⟩
  rw [C143_pair numOps env () numOps_return hc numPop r .rank hs hm numPop_unequal 2 0 (by norm_num) _ _ rfl rfl,
    C143_pair numOps env () numOps_return hc numPop r .rank hs hm numPop_unequal 0 2 (by norm_num) _ _ rfl rfl, h1, attempts, if_pos (by decide), chance_one,
    e 0 (by norm_num), e 2 (by norm_num)]
  norm_num

end RG.Props
