import Verif.Props.Slow
import Verif.Props.Speed
import Verif.Props.OneMaxConvergence

/-! # How fast mutations add ones -/

set_option linter.unusedSectionVars false

namespace RG.Props
open RG RG.Prog
variable {Q : Type}

theorem ones_copied_gain {g g' : List Bool} {a b : Nat} (h : CopiedOver g g' a b) (hg : ones g + 1 ≤ ones g') :
    g[a]? = some true ∧ g[b]? = some false := by
  rw [(copiedOver_iff g g' a b h.ne h.ha h.hb).1 h, ones, ones, List.count_set h.hb] at hg
  have ha := h.ha
  have hb := h.hb
  rw [List.getElem?_eq_getElem ha, List.getElem?_eq_getElem hb]
  have hpos : g[b] = true → 0 < g.count true := fun h => List.count_pos_iff.2 (h ▸ List.getElem_mem _)
  cases e1 : g[a] <;> cases e2 : g[b] <;> simp_all
  · omega
  · have := List.count_pos_iff.2 hpos
    omega

/-- One mutation adds a `true` bit with probability at most `k (n - k) / (n (n - 1))`, for `k` such bits of `n`. -/
theorem mutate_gains_le (x : OneMax) (hn : 2 ≤ x.genome.length) :
    (OneMax.mutate x).prob (fun y => ones x.genome + 1 ≤ ones y.genome) ≤
      (ones x.genome * (x.genome.length - ones x.genome) : ℚ) / (x.genome.length * (x.genome.length - 1)) := by
  have h1 : (1 : ℚ) ≤ x.genome.length := by exact_mod_cast (by omega : 1 ≤ x.genome.length)
  obtain ⟨cp, c1, c2⟩ := prob_mutate x hn (fun y => ones x.genome + 1 ≤ ones y.genome)
  have e : ((x.genome.length : ℚ) - ones x.genome) = x.genome.count false := by
    have := count_true_add_false x.genome
    rw [← this]; push_cast; simp [ones]
  rw [c2]
  unfold pairAverage
  rw [e, ← sum_pairs x.genome true false (by simp)]
  refine div_le_div_of_nonneg_right ?_ (mul_nonneg (by linarith) (by linarith))
  refine Finset.sum_le_sum fun a ha => Finset.sum_le_sum fun b hb => ?_
  have hne : a ≠ b := (Finset.mem_erase.1 hb).1.symm
  have hc := c1 a b (Finset.mem_range.1 ha) (Finset.mem_range.1 (Finset.mem_erase.1 hb).2) hne
  show (if ones x.genome + 1 ≤ ones (cp a b) then (1 : ℚ) else 0) ≤ _
  by_cases hp : ones x.genome + 1 ≤ ones (cp a b)
  · rw [if_pos hp, if_pos (ones_copied_gain hc hp)]
  · rw [if_neg hp]; split <;> norm_num

/-- The chance that a mutation of `b` ones of `n` gains one. -/
def gainChance (n b : Nat) : ℚ := (b * (n - b) : ℚ) / (n * (n - 1))

theorem gainChance_nonneg {n b : Nat} (hn : 2 ≤ n) (hb : b ≤ n) : 0 ≤ gainChance n b := by
  have h1 : (2 : ℚ) ≤ n := by exact_mod_cast hn
  have h2 : (b : ℚ) ≤ n := by exact_mod_cast hb
  exact div_nonneg (mul_nonneg (Nat.cast_nonneg _) (by linarith)) (mul_nonneg (by linarith) (by linarith))

theorem gainChance_le_one {n b : Nat} (hn : 2 ≤ n) (hb : b ≤ n) : gainChance n b ≤ 1 := by
  have h1 : (2 : ℚ) ≤ n := by exact_mod_cast hn
  have h2 : (b : ℚ) ≤ n := by exact_mod_cast hb
  unfold gainChance
  rw [div_le_one (mul_pos (by linarith) (by linarith))]
  rcases Nat.eq_zero_or_pos b with rfl | hp
  · simp only [Nat.cast_zero, zero_mul]; exact mul_nonneg (by linarith) (by linarith)
  · have h3 : (1 : ℚ) ≤ b := by exact_mod_cast hp
    exact mul_le_mul h2 (by linarith) (by linarith) (by linarith)

/-- Without crossover, one more than `b` ones are reached from at most `b` only by a mutation, with probability at most
`b (n - b) / (n (n - 1))`. -/
theorem oneMax_only {n b : Nat} (hn2 : 2 ≤ n) (hn : n < 2 ^ 53) (hb : b < n) {rate : F64} (hrate : F64.zero.lt rate = false) :
    OnlyMutation OneMax.model () (fun x => (x.genome.length = n ∧ ∀ b ∈ x.genome, True) ∧ Evaluated OneMax.model x) (oneLevel n b)
      (gainChance n b) rate where
  copy := by
    rintro x ⟨⟨hl, -⟩, hev⟩ hno
    rw [← evaluated_oneMax hev, oneLevel_le x hl hn hb] at hno
    have hlen : ∀ y, (OneMax.mutate x).yields (.ok y) → y.genome.length = n := fun y hy =>
      (((C63_operators (fun _ => True) n (by omega)).mutate () x ⟨hl, by simp⟩).partially y hy).1
    constructor
    · intro c hc
      have hc : ((pure x : Prog OneMax) >>= fun y => pure (OneMax.evaluate y)).yields (.ok c) := hc
      rw [bind_pure_left, yields_pure] at hc
      cases hc
      rwa [oneLevel_le x hl hn hb]
    · show (OneMax.mutate x >>= fun y => pure y >>= fun y => pure (OneMax.evaluate y)).prob _ ≤ _
      simp only [bind_pure_left]
      rw [prob_bind_pure _ _ OneMax.evaluate (fun _ _ => rfl)]
      rcases Nat.lt_or_ge (ones x.genome) b with h | h
      · refine le_trans (le_of_eq (prob_eq_zero _ _ fun y hy hk => ?_)) (gainChance_nonneg hn2 hb.le)
        rw [oneLevel_le y (hlen y hy) hn hb] at hk
        have hy : (OneMax.mutate x).yields (.ok y) := hy
        unfold OneMax.mutate at hy
        obtain ⟨g, h1, h2⟩ := (yields_bind_ok _ _ _).1 hy
        cases (yields_pure _ _).1 h2
        have := duplicate_ones _ _ h1
        have hk : b + 1 ≤ ones g := hk
        omega
      · have e : ones x.genome = b := by omega
        refine (prob_mono _ _ (fun y => ones x.genome + 1 ≤ ones y.genome) fun y hy hk => ?_).trans ((mutate_gains_le x (by omega)).trans_eq ?_)
        · rw [oneLevel_le y (hlen y hy) hn hb] at hk
          omega
        · rw [e, hl]; rfl
  cross h := by rw [hrate] at h; cases h

/-! ### The largest number of ones -/

/-- The largest number of ones of an individual of the population. -/
def mostOnes (pop : Population OneMax) : Nat := (pop.individuals.map fun x => ones x.genome).foldr max 0

theorem le_mostOnes {pop : Population OneMax} {x : OneMax} (hx : x ∈ pop.individuals) : ones x.genome ≤ mostOnes pop := by
  unfold mostOnes
  revert hx
  generalize pop.individuals = l
  intro hx
  induction l with
  | nil => cases hx
  | cons y l ih =>
    rw [List.map_cons, List.foldr_cons]
    rcases List.mem_cons.1 hx with rfl | hx
    · exact le_max_left _ _
    · exact (ih hx).trans (le_max_right _ _)

theorem mostOnes_le {pop : Population OneMax} {b : Nat} (h : ∀ x ∈ pop.individuals, ones x.genome ≤ b) : mostOnes pop ≤ b := by
  unfold mostOnes
  revert h
  generalize pop.individuals = l
  intro h
  induction l with
  | nil => exact Nat.zero_le _
  | cons y l ih =>
    rw [List.map_cons, List.foldr_cons]
    exact max_le (h y (by simp)) (ih fun x hx => h x (by simp [hx]))

theorem reached_iff_mostOnes {n b : Nat} (hn : n < 2 ^ 53) (hb : b < n) {pop : Population OneMax}
    (hl : ∀ x ∈ pop.individuals, x.genome.length = n) (hev : ∀ x ∈ pop.individuals, Evaluated OneMax.model x) :
    Reached (oneLevel n b) pop ↔ b + 1 ≤ mostOnes pop := by
  have key : ∀ x ∈ pop.individuals, (oneLevel n b).le (fitness x) = true ↔ b + 1 ≤ ones x.genome := fun x hx => by
    rw [← oneLevel_le x (hl x hx) hn hb, evaluated_oneMax (hev x hx)]
  constructor
  · rintro ⟨x, hx, h⟩
    exact ((key x hx).1 h).trans (le_mostOnes hx)
  · intro h
    by_contra hno
    have := mostOnes_le (pop := pop) (b := b) fun x hx => by
      by_contra hlt
      exact hno ⟨x, hx, (key x hx).2 (by omega)⟩
    omega

/-! ### The expected time -/

/-- `n (n - 1) / (j (n - j))`, the inverse of the chance that a mutation of `j` ones of `n` gains one, summed from `b` ones on. -/
def onesTime (n b : Nat) : ℚ := ∑ j ∈ Finset.Ico b n, (n * (n - 1) : ℚ) / (j * (n - j))

theorem onesTime_term {n j : Nat} (hj : j < n) : (0 : ℚ) ≤ (n * (n - 1) : ℚ) / (j * (n - j)) := by
  have h1 : (j : ℚ) + 1 ≤ n := by exact_mod_cast hj
  have h0 : (0 : ℚ) ≤ j := Nat.cast_nonneg _
  exact div_nonneg (mul_nonneg (by linarith) (by linarith)) (mul_nonneg h0 (by linarith))

theorem onesTime_nonneg (n b : Nat) : 0 ≤ onesTime n b := Finset.sum_nonneg fun _ hj => onesTime_term (Finset.mem_Ico.1 hj).2

theorem onesTime_anti (n : Nat) {b c : Nat} (h : b ≤ c) : onesTime n c ≤ onesTime n b :=
  Finset.sum_le_sum_of_subset_of_nonneg (Finset.Ico_subset_Ico_left h) fun _ hj _ => onesTime_term (Finset.mem_Ico.1 hj).2

theorem onesTime_end {n b : Nat} (h : n ≤ b) : onesTime n b = 0 := by
  unfold onesTime
  rw [Finset.Ico_eq_empty_of_le h, Finset.sum_empty]

theorem onesTime_succ {n b : Nat} (h : b < n) : onesTime n b = (n * (n - 1) : ℚ) / (b * (n - b)) + onesTime n (b + 1) :=
  Finset.sum_eq_sum_Ico_succ_bot h _

theorem term_mul_chance {n b : Nat} : (n * (n - 1) : ℚ) / (b * (n - b)) * gainChance n b ≤ 1 := by
  unfold gainChance
  rw [div_mul_div_comm, mul_comm ((b : ℚ) * _)]
  exact div_self_le_one _

/-- At least `(n - 1) H(n - b)`. -/
theorem harmonic_le_onesTime {n b : Nat} (hb : 1 ≤ b) (h : b ≤ n) : ((n : ℚ) - 1) * harmonic (n - b) ≤ onesTime n b := by
  induction hk : n - b generalizing b with
  | zero => rw [harmonic_zero, mul_zero]; exact onesTime_nonneg _ _
  | succ k ih =>
    have hlt : b < n := by omega
    have := ih (b := b + 1) (by omega) (by omega) (by omega)
    rw [onesTime_succ hlt, harmonic_succ, mul_add, add_comm]
    refine add_le_add ?_ this
    have hc : ((k + 1 : ℕ) : ℚ) = n - b := by rw [← Nat.cast_sub h]; congr 1; omega
    have hn1 : (b : ℚ) + 1 ≤ n := by exact_mod_cast hlt
    have hb1 : (1 : ℚ) ≤ b := by exact_mod_cast hb
    rw [hc, ← div_eq_mul_inv, div_le_div_iff₀ (by linarith) (mul_pos (by linarith) (by linarith))]
    nlinarith [mul_nonneg (mul_nonneg (by linarith : (0 : ℚ) ≤ n - 1) (by linarith : (0 : ℚ) ≤ n - b)) (by linarith : (0 : ℚ) ≤ n - b)]

end RG.Props
