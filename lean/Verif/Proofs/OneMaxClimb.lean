import Mathlib.NumberTheory.Harmonic.Defs
import Verif.Props.OneMaxOps
import Verif.Props.Wheel

/-! # Helper lemmas for C70: how the OneMax operators climb -/

set_option linter.unusedSectionVars false

namespace RG.Props
open RG RG.Prog

/-- Counting the positions of a value. -/
theorem sum_positions (g : List Bool) (v : Bool) :
    ∑ a ∈ Finset.range g.length, (if g[a]? = some v then (1 : ℚ) else 0) = g.count v := by
  induction g with
  | nil => simp
  | cons b g ih =>
    rw [List.length_cons, Finset.sum_range_succ', List.count_cons]
    simp only [List.getElem?_cons_succ, List.getElem?_cons_zero, Option.some.injEq, ih]
    by_cases h : b = v <;> simp [h]

theorem count_true_add_false (g : List Bool) : g.count true + g.count false = g.length := by
  induction g with
  | nil => rfl
  | cons b g ih => cases b <;> simp <;> omega

/-- Sum over ordered pairs of distinct positions with given different values. -/
theorem sum_pairs (g : List Bool) (v w : Bool) (h : v ≠ w) :
    ∑ a ∈ Finset.range g.length, ∑ b ∈ (Finset.range g.length).erase a,
      (if g[a]? = some v ∧ g[b]? = some w then (1 : ℚ) else 0) = g.count v * g.count w := by
  rw [← sum_positions g v, ← sum_positions g w, Finset.sum_mul]
  refine Finset.sum_congr rfl fun a ha => ?_
  rw [Finset.mul_sum, Finset.sum_erase]
  · refine Finset.sum_congr rfl fun b _ => ?_
    by_cases h1 : g[a]? = some v <;> by_cases h2 : g[b]? = some w <;> simp [h1, h2]
  · rw [if_neg]
    rintro ⟨h1, h2⟩
    rw [h1] at h2
    exact h (Option.some.inj h2)

theorem sum_pairs_const (n : Nat) (hn : 1 ≤ n) :
    ∑ a ∈ Finset.range n, ∑ _b ∈ (Finset.range n).erase a, (1 : ℚ) = n * (n - 1) := by
  rw [Finset.sum_congr rfl fun a ha => show ∑ _b ∈ (Finset.range n).erase a, (1 : ℚ) = n - 1 by
    rw [Finset.sum_const, Finset.card_erase_of_mem ha, Finset.card_range, nsmul_eq_mul, mul_one, Nat.cast_sub hn, Nat.cast_one]]
  rw [Finset.sum_const, Finset.card_range, nsmul_eq_mul]

theorem ones_copied {g g' : List Bool} {a b : Nat} (h : CopiedOver g g' a b) :
    (g[a]? = some true ∧ g[b]? = some false → ones g + 1 ≤ ones g') ∧
    (¬ (g[a]? = some false ∧ g[b]? = some true) → ones g ≤ ones g') := by
  rw [(copiedOver_iff g g' a b h.ne h.ha h.hb).1 h, List.getElem?_eq_getElem h.ha, List.getElem?_eq_getElem h.hb]
  simp only [Option.some.injEq]
  rw [ones, ones, List.count_set h.hb]
  have ha := h.ha
  have hb := h.hb
  have hpos : g[b] = true → 0 < g.count true := fun h => List.count_pos_iff.2 (h ▸ List.getElem_mem _)
  cases hga : g[a] <;> cases hgb : g[b] <;> simp
  have := hpos hgb
  omega

theorem prob_mutate (x : OneMax) (hn : 2 ≤ x.genome.length) (P : OneMax → Prop) [DecidablePred P] :
    ∃ cp : Nat → Nat → List Bool,
      (∀ a b, a < x.genome.length → b < x.genome.length → a ≠ b → CopiedOver x.genome (cp a b) a b) ∧
      (OneMax.mutate x).prob P = pairAverage x.genome.length fun a b => if P ⟨cp a b, x.fit⟩ then 1 else 0 := by
  unfold prob
  exact C63_mutate x hn _

/-- One mutation adds a `true` bit with probability at least `k (n - k) / (n (n - 1))`, for `k` such bits of `n`. -/
theorem mutate_gains (x : OneMax) (hn : 2 ≤ x.genome.length) :
    (ones x.genome * (x.genome.length - ones x.genome) : ℚ) / (x.genome.length * (x.genome.length - 1)) ≤
      (OneMax.mutate x).prob (fun y => ones x.genome + 1 ≤ ones y.genome) := by
  have h1 : (1 : ℚ) ≤ x.genome.length := by exact_mod_cast (by omega : 1 ≤ x.genome.length)
  obtain ⟨cp, c1, c2⟩ := prob_mutate x hn (fun y => ones x.genome + 1 ≤ ones y.genome)
  have e : ((x.genome.length : ℚ) - ones x.genome) = x.genome.count false := by
    have := count_true_add_false x.genome
    rw [← this]; push_cast; simp [ones]
  rw [c2]
  unfold pairAverage
  rw [e, ← sum_pairs x.genome true false (by simp)]
  refine div_le_div_of_nonneg_right ?_ (mul_nonneg (by linarith) (by linarith))
  refine Finset.sum_le_sum fun a ha => Finset.sum_le_sum fun b hb => ?_
  have hne : a ≠ b := (Finset.mem_erase.1 hb).1.symm
  have hc := c1 a b (Finset.mem_range.1 ha) (Finset.mem_range.1 (Finset.mem_erase.1 hb).2) hne
  show _ ≤ if ones x.genome + 1 ≤ ones (cp a b) then (1 : ℚ) else 0
  by_cases hp : x.genome[a]? = some true ∧ x.genome[b]? = some false
  · rw [if_pos hp, if_pos ((ones_copied hc).1 hp)]
  · rw [if_neg hp]; split <;> norm_num

/-- One mutation does not lose a `true` bit with probability at least `1/2`. -/
theorem mutate_keeps (x : OneMax) (hn : 2 ≤ x.genome.length) :
    1 / 2 ≤ (OneMax.mutate x).prob (fun y => ones x.genome ≤ ones y.genome) := by
  have h1 : (2 : ℚ) ≤ x.genome.length := by exact_mod_cast hn
  obtain ⟨cp, c1, c2⟩ := prob_mutate x hn (fun y => ones x.genome ≤ ones y.genome)
  have hcnt := count_true_add_false x.genome
  have e : (x.genome.count true : ℚ) + x.genome.count false = x.genome.length := by exact_mod_cast hcnt
  rw [c2]
  unfold pairAverage
  have hd : (0 : ℚ) < x.genome.length * (x.genome.length - 1) := mul_pos (by linarith) (by linarith)
  rw [div_le_div_iff₀ (by norm_num) hd, one_mul]
  have hle : (x.genome.length * (x.genome.length - 1) : ℚ) - x.genome.count false * x.genome.count true ≤
      ∑ a ∈ Finset.range x.genome.length, ∑ b ∈ (Finset.range x.genome.length).erase a,
        (if ones x.genome ≤ ones (cp a b) then (1 : ℚ) else 0) := by
    rw [← sum_pairs_const _ (by omega), ← sum_pairs x.genome false true (by simp), ← Finset.sum_sub_distrib]
    refine Finset.sum_le_sum fun a ha => ?_
    rw [← Finset.sum_sub_distrib]
    refine Finset.sum_le_sum fun b hb => ?_
    have hne : a ≠ b := (Finset.mem_erase.1 hb).1.symm
    have hc := c1 a b (Finset.mem_range.1 ha) (Finset.mem_range.1 (Finset.mem_erase.1 hb).2) hne
    by_cases hp : x.genome[a]? = some false ∧ x.genome[b]? = some true
    · rw [if_pos hp]; split <;> norm_num
    · rw [if_neg hp, if_pos ((ones_copied hc).2 hp)]; norm_num
  refine le_trans ?_ (mul_le_mul_of_nonneg_right hle (by norm_num))
  have hsq := sq_nonneg ((x.genome.count true : ℚ) - x.genome.count false)
  nlinarith

/-- The fitness of `i + 1` ones of `n` bits. -/
def oneLevel (n i : Nat) : F64 := (F64.ofNat (i + 1)).div (F64.ofNat n)

theorem oneLevel_le {n i : Nat} (x : OneMax) (hl : x.genome.length = n) (hn : n < 2 ^ 53) (hi : i < n) :
    (oneLevel n i).le (fitness (OneMax.evaluate x)) = true ↔ i + 1 ≤ ones x.genome := by
  obtain ⟨y, hyl, hyo⟩ : ∃ y : OneMax, y.genome.length = n ∧ ones y.genome = i + 1 :=
    ⟨⟨List.replicate (i + 1) true ++ List.replicate (n - (i + 1)) false, F64.zero⟩, by simp; omega, by
      simp [ones, List.count_append, List.count_replicate]⟩
  have e : oneLevel n i = fitness (OneMax.evaluate y) := by
    show _ = (F64.ofNat (y.genome.filter fun one => one).length).div (F64.ofNat y.genome.length)
    rw [filter_ones, hyl, hyo]; rfl
  have hx0 : x.genome ≠ [] := by rintro h; rw [h] at hl; simp at hl; omega
  have hy0 : y.genome ≠ [] := by rintro h; rw [h] at hyl; simp at hyl; omega
  have hs := C63_strict x y hx0 (by omega) (by omega)
  obtain ⟨-, f1, -⟩ := C63_ratio x hx0 (by omega)
  obtain ⟨-, f2, -⟩ := C63_ratio y hy0 (by omega)
  rw [e, ← hyo]
  rw [F64.lt_finite f1 f2] at hs
  rw [F64.le_finite f2 f1, ← not_lt, ← not_lt, hs]

theorem evaluated_oneMax {o : OneMax} (h : Evaluated OneMax.model o) : OneMax.evaluate o = o := by
  obtain ⟨m, y, hy⟩ := h
  have hy : (pure (OneMax.evaluate y) : Prog OneMax).yields (.ok o) := hy
  rw [yields_pure] at hy
  cases hy
  rfl

/-- The lower bounds of climbing. -/
def oneChance (n i : Nat) : ℚ := ((i + 1 : Nat) * (n - (i + 1 : Nat)) : ℚ) / (n * (n - 1))

theorem oneChance_bounds {n i : Nat} (hi : i + 1 < n) : 0 < oneChance n i ∧ oneChance n i ≤ 1 / 2 ∧ 1 / (n : ℚ) ≤ oneChance n i := by
  have h1 : ((i + 1 : Nat) : ℚ) + 1 ≤ n := by exact_mod_cast hi
  have h0 : (1 : ℚ) ≤ (i + 1 : Nat) := by exact_mod_cast (by omega : 1 ≤ i + 1)
  unfold oneChance
  generalize ((i + 1 : Nat) : ℚ) = k at *
  have hn : (2 : ℚ) ≤ n := by linarith
  have hd : (0 : ℚ) < n * (n - 1) := mul_pos (by linarith) (by linarith)
  refine ⟨div_pos (mul_pos (by linarith) (by linarith)) hd, ?_, ?_⟩
  · rw [div_le_div_iff₀ hd (by norm_num)]
    have hsq := sq_nonneg ((n : ℚ) - 2 * k)
    nlinarith
  · rw [div_le_div_iff₀ (by linarith) hd, one_mul]
    have : 0 ≤ (k - 1) * (n - 1 - k) := mul_nonneg (by linarith) (by linarith)
    nlinarith

/-- A mutation of an individual with `i + 1` ones, whether evaluated or not. -/
theorem oneMax_mutates {n i : Nat} (hn : n < 2 ^ 53) (hi : i + 1 < n) (o : OneMax) (hl : o.genome.length = n)
    (hlo : i + 1 ≤ ones o.genome) :
    oneChance n i ≤ (OneMax.mutate o >>= fun y => pure y >>= fun y => pure (OneMax.evaluate y)).prob
      (fun c => isValid c = true ∧ (oneLevel n (i + 1)).le (fitness c) = true) := by
  have hm : 2 ≤ o.genome.length := by omega
  have hP : ∀ y : OneMax, y.genome.length = n → i + 2 ≤ ones y.genome →
      isValid (OneMax.evaluate y) = true ∧ (oneLevel n (i + 1)).le (fitness (OneMax.evaluate y)) = true := fun y hy h =>
    ⟨(C63_ratio y (by rintro h; rw [h] at hy; simp at hy; omega) (by omega)).2.2.2.2.2, (oneLevel_le y hy hn (by omega)).2 h⟩
  simp only [bind_pure_left]
  rw [prob_bind_pure _ _ OneMax.evaluate (fun _ _ => rfl)]
  have hlen : ∀ y, (OneMax.mutate o).yields (.ok y) → y.genome.length = n := fun y hy =>
    (((C63_operators (fun _ => True) n (by omega)).mutate () o ⟨hl, by simp⟩).partially y hy).1
  rcases Nat.lt_or_eq_of_le hlo with h | h
  · refine (oneChance_bounds hi).2.1.trans ((mutate_keeps o hm).trans (prob_mono _ _ _ fun y hy hk => ?_))
    exact hP y (hlen y hy) (by omega)
  · refine le_trans (le_of_eq ?_) ((mutate_gains o hm).trans (prob_mono _ _ _ fun y hy hk => hP y (hlen y hy) (by omega)))
    unfold oneChance
    rw [h, hl]

theorem oneMax_climbs {n i : Nat} (hn : n < 2 ^ 53) (hi : i + 1 < n) :
    MutationClimbs OneMax.model () (fun x => x.genome.length = n ∧ ∀ b ∈ x.genome, True) (oneLevel n i) (oneLevel n (i + 1))
      (oneChance n i) := by
  rintro o ⟨hl, -⟩ hev - hlo -
  rw [← evaluated_oneMax hev, oneLevel_le o hl hn (by omega)] at hlo
  exact oneMax_mutates hn hi o hl hlo

/-- `1 / (1 - (1 - x) ^ m) ≤ 1 + 1 / (m x)`. -/
theorem waiting_le {x : ℚ} (h0 : 0 < x) (h1 : x ≤ 1) (m : Nat) (hm : 1 ≤ m) : 1 / (1 - (1 - x) ^ m) ≤ 1 + 1 / (m * x) := by
  have hmq : (1 : ℚ) ≤ m := by exact_mod_cast hm
  have hb : 1 + (m : ℚ) * x ≤ (1 + x) ^ m := one_add_mul_le_pow (by linarith) m
  have hp : 0 ≤ (1 - x) ^ m := pow_nonneg (by linarith) _
  have h2 : (1 + (m : ℚ) * x) * (1 - x) ^ m ≤ 1 := by
    refine (mul_le_mul_of_nonneg_right hb hp).trans ?_
    rw [← mul_pow]
    exact pow_le_one₀ (mul_nonneg (by linarith) (by linarith)) (by nlinarith)
  have hmx : 0 < (m : ℚ) * x := by positivity
  have hlt : (1 - x) ^ m < 1 := pow_lt_one₀ (by linarith) (by linarith) (by omega)
  rw [div_le_iff₀ (by linarith)]
  have e : 1 + 1 / ((m : ℚ) * x) = (1 + m * x) / (m * x) := by field_simp; ring
  rw [e, div_mul_eq_mul_div, le_div_iff₀ hmx]
  linarith

theorem sum_oneChance (n : Nat) (hn : 2 ≤ n) :
    ∑ i ∈ Finset.range (n - 1), 1 / oneChance n i = 2 * (n - 1) * harmonic (n - 1) := by
  have hnq : (2 : ℚ) ≤ n := by exact_mod_cast hn
  have h1 : ∀ i ∈ Finset.range (n - 1), 1 / oneChance n i = (n - 1) * ((↑(i + 1))⁻¹ + (↑(n - 1 - 1 - i + 1))⁻¹) := by
    intro i hi
    rw [Finset.mem_range] at hi
    have hk : ((i + 1 : Nat) : ℚ) + 1 ≤ n := by exact_mod_cast (by omega : i + 1 + 1 ≤ n)
    have hc : ((n - 1 - 1 - i + 1 : Nat) : ℚ) = n - (i + 1 : Nat) := by
      rw [eq_sub_iff_add_eq]; exact_mod_cast (by omega : n - 1 - 1 - i + 1 + (i + 1) = n)
    have h0 : (1 : ℚ) ≤ (i + 1 : Nat) := by exact_mod_cast (by omega : 1 ≤ i + 1)
    unfold oneChance
    rw [hc]
    generalize ((i + 1 : Nat) : ℚ) = k at *
    have hk0 : k ≠ 0 := by linarith
    have hnk : (n : ℚ) - k ≠ 0 := by linarith
    have hn1 : (n : ℚ) - 1 ≠ 0 := by linarith
    have hn0 : (n : ℚ) ≠ 0 := by linarith
    field_simp
    ring
  rw [Finset.sum_congr rfl h1, ← Finset.mul_sum, Finset.sum_add_distrib]
  rw [Finset.sum_range_reflect (fun i => ((↑(i + 1) : ℚ))⁻¹) (n - 1)]
  unfold harmonic
  push_cast
  ring

theorem selects_half {I : Type} [Individual I] {s : SelectionStrategy} {env : NumEnv} {ok : Population I → Prop} {target : F64}
    {B : Nat} (h : SelectsFit s env ok target (1 / B)) (hB : (1 : ℚ) ≤ B) : SelectsFit s env ok target (1 / (2 * B)) := by
  intro sel h1 pop h2 h3
  refine le_trans ?_ (h sel h1 pop h2 h3)
  exact one_div_le_one_div_of_le (by linarith) (by linarith)

theorem oneLevel_val {n i : Nat} (h0 : 0 < n) (hn : n < 2 ^ 53) (hi : i < n) :
    (oneLevel n i).isFinite = true ∧ (2 : ℚ) ^ (-53 : Int) ≤ (oneLevel n i).val := by
  have hpos : (0 : ℚ) < n := by exact_mod_cast h0
  have hiq : (i + 1 : ℚ) ≤ n := by exact_mod_cast hi
  obtain ⟨f1, v1⟩ := F64.ofNat_exact (n := i + 1) (by omega)
  obtain ⟨f2, v2⟩ := F64.ofNat_exact (n := n) (by omega)
  have hr : Rep (1 : ℚ) := by have := rep_nat (n := 1) (by norm_num); simpa using this
  have e := F64.div_finite f1 f2 (by rw [v2]; exact hpos.ne')
  rw [v1, v2] at e
  push_cast at e
  obtain ⟨g1, g2⟩ := F64.round_of_abs_le (s := (F64.ofNat (i + 1)).signBit ^^ (F64.ofNat n).signBit) hr
    (show |((i : ℚ) + 1) / n| ≤ 1 by rw [abs_of_nonneg (by positivity), div_le_one hpos]; exact hiq)
  unfold oneLevel
  rw [e]
  refine ⟨g1, ?_⟩
  rw [g2, ← pow2_eq]
  refine le_rndQ (fmt_pow2 (by norm_num)) ?_
  rw [pow2_eq, zpow_neg, le_div_iff₀ hpos]
  have h1 : (n : ℚ) ≤ 2 ^ 53 := by exact_mod_cast hn.le
  have h2 : (0 : ℚ) ≤ i := by positivity
  calc ((2 : ℚ) ^ (53 : Int))⁻¹ * n ≤ ((2 : ℚ) ^ (53 : Int))⁻¹ * 2 ^ 53 := mul_le_mul_of_nonneg_left h1 (by positivity)
    _ = 1 := by norm_num
    _ ≤ _ := by linarith

end RG.Props
