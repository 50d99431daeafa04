import Verif.Props.Strength
import Verif.Props.LinearF64

/-!
# C132: rank and linear selection are mixtures of a uniform choice and a tournament of two
-/

set_option linter.unusedSectionVars false

namespace RG.Props
open RG RG.Prog
variable {I : Type} [Individual I]

/-- Toss a coin that shows heads in `k` of `k + 1` cases: a tournament of two, else a uniform choice. -/
def coinTournament (k : Nat) (p : Population I) : Prog (Nat × I) := do
  let c ← Prog.uniform (k + 1)
  if c < k then (⟨2⟩ : TournamentSelection).select p else (⟨1⟩ : TournamentSelection).select p

theorem tournament_always (p : Population I) (hp : p.individuals ≠ []) (hn : p.individuals.length ≤ 2 ^ 53) (k : Nat) (hk : k ≠ 0) :
    Always (IsMember p) ((⟨k⟩ : TournamentSelection).select p) :=
  C38_member ⟨id, fun _ => F64.zero⟩ p hp hn (.tournament ⟨k⟩) hk (fun b h => by cases h) fun h => by cases h

/-- What linear selection returns is a member, if it does not panic. -/
theorem linear_partially (s : LinearSelection F64) (p : Population I) : Partially (IsMember p) (s.select p) := by
  intro r hr
  unfold LinearSelection.select at hr
  obtain ⟨u, -, hr⟩ := (yields_bind_ok _ _ _).1 hr
  obtain ⟨i, -, hr⟩ := (yields_bind_ok _ _ _).1 hr
  by_cases h : i < p.len
  · rw [memberAt_ok h, yields_lift] at hr
    cases hr
    exact ⟨h, List.getElem?_eq_getElem h⟩
  · unfold memberAt index at hr
    rw [List.getElem?_eq_none (Nat.le_of_not_lt h), yields_lift] at hr
    cases hr

/-- The average of a function of the result, index by index, whatever the probability of a panic. -/
theorem average_by_result {p : Population I} {q : Prog (Nat × I)} (hal : Partially (IsMember p) q) (g : Nat × I → ℚ) :
    q.average g = ∑ i ∈ Finset.range p.individuals.length,
      (if h : i < p.individuals.length then g (i, p.individuals[i]) else 0) * q.prob (fun r => r.1 = i) := by
  classical
  set G : Nat → ℚ := fun i => if h : i < p.individuals.length then g (i, p.individuals[i]) else 0
  have : ∀ i : Nat, G i * q.prob (fun r => r.1 = i) =
      q.expect (fun r => G i * (match r with | .ok r => if r.1 = i then 1 else 0 | _ => 0)) := fun i => by
    rw [expect_mul_left]
    congr 1
    unfold prob
    refine expect_congr _ _ _ fun r _ => ?_
    cases r <;> simp
  rw [Finset.sum_congr rfl fun i _ => this i, ← expect_sum]
  refine expect_congr _ _ _ fun r hr => ?_
  cases r with
  | ok r =>
    obtain ⟨ha1, ha2⟩ := hal r hr
    simp only [mul_ite, mul_one, mul_zero]
    rw [Finset.sum_ite_eq, if_pos (Finset.mem_range.2 ha1)]
    simp only [G, dif_pos ha1]
    rw [List.getElem?_eq_getElem ha1] at ha2
    rw [Option.some.inj ha2]
  | panic => simp
  | diverge => simp

/-- **C132** (rank) Rank selection from `n` individuals is a tournament of two in `n` of `n + 1` cases and a uniform choice in the other:
no measure of the result, be it of the position or of the individual, tells the difference. -/
theorem C132_rank (p : Population I) (hp : p.individuals ≠ []) (hn : p.individuals.length < 2 ^ 32) (g : Nat × I → ℚ) :
    (rankSelect p).average g =
      (p.individuals.length : ℚ) / (p.individuals.length + 1) * ((⟨2⟩ : TournamentSelection).select p).average g +
      1 / ((p.individuals.length : ℚ) + 1) * ((⟨1⟩ : TournamentSelection).select p).average g := by
  have hr : Always (IsMember p) (rankSelect p) := C38_member ⟨id, fun _ => F64.zero⟩ p hp (hn.le.trans (by norm_num)) .rank trivial
    (fun b h => by cases h) fun _ => hn
  have ht := tournament_always p hp (hn.le.trans (by norm_num))
  have h0 : (p.individuals.length : ℚ) ≠ 0 := by exact_mod_cast (List.length_pos_iff.2 hp).ne'
  have h1 : (p.individuals.length : ℚ) + 1 ≠ 0 := by positivity
  rw [average_by_result hr.partially, average_by_result (ht 2 (by decide)).partially,
    average_by_result (ht 1 (by decide)).partially, Finset.mul_sum, Finset.mul_sum, ← Finset.sum_add_distrib]
  refine Finset.sum_congr rfl fun i hi => ?_
  have hi := Finset.mem_range.1 hi
  rw [C40_probability p hn i hi, C39_probability ⟨2⟩ (by decide) p i hi, C39_probability ⟨1⟩ (by decide) p i hi]
  field_simp
  ring

theorem prob_as_average (q : Prog (Nat × I)) (P : Nat × I → Prop) [DecidablePred P] : q.prob P = q.average fun r => if P r then 1 else 0 := by
  unfold prob average
  exact expect_congr _ _ _ fun r _ => by cases r <;> rfl

/-- **C132** (rank) The same as a program: the two have the same distribution. -/
theorem C132_rank_coin (p : Population I) (hp : p.individuals ≠ []) (hn : p.individuals.length < 2 ^ 32) (P : Nat × I → Prop)
    [DecidablePred P] : (rankSelect p).prob P = (coinTournament p.individuals.length p).prob P := by
  have h1 : (p.individuals.length : ℚ) + 1 ≠ 0 := by positivity
  rw [prob_as_average, C132_rank p hp hn, ← prob_as_average, ← prob_as_average]
  have e : (coinTournament p.individuals.length p).prob P = (∑ c ∈ Finset.range (p.individuals.length + 1),
      (if c < p.individuals.length then (⟨2⟩ : TournamentSelection).select p else (⟨1⟩ : TournamentSelection).select p).prob P) /
        ((p.individuals.length + 1 : Nat) : ℚ) := by
    rw [coinTournament, prob, expect_bind, expect_uniform _ (by omega)]
    rfl
  rw [e, Finset.sum_range_succ, if_neg (lt_irrefl _),
    Finset.sum_congr rfl (g := fun _ => ((⟨2⟩ : TournamentSelection).select p).prob P) fun c hc => by rw [if_pos (Finset.mem_range.1 hc)],
    Finset.sum_const, Finset.card_range, nsmul_eq_mul]
  push_cast
  field_simp

/-- The probability of the `T` fittest in a tournament. -/
theorem tournament_top (p : Population I) (hp : p.individuals ≠ []) (hn : p.individuals.length ≤ 2 ^ 53) (k : Nat) (hk : k ≠ 0) (T : Nat)
    (hT : T ≤ p.individuals.length) :
    ((⟨k⟩ : TournamentSelection).select p).prob (fun r => p.individuals.length ≤ r.1 + T) = 1 - (1 - (T : ℚ) / p.individuals.length) ^ k := by
  have h0 : (p.individuals.length : ℚ) ≠ 0 := by exact_mod_cast (List.length_pos_iff.2 hp).ne'
  have h := C131_tournament ⟨k⟩ hk p hp (p.individuals.length - T) (by omega)
  have h2 := prob_or ((⟨k⟩ : TournamentSelection).select p) (fun r => r.1 < p.individuals.length - T)
    (fun r => p.individuals.length ≤ r.1 + T) fun r h1 h2 => by omega
  rw [prob_eq_one_of_always _ _ ((tournament_always p hp hn k hk).mono fun r _ => by omega), h] at h2
  rw [eq_sub_of_add_eq' h2.symm]
  push_cast [hT]
  rw [sub_div, div_self h0]

/-- **C132** (linear) Linear selection with the bias `b` is a tournament of two with probability `b - 1` and a uniform choice with
probability `2 - b`, up to the rounding errors of `f64`: the `T` fittest are selected as often. -/
theorem C132_linear (b : F64) (hf : b.isFinite = true) (h1 : 1 < b.val) (h2 : b.val ≤ 2) (p : Population I) (hp : p.individuals ≠ [])
    (hn : p.individuals.length ≤ 2 ^ 53) (T : Nat) (hT : T ≤ p.individuals.length) :
    |((⟨b⟩ : LinearSelection F64).select p).prob (fun r => p.individuals.length ≤ r.1 + T) -
      ((b.val - 1) * ((⟨2⟩ : TournamentSelection).select p).prob (fun r => p.individuals.length ≤ r.1 + T) +
        (2 - b.val) * ((⟨1⟩ : TournamentSelection).select p).prob (fun r => p.individuals.length ≤ r.1 + T))| ≤
      1 / 2 ^ 48 / (b.val - 1) := by
  rw [tournament_top p hp hn 2 (by decide) T hT, tournament_top p hp hn 1 (by decide) T hT]
  convert C84_share b hf h1 h2 p hn T hT using 2
  ring

/-- **C132** (linear) And so is each position. -/
theorem C132_linear_each (b : F64) (hf : b.isFinite = true) (h1 : 1 < b.val) (h2 : b.val ≤ 2) (p : Population I)
    (hn : p.individuals.length ≤ 2 ^ 53) (i : Nat) (hi : i < p.individuals.length) :
    |((⟨b⟩ : LinearSelection F64).select p).prob (fun r => r.1 = i) -
      ((b.val - 1) * ((⟨2⟩ : TournamentSelection).select p).prob (fun r => r.1 = i) +
        (2 - b.val) * ((⟨1⟩ : TournamentSelection).select p).prob (fun r => r.1 = i))| ≤ 1 / 2 ^ 47 / (b.val - 1) := by
  have h0 : (p.individuals.length : ℚ) ≠ 0 := by exact_mod_cast (show p.individuals.length ≠ 0 by omega)
  rw [C39_probability ⟨2⟩ (by decide) p i hi, C39_probability ⟨1⟩ (by decide) p i hi]
  convert C84_probability b hf h1 h2 p hn i hi using 3
  field_simp
  ring

/-- **C132** (linear, measures) Every measure between `-B` and `B` has nearly the average of the mixture. -/
theorem C132_linear_average (b : F64) (hf : b.isFinite = true) (h1 : 1 < b.val) (h2 : b.val ≤ 2) (p : Population I)
    (hp : p.individuals ≠ []) (hn : p.individuals.length ≤ 2 ^ 53) (g : Nat × I → ℚ) (B : ℚ) (hB : ∀ r, IsMember p r → |g r| ≤ B) :
    |((⟨b⟩ : LinearSelection F64).select p).average g -
      ((b.val - 1) * ((⟨2⟩ : TournamentSelection).select p).average g +
        (2 - b.val) * ((⟨1⟩ : TournamentSelection).select p).average g)| ≤ p.individuals.length * (B / 2 ^ 47 / (b.val - 1)) := by
  rw [average_by_result (linear_partially ⟨b⟩ p), average_by_result (tournament_always p hp hn 2 (by decide)).partially,
    average_by_result (tournament_always p hp hn 1 (by decide)).partially, Finset.mul_sum, Finset.mul_sum, ← Finset.sum_add_distrib,
    ← Finset.sum_sub_distrib]
  refine (Finset.abs_sum_le_sum_abs _ _).trans ?_
  refine (Finset.sum_le_card_nsmul _ _ (B / 2 ^ 47 / (b.val - 1)) fun i hi => ?_).trans_eq (by rw [Finset.card_range, nsmul_eq_mul])
  have hi := Finset.mem_range.1 hi
  have hg := hB (i, p.individuals[i]) ⟨hi, List.getElem?_eq_getElem hi⟩
  have hc := C132_linear_each b hf h1 h2 p hn i hi
  rw [dif_pos hi]
  have e : ∀ G x y z c d : ℚ, G * x - (c * (G * y) + d * (G * z)) = G * (x - (c * y + d * z)) := fun G x y z c d => by ring
  rw [e, abs_mul]
  refine (mul_le_mul hg hc (abs_nonneg _) ((abs_nonneg _).trans hg)).trans_eq ?_
  ring

/-- **C132** (bias 2) Linear selection with the largest bias is a tournament of two, up to `2^-48`. -/
theorem C132_bias_two (b : F64) (hf : b.isFinite = true) (hb : b.val = 2) (p : Population I) (hp : p.individuals ≠ [])
    (hn : p.individuals.length ≤ 2 ^ 53) (T : Nat) (hT : T ≤ p.individuals.length) :
    |((⟨b⟩ : LinearSelection F64).select p).prob (fun r => p.individuals.length ≤ r.1 + T) -
      ((⟨2⟩ : TournamentSelection).select p).prob (fun r => p.individuals.length ≤ r.1 + T)| ≤ 1 / 2 ^ 48 := by
  have h := C132_linear b hf (by rw [hb]; norm_num) hb.le p hp hn T hT
  rw [hb] at h
  norm_num at h ⊢
  exact h

/-- **C132** (rank as linear selection) Rank selection from `n` individuals is linear selection with the bias `2 - 1 / (n + 1)`; with
another bias the `T` fittest are selected with a probability that differs by at most a quarter of the difference of the biases. -/
theorem C132_rank_linear (b : F64) (hf : b.isFinite = true) (h1 : 1 < b.val) (h2 : b.val ≤ 2) (p : Population I)
    (hp : p.individuals ≠ []) (hn : p.individuals.length < 2 ^ 32) (T : Nat) (hT : T ≤ p.individuals.length) :
    |((⟨b⟩ : LinearSelection F64).select p).prob (fun r => p.individuals.length ≤ r.1 + T) -
      (rankSelect p).prob (fun r => p.individuals.length ≤ r.1 + T)| ≤
      1 / 2 ^ 48 / (b.val - 1) + |b.val - (2 - 1 / ((p.individuals.length : ℚ) + 1))| / 4 := by
  have hn' : p.individuals.length ≤ 2 ^ 53 := hn.le.trans (by norm_num)
  have hpos : (0 : ℚ) < p.individuals.length := by exact_mod_cast List.length_pos_iff.2 hp
  have h := C84_share b hf h1 h2 p hn' T hT
  have hr : (rankSelect p).prob (fun r => p.individuals.length ≤ r.1 + T) =
      (2 - 1 / ((p.individuals.length : ℚ) + 1)) * (T / p.individuals.length) -
        (2 - 1 / ((p.individuals.length : ℚ) + 1) - 1) * (T / p.individuals.length : ℚ) ^ 2 := by
    rw [prob_as_average, C132_rank p hp hn, ← prob_as_average, ← prob_as_average, tournament_top p hp hn' 2 (by decide) T hT,
      tournament_top p hp hn' 1 (by decide) T hT]
    field_simp
    ring
  rw [hr]
  set x : ℚ := T / p.individuals.length with hx
  set c : ℚ := 2 - 1 / ((p.individuals.length : ℚ) + 1)
  have hx0 : 0 ≤ x := by positivity
  have hx1 : x ≤ 1 := (div_le_one hpos).2 (by exact_mod_cast hT)
  have e : ∀ P : ℚ, P - (c * x - (c - 1) * x ^ 2) = (P - (b.val * x - (b.val - 1) * x ^ 2)) + (b.val - c) * (x - x ^ 2) := fun P => by ring
  rw [e]
  refine (abs_add_le _ _).trans (add_le_add h ?_)
  rw [abs_mul, abs_of_nonneg (show 0 ≤ x - x ^ 2 by nlinarith), div_eq_mul_inv]
  refine mul_le_mul_of_nonneg_left ?_ (abs_nonneg _)
  nlinarith [sq_nonneg (x - 1 / 2)]

/-- **C132** (expected place) The expected place under linear selection, counted from 1 for the least fit, is
`(n + 1) / 2 + (b - 1) (n² - 1) / (6 n)` up to rounding errors: the bias beyond 1 is the share of what a tournament of two adds to a
uniform choice. -/
theorem C132_place (b : F64) (hf : b.isFinite = true) (h1 : 1 < b.val) (h2 : b.val ≤ 2) (p : Population I)
    (hp : p.individuals ≠ []) (hn : p.individuals.length < 2 ^ 32) :
    |((⟨b⟩ : LinearSelection F64).select p).average (fun r => (r.1 : ℚ) + 1) -
      (((p.individuals.length : ℚ) + 1) / 2 + (b.val - 1) * ((p.individuals.length : ℚ) ^ 2 - 1) / (6 * p.individuals.length))| ≤
      p.individuals.length * (p.individuals.length / 2 ^ 47 / (b.val - 1)) := by
  have h0 : (p.individuals.length : ℚ) ≠ 0 := by exact_mod_cast (List.length_pos_iff.2 hp).ne'
  have h := C132_linear_average b hf h1 h2 p hp (hn.le.trans (by norm_num)) (fun r => (r.1 : ℚ) + 1) p.individuals.length fun r hr => by
    rw [abs_of_nonneg (by positivity)]
    exact_mod_cast hr.1
  obtain ⟨-, e1, -, e2, -⟩ := C131_places p hp hn
  rw [e1, e2] at h
  convert h using 3
  field_simp
  ring

-- three individuals: rank selection is linear selection with the bias 7/4
example (T : Nat) (hT : T ≤ 3) : |((⟨F64.lit (7 / 4)⟩ : LinearSelection F64).select numPop).prob (fun r => 3 ≤ r.1 + T) -
    (rankSelect numPop).prob (fun r => 3 ≤ r.1 + T)| ≤ 1 / 2 ^ 47 := by
  have hv : (F64.lit (7 / 4)).val = 7 / 4 := by decide +kernel
  have := C132_rank_linear (F64.lit (7 / 4)) (by decide +kernel) (by rw [hv]; norm_num) (by rw [hv]; norm_num) numPop (by decide) (by decide) T hT
  refine this.trans ?_
  rw [hv, show numPop.individuals.length = 3 from rfl]
  norm_num

-- five individuals: the fittest is selected with probability 1/3 = 5/6 * 9/25 + 1/6 * 1/5
example : (coinTournament 5 fiveNums).prob (fun r => r.1 = 4) = 1 / 3 := by
  rw [show (5 : Nat) = fiveNums.individuals.length from rfl, ← C132_rank_coin fiveNums (by simp [fiveNums]) (by decide), C40_probability fiveNums (by decide) 4 (by decide)]
  norm_num [fiveNums]

-- linear selection with the bias 3/2 from five individuals: the expected place is nearly 17/5
example : |((⟨F64.lit (3 / 2)⟩ : LinearSelection F64).select fiveNums).average (fun r => (r.1 : ℚ) + 1) - 17 / 5| ≤ 1 / 2 ^ 41 := by
  have hv : (F64.lit (3 / 2)).val = 3 / 2 := by decide +kernel
  have := C132_place (F64.lit (3 / 2)) (by decide +kernel) (by rw [hv]; norm_num) (by rw [hv]; norm_num) fiveNums (by simp [fiveNums]) (by decide)
  rw [hv, show fiveNums.individuals.length = 5 from rfl] at this
  norm_num at this ⊢
  exact this.trans (by norm_num)

end RG.Props
