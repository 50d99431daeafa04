import Verif.Props.Asking

/-!
# C131: how strong the selection mechanisms are

Individuals stand in ascending order, so that a selection is the stronger the less often it returns one of the first positions.
-/

set_option linter.unusedSectionVars false

namespace RG.Props
open RG RG.Prog
variable {I : Type} [Individual I]

/-- The first selection is at least as strong as the second: it returns one of the first `m` of `n` positions at most as often, for every `m`. -/
def AtLeastAsStrong (n : Nat) (q q' : Prog (Nat × I)) : Prop :=
  ∀ m, m ≤ n → q.prob (fun r => r.1 < m) ≤ q'.prob (fun r => r.1 < m)

/-- **C131** (tournament) One of the first `m` positions is selected with probability `(m / n) ^ size`. -/
theorem C131_tournament (s : TournamentSelection) (hs : s.size ≠ 0) (p : Population I) (hp : p.individuals ≠ []) (m : Nat)
    (hm : m ≤ p.individuals.length) : (s.select p).prob (fun r => r.1 < m) = ((m : ℚ) / p.individuals.length) ^ s.size := by
  rw [prob_lt_sum, div_pow]
  have hn : (p.individuals.length : ℚ) ≠ 0 := by exact_mod_cast (List.length_pos_iff.2 hp).ne'
  induction m with
  | zero => simp [hs]
  | succ m ih =>
    rw [Finset.sum_range_succ, ih (by omega), C39_probability s hs p m (by omega), ← add_div]
    push_cast
    ring

/-- **C131** (rank) With probability `m (m + 1) / (n (n + 1))`. -/
theorem C131_rank (p : Population I) (hn : p.individuals.length < 2 ^ 32) (m : Nat) (hm : m ≤ p.individuals.length) :
    (rankSelect p).prob (fun r => r.1 < m) = ((m : ℚ) * (m + 1)) / (p.individuals.length * (p.individuals.length + 1)) := by
  rw [prob_lt_sum]
  induction m with
  | zero => simp
  | succ m ih =>
    have h0 : (0 : ℚ) < p.individuals.length := by exact_mod_cast (show 0 < p.individuals.length by omega)
    rw [Finset.sum_range_succ, ih (by omega), C40_probability p hn m (by omega)]
    push_cast
    field_simp
    ring

/-- **C131** (elitist) With probability `(m - bound) / (n - bound)`, or 0 if `m` is below the bound of C41. -/
theorem C131_elitist (s : ElitistSelection) (hs : s.ratio.isFinite = true ∧ 0 ≤ s.ratio.val ∧ s.ratio.val < 1)
    (p : Population I) (hp : p.individuals ≠ []) (hn : p.individuals.length ≤ 2 ^ 53) :
    ⌊rndQ (p.individuals.length * s.ratio.val)⌋.toNat < p.individuals.length ∧
    ∀ m, m ≤ p.individuals.length → (s.select p).prob (fun r => r.1 < m) =
      ((m - ⌊rndQ (p.individuals.length * s.ratio.val)⌋.toNat : Nat) : ℚ) /
        (p.individuals.length - (⌊rndQ (p.individuals.length * s.ratio.val)⌋.toNat : ℚ)) := by
  obtain ⟨b, hb, hlt, h1, h2⟩ := C41_uniform s hs p hp hn
  rw [← hb]
  refine ⟨hlt, fun m hm => ?_⟩
  rw [prob_lt_sum]
  induction m with
  | zero => simp
  | succ m ih =>
    rw [Finset.sum_range_succ, ih (by omega)]
    by_cases hmb : b ≤ m
    · rw [h1 m hmb (by omega), ← add_div, show m + 1 - b = m - b + 1 by omega]
      push_cast
      rfl
    · rw [prob_eq_zero _ _ fun r hr => h2 m r (by omega) hr, show m + 1 - b = 0 by omega, show m - b = 0 by omega, add_zero]

/-- **C131** (order) A larger tournament is stronger; a tournament of two is at least as strong as rank selection, which is at least as strong
as a uniform choice (a tournament of one); elitist selection is the stronger the larger its ratio. -/
theorem C131_order (p : Population I) (hp : p.individuals ≠ []) (hn : p.individuals.length < 2 ^ 32) :
    (∀ s t : TournamentSelection, s.size ≠ 0 → s.size ≤ t.size → AtLeastAsStrong p.individuals.length (t.select p) (s.select p)) ∧
    AtLeastAsStrong p.individuals.length ((⟨2⟩ : TournamentSelection).select p) (rankSelect p) ∧
    AtLeastAsStrong p.individuals.length (rankSelect p) ((⟨1⟩ : TournamentSelection).select p) ∧
    ∀ s t : ElitistSelection, (s.ratio.isFinite = true ∧ 0 ≤ s.ratio.val ∧ s.ratio.val < 1) →
      (t.ratio.isFinite = true ∧ 0 ≤ t.ratio.val ∧ t.ratio.val < 1) → s.ratio.val ≤ t.ratio.val →
      AtLeastAsStrong p.individuals.length (t.select p) (s.select p) := by
  have h0 : (0 : ℚ) < p.individuals.length := by exact_mod_cast List.length_pos_iff.2 hp
  have hle : ∀ m, m ≤ p.individuals.length → (m : ℚ) ≤ p.individuals.length := fun m hm => by exact_mod_cast hm
  refine ⟨fun s t hs hst m hm => ?_, fun m hm => ?_, fun m hm => ?_, fun s t hs ht hst m hm => ?_⟩
  · rw [C131_tournament s hs p hp m hm, C131_tournament t (by omega) p hp m hm]
    exact pow_le_pow_of_le_one (by positivity) ((div_le_one h0).2 (hle m hm)) hst
  · rw [C131_tournament _ (by norm_num) p hp m hm, C131_rank p hn m hm]
    have := hle m hm
    have hm0 : (0 : ℚ) ≤ m := Nat.cast_nonneg _
    show ((m : ℚ) / p.individuals.length) ^ 2 ≤ _
    rw [div_pow, div_le_div_iff₀ (by positivity) (by positivity)]
    nlinarith [mul_nonneg hm0 h0.le, mul_nonneg (mul_nonneg hm0 h0.le) (sub_nonneg.2 this)]
  · rw [C131_tournament _ (by norm_num) p hp m hm, C131_rank p hn m hm]
    have := hle m hm
    have hm0 : (0 : ℚ) ≤ m := Nat.cast_nonneg _
    show _ ≤ ((m : ℚ) / p.individuals.length) ^ 1
    rw [pow_one, div_le_div_iff₀ (by positivity) h0]
    nlinarith [mul_nonneg (mul_nonneg hm0 h0.le) (sub_nonneg.2 this)]
  · obtain ⟨hs1, hs2⟩ := C131_elitist s hs p hp (hn.le.trans (by norm_num))
    obtain ⟨ht1, ht2⟩ := C131_elitist t ht p hp (hn.le.trans (by norm_num))
    rw [hs2 m hm, ht2 m hm]
    have hb : ⌊rndQ (p.individuals.length * s.ratio.val)⌋.toNat ≤ ⌊rndQ (p.individuals.length * t.ratio.val)⌋.toNat :=
      Int.toNat_le_toNat (Int.floor_le_floor (rndQ_mono (mul_le_mul_of_nonneg_left hst h0.le)))
    generalize ⌊rndQ (p.individuals.length * s.ratio.val)⌋.toNat = b at *
    generalize ⌊rndQ (p.individuals.length * t.ratio.val)⌋.toNat = c at *
    have hbq : (0 : ℚ) < p.individuals.length - b := by
      have : (b : ℚ) < p.individuals.length := by exact_mod_cast hs1
      linarith
    have hcq : (0 : ℚ) < p.individuals.length - c := by
      have : (c : ℚ) < p.individuals.length := by exact_mod_cast ht1
      linarith
    by_cases hmc : m ≤ c
    · rw [show m - c = 0 by omega]
      simp only [Nat.cast_zero, zero_div]
      positivity
    · have e1 : ((m - c : Nat) : ℚ) = m - c := by rw [Nat.cast_sub (by omega)]
      have e2 : ((m - b : Nat) : ℚ) = m - b := by rw [Nat.cast_sub (by omega)]
      rw [e1, e2, div_le_div_iff₀ hcq hbq]
      have h3 : (b : ℚ) ≤ c := by exact_mod_cast hb
      nlinarith [mul_nonneg (sub_nonneg.2 h3) (sub_nonneg.2 (hle m hm))]

/-- Summation by parts: the average of a function of the position, from the probabilities of the first positions. -/
theorem average_by_parts {p : Population I} {q : Prog (Nat × I)} (hal : Always (IsMember p) q) (hp : p.individuals ≠ []) (g : Nat → ℚ) :
    q.average (fun r => g r.1) = g (p.individuals.length - 1) -
      ∑ m ∈ Finset.range (p.individuals.length - 1), (g (m + 1) - g m) * q.prob (fun r => r.1 < m + 1) := by
  have key : ∀ k, ∑ i ∈ Finset.range (k + 1), g i * q.prob (fun r => r.1 = i) = g k * q.prob (fun r => r.1 < k + 1) -
      ∑ m ∈ Finset.range k, (g (m + 1) - g m) * q.prob (fun r => r.1 < m + 1) := by
    intro k
    induction k with
    | zero => simp
    | succ k ih =>
      rw [Finset.sum_range_succ, ih, Finset.sum_range_succ _ k, prob_lt_sum q (k + 1 + 1), Finset.sum_range_succ _ (k + 1), ← prob_lt_sum]
      ring
  have hlen := List.length_pos_iff.2 hp
  rw [average_by_index hal]
  have := key (p.individuals.length - 1)
  rw [Nat.sub_add_cancel hlen] at this
  rw [this, prob_eq_one_of_always _ _ (hal.mono fun r hr => hr.1), mul_one]

/-- **C131** (what strength means) A selection that is at least as strong returns on average at least as much of every measure that does not
fall along the population, in particular of the fitness. -/
theorem C131_measure (p : Population I) (hp : p.individuals ≠ []) (q q' : Prog (Nat × I)) (hq : Always (IsMember p) q)
    (hq' : Always (IsMember p) q') (h : AtLeastAsStrong p.individuals.length q q') (φ : I → ℚ)
    (hφ : p.individuals.Pairwise fun a b => φ a ≤ φ b) :
    q'.average (fun r => φ r.2) ≤ q.average (fun r => φ r.2) := by
  let g : Nat → ℚ := fun i => if h : i < p.individuals.length then φ p.individuals[i] else 0
  have e : ∀ q : Prog (Nat × I), Always (IsMember p) q → q.average (fun r => φ r.2) = q.average fun r => g r.1 := fun q hq =>
    average_congr _ fun r hr => by
      obtain ⟨a, e, ha1, ha2⟩ := hq _ hr
      cases e
      simp only [g, dif_pos ha1]
      rw [List.getElem?_eq_getElem ha1] at ha2
      rw [Option.some.inj ha2]
  rw [e q hq, e q' hq', average_by_parts hq hp, average_by_parts hq' hp]
  refine sub_le_sub_left (Finset.sum_le_sum fun m hm => ?_) _
  have hm := Finset.mem_range.1 hm
  refine mul_le_mul_of_nonneg_left (h (m + 1) (by omega)) (sub_nonneg.2 ?_)
  simp only [g, dif_pos (show m < p.individuals.length by omega), dif_pos (show m + 1 < p.individuals.length by omega)]
  exact List.pairwise_iff_getElem.1 hφ m (m + 1) (by omega) (by omega) (by omega)

/-- The expected place (1 is the least fit) from the probabilities of the first positions. -/
theorem average_place {p : Population I} {q : Prog (Nat × I)} (hal : Always (IsMember p) q) (hp : p.individuals ≠ []) :
    q.average (fun r => (r.1 : ℚ) + 1) = p.individuals.length - ∑ m ∈ Finset.range p.individuals.length, q.prob (fun r => r.1 < m) := by
  rw [average_by_parts hal hp fun i => (i : ℚ) + 1]
  obtain ⟨k, hk⟩ : ∃ k, p.individuals.length = k + 1 := ⟨_, (Nat.sub_add_cancel (List.length_pos_iff.2 hp)).symm⟩
  rw [hk, Finset.sum_range_succ', Nat.add_sub_cancel, prob_lt_sum q 0]
  push_cast
  simp

/-- **C131** (expected places) With `n` individuals, counted from 1 for the least fit: the expected place of the selected one is
`(n + 1) / 2` for a uniform choice, `(2 n + 1) / 3` for rank selection, `(n + 1) (4 n - 1) / (6 n)` for a tournament of two, that is
`(n - 1) / (6 n)` more than for rank selection, and `n - Σ (j / n) ^ size` over `j < n` for every tournament. -/
theorem C131_places (p : Population I) (hp : p.individuals ≠ []) (hn : p.individuals.length < 2 ^ 32) :
    (∀ s : TournamentSelection, s.size ≠ 0 → (s.select p).average (fun r => (r.1 : ℚ) + 1) =
      p.individuals.length - ∑ j ∈ Finset.range p.individuals.length, ((j : ℚ) / p.individuals.length) ^ s.size) ∧
    ((⟨1⟩ : TournamentSelection).select p).average (fun r => (r.1 : ℚ) + 1) = ((p.individuals.length : ℚ) + 1) / 2 ∧
    (rankSelect p).average (fun r => (r.1 : ℚ) + 1) = (2 * (p.individuals.length : ℚ) + 1) / 3 ∧
    ((⟨2⟩ : TournamentSelection).select p).average (fun r => (r.1 : ℚ) + 1) =
      ((p.individuals.length : ℚ) + 1) * (4 * p.individuals.length - 1) / (6 * p.individuals.length) ∧
    ((⟨2⟩ : TournamentSelection).select p).average (fun r => (r.1 : ℚ) + 1) - (rankSelect p).average (fun r => (r.1 : ℚ) + 1) =
      ((p.individuals.length : ℚ) - 1) / (6 * p.individuals.length) := by
  have h0 : (p.individuals.length : ℚ) ≠ 0 := by exact_mod_cast (List.length_pos_iff.2 hp).ne'
  have ht : ∀ s : TournamentSelection, s.size ≠ 0 → (s.select p).average (fun r => (r.1 : ℚ) + 1) =
      p.individuals.length - ∑ j ∈ Finset.range p.individuals.length, ((j : ℚ) / p.individuals.length) ^ s.size := fun s hs => by
    rw [average_place (show Always (IsMember p) (s.select p) from C38_member ⟨id, fun _ => F64.zero⟩ p hp (hn.le.trans (by norm_num))
      (.tournament s) hs (fun b h => by cases h) fun h => by cases h) hp]
    congr 1
    exact Finset.sum_congr rfl fun j hj => C131_tournament s hs p hp j (Finset.mem_range.1 hj).le
  have hr : (rankSelect p).average (fun r => (r.1 : ℚ) + 1) = (2 * (p.individuals.length : ℚ) + 1) / 3 := by
    rw [average_place (show Always (IsMember p) (rankSelect p) from C38_member ⟨id, fun _ => F64.zero⟩ p hp (hn.le.trans (by norm_num))
      .rank trivial (fun b h => by cases h) fun _ => hn) hp, Finset.sum_congr rfl fun j hj => C131_rank p hn j (Finset.mem_range.1 hj).le, ← Finset.sum_div]
    have h3 : ∀ n : Nat, ∑ j ∈ Finset.range n, ((j : ℚ) * (j + 1)) = (n : ℚ) * (n + 1) * (n - 1) / 3 := fun n => by
      induction n with
      | zero => simp
      | succ n ih => rw [Finset.sum_range_succ, ih]; push_cast; ring
    rw [h3]
    have h1 : (p.individuals.length : ℚ) + 1 ≠ 0 := by positivity
    field_simp
    ring
  have h2 : ((⟨2⟩ : TournamentSelection).select p).average (fun r => (r.1 : ℚ) + 1) =
      ((p.individuals.length : ℚ) + 1) * (4 * p.individuals.length - 1) / (6 * p.individuals.length) := by
    rw [ht _ (by norm_num)]
    have h3 : ∀ n : Nat, ∑ j ∈ Finset.range n, ((j : ℚ)) ^ 2 = (n : ℚ) * (n - 1) * (2 * n - 1) / 6 := fun n => by
      induction n with
      | zero => simp
      | succ n ih => rw [Finset.sum_range_succ, ih]; push_cast; ring
    simp only [div_pow]
    rw [← Finset.sum_div, h3]
    field_simp
    ring
  refine ⟨ht, ?_, hr, h2, ?_⟩
  · rw [ht _ (by norm_num)]
    have h3 : ∀ n : Nat, ∑ j ∈ Finset.range n, (j : ℚ) = (n : ℚ) * (n - 1) / 2 := fun n => by
      induction n with
      | zero => simp
      | succ n ih => rw [Finset.sum_range_succ, ih]; push_cast; ring
    simp only [pow_one]
    rw [← Finset.sum_div, h3]
    field_simp
    ring
  · rw [hr, h2]
    field_simp
    ring

/-! ### Examples -/

/-- Five individuals. -/
def fiveNums : Population Num := ⟨[num 1, num 2, num 3, num 5, num 8], 0, 0, numPop.stats⟩

-- of five individuals a tournament of two selects one of the first two with probability 4/25, rank selection with 1/5
example : ((⟨2⟩ : TournamentSelection).select fiveNums).prob (fun r => r.1 < 2) = 4 / 25 ∧
    (rankSelect fiveNums).prob (fun r => r.1 < 2) = 1 / 5 := by
  rw [C131_tournament _ (by norm_num) _ (by simp [fiveNums]) _ (by decide), C131_rank _ (by decide) _ (by decide)]
  norm_num [fiveNums]

-- the expected places are 57/15 and 55/15
example : ((⟨2⟩ : TournamentSelection).select fiveNums).average (fun r => (r.1 : ℚ) + 1) = 19 / 5 ∧
    (rankSelect fiveNums).average (fun r => (r.1 : ℚ) + 1) = 11 / 3 := by
  obtain ⟨-, -, h3, h4, -⟩ := C131_places fiveNums (by simp [fiveNums]) (by decide)
  rw [h3, h4]
  norm_num [fiveNums]

-- elitist selection with the ratio 1/2 never selects one of the first two
example : ((⟨F64.lit (1 / 2)⟩ : ElitistSelection).select fiveNums).prob (fun r => r.1 < 2) = 0 := by
  have hb : ⌊rndQ (((fiveNums.individuals.length : Nat) : ℚ) * (F64.lit (1 / 2)).val)⌋.toNat = 2 := by decide +kernel
  rw [(C131_elitist ⟨F64.lit (1 / 2)⟩ (by decide +kernel) fiveNums (by simp [fiveNums]) (by decide)).2 2 (by decide), hb]
  norm_num

end RG.Props
