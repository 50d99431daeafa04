import Verif.Bench
import Verif.SpecBench
import Verif.Proofs.Parallel
import Verif.Props.Distribution
import Mathlib.Algebra.BigOperators.Ring.Finset
import Mathlib.Tactic.LinearCombination
import Mathlib.Tactic.Linarith
import Mathlib.Tactic.Ring

/-!
# Repeated duplicate mutation: helpers
-/

namespace RG
open RG Prog
set_option linter.unusedSectionVars false
variable {G : Type} [DecidableEq G]

/-- 1 at the positions of `v`, and 0 elsewhere. -/
def isAt (g : List G) (v : G) (a : Nat) : ℚ := if g[a]? = some v then 1 else 0

theorem sum_isAt (g : List G) (v : G) : ∑ a ∈ Finset.range g.length, isAt g v a = g.count v := by
  induction g with
  | nil => simp
  | cons x g ih =>
    rw [List.length_cons, Finset.sum_range_succ', List.count_cons]
    simp only [isAt, List.getElem?_cons_succ, List.getElem?_cons_zero, Option.some.injEq] at ih ⊢
    rw [ih]
    by_cases h : x = v <;> simp [h]

theorem isAt_sq (g : List G) (v : G) (a : Nat) : isAt g v a * isAt g v a = isAt g v a := by
  unfold isAt; split <;> simp

theorem count_copied (g : List G) (v : G) (a b : Nat) (ha : a < g.length) (hb : b < g.length) :
    (((g.set b g[a]).count v : Nat) : ℚ) = g.count v + isAt g v a - isAt g v b := by
  rw [List.count_set hb]
  have hpos : g[b] = v → 0 < g.count v := fun h => List.count_pos_iff.2 (h ▸ List.getElem_mem hb)
  unfold isAt
  rw [List.getElem?_eq_getElem ha, List.getElem?_eq_getElem hb]
  simp only [Option.some.injEq, beq_iff_eq]
  by_cases h1 : g[b] = v
  · have := hpos h1
    rw [if_pos h1, if_pos h1, Nat.cast_add, Nat.cast_sub (by omega)]
    split <;> simp
  · rw [if_neg h1, if_neg h1]
    split <;> simp

theorem sum_pairs (n : Nat) (F : Nat → Nat → ℚ) :
    ∑ a ∈ Finset.range n, ∑ b ∈ (Finset.range n).erase a, F a b =
      ∑ a ∈ Finset.range n, ∑ b ∈ Finset.range n, F a b - ∑ a ∈ Finset.range n, F a a := by
  rw [← Finset.sum_sub_distrib]
  refine Finset.sum_congr rfl fun a ha => ?_
  rw [← Finset.add_sum_erase _ _ ha]; ring

/-- The expected value of a function of the number of copies, after one duplicate mutation. -/
theorem duplicate_expect (g : List G) (v : G) (hn : 2 ≤ g.length) (obs : Res (List G) → ℚ) (φ : ℚ → ℚ)
    (hφ : ∀ g', g'.length = g.length → obs (.ok g') = φ (g'.count v)) :
    (MutationStrategy.duplicate.mutate g).expect obs =
      (∑ a ∈ Finset.range g.length, ∑ b ∈ (Finset.range g.length).erase a, φ (g.count v + isAt g v a - isAt g v b)) /
        (g.length * (g.length - 1)) := by
  obtain ⟨cp, h1, h2⟩ := Props.C66_duplicate g hn obs
  show (duplicateMutation g).expect obs = _
  rw [h2, Props.pairAverage]
  congr 1
  refine Finset.sum_congr rfl fun a ha => Finset.sum_congr rfl fun b hb => ?_
  simp only [Finset.mem_erase, Finset.mem_range] at ha hb
  have h := h1 a b ha hb.2 (Ne.symm hb.1)
  rw [hφ _ h.len, (Props.copiedOver_iff g _ a b h.ne ha hb.2).1 h, count_copied g v a b ha hb.2]

theorem duplicate_count (g : List G) (v : G) (hn : 2 ≤ g.length) (obs : Res (List G) → ℚ)
    (h : ∀ g', g'.length = g.length → obs (.ok g') = g'.count v) :
    (MutationStrategy.duplicate.mutate g).expect obs = g.count v := by
  have hn' : (2 : ℚ) ≤ g.length := by exact_mod_cast hn
  rw [duplicate_expect g v hn obs (fun c => c) h, sum_pairs, div_eq_iff (by nlinarith)]
  simp only [add_sub_assoc, sub_self, add_zero, Finset.sum_add_distrib, Finset.sum_sub_distrib, Finset.sum_const, Finset.card_range,
    nsmul_eq_mul, sum_isAt, ← Finset.mul_sum]
  ring

theorem duplicate_square (g : List G) (v : G) (hn : 2 ≤ g.length) (obs : Res (List G) → ℚ) (c : ℚ)
    (h : ∀ g', g'.length = g.length → obs (.ok g') = c * (g'.count v * (g.length - g'.count v))) :
    (MutationStrategy.duplicate.mutate g).expect obs =
      c * (1 - 2 / (g.length * (g.length - 1))) * (g.count v * (g.length - g.count v)) := by
  have hn' : (2 : ℚ) ≤ g.length := by exact_mod_cast hn
  rw [duplicate_expect g v hn obs (fun x => c * (x * (g.length - x))) h, sum_pairs, div_eq_iff (by nlinarith)]
  have e : ∀ a b, c * ((g.count v + isAt g v a - isAt g v b) * (g.length - (g.count v + isAt g v a - isAt g v b))) =
      c * (g.count v * (g.length - g.count v)) + c * (g.length - 2 * g.count v - 1) * isAt g v a -
        c * (g.length - 2 * g.count v + 1) * isAt g v b + 2 * c * (isAt g v a * isAt g v b) := fun a b => by
    have h1 := isAt_sq g v a
    have h2 := isAt_sq g v b
    linear_combination (-c) * h1 + (-c) * h2
  simp only [e, Finset.sum_add_distrib, Finset.sum_sub_distrib, Finset.sum_const, Finset.card_range, nsmul_eq_mul, sum_isAt,
    ← Finset.mul_sum, ← Finset.sum_mul, isAt_sq]
  have h0 : (g.length : ℚ) * (g.length - 1) ≠ 0 := by nlinarith
  have h3 : 2 / ((g.length : ℚ) * (g.length - 1)) * (g.length * (g.length - 1)) = 2 := div_mul_cancel₀ _ h0
  linear_combination (c * (g.count v * (g.length - g.count v))) * h3

theorem benchMutation_length (s : MutationStrategy) (k : Nat) (g : List G) :
    Always (fun g' => g'.length = g.length) (benchMutation s k g) := by
  induction k generalizing g with
  | zero => simp [benchMutation]
  | succ k ih =>
    unfold benchMutation
    rw [always_bind]
    refine (Props.C37_length s g).mono fun g' h => ?_
    rw [← h]; exact ih g'

/-- The expected value after `k + 1` mutations. -/
theorem expect_benchMutation_succ (s : MutationStrategy) (k : Nat) (g : List G) (F : List G → ℚ) (H : List G → ℚ)
    (h : ∀ g', g'.length = g.length → (benchMutation s k g').expect (onOk F) = H g') :
    (benchMutation s (k + 1) g).expect (onOk F) = (s.mutate g).expect (onOk H) := by
  rw [benchMutation, expect_bind]
  refine expect_congr _ _ _ fun r hr => ?_
  obtain ⟨g', rfl, hl⟩ := Props.C37_length s g r hr
  exact h g' hl

theorem drift_count (k : Nat) (g : List G) (v : G) (hn : 2 ≤ g.length) :
    (benchMutation .duplicate k g).expect (onOk fun g' => (g'.count v : ℚ)) = g.count v := by
  induction k generalizing g with
  | zero => rfl
  | succ k ih =>
    rw [expect_benchMutation_succ _ _ _ _ (fun g' => (g'.count v : ℚ)) fun g' hl => ih g' (by omega)]
    exact duplicate_count g v hn _ fun _ _ => rfl

theorem drift_square (k : Nat) (g : List G) (v : G) (n : Nat) (hl : g.length = n) (hn : 2 ≤ n) :
    (benchMutation .duplicate k g).expect (onOk fun g' => (g'.count v : ℚ) * (n - g'.count v)) =
      (1 - 2 / (n * (n - 1) : ℚ)) ^ k * (g.count v * (n - g.count v)) := by
  induction k generalizing g with
  | zero => simp [benchMutation, onOk]
  | succ k ih =>
    rw [expect_benchMutation_succ _ _ _ _ (fun g' => (1 - 2 / (n * (n - 1) : ℚ)) ^ k * (g'.count v * (n - g'.count v)))
      fun g' hl' => ih g' (by omega)]
    subst hl
    rw [duplicate_square g v hn _ _ fun _ _ => rfl, pow_succ]

/-! ### Differing pairs -/

theorem differing_eq (g : List G) (S : Finset G) (hS : ∀ x ∈ g, x ∈ S) :
    (differing g : ℚ) = ∑ v ∈ S, (g.count v : ℚ) * (g.length - g.count v) := by
  unfold differing
  rw [Finset.card_filter, Finset.sum_product, Nat.cast_sum]
  have h1 : ∀ a ∈ Finset.range g.length, ((∑ b ∈ Finset.range g.length, if g[a]? ≠ g[b]? then 1 else 0 : Nat) : ℚ) =
      ∑ v ∈ S, isAt g v a * (g.length - g.count v) := by
    intro a ha
    have ha' := Finset.mem_range.1 ha
    rw [Finset.sum_eq_single (g[a]) (fun v _ hv => by
      unfold isAt; rw [List.getElem?_eq_getElem ha', if_neg (by simpa using Ne.symm hv)]; ring)
      (fun h => absurd (hS _ (List.getElem_mem ha')) h), ← sum_isAt, Nat.cast_sum]
    have : (g.length : ℚ) = ∑ _b ∈ Finset.range g.length, (1 : ℚ) := by simp
    conv_rhs => rw [this]
    rw [← Finset.sum_sub_distrib, Finset.mul_sum]
    refine Finset.sum_congr rfl fun b hb => ?_
    have hb' := Finset.mem_range.1 hb
    unfold isAt
    rw [List.getElem?_eq_getElem ha', List.getElem?_eq_getElem hb']
    by_cases h : g[a] = g[b]
    · simp [h]
    · simp [h, Ne.symm h]
  rw [Finset.sum_congr rfl h1, Finset.sum_comm]
  refine Finset.sum_congr rfl fun v _ => ?_
  rw [← Finset.sum_mul, sum_isAt]

theorem differing_le (g : List G) : (differing g : ℚ) ≤ g.length * (g.length - 1) := by
  rw [differing_eq g g.toFinset (by simp)]
  have h : ∀ v ∈ g.toFinset, (g.count v : ℚ) * (g.length - g.count v) ≤ g.count v * (g.length - 1) := by
    intro v hv
    have : (1 : ℚ) ≤ g.count v := by exact_mod_cast List.count_pos_iff.2 (List.mem_toFinset.1 hv)
    exact mul_le_mul_of_nonneg_left (by linarith) (by linarith)
  refine (Finset.sum_le_sum h).trans (le_of_eq ?_)
  rw [← Finset.sum_mul, ← Nat.cast_sum, List.sum_toFinset_count_eq_length]

theorem le_differing (g : List G) (x y : G) (hx : x ∈ g) (hy : y ∈ g) (hxy : x ≠ y) :
    2 * (g.length - 1 : ℚ) ≤ differing g := by
  have hxS : x ∈ g.toFinset := List.mem_toFinset.2 hx
  have hc1 : (1 : ℚ) ≤ g.count x := by exact_mod_cast List.count_pos_iff.2 hx
  have hc2 : (1 : ℚ) ≤ g.count y := by exact_mod_cast List.count_pos_iff.2 hy
  have hsum : ∑ v ∈ g.toFinset, (g.count v : ℚ) = g.length := by
    rw [← Nat.cast_sum, List.sum_toFinset_count_eq_length]
  have hsum' : g.count x + ∑ v ∈ g.toFinset.erase x, (g.count v : ℚ) = g.length := by
    rw [Finset.add_sum_erase _ (fun v => (g.count v : ℚ)) hxS, hsum]
  have hle : ∀ v ∈ g.toFinset.erase x, (g.count v : ℚ) ≤ ∑ v ∈ g.toFinset.erase x, (g.count v : ℚ) := fun v hv =>
    Finset.single_le_sum (f := fun v => (g.count v : ℚ)) (fun _ _ => by positivity) hv
  have hy' := hle y (Finset.mem_erase.2 ⟨Ne.symm hxy, List.mem_toFinset.2 hy⟩)
  rw [differing_eq g g.toFinset (by simp), ← Finset.add_sum_erase _ _ hxS]
  have h2 : ∑ v ∈ g.toFinset.erase x, (g.count v : ℚ) * g.count x ≤
      ∑ v ∈ g.toFinset.erase x, (g.count v : ℚ) * (g.length - g.count v) :=
    Finset.sum_le_sum fun v hv => mul_le_mul_of_nonneg_left (by have := hle v hv; linarith) (by positivity)
  rw [← Finset.sum_mul] at h2
  set s := ∑ v ∈ g.toFinset.erase x, (g.count v : ℚ)
  have : (g.length : ℚ) - g.count x = s := by linarith
  rw [this]
  nlinarith

theorem differing_zero (g : List G) (h : ∀ x ∈ g, ∀ y ∈ g, x = y) : differing g = 0 := by
  unfold differing
  rw [Finset.card_eq_zero, Finset.filter_eq_empty_iff]
  rintro ⟨a, b⟩ hab
  simp only [Finset.mem_product, Finset.mem_range] at hab
  simp only [ne_eq, not_not]
  rw [List.getElem?_eq_getElem hab.1, List.getElem?_eq_getElem hab.2, h _ (List.getElem_mem _) _ (List.getElem_mem hab.2)]

theorem benchMutation_subset (k : Nat) (g : List G) :
    Always (fun g' => ∀ x ∈ g', x ∈ g) (benchMutation .duplicate k g) := by
  induction k generalizing g with
  | zero => simp [benchMutation]
  | succ k ih =>
    unfold benchMutation
    rw [always_bind]
    have h1 : Always (fun g' => ∀ x ∈ g', x ∈ g) (MutationStrategy.duplicate.mutate g) := by
      by_cases hn : g.length < 2
      · rw [Props.C37_short _ g hn]; simp
      · intro r hr
        obtain ⟨g', a, b, rfl, h⟩ := (Props.C36_duplicate g (by omega) r).1 hr
        refine ⟨g', rfl, fun x hx => ?_⟩
        rw [(Props.copiedOver_iff g g' a b h.ne h.ha h.hb).1 h] at hx
        rcases List.mem_or_eq_of_mem_set hx with hx | rfl
        · exact hx
        · exact List.getElem_mem _
    exact h1.mono fun g' hg' => (ih g').mono fun g'' h x hx => hg' x (h x hx)

theorem drift_differing (k : Nat) (g : List G) (hn : 2 ≤ g.length) :
    (benchMutation .duplicate k g).expect (onOk fun g' => (differing g' : ℚ)) =
      differing g * (1 - 2 / (g.length * (g.length - 1) : ℚ)) ^ k := by
  have h1 : (benchMutation .duplicate k g).expect (onOk fun g' => (differing g' : ℚ)) =
      (benchMutation .duplicate k g).expect fun r => ∑ v ∈ g.toFinset,
        onOk (fun g' => (g'.count v : ℚ) * (g.length - g'.count v)) r := by
    refine expect_congr _ _ _ fun r hr => ?_
    obtain ⟨g', rfl, hl⟩ := benchMutation_length .duplicate k g r hr
    obtain ⟨g'', e, hs⟩ := benchMutation_subset k g _ hr
    cases e
    simp only [onOk]
    rw [differing_eq g' g.toFinset (fun x hx => List.mem_toFinset.2 (hs x hx)), hl]
  rw [h1, expect_finset_sum, differing_eq g g.toFinset (by simp), Finset.sum_mul]
  refine Finset.sum_congr rfl fun v _ => ?_
  rw [drift_square k g v g.length rfl hn, mul_comm]

end RG
