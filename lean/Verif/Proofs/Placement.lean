import Verif.Props.RouteAga
import Verif.Props.CrossLadder
import Verif.Props.OneMaxAga

/-!
# Lemmas about placing genes (for C119)
-/

set_option linter.unusedSectionVars false

namespace RG.Props
open RG RG.Prog
variable {G : Type} [DecidableEq G]

/-- The number of positions at which `g` has the same gene as `best`. -/
def placed (best g : List G) : Nat := ((Finset.range best.length).filter fun i => g[i]? = best[i]?).card

theorem placed_le (best g : List G) : placed best g ≤ best.length := by
  unfold placed
  exact (Finset.card_filter_le _ _).trans (by simp)

theorem placed_self (best : List G) : placed best best = best.length := by simp [placed]

theorem eq_of_placed {best g : List G} (hl : g.length = best.length) (h : placed best g = best.length) : g = best := by
  unfold placed at h
  have := Finset.filter_card_eq (by rw [h]; simp)
  apply List.ext_getElem?
  intro i
  by_cases hi : i < best.length
  · exact this i (Finset.mem_range.2 hi)
  · rw [List.getElem?_eq_none (by omega), List.getElem?_eq_none (by omega)]

/-- Moving the right gene to a position at which it is not yet. -/
theorem placed_swapped {best g g' : List G} (hnd : best.Nodup) {a b : Nat} (ha : a < best.length) (hb : b < best.length)
    (hne : g[a]? ≠ best[a]?) (hgb : g[b]? = best[a]?) (h : Swapped g g' a b) : placed best g < placed best g' := by
  unfold placed
  refine Finset.card_lt_card ⟨fun i hi => ?_, fun hsub => ?_⟩
  · rw [Finset.mem_filter, Finset.mem_range] at hi ⊢
    refine ⟨hi.1, ?_⟩
    by_cases hia : i = a
    · subst hia; rw [h.at_i, hgb]
    by_cases hib : i = b
    · subst hib
      exfalso
      have := hi.2.symm.trans hgb
      rw [List.getElem?_eq_getElem hb, List.getElem?_eq_getElem ha, Option.some.injEq] at this
      exact hia ((List.Nodup.getElem_inj_iff hnd).1 this)
    rw [h.rest i hia hib, hi.2]
  · have := hsub (Finset.mem_filter.2 ⟨Finset.mem_range.2 ha, by rw [h.at_i, hgb]⟩)
    exact hne (Finset.mem_filter.1 this).2

theorem ofNat_le {i j : Nat} (hi : i ≤ 2 ^ 53) (hj : j ≤ 2 ^ 53) : (F64.ofNat i).le (F64.ofNat j) = true ↔ i ≤ j := by
  obtain ⟨f1, v1⟩ := F64.ofNat_exact hi
  obtain ⟨f2, v2⟩ := F64.ofNat_exact hj
  rw [F64.le_finite f1 f2, v1, v2]
  exact_mod_cast Iff.rfl

/-- The sum of the waiting times. -/
theorem sum_placing {n m : Nat} {c : ℚ} (h2 : 2 ≤ n) (hm : 1 ≤ m) (hc : 0 < c) (x : Nat → ℚ)
    (hx : ∀ i, i < n → x i = c * ((n - i) / (n * (n - 1)))) (hx1 : ∀ i, i < n → x i ≤ 1) :
    1 + ∑ i ∈ Finset.range n, 1 / (1 - (1 - x i) ^ m) ≤ n + 1 + n * (n - 1) * harmonic n / (m * c) := by
  have hnq : (2 : ℚ) ≤ n := by exact_mod_cast h2
  have hmq : (1 : ℚ) ≤ m := by exact_mod_cast hm
  have hsum : ∑ i ∈ Finset.range n, 1 / (1 - (1 - x i) ^ m) ≤ ∑ i ∈ Finset.range n, (1 + n * (n - 1) / (m * c) * (1 / (n - i : ℚ))) := by
    refine Finset.sum_le_sum fun i hi => ?_
    rw [Finset.mem_range] at hi
    have hiq : (i : ℚ) < n := by exact_mod_cast hi
    have h0 : (0 : ℚ) < n - i := by linarith
    have h1 : (0 : ℚ) < n - 1 := by linarith
    have hpos : 0 < x i := by rw [hx i hi]; positivity
    refine (waiting_le hpos (hx1 i hi) m hm).trans (le_of_eq ?_)
    rw [hx i hi]
    field_simp
  have hh : ∑ i ∈ Finset.range n, (1 / (n - i : ℚ)) = harmonic n := by
    unfold harmonic
    rw [← Finset.sum_range_reflect]
    refine Finset.sum_congr rfl fun i hi => ?_
    rw [Finset.mem_range] at hi
    rw [Nat.cast_sub (by omega), Nat.cast_sub (by omega), one_div]
    congr 1
    push_cast
    ring
  rw [Finset.sum_add_distrib, ← Finset.mul_sum, hh] at hsum
  simp only [Finset.sum_const, Finset.card_range, nsmul_eq_mul, mul_one] at hsum
  refine (add_le_add_right hsum 1).trans (le_of_eq ?_)
  ring

end RG.Props
