import Verif.Stats
import Verif.Float.Lemmas
import Mathlib.Algebra.BigOperators.Group.List.Basic
import Mathlib.Algebra.Order.Field.Basic

/-! Helper lemmas about `Stats`. -/

namespace RG
open Arith

namespace Stats
section generic
set_option linter.unusedSectionVars false
variable {α : Type} [Arith α]

theorem collectLoop_eq_foldl (xs : List α) (c : Nat) (mn : α) (amn : Nat) (mx : α) (amx : Nat) (av ss : α)
    (hc : c ≠ 0) : collectLoop xs c mn amn mx amx av ss = xs.foldl record ⟨c, mn, amn, mx, amx, av, ss⟩ := by
  induction xs generalizing c mn amn mx amx av ss with
  | nil => rfl
  | cons x xs ih =>
    simp only [collectLoop, List.foldl_cons]
    rw [ih _ _ _ _ _ _ _ (Nat.succ_ne_zero c)]
    congr 1
    simp [record, hc]

theorem collect_eq_foldl (xs : List α) : collect xs = xs.foldl record default := by
  cases xs with
  | nil => rfl
  | cons x xs =>
    simp only [collect, List.foldl_cons]
    rw [collectLoop_eq_foldl _ _ _ _ _ _ _ _ (by norm_num)]
    congr 1

theorem collect_concat (xs : List α) (x : α) : collect (xs ++ [x]) = (collect xs).record x := by
  rw [collect_eq_foldl, collect_eq_foldl, List.foldl_append]; rfl

theorem collect_singleton (x : α) : collect [x] = ⟨1, x, 0, x, 0, x, lit 0⟩ := rfl

theorem record_count (s : Stats α) (x : α) : (s.record x).count = s.count + 1 := by
  unfold record
  split
  · rfl
  · rename_i h; simp at h; simp [h]

theorem foldl_record_count (s : Stats α) (xs : List α) : (xs.foldl record s).count = s.count + xs.length := by
  induction xs generalizing s with
  | nil => rfl
  | cons x xs ih => rw [List.foldl_cons, ih, record_count]; simp; omega

theorem collect_count (xs : List α) : (collect xs).count = xs.length := by
  rw [collect_eq_foldl, foldl_record_count]; simp [default]

theorem record_min (s : Stats α) (x : α) (h : s.count ≠ 0) :
    (s.record x).min = if x <ₐ s.min then x else s.min := by
  unfold record; rw [if_pos h]; by_cases hl : (x <ₐ s.min) = true <;> simp [hl]

theorem record_argMin (s : Stats α) (x : α) (h : s.count ≠ 0) :
    (s.record x).argMin = if x <ₐ s.min then s.count else s.argMin := by
  unfold record; rw [if_pos h]; by_cases hl : (x <ₐ s.min) = true <;> simp [hl]

theorem record_max (s : Stats α) (x : α) (h : s.count ≠ 0) :
    (s.record x).max = if s.max <ₐ x then x else s.max := by
  unfold record; rw [if_pos h]; simp only; split <;> rfl

theorem record_argMax (s : Stats α) (x : α) (h : s.count ≠ 0) :
    (s.record x).argMax = if s.max <ₐ x then s.count else s.argMax := by
  unfold record; rw [if_pos h]; simp only; split <;> rfl

theorem record_avg (s : Stats α) (x : α) (h : s.count ≠ 0) :
    (s.record x).avg = s.avg +ₐ (x -ₐ s.avg) /ₐ Arith.ofNat (s.count + 1) := by
  unfold record; rw [if_pos h]

theorem record_sumSquared (s : Stats α) (x : α) (h : s.count ≠ 0) :
    (s.record x).sumSquared = s.sumSquared +ₐ (x -ₐ s.avg) *ₐ (x -ₐ (s.record x).avg) := by
  unfold record; rw [if_pos h]

theorem getMin_of {s : Stats α} (h : s.count ≠ 0) : s.getMin = some s.min := by
  unfold getMin; split <;> simp_all
theorem getMax_of {s : Stats α} (h : s.count ≠ 0) : s.getMax = some s.max := by
  unfold getMax; split <;> simp_all
theorem getArgMin_of {s : Stats α} (h : s.count ≠ 0) : s.getArgMin = some s.argMin := by
  unfold getArgMin; split <;> simp_all
theorem getArgMax_of {s : Stats α} (h : s.count ≠ 0) : s.getArgMax = some s.argMax := by
  unfold getArgMax; split <;> simp_all
theorem getAvg_of {s : Stats α} (h : s.count ≠ 0) : s.getAvg = some s.avg := by
  unfold getAvg; split <;> simp_all
theorem getVar_of {s : Stats α} (h : s.count ≠ 0) : s.getVar = some (PopulatedStats.var ⟨s⟩) := by
  unfold getVar PopulatedStats.var
  split
  · simp_all
  · rename_i h1; simp [h1]
  · rename_i h0 h1
    rw [if_pos (show s.count > 1 by rcases hk : s.count with _ | _ | k <;> simp_all)]

theorem collect_count_ne (x : α) (xs : List α) : (collect (x :: xs)).count ≠ 0 := by
  rw [collect_count]; simp

/-- Induction on the samples after the first, adding samples at the end. -/
theorem collect_induction {P : List α → Stats α → Prop} (x : α) (h1 : P [x] (collect [x]))
    (h2 : ∀ ys y, P (x :: ys) (collect (x :: ys)) → P (x :: ys ++ [y]) ((collect (x :: ys)).record y))
    (xs : List α) : P (x :: xs) (collect (x :: xs)) := by
  induction xs using List.reverseRecOn with
  | nil => exact h1
  | append_singleton ys y ih =>
    have := h2 ys y ih
    rwa [← collect_concat] at this

end generic

/-! ### Minimum and maximum over `F64` -/

/-- `m` at position `i` is a least non-NaN sample, and the first such. -/
def FirstMin (xs : List F64) (m : F64) (i : Nat) : Prop :=
  xs[i]? = some m ∧ m.isNaN = false ∧ (∀ x ∈ xs, x.isNaN = false → m.le x = true) ∧
    ∀ j x, j < i → xs[j]? = some x → x.isNaN = true ∨ m.lt x = true

def FirstMax (xs : List F64) (m : F64) (i : Nat) : Prop :=
  xs[i]? = some m ∧ m.isNaN = false ∧ (∀ x ∈ xs, x.isNaN = false → x.le m = true) ∧
    ∀ j x, j < i → xs[j]? = some x → x.isNaN = true ∨ x.lt m = true

theorem FirstMin.length {xs : List F64} {m : F64} {i : Nat} (h : FirstMin xs m i) : i < xs.length := by
  by_contra hc
  have := h.1
  rw [List.getElem?_eq_none (by omega)] at this
  simp at this

theorem collect_firstMin (x : F64) (hx : x.isNaN = false) (xs : List F64) :
    FirstMin (x :: xs) (collect (x :: xs)).min (collect (x :: xs)).argMin := by
  refine collect_induction (P := fun l s => FirstMin l s.min s.argMin) x ?_ ?_ xs
  · refine ⟨rfl, hx, ?_, ?_⟩
    · intro y hy _; simp at hy; subst hy; exact F64.le_refl hx
    · intro j y hj; exact absurd hj (Nat.not_lt_zero _)
  · intro ys y ⟨h1, h2, h3, h4⟩
    have hc := collect_count_ne x ys
    set s := collect (x :: ys) with hs
    have hlen : s.count = (x :: ys).length := by rw [hs, collect_count]
    rw [record_min _ _ hc, record_argMin _ _ hc]
    by_cases hlt : (y <ₐ s.min) = true
    · rw [if_pos hlt, if_pos hlt]
      have hlt' : y.lt s.min = true := hlt
      have hy := F64.not_nan_left_of_lt hlt'
      refine ⟨?_, hy, ?_, ?_⟩
      · rw [hlen]; simp
      · intro z hz hzn
        rw [List.mem_append] at hz
        rcases hz with hz | hz
        · exact F64.le_of_lt (F64.lt_of_lt_of_le hlt' (h3 z hz hzn))
        · simp at hz; subst hz; exact F64.le_refl hy
      · intro j z hj hz
        rw [hlen] at hj
        rw [List.getElem?_append_left hj] at hz
        by_cases hzn : z.isNaN = true
        · exact Or.inl hzn
        · right
          exact F64.lt_of_lt_of_le hlt' (h3 z (List.mem_of_getElem? hz) (by simpa using hzn))
    · rw [if_neg hlt, if_neg hlt]
      have hlt' : y.lt s.min = false := by simpa using (show ¬ y.lt s.min = true from hlt)
      have hi : s.argMin < (x :: ys).length := by
        by_contra hcon
        rw [List.getElem?_eq_none (by omega)] at h1; simp at h1
      refine ⟨?_, h2, ?_, ?_⟩
      · rw [List.getElem?_append_left hi]; exact h1
      · intro z hz hzn
        rw [List.mem_append] at hz
        rcases hz with hz | hz
        · exact h3 z hz hzn
        · simp at hz; subst hz; exact F64.le_of_not_lt h2 hzn hlt'
      · intro j z hj hz
        rw [List.getElem?_append_left (by omega)] at hz
        exact h4 j z hj hz

theorem collect_firstMax (x : F64) (hx : x.isNaN = false) (xs : List F64) :
    FirstMax (x :: xs) (collect (x :: xs)).max (collect (x :: xs)).argMax := by
  refine collect_induction (P := fun l s => FirstMax l s.max s.argMax) x ?_ ?_ xs
  · refine ⟨rfl, hx, ?_, ?_⟩
    · intro y hy _; simp at hy; subst hy; exact F64.le_refl hx
    · intro j y hj; exact absurd hj (Nat.not_lt_zero _)
  · intro ys y ⟨h1, h2, h3, h4⟩
    have hc := collect_count_ne x ys
    set s := collect (x :: ys) with hs
    have hlen : s.count = (x :: ys).length := by rw [hs, collect_count]
    rw [record_max _ _ hc, record_argMax _ _ hc]
    by_cases hlt : (s.max <ₐ y) = true
    · rw [if_pos hlt, if_pos hlt]
      have hlt' : s.max.lt y = true := hlt
      have hy := F64.not_nan_right_of_lt hlt'
      refine ⟨?_, hy, ?_, ?_⟩
      · rw [hlen]; simp
      · intro z hz hzn
        rw [List.mem_append] at hz
        rcases hz with hz | hz
        · exact F64.le_of_lt (F64.lt_of_le_of_lt (h3 z hz hzn) hlt')
        · simp at hz; subst hz; exact F64.le_refl hy
      · intro j z hj hz
        rw [hlen] at hj
        rw [List.getElem?_append_left hj] at hz
        by_cases hzn : z.isNaN = true
        · exact Or.inl hzn
        · right
          exact F64.lt_of_le_of_lt (h3 z (List.mem_of_getElem? hz) (by simpa using hzn)) hlt'
    · rw [if_neg hlt, if_neg hlt]
      have hlt' : s.max.lt y = false := by simpa using (show ¬ s.max.lt y = true from hlt)
      have hi : s.argMax < (x :: ys).length := by
        by_contra hcon
        rw [List.getElem?_eq_none (by omega)] at h1; simp at h1
      refine ⟨?_, h2, ?_, ?_⟩
      · rw [List.getElem?_append_left hi]; exact h1
      · intro z hz hzn
        rw [List.mem_append] at hz
        rcases hz with hz | hz
        · exact h3 z hz hzn
        · simp at hz; subst hz; exact F64.le_of_not_lt hzn h2 hlt'
      · intro j z hj hz
        rw [List.getElem?_append_left (by omega)] at hz
        exact h4 j z hj hz

theorem collect_firstNaN (xs : List F64) :
    (collect (F64.nan :: xs)).min = F64.nan ∧ (collect (F64.nan :: xs)).max = F64.nan ∧
      (collect (F64.nan :: xs)).argMin = 0 ∧ (collect (F64.nan :: xs)).argMax = 0 := by
  refine collect_induction
    (P := fun _ s => s.min = F64.nan ∧ s.max = F64.nan ∧ s.argMin = 0 ∧ s.argMax = 0) F64.nan ?_ ?_ xs
  · exact ⟨rfl, rfl, rfl, rfl⟩
  · intro ys y ⟨h1, h2, h3, h4⟩
    have hc := collect_count_ne F64.nan ys
    rw [record_min _ _ hc, record_argMin _ _ hc, record_max _ _ hc, record_argMax _ _ hc, h1, h2, h3, h4]
    have e1 : (y <ₐ F64.nan) = false := F64.lt_nan_right y
    have e2 : (F64.nan <ₐ y) = false := F64.lt_nan_left y
    rw [e1, e2]; simp

/-- NaN samples after a non-NaN first one do not affect `min`. -/
theorem collect_min_filter (x : F64) (hx : x.isNaN = false) (xs : List F64) :
    (collect (x :: xs)).min = (collect ((x :: xs).filter (fun y => !y.isNaN))).min ∧
    (collect (x :: xs)).max = (collect ((x :: xs).filter (fun y => !y.isNaN))).max := by
  induction xs using List.reverseRecOn with
  | nil => simp [hx]
  | append_singleton ys y ih =>
    have hc := collect_count_ne x ys
    rw [← List.cons_append, collect_concat, record_min _ _ hc, record_max _ _ hc, List.filter_append]
    by_cases hy : y.isNaN = true
    · have e0 : List.filter (fun y : F64 => !y.isNaN) [y] = [] := by simp [hy]
      rw [e0, List.append_nil]
      have e1 : (y <ₐ (collect (x :: ys)).min) = false := F64.lt_of_nan_left hy
      have e2 : ((collect (x :: ys)).max <ₐ y) = false := F64.lt_of_nan_right hy
      rw [e1, e2]; simpa using ih
    · have e0 : List.filter (fun y : F64 => !y.isNaN) [y] = [y] := by simp [hy]
      have hf : List.filter (fun y : F64 => !y.isNaN) (x :: ys) = x :: List.filter (fun y : F64 => !y.isNaN) ys := by
        simp [hx]
      rw [e0, collect_concat]
      rw [hf] at ih ⊢
      have hc' := collect_count_ne x (List.filter (fun y : F64 => !y.isNaN) ys)
      rw [record_min _ _ hc', record_max _ _ hc', ih.1, ih.2]
      exact ⟨rfl, rfl⟩

/-! ### Exact arithmetic -/

section exact
variable {K : Type} [Field K] [LinearOrder K] [IsStrictOrderedRing K]

theorem collect_welford (x : K) (xs : List K) :
    (collect (x :: xs)).avg = (x :: xs).sum / (x :: xs).length ∧
      (collect (x :: xs)).sumSquared =
        ((x :: xs).map (fun y => y * y)).sum - (x :: xs).sum * (x :: xs).sum / (x :: xs).length := by
  refine collect_induction (P := fun (l : List K) s => s.avg = l.sum / (l.length : K) ∧
    s.sumSquared = (l.map (fun y => y * y)).sum - l.sum * l.sum / l.length) x ?_ ?_ xs
  · constructor
    · simp [collect_singleton]
    · simp [collect_singleton, Arith.lit]
  · intro ys y ⟨h1, h2⟩
    have hc := collect_count_ne x ys
    set s := collect (x :: ys) with hs
    have hcount : s.count = (x :: ys).length := by rw [hs, collect_count]
    have hav : (s.record y).avg = (x :: ys ++ [y]).sum / ((x :: ys ++ [y]).length : K) := by
      rw [record_avg _ _ hc, h1, hcount]
      simp only [Arith.add, Arith.sub, Arith.div, Arith.ofNat]
      rw [List.sum_append, List.length_append]
      have hn : (((x :: ys).length : Nat) : K) ≠ 0 := by simp; positivity
      have hn1 : (((x :: ys).length : Nat) : K) + 1 ≠ 0 := by positivity
      push_cast
      simp only [List.sum_singleton, List.length_singleton]
      push_cast
      generalize (((x :: ys).length : Nat) : K) = n at *
      generalize (x :: ys).sum = S
      field_simp
      ring
    refine ⟨hav, ?_⟩
    rw [record_sumSquared _ _ hc, hav, h2, h1]
    simp only [Arith.add, Arith.sub, Arith.mul]
    rw [List.map_append, List.sum_append, List.sum_append, List.length_append]
    have hn : (((x :: ys).length : Nat) : K) ≠ 0 := by simp; positivity
    have hn1 : (((x :: ys).length : Nat) : K) + 1 ≠ 0 := by positivity
    simp only [List.map_cons, List.map_nil, List.sum_singleton, List.length_singleton]
    push_cast
    simp only [← List.map_cons (f := fun y : K => y * y)]
    have e : x * x + (List.map (fun y : K => y * y) ys).sum = ((x :: ys).map (fun y : K => y * y)).sum := by simp
    simp only [List.sum_cons] at *
    generalize (((x :: ys).length : Nat) : K) = n at *
    field_simp
    ring

omit [LinearOrder K] [IsStrictOrderedRing K] in
theorem sum_sq_dev (l : List K) (m : K) :
    (l.map (fun y => (y - m) ^ 2)).sum = (l.map (fun y => y * y)).sum - 2 * m * l.sum + l.length * m * m := by
  induction l with
  | nil => simp
  | cons a l ih => simp only [List.map_cons, List.sum_cons, ih, List.length_cons]; push_cast; ring

end exact
end Stats
end RG
