import Verif.Proofs.RealArith
import Verif.Proofs.StatsF64
import Mathlib.Analysis.Real.Sqrt

/-!
# Properties C01–C07: `Stats` and `PopulatedStats`

Every statement is about `Stats.collect` / `Stats.record` / the accessors, which transcribe `/repo/src/stats.rs`.
-/

namespace RG.Props
open RG RG.Arith

/-- f64 literals for the examples. -/
local notation "f!" q => F64.lit q

/-! ### Checks of the model against the documentation examples (tests, not proofs) -/

section tests
def docSamples : List F64 := [f! 1, f! 2, f! 3, f! 4, f! 5]
def docSamples2 : List F64 := [f! 2, f! 5, f! 1, f! 4, f! 3]

-- stats.rs:21-30
example : (Stats.collect docSamples).getCount = 5 := by decide +kernel
example : (Stats.collect docSamples).getMin = some (f! 1) := by decide +kernel
example : (Stats.collect docSamples).getArgMin = some 0 := by decide +kernel
example : (Stats.collect docSamples).getMax = some (f! 5) := by decide +kernel
example : (Stats.collect docSamples).getArgMax = some 4 := by decide +kernel
example : (Stats.collect docSamples).getAvg = some (f! 3) := by decide +kernel
example : (Stats.collect docSamples).getVar = some (f! (5 / 2)) := by decide +kernel
example : ∃ x ∈ (Stats.collect docSamples).getStd, |x.val - 158113883 / 100000000| < 1 / 1000000 :=
  ⟨F64.sqrt (f! (5 / 2)), by decide +kernel, by decide +kernel⟩
-- stats.rs:117-131
example : (docSamples2.foldl Stats.record Stats.default).getArgMin = some 2 := by decide +kernel
example : (docSamples2.foldl Stats.record Stats.default).getArgMax = some 1 := by decide +kernel
example : (docSamples2.foldl Stats.record Stats.default).getAvg = some (f! 3) := by decide +kernel
example : (docSamples2.foldl Stats.record Stats.default).getVar = some (f! (5 / 2)) := by decide +kernel
end tests

/-! ### C01 -/

/-- **C01** Collecting equals recording one by one, for every sequence and every arithmetic (in particular `F64`,
NaN and infinities included), and `count` is the number of samples. -/
theorem C01_collect_eq_record {α : Type} [Arith α] (samples : List α) :
    Stats.collect samples = samples.foldl Stats.record Stats.default ∧
      (Stats.collect samples).getCount = samples.length :=
  ⟨Stats.collect_eq_foldl samples, Stats.collect_count samples⟩

/-- Recording more samples into collected statistics is collecting the concatenation. -/
theorem C01_record_after_collect {α : Type} [Arith α] (samples more : List α) :
    more.foldl Stats.record (Stats.collect samples) = Stats.collect (samples ++ more) := by
  rw [Stats.collect_eq_foldl, Stats.collect_eq_foldl, List.foldl_append]

/-! ### C02, C03 -/

/-- **C02** `min` is the smallest sample, `arg_min` its first position; none for no samples. -/
theorem C02_min (samples : List F64) (hnan : ∀ x ∈ samples, x.isNaN = false) :
    (samples = [] → (Stats.collect samples).getMin = none ∧ (Stats.collect samples).getArgMin = none) ∧
    (samples ≠ [] → ∃ m i, (Stats.collect samples).getMin = some m ∧ (Stats.collect samples).getArgMin = some i ∧
      samples[i]? = some m ∧ (∀ x ∈ samples, m.le x = true) ∧
      ∀ j x, j < i → samples[j]? = some x → m.lt x = true) := by
  constructor
  · rintro rfl; exact ⟨rfl, rfl⟩
  · intro hne
    obtain ⟨x, xs, rfl⟩ := List.exists_cons_of_ne_nil hne
    have h := Stats.collect_firstMin x (hnan x (by simp)) xs
    refine ⟨_, _, Stats.getMin_of (Stats.collect_count_ne x xs), Stats.getArgMin_of (Stats.collect_count_ne x xs),
      h.1, fun y hy => h.2.2.1 y hy (hnan y hy), fun j y hj hy => ?_⟩
    rcases h.2.2.2 j y hj hy with h' | h'
    · rw [hnan y (List.mem_of_getElem? hy)] at h'; cases h'
    · exact h'

example : (∀ x ∈ [f! 2, f! 1, F64.inf true, f! 1], x.isNaN = false) := by decide +kernel

/-- **C03** `max` is the largest sample, `arg_max` its first position; none for no samples. -/
theorem C03_max (samples : List F64) (hnan : ∀ x ∈ samples, x.isNaN = false) :
    (samples = [] → (Stats.collect samples).getMax = none ∧ (Stats.collect samples).getArgMax = none) ∧
    (samples ≠ [] → ∃ m i, (Stats.collect samples).getMax = some m ∧ (Stats.collect samples).getArgMax = some i ∧
      samples[i]? = some m ∧ (∀ x ∈ samples, x.le m = true) ∧
      ∀ j x, j < i → samples[j]? = some x → x.lt m = true) := by
  constructor
  · rintro rfl; exact ⟨rfl, rfl⟩
  · intro hne
    obtain ⟨x, xs, rfl⟩ := List.exists_cons_of_ne_nil hne
    have h := Stats.collect_firstMax x (hnan x (by simp)) xs
    refine ⟨_, _, Stats.getMax_of (Stats.collect_count_ne x xs), Stats.getArgMax_of (Stats.collect_count_ne x xs),
      h.1, fun y hy => h.2.2.1 y hy (hnan y hy), fun j y hj hy => ?_⟩
    rcases h.2.2.2 j y hj hy with h' | h'
    · rw [hnan y (List.mem_of_getElem? hy)] at h'; cases h'
    · exact h'

example : (∀ x ∈ [f! 2, F64.inf false, f! 1, F64.inf false], x.isNaN = false) := by decide +kernel

/-! ### C04 -/

/-- **C04** (first sample not NaN) NaN samples never change `min`/`max`: they are those of the non-NaN samples, and
the argument indices still point at the first such sample of the full sequence. -/
theorem C04_nan_later (x : F64) (rest : List F64) (hx : x.isNaN = false) :
    let kept := (x :: rest).filter (fun y => !y.isNaN)
    (Stats.collect (x :: rest)).getMin = (Stats.collect kept).getMin ∧
    (Stats.collect (x :: rest)).getMax = (Stats.collect kept).getMax ∧
    (∃ m i, (Stats.collect (x :: rest)).getMin = some m ∧ (Stats.collect (x :: rest)).getArgMin = some i ∧
      (x :: rest)[i]? = some m ∧ ∀ j y, j < i → (x :: rest)[j]? = some y → y.isNaN = true ∨ m.lt y = true) ∧
    (∃ m i, (Stats.collect (x :: rest)).getMax = some m ∧ (Stats.collect (x :: rest)).getArgMax = some i ∧
      (x :: rest)[i]? = some m ∧ ∀ j y, j < i → (x :: rest)[j]? = some y → y.isNaN = true ∨ y.lt m = true) := by
  have hk : (x :: rest).filter (fun y => !y.isNaN) = x :: rest.filter (fun y => !y.isNaN) := by simp [hx]
  have hc := Stats.collect_count_ne x rest
  have hmin := Stats.collect_firstMin x hx rest
  have hmax := Stats.collect_firstMax x hx rest
  refine ⟨?_, ?_, ⟨_, _, Stats.getMin_of hc, Stats.getArgMin_of hc, hmin.1, hmin.2.2.2⟩,
    ⟨_, _, Stats.getMax_of hc, Stats.getArgMax_of hc, hmax.1, hmax.2.2.2⟩⟩
  · rw [Stats.getMin_of hc, hk, Stats.getMin_of (Stats.collect_count_ne _ _), ← hk,
      (Stats.collect_min_filter x hx rest).1]
  · rw [Stats.getMax_of hc, hk, Stats.getMax_of (Stats.collect_count_ne _ _), ← hk,
      (Stats.collect_min_filter x hx rest).2]

/-- **C04** (first sample NaN) `min` and `max` stay NaN and the indices stay 0 whatever follows. -/
theorem C04_nan_first (rest : List F64) :
    (Stats.collect (F64.nan :: rest)).getMin = some F64.nan ∧
    (Stats.collect (F64.nan :: rest)).getMax = some F64.nan ∧
    (Stats.collect (F64.nan :: rest)).getArgMin = some 0 ∧
    (Stats.collect (F64.nan :: rest)).getArgMax = some 0 := by
  have hc := Stats.collect_count_ne F64.nan rest
  obtain ⟨h1, h2, h3, h4⟩ := Stats.collect_firstNaN rest
  rw [Stats.getMin_of hc, Stats.getMax_of hc, Stats.getArgMin_of hc, Stats.getArgMax_of hc, h1, h2, h3, h4]
  exact ⟨rfl, rfl, rfl, rfl⟩

example : (Stats.collect [f! 3, F64.nan, f! 1]).getMin = some (f! 1) := by decide +kernel

/-! ### C05 -/

/-- Independent specification: arithmetic mean. -/
def mean {K : Type} [Field K] (xs : List K) : K := xs.sum / xs.length

/-- Independent specification: unbiased sample variance. -/
def sampleVar {K : Type} [Field K] (xs : List K) : K :=
  (xs.map fun x => (x - mean xs) ^ 2).sum / ((xs.length : K) - 1)

/-- **C05** (exact arithmetic; the code computes the same expressions in `f64`, see C06 for what survives rounding)
`avg` is the mean, `var` is the unbiased sample variance for at least two samples and 0 for one. -/
theorem C05_mean_var {K : Type} [Field K] [LinearOrder K] [IsStrictOrderedRing K] (samples : List K) :
    (samples = [] → (Stats.collect samples).getAvg = none ∧ (Stats.collect samples).getVar = none) ∧
    (samples ≠ [] → (Stats.collect samples).getAvg = some (mean samples)) ∧
    (samples.length = 1 → (Stats.collect samples).getVar = some 0) ∧
    (2 ≤ samples.length → (Stats.collect samples).getVar = some (sampleVar samples)) := by
  refine ⟨?_, ?_, ?_, ?_⟩
  · rintro rfl; exact ⟨rfl, rfl⟩
  · intro hne
    obtain ⟨x, xs, rfl⟩ := List.exists_cons_of_ne_nil hne
    rw [Stats.getAvg_of (Stats.collect_count_ne x xs), (Stats.collect_welford x xs).1]; rfl
  · intro h
    have hc := Stats.collect_count samples
    rw [h] at hc
    simp [Stats.getVar, hc, Arith.lit]
  · intro h2
    obtain ⟨x, xs, rfl⟩ : ∃ x xs, samples = x :: xs := by
      cases samples with
      | nil => simp at h2
      | cons x xs => exact ⟨x, xs, rfl⟩
    rw [Stats.getVar_of (Stats.collect_count_ne x xs)]
    congr 1
    unfold PopulatedStats.var sampleVar
    rw [if_pos (by simp only [Stats.collect_count]; omega), (Stats.collect_welford x xs).2, Stats.collect_count,
      Stats.sum_sq_dev]
    simp only [Arith.div, Arith.ofNat]
    rw [Nat.cast_sub (by omega), Nat.cast_one]
    congr 1
    have hn : (((x :: xs).length : Nat) : K) ≠ 0 := by simp; positivity
    unfold mean
    generalize (((x :: xs).length : Nat) : K) = n at *
    field_simp
    ring

/-- **C05** (standard deviation, exact reals) `std` is the square root of the sample variance. -/
theorem C05_std (samples : List ℝ) (h : 2 ≤ samples.length) :
    (Stats.collect samples).getStd = some (Real.sqrt (sampleVar samples)) := by
  rw [Stats.getStd, ((C05_mean_var samples).2.2.2 h)]; rfl

example : sampleVar ([1, 2, 3, 4, 5] : List ℚ) = 5 / 2 := by norm_num [sampleVar, mean]

/-! ### C06 -/

/-- **C06** With IEEE-754 rounding, for finite samples below 2^1023 in magnitude (fewer than 2^64 of them): `avg` is
finite and between `min` and `max`; `var` and `std` are non-negative (so not NaN; they may be `+∞`). -/
theorem C06_f64_bounds (samples : List F64) (hne : samples ≠ [])
    (hfin : ∀ x ∈ samples, x.isFinite = true ∧ |x.val| < pow2 1023) (hlen : samples.length < 2 ^ 64) :
    ∃ mn av mx vr sd, (Stats.collect samples).getMin = some mn ∧ (Stats.collect samples).getAvg = some av ∧
      (Stats.collect samples).getMax = some mx ∧ (Stats.collect samples).getVar = some vr ∧
      (Stats.collect samples).getStd = some sd ∧
      mn.le av = true ∧ av.le mx = true ∧ F64.zero.le vr = true ∧ F64.zero.le sd = true := by
  obtain ⟨x, xs, rfl⟩ := List.exists_cons_of_ne_nil hne
  have hc := Stats.collect_count_ne x xs
  obtain ⟨h1, h2, h3, h4⟩ := Stats.collect_f64_inv x xs hfin hlen
  have hvar : F64.zero.le (PopulatedStats.var ⟨Stats.collect (x :: xs)⟩) = true := by
    unfold PopulatedStats.var
    split
    · rename_i hgt
      simp only [Stats.collect_count] at hgt ⊢
      exact F64.div_nonneg h4 (by omega) (by omega)
    · have : (Arith.lit 0 : F64) = F64.zero := F64.lit_zero
      rw [this]; exact F64.le_refl rfl
  refine ⟨_, _, _, _, _, Stats.getMin_of hc, Stats.getAvg_of hc, Stats.getMax_of hc, Stats.getVar_of hc, ?_, h2, h3,
    hvar, F64.sqrt_nonneg hvar⟩
  rw [Stats.getStd, Stats.getVar_of hc]; rfl

example : ∀ x ∈ [f! (1 / 10), f! (-3), f! (10 ^ 300)], x.isFinite = true ∧ |x.val| < pow2 1023 := by decide +kernel

/-- The largest finite `f64`. -/
def f64Max : F64 := F64.lit ((2 ^ 53 - 1) * pow2 971)

/-- **C06** (the magnitude bound is needed) With the two finite samples `f64::MAX` and `-f64::MAX` the difference
overflows: the average becomes `-∞`, below `min`, and `var` and `std` become NaN. -/
theorem C06_overflow_counterexample :
    (∀ x ∈ [f64Max, F64.neg f64Max], x.isFinite = true) ∧
    (Stats.collect [f64Max, F64.neg f64Max]).getAvg = some (F64.inf true) ∧
    (Stats.collect [f64Max, F64.neg f64Max]).getMin = some (F64.neg f64Max) ∧
    (Stats.collect [f64Max, F64.neg f64Max, F64.zero]).getVar = some F64.nan ∧
    (Stats.collect [f64Max, F64.neg f64Max, F64.zero]).getStd = some F64.nan := by
  decide +kernel

/-! ### C07 -/

/-- **C07** Snapshots (and `try_from`) exist exactly for non-empty statistics, and every accessor of the snapshot is
the `Some`-value of the accessor of the original at that moment. -/
theorem C07_snapshot {α : Type} [Arith α] [ArithSqrt α] (s : Stats α) :
    ((s.snapshot).isSome = true ↔ s.getCount ≠ 0) ∧ s.snapshot = PopulatedStats.tryFrom s ∧
    ∀ p, s.snapshot = some p →
      s.getCount = p.count ∧ s.getMin = some p.min ∧ s.getArgMin = some p.argMin ∧ s.getMax = some p.max ∧
      s.getArgMax = some p.argMax ∧ s.getAvg = some p.avg ∧ s.getVar = some p.var ∧ s.getStd = some p.std := by
  refine ⟨?_, rfl, ?_⟩
  · unfold Stats.snapshot Stats.getCount; split <;> simp_all
  · intro p hp
    unfold Stats.snapshot at hp
    split at hp
    · rename_i h
      cases hp
      refine ⟨rfl, Stats.getMin_of h, Stats.getArgMin_of h, Stats.getMax_of h, Stats.getArgMax_of h,
        Stats.getAvg_of h, Stats.getVar_of h, ?_⟩
      rw [Stats.getStd, Stats.getVar_of h]; rfl
    · cases hp

/-- **C07** (histories) After recording any samples, a snapshot exists iff there was at least one sample. -/
theorem C07_snapshot_history {α : Type} [Arith α] (samples : List α) :
    (samples.foldl Stats.record Stats.default).snapshot.isSome = true ↔ samples ≠ [] := by
  rw [← Stats.collect_eq_foldl, Stats.snapshot, Stats.collect_count]
  cases samples <;> simp

/-- **C07** (setters) `set_arg_min`/`set_arg_max` panic exactly when the index is out of bounds and otherwise change
only that index. -/
theorem C07_setters {α : Type} [Arith α] (p : PopulatedStats α) (i : Nat) :
    (p.setArgMin i = .panic ↔ p.count ≤ i) ∧ (p.setArgMax i = .panic ↔ p.count ≤ i) ∧
    (i < p.count → p.setArgMin i = .ok ⟨p.count, p.min, i, p.max, p.argMax, p.avg, p.stats.sumSquared⟩) ∧
    (i < p.count → p.setArgMax i = .ok ⟨p.count, p.min, p.argMin, p.max, i, p.avg, p.stats.sumSquared⟩) := by
  unfold PopulatedStats.setArgMin PopulatedStats.setArgMax
  refine ⟨?_, ?_, ?_, ?_⟩
  · split <;> simp <;> omega
  · split <;> simp <;> omega
  · intro h; rw [if_pos h]; rfl
  · intro h; rw [if_pos h]; rfl

example : (Stats.collect [f! 3, f! 1]).snapshot.isSome = true := by decide +kernel

end RG.Props
