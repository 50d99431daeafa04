import Verif.Proofs.Spread
import Verif.Props.AgaConvergence
import Verif.Props.Stuck

/-!
# Property C78: when the standard deviation computed in `f64` is zero

The adaptive algorithm divides by the standard deviation of the first population (C57, C58). Specification: `f64` equality
`F64.feq` between samples, and their exact values `F64.val`.
-/

namespace RG.Props
open RG RG.Arith

/-- Finite samples that do not overflow when subtracted, of which different ones differ by at least `2^-400`. -/
structure Samples (l : List F64) : Prop where
  finite : ∀ x ∈ l, x.isFinite = true ∧ |x.val| < pow2 1023
  length : l.length < 2 ^ 64
  apart : ∀ x ∈ l, ∀ y ∈ l, x.feq y = false → pow2 (-400) ≤ |x.val - y.val|

/-- Different samples also differ by at least the 2^-50-th part of their size. -/
def Separated (l : List F64) : Prop := ∀ x ∈ l, ∀ y ∈ l, x.feq y = false → pow2 (-50) * |x.val| ≤ |x.val - y.val|

theorem feq_finite {a b : F64} (ha : a.isFinite = true) (hb : b.isFinite = true) : a.feq b = true ↔ a.val = b.val := by
  rw [F64.feq_iff, F64.key_eq_finite ha hb]
  simp [F64.isNaN_of_finite ha, F64.isNaN_of_finite hb]

theorem feq_finite_false {a b : F64} (ha : a.isFinite = true) (hb : b.isFinite = true) : a.feq b = false ↔ a.val ≠ b.val := by
  rw [← Bool.not_eq_true, feq_finite ha hb]

private theorem pos_of_p2 {k : Int} {h : -1074 ≤ k} {h' : k < 1024} {a : F64} (ha : (F64.p2 k h h').le a = true) :
    F64.zero.lt a = true :=
  F64.lt_of_lt_of_le (by rw [F64.lt_finite rfl rfl]; exact pow2_pos k) ha

private theorem not_feq_of_pos {a : F64} (ha : F64.zero.lt a = true) : ¬ a.feq F64.zero = true := by
  intro h
  have h1 := (F64.lt_iff.1 ha).2.2
  rw [(F64.feq_iff.1 h).2.2] at h1
  exact lt_irrefl _ h1

private theorem feq_of_zero {a : F64} (ha : a.isFinite = true) (h0 : a.val = 0) : a.feq F64.zero = true := by
  rw [feq_finite ha rfl]; exact h0

/-- **C78** Exactly when the standard deviation of at least two samples is zero: the average of the first two, as computed, is
the second, and all further samples are equal to the second. In all other cases variance and standard deviation are positive. -/
theorem C78_zero (a b : F64) (rest : List F64) (h : Samples (a :: b :: rest)) :
    ∃ av vr sd, (Stats.collect [a, b]).getAvg = some av ∧
      (Stats.collect (a :: b :: rest)).getVar = some vr ∧ (Stats.collect (a :: b :: rest)).getStd = some sd ∧
      (sd.feq F64.zero = true ↔ av.feq b = true ∧ ∀ x ∈ rest, x.feq b = true) ∧
      (vr.feq F64.zero = true ↔ av.feq b = true ∧ ∀ x ∈ rest, x.feq b = true) ∧
      (¬ (av.feq b = true ∧ ∀ x ∈ rest, x.feq b = true) → F64.zero.lt vr = true ∧ F64.zero.lt sd = true) := by
  have hc := Stats.collect_count_ne a (b :: rest)
  have hcount := Stats.collect_count (a :: b :: rest)
  have ha := h.finite a (by simp)
  have hb := h.finite b (by simp)
  have hab : ∀ y ∈ [a, b], y.isFinite = true ∧ |y.val| < pow2 1023 := fun y hy => h.finite y (by
    simp only [List.mem_cons, List.not_mem_nil, or_false] at hy ⊢; tauto)
  have hav := (Stats.collect_f64_inv a [b] hab (by simp)).1
  obtain ⟨i1, i2⟩ := Stats.spread_inv a b rest h.finite h.length (fun x hx y hy hne =>
    h.apart x hx y hy ((feq_finite_false (h.finite x hx).1 (h.finite y hy).1).2 hne))
  have hflat : ((Stats.collect [a, b]).avg.feq b = true ∧ ∀ x ∈ rest, x.feq b = true) ↔ Stats.Flat a b rest := by
    unfold Stats.Flat
    rw [feq_finite hav hb.1]
    refine and_congr_right fun _ => forall_congr' fun x => ?_
    refine forall_congr' fun hx => feq_finite (h.finite x (by simp [hx])).1 hb.1
  have hvar : PopulatedStats.var ⟨Stats.collect (a :: b :: rest)⟩ =
      (Stats.collect (a :: b :: rest)).sumSquared.div (F64.ofNat ((Stats.collect (a :: b :: rest)).count - 1)) := by
    unfold PopulatedStats.var
    rw [if_pos (by rw [hcount]; simp)]
    rfl
  have hn : 1 ≤ (Stats.collect (a :: b :: rest)).count - 1 := by rw [hcount]; simp
  have hn' : (Stats.collect (a :: b :: rest)).count - 1 < 2 ^ 64 := by
    rw [hcount]; exact (Nat.sub_le _ _).trans_lt h.length
  refine ⟨_, _, _, Stats.getAvg_of (Stats.collect_count_ne a [b]), Stats.getVar_of hc,
    by rw [Stats.getStd, Stats.getVar_of hc]; rfl, ?_⟩
  rw [hvar]
  show ((F64.sqrt _).feq F64.zero = true ↔ _) ∧ _ ∧ (_ → _ ∧ F64.zero.lt (F64.sqrt _) = true)
  by_cases hf : Stats.Flat a b rest
  · obtain ⟨-, s1, s2⟩ := i1 hf
    obtain ⟨d1, d2⟩ := F64.div_ofNat_zero s1 s2 hn hn'
    obtain ⟨q1, q2⟩ := F64.sqrt_zero d1 d2
    have := hflat.2 hf
    exact ⟨iff_of_true (feq_of_zero q1 q2) this, iff_of_true (feq_of_zero d1 d2) this, fun hn => absurd this hn⟩
  · have s1 := i2 hf
    have d1 := F64.div_ofNat_p2 s1 hn hn'
    have q1 := F64.sqrt_p2 d1
    have := mt hflat.1 hf
    exact ⟨iff_of_false (not_feq_of_pos (pos_of_p2 q1)) this, iff_of_false (not_feq_of_pos (pos_of_p2 d1)) this,
      fun _ => ⟨pos_of_p2 d1, pos_of_p2 q1⟩⟩

/-- **C78** If different samples differ by at least the 2^-50-th part of their size, the standard deviation is zero exactly when
all samples are equal. -/
theorem C78_equal (samples : List F64) (h : Samples samples) (hs : Separated samples) (hne : samples ≠ []) :
    ∃ vr sd, (Stats.collect samples).getVar = some vr ∧ (Stats.collect samples).getStd = some sd ∧
      (sd.feq F64.zero = true ↔ ∀ x ∈ samples, ∀ y ∈ samples, x.feq y = true) ∧
      (¬ (∀ x ∈ samples, ∀ y ∈ samples, x.feq y = true) → F64.zero.lt vr = true ∧ F64.zero.lt sd = true) := by
  match samples, hne with
  | [a], _ =>
    have ha := h.finite a (by simp)
    have haa : ∀ x ∈ [a], ∀ y ∈ [a], x.feq y = true := by
      intro x hx y hy
      rw [List.mem_singleton] at hx hy
      rw [hx, hy, feq_finite ha.1 ha.1]
    refine ⟨_, _, rfl, rfl, iff_of_true ?_ haa, fun hn => absurd haa hn⟩
    show (F64.sqrt (F64.lit 0)).feq F64.zero = true
    decide +kernel
  | a :: b :: rest, _ =>
    obtain ⟨av, vr, sd, h1, h2, h3, h4, -, h6⟩ := C78_zero a b rest h
    have ha := h.finite a (by simp)
    have hb := h.finite b (by simp)
    have key : (av.feq b = true ∧ ∀ x ∈ rest, x.feq b = true) ↔
        ∀ x ∈ a :: b :: rest, ∀ y ∈ a :: b :: rest, x.feq y = true := by
      rw [Stats.getAvg_of (Stats.collect_count_ne a [b]), Option.some.injEq] at h1
      have hab : ∀ y ∈ [a, b], y.isFinite = true ∧ |y.val| < pow2 1023 := fun y hy => h.finite y (by
        simp only [List.mem_cons, List.not_mem_nil, or_false] at hy ⊢; tauto)
      have hav := (Stats.collect_f64_inv a [b] hab (by simp)).1
      have hval : av.val = stepAvg a.val b.val (F64.ofNat 2).val := by
        have e : Stats.collect [a, b] = (Stats.collect [a]).record b := Stats.collect_concat [a] b
        have e1 := (Stats.record_fields (Stats.collect [a]) b (Stats.collect_count_ne a [])).1
        rw [← h1, e, e1]
        exact (F64.welford_val hb.1 ha.1 hb.2 ha.2 le_rfl (by norm_num)).2.1
      have htwo : (F64.ofNat 2).val = 2 := by
        have := (F64.ofNat_exact (n := 2) (by norm_num)).2; simpa using this
      rw [h1] at hav
      constructor
      · rintro ⟨k1, k2⟩
        rw [feq_finite hav hb.1, hval, htwo] at k1
        have hba : a.val = b.val := by
          by_contra hne
          have hne' : b.feq a = false := (feq_finite_false hb.1 ha.1).2 (Ne.symm hne)
          refine stepAvg_ne_of_far (h.apart b (by simp) a (by simp) hne') le_rfl ?_ (hs b (by simp) a (by simp) hne') k1
          rw [pow2_eq]; norm_num
        have hall : ∀ x ∈ a :: b :: rest, x.val = b.val := by
          intro x hx
          simp only [List.mem_cons] at hx
          rcases hx with rfl | rfl | hx
          · exact hba
          · rfl
          · exact (feq_finite (h.finite x (by simp [hx])).1 hb.1).1 (k2 x hx)
        intro x hx y hy
        rw [feq_finite (h.finite x hx).1 (h.finite y hy).1, hall x hx, hall y hy]
      · intro k
        refine ⟨?_, fun x hx => k x (by simp [hx]) b (by simp)⟩
        rw [feq_finite hav hb.1, hval, (feq_finite ha.1 hb.1).1 (k a (by simp) b (by simp)), stepAvg]
        simp [rndQ_zero, rndQ_of_fmt (F64.fmt_val b)]
    exact ⟨vr, sd, h2, h3, h4.trans key, fun hn => h6 (mt key.1 hn)⟩

/-- **C78** For at most 2^53 samples of magnitude at most 2^450, variance and standard deviation are finite. -/
theorem C78_finite (samples : List F64) (hne : samples ≠ []) (hlen : samples.length ≤ 2 ^ 53)
    (hfin : ∀ x ∈ samples, x.isFinite = true ∧ |x.val| ≤ pow2 450) :
    ∃ vr sd, (Stats.collect samples).getVar = some vr ∧ (Stats.collect samples).getStd = some sd ∧
      vr.isFinite = true ∧ sd.isFinite = true := by
  obtain ⟨x, xs, rfl⟩ := List.exists_cons_of_ne_nil hne
  have hc := Stats.collect_count_ne x xs
  have hcount := Stats.collect_count (x :: xs)
  obtain ⟨s1, s2, -⟩ := Stats.sum_bound x xs hfin hlen
  refine ⟨_, _, Stats.getVar_of hc, by rw [Stats.getStd, Stats.getVar_of hc]; rfl, ?_⟩
  show _ ∧ (F64.sqrt _).isFinite = true
  have hv : (PopulatedStats.var ⟨Stats.collect (x :: xs)⟩).isFinite = true ∧
      0 ≤ (PopulatedStats.var ⟨Stats.collect (x :: xs)⟩).val := by
    unfold PopulatedStats.var
    split
    · rename_i hgt
      have hgt' : 1 ≤ (Stats.collect (x :: xs)).count - 1 := by simp only at hgt; omega
      have hlt : (Stats.collect (x :: xs)).count - 1 < 2 ^ 64 := by rw [hcount]; omega
      have hf := F64.div_ofNat_finite s1 hgt' hlt
      have h0 := F64.div_nonneg ((F64.zero_le_finite s1).2 s2) hgt' hlt
      exact ⟨hf, (F64.zero_le_finite hf).1 h0⟩
    · show (F64.lit 0).isFinite = true ∧ 0 ≤ (F64.lit 0).val
      rw [F64.lit_zero]; exact ⟨rfl, le_rfl⟩
  exact ⟨hv.1, F64.sqrt_finite hv.1 hv.2⟩

/-- **C78** Without the separation the spread can be zero for different samples: two neighbouring numbers, the second one even;
with further copies of the second. -/
theorem C78_counterexample :
    (F64.lit (1 - pow2 (-53))).feq (F64.lit 1) = false ∧
    (Stats.collect [F64.lit (1 - pow2 (-53)), F64.lit 1]).getStd = some F64.zero ∧
    (Stats.collect [F64.lit (1 - pow2 (-53)), F64.lit 1, F64.lit 1, F64.lit 1]).getStd = some F64.zero := by
  decide +kernel

/-- **C78** In particular this holds for integers of magnitude at most `2^50` (fewer than `2^64` of them). -/
theorem C78_integers (samples : List F64) (hlen : samples.length < 2 ^ 64)
    (hint : ∀ x ∈ samples, x.isFinite = true ∧ ∃ z : ℤ, x.val = z ∧ |z| ≤ 2 ^ 50) : Samples samples ∧ Separated samples := by
  have hval : ∀ x ∈ samples, |x.val| ≤ pow2 50 := by
    intro x hx
    obtain ⟨-, z, hz, hb⟩ := hint x hx
    rw [hz, show (50 : Int) = ((50 : Nat) : Int) from rfl, pow2_natCast]
    exact_mod_cast hb
  have hdiff : ∀ x ∈ samples, ∀ y ∈ samples, x.feq y = false → 1 ≤ |x.val - y.val| := by
    intro x hx y hy hxy
    obtain ⟨hf, z, hz, -⟩ := hint x hx
    obtain ⟨hf', z', hz', -⟩ := hint y hy
    rw [feq_finite_false hf hf', hz, hz'] at hxy
    rw [hz, hz']
    have : z - z' ≠ 0 := fun h => hxy (by rw [show z = z' by omega])
    exact_mod_cast Int.one_le_abs this
  refine ⟨⟨fun x hx => ⟨(hint x hx).1, (hval x hx).trans_lt (pow2_lt.2 (by norm_num))⟩, hlen, fun x hx y hy hxy => ?_⟩,
    fun x hx y hy hxy => ?_⟩
  · refine le_trans ?_ (hdiff x hx y hy hxy)
    rw [← pow2_zero]; exact pow2_le.2 (by norm_num)
  · refine le_trans ?_ (hdiff x hx y hy hxy)
    calc pow2 (-50) * |x.val| ≤ pow2 (-50) * pow2 50 := mul_le_mul_of_nonneg_left (hval x hx) (pow2_pos _).le
      _ = 1 := by rw [← pow2_add, ← pow2_zero]; norm_num

section
variable {I : Type} [Individual I]

/-- The fitness values of a population are as in `C78_equal` and `C78_finite`. -/
structure PlainFitness (pop : Population I) : Prop where
  size : pop.individuals.length ≤ 2 ^ 53
  finite : ∀ x ∈ pop.individuals, (fitness x).isFinite = true ∧ |(fitness x).val| ≤ pow2 450
  apart : ∀ x ∈ pop.individuals, ∀ y ∈ pop.individuals, (fitness x).feq (fitness y) = false →
    pow2 (-400) ≤ |(fitness x).val - (fitness y).val| ∧
    pow2 (-50) * |(fitness x).val| ≤ |(fitness x).val - (fitness y).val|

/-- **C78** For a population with such fitness values the spread that the adaptive algorithm works with is zero if all have the
same fitness, and otherwise finite and positive — what `C72_almost_surely` needs of the first population. -/
theorem C78_population (pop : Population I) (hwf : pop.WF) (h : PlainFitness pop) :
    (pop.stats.std.feq F64.zero = true ↔
      ∀ x ∈ pop.individuals, ∀ y ∈ pop.individuals, (fitness x).feq (fitness y) = true) ∧
    ((∃ x ∈ pop.individuals, ∃ y ∈ pop.individuals, (fitness x).feq (fitness y) = false) → GoodSpread pop.stats.std) := by
  have hne : pop.individuals.map fitness ≠ [] := by simpa using hwf.ne
  have hlen : (pop.individuals.map fitness).length ≤ 2 ^ 53 := by simpa using h.size
  have hfin : ∀ x ∈ pop.individuals.map fitness, x.isFinite = true ∧ |x.val| ≤ pow2 450 := by
    intro x hx
    obtain ⟨y, hy, rfl⟩ := List.mem_map.1 hx
    exact h.finite y hy
  have hs : Samples (pop.individuals.map fitness) := by
    refine ⟨fun x hx => ⟨(hfin x hx).1, (hfin x hx).2.trans_lt (pow2_lt.2 (by norm_num))⟩, by omega, ?_⟩
    intro x hx y hy hxy
    obtain ⟨x', hx', rfl⟩ := List.mem_map.1 hx
    obtain ⟨y', hy', rfl⟩ := List.mem_map.1 hy
    exact (h.apart x' hx' y' hy' hxy).1
  have hsep : Separated (pop.individuals.map fitness) := by
    intro x hx y hy hxy
    obtain ⟨x', hx', rfl⟩ := List.mem_map.1 hx
    obtain ⟨y', hy', rfl⟩ := List.mem_map.1 hy
    exact (h.apart x' hx' y' hy' hxy).2
  obtain ⟨vr, sd, -, e1, e2, e3⟩ := C78_equal _ hs hsep hne
  obtain ⟨vr', sd', -, f1, -, f2⟩ := C78_finite _ hne hlen hfin
  have hstd : some pop.stats.std = (Stats.collect (pop.individuals.map fitness)).getStd := by
    obtain ⟨z, zs, hz⟩ := List.exists_cons_of_ne_nil hne
    rw [hwf.stats, hz, Stats.getStd, Stats.getVar_of (Stats.collect_count_ne z zs)]
    rfl
  have hsd : pop.stats.std = sd := Option.some.inj (hstd.trans e1)
  have hsd' : pop.stats.std = sd' := Option.some.inj (hstd.trans f1)
  have hall : (∀ x ∈ pop.individuals.map fitness, ∀ y ∈ pop.individuals.map fitness, x.feq y = true) ↔
      ∀ x ∈ pop.individuals, ∀ y ∈ pop.individuals, (fitness x).feq (fitness y) = true := by
    simp only [List.mem_map, forall_exists_index, and_imp, forall_apply_eq_imp_iff₂]
  refine ⟨by rw [hsd, e2, hall], ?_⟩
  rintro ⟨x, hx, y, hy, hxy⟩
  have hp := (e3 (by
    rw [hall]
    intro hc
    rw [hc x hx y hy] at hxy
    cases hxy)).2
  rw [← hsd] at hp
  have hf : pop.stats.std.isFinite = true := by rw [hsd']; exact f2
  refine ⟨hf, ?_⟩
  have := (F64.lt_finite rfl hf).1 hp
  simpa using this

end

/-! Examples: integers and ratios of counts are separated. -/

example : Samples ([1, 2, 3, 1].map F64.ofNat) where
  finite := by decide +kernel
  length := by decide
  apart := by decide +kernel
example : Separated ([1, 2, 3, 1].map F64.ofNat) := by
  unfold Separated; decide +kernel

end RG.Props
