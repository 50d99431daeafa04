import Verif.Props.CrossRate
import Verif.Props.Population

/-!
# C142 — How often breed neither crosses over nor mutates
-/

namespace RG.Props
open RG RG.Prog Arith
variable {I Mo U : Type} [Individual I]

/-- The model, except that crossover and mutation panic: `breed` returns only if it called neither. -/
def changePanics (M : EvoOps I Mo U) : EvoOps I Mo U := { M with crossover := fun _ _ _ => .done .panic, mutate := fun _ _ => .done .panic }

theorem end_total {M : EvoOps I Mo U} {model : Mo} (h : OthersReturn M model) (p : Population I) (fp o : I) :
    Always (fun _ => True) (breedEnd M model p fp o) := by
  unfold breedEnd
  rw [always_bind]
  refine Always.mono (h.improve o) fun o _ => ?_
  rw [always_bind]
  refine Always.mono (h.evaluate o) fun o _ => ?_
  rw [always_bind]
  have hc : Always (fun _ => True) (if isValid o then M.canSurvive model o fp p else pure false) := by
    split
    · exact h.canSurvive o fp p
    · exact fun r hr => ⟨_, hr, trivial⟩
  exact Always.mono hc fun b _ r hr => ⟨_, hr, trivial⟩

/-! ### Theorems -/

/-- **C142** `breed` calls neither crossover nor mutation with the product of the probabilities of not calling either. -/
theorem C142_neither (M : EvoOps I Mo U) (env : NumEnv) (model : Mo) (hM : OthersReturn M model) (p : Population I) (r : ReproParams U)
    (s : Selector) (hs : r.parentSelector = .builtin s) (ht : Always (fun _ => True) (s.select env p)) :
    1 - (defaultBreed (changePanics M) env model p r).probFail =
      (1 - (defaultBreed (crossPanics M) env model p r).probFail) * (1 - chance r.mutationRate) := by
  rw [C142_calls M env model hM p r s hs ht, ← expect_paired (changePanics M) env p r s hs ht]
  have key : (defaultBreed (changePanics M) env model p r).probFail =
      (breedParents (changePanics M) env p r).expect (fun z => (1 - chance r.mutationRate) * paired z + chance r.mutationRate) := by
    rw [defaultBreed_eq, probFail, expect_bind]
    refine expect_congr _ _ _ fun z hz => ?_
    obtain ⟨⟨y, o⟩, rfl, -⟩ := parents_total (changePanics M) env p r s hs ht z hz
    cases o with
    | some y' =>
      show (1 : ℚ) = (1 - chance r.mutationRate) * 1 + chance r.mutationRate
      ring
    | none =>
      show Prog.expect (breedMutate (changePanics M) model r.mutationRate y >>= fun o => breedEnd (changePanics M) model p y o) _ =
        (1 - chance r.mutationRate) * 0 + chance r.mutationRate
      unfold breedMutate
      rw [mul_zero, zero_add, bind_assoc, expect_bind, chance, prob]
      refine expect_congr _ _ _ fun u hu => ?_
      obtain ⟨k, hk, rfl⟩ := (yields_genF64 _).1 hu
      show Prog.expect ((if (F64.unit k).lt r.mutationRate = true then (changePanics M).mutate model y else pure y) >>= fun o => breedEnd (changePanics M) model p y o) _ =
        if (F64.unit k).lt r.mutationRate = true then 1 else 0
      split
      · rfl
      · show Prog.expect (breedEnd (changePanics M) model p y y) _ = 0
        rw [← expect_const (breedEnd (changePanics M) model p y y) 0]
        refine expect_congr _ _ _ fun z hz => ?_
        have hz : (breedEnd M model p y y).yields z := hz
        obtain ⟨c, rfl, -⟩ := end_total hM p y y z hz
        rw [expect_const]
  rw [key, expect_add, expect_mul_left, expect_const]
  ring

/-- **C142** Under elitist selection among the top `m` unequal individuals. -/
theorem C142_neither_elitist (M : EvoOps I Mo U) (env : NumEnv) (model : Mo) (hM : OthersReturn M model) (p : Population I)
    (hn : p.individuals.length ≤ 2 ^ 53) (h2 : 2 ≤ p.individuals.length) (r : ReproParams U) (s : ElitistSelection)
    (hr : s.ratio.isFinite = true ∧ 0 ≤ s.ratio.val ∧ s.ratio.val < 1) (hs : r.parentSelector = .builtin (.elitist s)) (hu : PairwiseUnequal p) :
    ∃ m : Nat, m + ⌊rndQ (p.individuals.length * s.ratio.val)⌋.toNat = p.individuals.length ∧ 0 < m ∧
      1 - (defaultBreed (changePanics M) env model p r).probFail =
        (1 - chance r.crossoverRate * (1 - 1 / (m : ℚ) ^ 3)) * (1 - chance r.mutationRate) := by
  have hp : p.individuals ≠ [] := by rintro h; rw [h] at h2; simp at h2
  obtain ⟨m, m1, m2, m3⟩ := C142_elitist M env model hM p hp hn r s hr hs hu
  refine ⟨m, m1, m2, ?_⟩
  rw [C142_neither M env model hM p r _ hs (Always.mono (C38_member env p hp hn _ hr (by simp) (by simp)) fun _ _ => trivial), m3, attempts,
    if_pos (by omega)]

/-- **C142** A large tournament leaves little to cross over: with `k` contestants out of `n` unequal individuals the share is at most `4 (1 - 1/n)^k`. -/
theorem C142_tournament (M : EvoOps I Mo U) (env : NumEnv) (model : Mo) (hM : OthersReturn M model) (p : Population I) (hp : p.individuals ≠ [])
    (hn : p.individuals.length ≤ 2 ^ 53) (r : ReproParams U) (s : TournamentSelection) (h0 : s.size ≠ 0)
    (hs : r.parentSelector = .builtin (.tournament s)) (hu : PairwiseUnequal p) :
    (defaultBreed (crossPanics M) env model p r).probFail ≤
      attempts p r.crossoverRate * (4 * (1 - 1 / (p.individuals.length : ℚ)) ^ s.size) := by
  have hlen : 0 < p.individuals.length := List.length_pos_of_ne_nil hp
  have hpos : (0 : ℚ) < p.individuals.length := by exact_mod_cast hlen
  have ht : Always (IsMember p) ((Selector.tournament s).select env p) := C38_member env p hp hn _ h0 (by simp) (by simp)
  rw [C142_unequal M env model hM p r _ hs ht hu]
  have ha : 0 ≤ attempts p r.crossoverRate := by
    unfold attempts
    split
    · exact chance_nonneg _
    · exact le_refl _
  refine mul_le_mul_of_nonneg_left ?_ ha
  set x := (1 - 1 / (p.individuals.length : ℚ)) ^ s.size with hx
  have hlast : ((Selector.tournament s).select env p).prob (fun c => c.1 = p.individuals.length - 1) = 1 - x := by
    refine (C39_probability s h0 p (p.individuals.length - 1) (by omega)).trans ?_
    have e : ((p.individuals.length - 1 : Nat) : ℚ) = (p.individuals.length : ℚ) - 1 := by rw [Nat.cast_sub hlen]; norm_num
    rw [e, sub_add_cancel, sub_div, ← div_pow, ← div_pow, div_self hpos.ne', one_pow, sub_div, div_self hpos.ne']
  have h1 : (1 - x) ^ 4 ≤ ∑ i ∈ Finset.range p.individuals.length, ((Selector.tournament s).select env p).prob (fun c => c.1 = i) ^ 4 := by
    rw [← hlast]
    exact Finset.single_le_sum (f := fun i => ((Selector.tournament s).select env p).prob (fun c => c.1 = i) ^ 4)
      (fun i _ => by positivity) (Finset.mem_range.2 (show p.individuals.length - 1 < p.individuals.length by omega))
  have h2 : x ≤ 1 := by
    have := prob_nonneg ((Selector.tournament s).select env p) (fun c => c.1 = p.individuals.length - 1)
    rw [hlast] at this
    linarith
  have h3 : 1 - 4 * x ≤ (1 - x) ^ 4 := by
    have := one_add_mul_le_pow (show (-2 : ℚ) ≤ -x by linarith) 4
    rw [← sub_eq_add_neg] at this
    push_cast at this
    linarith
  linarith

theorem sum_fourth (n : Nat) : ∑ i ∈ Finset.range n, ((i : ℚ) + 1) ^ 4 =
    (n : ℚ) * ((n : ℚ) + 1) * (2 * (n : ℚ) + 1) * (3 * (n : ℚ) ^ 2 + 3 * (n : ℚ) - 1) / 30 := by
  induction n with
  | zero => simp
  | succ n ih =>
    rw [Finset.sum_range_succ, ih]
    push_cast
    ring

/-- **C142** For rank selection from `n` unequal individuals. -/
theorem C142_rank (M : EvoOps I Mo U) (env : NumEnv) (model : Mo) (hM : OthersReturn M model) (p : Population I) (hp : p.individuals ≠ [])
    (hn : p.individuals.length < 2 ^ 32) (r : ReproParams U) (hs : r.parentSelector = .builtin .rank) (hu : PairwiseUnequal p) :
    let n : ℚ := p.individuals.length
    (defaultBreed (crossPanics M) env model p r).probFail =
      attempts p r.crossoverRate * (1 - 8 * (2 * n + 1) * (3 * n ^ 2 + 3 * n - 1) / (15 * n ^ 3 * (n + 1) ^ 3)) := by
  intro n
  have hpos : 0 < n := by show (0 : ℚ) < p.individuals.length; exact_mod_cast List.length_pos_of_ne_nil hp
  have ht : Always (IsMember p) (Selector.rank.select env p) :=
    C38_member env p hp (hn.le.trans (by norm_num)) .rank trivial (by simp) (fun _ => hn)
  rw [C142_unequal M env model hM p r .rank hs ht hu]
  have e : ∑ i ∈ Finset.range p.individuals.length, (Selector.rank.select env p).prob (fun c => c.1 = i) ^ 4 =
      ∑ i ∈ Finset.range p.individuals.length, ((i : ℚ) + 1) ^ 4 * (1 / (n * (n + 1) / 2) ^ 4) := by
    refine Finset.sum_congr rfl fun i hi => ?_
    rw [show (Selector.rank.select env p).prob (fun c => c.1 = i) = _ from C40_probability p hn i (Finset.mem_range.1 hi), div_pow]
    ring
  rw [e, ← Finset.sum_mul, sum_fourth]
  congr 2
  show n * (n + 1) * (2 * n + 1) * (3 * n ^ 2 + 3 * n - 1) / 30 * (1 / (n * (n + 1) / 2) ^ 4) = _
  field_simp
  ring

/-- **C142** Populations of individuals that are equal exactly if their fitness is, and not NaN, have no two equal ones. -/
theorem C142_population (sort : List I → List I) (hs : LawfulSort sort) (v : List I) (hn : ∀ i ∈ v, (fitness i).isNaN = false)
    (heq : ∀ x ∈ v, ∀ y ∈ v, Individual.eq x y = true ↔ (fitness x).feq (fitness y) = true)
    (p : Population I) (hp : Population.new sort v = .ok p) : PairwiseUnequal p := by
  have hpw := C09_unique sort hs v hn heq p hp
  have hsub : ∀ x ∈ p.individuals, x ∈ v := by
    intro x hx
    rw [(Population.wf_new hs hp).2.2.1] at hx
    exact (hs.perm v).mem_iff.1 ((dedup_sublist _).subset hx)
  intro i j x y hx hy
  obtain ⟨hi, hxi⟩ := List.getElem?_eq_some_iff.1 hx
  obtain ⟨hj, hyj⟩ := List.getElem?_eq_some_iff.1 hy
  have hxv : x ∈ v := hsub x (hxi ▸ List.getElem_mem hi)
  rw [List.pairwise_iff_getElem] at hpw
  constructor
  · intro h
    rcases Nat.lt_trichotomy i j with hlt | e | hlt
    · have := (hpw i j hi hj hlt).1
      rw [hxi, hyj, h] at this
      cases this
    · exact e
    · have := (hpw j i hj hi hlt).2
      rw [hxi, hyj, h] at this
      cases this
  · rintro rfl
    obtain rfl : x = y := hxi.symm.trans hyj
    rw [heq x hxv x hxv]
    simp [F64.feq, hn x hxv]

/-- Three numbers, rank selection, the crossover rate 1 and the mutation rate 1/4: in about 57 of 1000 cases `breed` calls neither. -/
example (env : NumEnv) (r : ReproParams Empty) (hs : r.parentSelector = .builtin .rank) (h1 : r.crossoverRate = F64.one)
    (h2 : r.mutationRate = F64.lit (1 / 4)) : 1 - (defaultBreed (changePanics numOps) env () numPop r).probFail = 49 / 864 := by
  rw [C142_neither numOps env () numOps_return numPop r .rank hs (Always.mono
    (C38_member env numPop (by decide) (by decide) .rank trivial (by simp) (by decide)) fun _ _ => trivial), numPop_rank env r hs h1, h2, chance,
    prob_fire (by decide +kernel) (by decide +kernel) (by decide +kernel), show ⌈(F64.lit (1 / 4)).val * 2 ^ 53⌉ = 2 ^ 51 by decide +kernel]
  norm_num

end RG.Props
