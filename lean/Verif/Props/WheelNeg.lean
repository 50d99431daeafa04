import Verif.Proofs.WheelNeg
import Verif.Props.Pressure

/-!
# Property C83: the roulette wheel with fitness values that are not positive

Nothing in the documentation restricts roulette-wheel selection, the default strategy, to positive fitness values. With values that are
not positive the running sums fall instead of rising, and the scan stops at the first individual or never.
-/

set_option linter.unusedSectionVars false

namespace RG.Props
open RG RG.Prog Arith
variable {I : Type} [Individual I]

/-- **C83** If no fitness is positive or NaN, the roulette wheel never selects an individual other than the least fit and the fittest,
whatever the prepared total. -/
theorem C83_ends (s : RouletteWheelSelection) (p : Population I) (hp : p.individuals ≠ [])
    (hw : ∀ x ∈ p.individuals, (fitness x).le F64.zero = true) :
    Always (fun r => (r.1 = 0 ∨ r.1 + 1 = p.individuals.length) ∧ p.individuals[r.1]? = some r.2) (s.select p) := by
  intro r hr
  obtain ⟨k, j, x, hk, rfl, hx, hpick⟩ := (C42_f64_wheel s p hp r).1 hr
  refine ⟨_, rfl, ?_, hx⟩
  have := wheelPick_nonpos _ (by simpa using hw) _ j hpick
  simpa using this

/-- **C83** With the prepared total, the fittest (last) individual is selected with the probability that the least fit one has under
positive weights, the share of its fitness in the total, and the least fit (first) with the remaining probability, up to
`n * 2^-49`. The bounds on size are those of C42 for the negated values. -/
theorem C83_probability (env : NumEnv) (henv : env.LawfulSum) (s : RouletteWheelSelection) (p : Population I)
    (hw : FairWeights (p.individuals.map fun x => (fitness x).neg)) (hn : 2 ≤ p.individuals.length) :
    let share := (fitness p.individuals[0]).val / (p.individuals.map fun x => (fitness x).val).sum
    |((s.prepare env p).select p).prob (fun r => r.1 = 0) - (1 - share)| ≤ p.individuals.length / 2 ^ 49 ∧
    |((s.prepare env p).select p).prob (fun r => r.1 + 1 = p.individuals.length) - share| ≤ p.individuals.length / 2 ^ 49 := by
  intro share
  set n := p.individuals.length with hlen
  have hne : p.individuals ≠ [] := by rintro h; rw [h] at hlen; simp at hlen; omega
  set ws := p.individuals.map fitness with hws
  have hwsn : p.individuals.map (fun x => (fitness x).neg) = ws.map F64.neg := by rw [hws, List.map_map]; rfl
  have hwne : ws ≠ [] := by simpa [hws] using hne
  rw [hwsn] at hw
  obtain ⟨T', hT', hopp⟩ := treeSum_opposite (henv ws)
  have hok := hw.ok hT'
  have hfin : ∀ w ∈ ws, w.isFinite = true ∧ w.val ≤ 0 := by
    intro w hm
    have := hw.1 w.neg (List.mem_map_of_mem hm)
    have hf : w.isFinite = true := by
      cases w with
      | nan => exact absurd this.1 Bool.false_ne_true
      | inf s => exact absurd this.1 Bool.false_ne_true
      | nzero => rfl
      | fin q h => rfl
    refine ⟨hf, ?_⟩
    have h2 := this.2
    rw [(F64.neg_finite hf).2] at h2
    linarith
  have hnonpos : ∀ w ∈ ws, w.le F64.zero = true := fun w hm => by
    rw [F64.le_finite (hfin w hm).1 rfl]; exact (hfin w hm).2
  obtain ⟨t1, t2, -⟩ := hok.total_close
  set total := (s.prepare env p).totalFitness with htot
  have htot' : total = env.parSum ws := rfl
  have hT : total.isFinite = true ∧ T'.val = -total.val := by
    rw [htot']
    rcases hopp with ⟨a, b, c⟩ | ⟨a, b⟩ | ⟨s, a, b⟩
    · exact ⟨a, c⟩
    · rw [b] at t1; exact absurd t1 Bool.false_ne_true
    · rw [b] at t1; exact absurd t1 Bool.false_ne_true
  -- the first weight
  obtain ⟨w0, hw0, hw0f⟩ : ∃ w0, ws[0]? = some w0 ∧ fitness p.individuals[0] = w0 :=
    ⟨fitness p.individuals[0], by rw [hws, List.getElem?_map, List.getElem?_eq_getElem (by omega)]; rfl, rfl⟩
  have hw0m : w0 ∈ ws := List.mem_of_getElem? hw0
  obtain ⟨f0, v0⟩ := hfin w0 hw0m
  have hlws : ws.length = n := by rw [hws, List.length_map]
  have hrs : (runningSum (Arith.lit 0 : F64) ws 0).isFinite = true ∧ (runningSum (Arith.lit 0 : F64) ws 0).val = w0.val := by
    rw [runningSum_succ ws _ 0 w0 hw0, List.take_zero, List.foldl_nil]
    exact F64.add_zero_left (a := F64.lit 0) (by rw [F64.lit_zero]; rfl) f0 (by rw [F64.lit_zero]; rfl)
  have hrs' : (runningSum (Arith.lit 0 : F64) (ws.map F64.neg) 0).val = -w0.val := by
    rw [runningSum_succ _ _ 0 w0.neg (by rw [List.getElem?_map, hw0]; rfl), List.take_zero, List.foldl_nil]
    rw [← (F64.neg_finite f0).2]
    exact (F64.add_zero_left (a := F64.lit 0) (by rw [F64.lit_zero]; rfl) (F64.neg_finite f0).1 (by rw [F64.lit_zero]; rfl)).2
  obtain ⟨r1, r2, r3, r4, r5⟩ := hok.ratio 0
  rw [hrs'] at r1 r2 r5
  have hTpos : 0 < T'.val := lt_of_lt_of_le (pow2_pos _) r4
  -- the exact share
  have hS : exactSum ((ws.map F64.neg).take 1) / exactSum (ws.map F64.neg) = share := by
    have hsum : exactSum (ws.map F64.neg) = -(p.individuals.map fun x => (fitness x).val).sum := by
      have : ∀ l : List F64, (∀ w ∈ l, w.isFinite = true) → exactSum (l.map F64.neg) = -(l.map F64.val).sum := by
        intro l
        induction l with
        | nil => intro _; simp
        | cons a l ih =>
          intro h
          rw [List.map_cons, exactSum_cons, ih (fun w hw => h w (List.mem_cons_of_mem _ hw)), (F64.neg_finite (h a (by simp))).2]
          simp [add_comm]
      rw [this ws fun w h => (hfin w h).1, hws, List.map_map]
      rfl
    have htake : exactSum ((ws.map F64.neg).take 1) = -w0.val := by
      rw [show (1 : Nat) = 0 + 1 from rfl, List.take_add_one, List.getElem?_map, hw0]
      simp [(F64.neg_finite f0).2]
    rw [hsum, htake, neg_div_neg_eq, ← hw0f]
  rw [show (0 : Nat) + 1 = 1 from rfl, hS, List.length_map, hlws] at r1 r2
  rw [show (0 : Nat) + 1 = 1 from rfl, hS] at r3
  -- which draws select the first individual
  have htarget : ∀ k, k < 2 ^ 53 → ((F64.unit k).mul total).isFinite = true ∧
      ((F64.unit k).mul total).val = -rndQ ((k : ℚ) / 2 ^ 53 * T'.val) := by
    intro k hk
    obtain ⟨u1, u2⟩ := F64.unit_val hk.le
    have ht := hok.target k hk
    have hfm := F64.round_of_abs_le (s := (F64.unit k).signBit ^^ total.signBit) (q := (k : ℚ) / 2 ^ 53 * total.val)
      (F64.rep_val T') (by
        rw [show total.val = -T'.val by linarith [hT.2], mul_neg, abs_neg, abs_of_nonneg (by positivity)]
        have : (k : ℚ) / 2 ^ 53 ≤ 1 := by
          rw [div_le_one (by norm_num)]; exact_mod_cast hk.le
        nlinarith)
    rw [F64.mul_finite u1 hT.1, u2]
    refine ⟨hfm.1, ?_⟩
    rw [hfm.2, show total.val = -T'.val by linarith [hT.2], mul_neg, rndQ_neg]
  have hfirst : ∀ k j, k < 2 ^ 53 → WheelPick ws ((F64.unit k).mul total) j →
      (j = 0 ↔ -w0.val ≤ rndQ ((k : ℚ) / 2 ^ 53 * T'.val)) := by
    intro k j hk hj
    obtain ⟨a1, a2⟩ := htarget k hk
    have hle : (((F64.unit k).mul total).le (runningSum (Arith.lit 0 : F64) ws 0)) = true ↔
        -w0.val ≤ rndQ ((k : ℚ) / 2 ^ 53 * T'.val) := by
      rw [F64.le_finite a1 hrs.1, hrs.2, a2]
      constructor <;> intro h <;> linarith
    rw [← hle]
    constructor
    · rintro rfl
      rcases hj.2.2 with h | h
      · exact h
      · rw [hlws] at h; omega
    · intro h
      rcases Nat.eq_zero_or_pos j with h0 | h0
      · exact h0
      · have := hj.2.1 0 h0
        rw [show ((F64.unit k).mul total ≤ₐ runningSum (Arith.lit 0 : F64) ws 0) =
          ((F64.unit k).mul total).le (runningSum (Arith.lit 0 : F64) ws 0) from rfl, h] at this
        cases this
  obtain ⟨N, hN⟩ : ∃ N : Nat, N = 2 ^ 53 := ⟨_, rfl⟩
  have hNpos : (0 : ℚ) < N := by rw [hN]; norm_num
  have hc : Fmt (-w0.val) := (F64.fmt_val w0).neg
  have hc2 : -w0.val ≤ 2 * T'.val := by rwa [div_le_iff₀ hTpos] at r5
  obtain ⟨d1, d2⟩ := draws_lt hc (by linarith) r4 hc2 N hN
  set P0 := (wheel ws total).prob (fun j => j = 0) with hP0
  have hp0 : P0 = 1 - (((Finset.range N).filter fun k : Nat => rndQ ((k : ℚ) / 2 ^ 53 * T'.val) < -w0.val).card : ℚ) / N := by
    rw [hP0, prob_wheel_draws ws total hwne (fun j => j = 0) (fun k => ¬ rndQ ((k : ℚ) / 2 ^ 53 * T'.val) < -w0.val)
      (fun k j hk hj => by rw [hfirst k j hk hj, not_lt]) N hN]
    have hcard := Finset.card_filter_add_card_filter_not (s := Finset.range N)
      (fun k : Nat => rndQ ((k : ℚ) / 2 ^ 53 * T'.val) < -w0.val)
    rw [Finset.card_range] at hcard
    have hcq : ((((Finset.range N).filter fun k : Nat => rndQ ((k : ℚ) / 2 ^ 53 * T'.val) < -w0.val).card : ℚ)) +
        (((Finset.range N).filter fun k : Nat => ¬ rndQ ((k : ℚ) / 2 ^ 53 * T'.val) < -w0.val).card : ℚ) = N := by
      exact_mod_cast hcard
    rw [eq_sub_iff_add_eq, ← add_div, add_comm, hcq, div_self hNpos.ne']
  have hnq : (2 : ℚ) ≤ n := by exact_mod_cast hn
  have hfinal : |P0 - (1 - share)| ≤ n / 2 ^ 49 := by
    rw [hp0, abs_le]
    have hmin : share - 2 * n / 2 ^ 53 ≤ min (-w0.val / T'.val) 1 := le_min r1 (by
      have : (0 : ℚ) ≤ 2 * n / 2 ^ 53 := by positivity
      linarith)
    have e1 : 2 * (n : ℚ) / 2 ^ 53 = 2 / 2 ^ 53 * n := by ring
    have e2 : 3 * (n : ℚ) / 2 ^ 53 = 3 / 2 ^ 53 * n := by ring
    have e3 : (n : ℚ) / 2 ^ 49 = 16 / 2 ^ 53 * n := by rw [div_eq_mul_inv, mul_comm]; norm_num
    rw [e1] at hmin
    rw [e2] at r2
    rw [e3]
    have hd := hmin.trans (sub_le_iff_le_add.1 d1)
    clear d1 hmin
    norm_num at d2 r2 hd ⊢
    constructor <;> linarith
  have hsel : ((s.prepare env p).select p).prob (fun r => r.1 = 0) = P0 := by
    unfold RouletteWheelSelection.select
    rw [prob_memberAt genF64 _ _ p (by simp) hne (fun r => r.1 = 0) (fun j => j = 0) (fun j hj => Iff.rfl)]
    rfl
  refine ⟨by rwa [hsel], ?_⟩
  have hlast : ((s.prepare env p).select p).prob (fun r => r.1 + 1 = n) = 1 - P0 := by
    have halw := C83_ends (s.prepare env p) p hne (by simpa [hws] using hnonpos)
    have h1 := prob_add_not_of_always _ (fun r => r.1 = 0) halw
    have h2 : ((s.prepare env p).select p).prob (fun r => ¬ r.1 = 0) = ((s.prepare env p).select p).prob (fun r => r.1 + 1 = n) := by
      refine prob_congr _ _ _ fun r hr => ?_
      obtain ⟨r', hr', h3, -⟩ := halw _ hr
      cases hr'
      constructor
      · intro h; exact h3.resolve_left h
      · intro h h0; omega
    rw [hsel, h2] at h1
    linarith
  rw [hlast, show 1 - P0 - share = -(P0 - (1 - share)) by ring, abs_neg]
  exact hfinal

/-- **C83** So three or more individuals without a positive fitness are not selected in the order of their fitness, unless the least
fit one has almost the whole total. -/
theorem C83_not_favoured (env : NumEnv) (henv : env.LawfulSum) (s : RouletteWheelSelection) (p : Population I)
    (hw : FairWeights (p.individuals.map fun x => (fitness x).neg)) (hn : 3 ≤ p.individuals.length)
    (hshare : (fitness p.individuals[0]).val / (p.individuals.map fun x => (fitness x).val).sum < 1 - p.individuals.length / 2 ^ 49) :
    ((s.prepare env p).select p).prob (fun r => r.1 = 1) = 0 ∧ 0 < ((s.prepare env p).select p).prob (fun r => r.1 = 0) ∧
    ¬ FavoursFit ((s.prepare env p).select p) p.individuals.length := by
  have hne : p.individuals ≠ [] := by rintro h; simp [h] at hn
  have h0 := (abs_le.1 (C83_probability env henv s p hw (by omega)).1).1
  have hpos : 0 < ((s.prepare env p).select p).prob (fun r => r.1 = 0) := by linarith
  have hnonpos : ∀ x ∈ p.individuals, (fitness x).le F64.zero = true := by
    intro x hx
    have := hw.1 _ (List.mem_map_of_mem (f := fun x => (fitness x).neg) hx)
    have hf : (fitness x).isFinite = true := by
      have h1 := this.1
      revert h1
      cases fitness x <;> simp [F64.neg]
    rw [F64.le_finite hf rfl]
    have h2 := this.2
    rw [(F64.neg_finite hf).2] at h2
    show _ ≤ (0 : ℚ)
    linarith
  have hzero : ((s.prepare env p).select p).prob (fun r => r.1 = 1) = 0 := by
    refine prob_eq_zero _ _ fun r hr h1 => ?_
    obtain ⟨r', hr', h2, -⟩ := C83_ends (s.prepare env p) p hne hnonpos _ hr
    cases hr'
    omega
  refine ⟨hzero, hpos, fun hf => ?_⟩
  have := hf 0 1 (by omega) (by omega)
  rw [hzero] at this
  linarith

/-- **C83** If every fitness is zero, the first individual is always selected. -/
theorem C83_zero (env : NumEnv) (henv : env.LawfulSum) (s : RouletteWheelSelection) (p : Population I) (hp : p.individuals ≠ [])
    (hw : ∀ x ∈ p.individuals, (fitness x).isFinite = true ∧ (fitness x).val = 0) :
    Always (fun r => r.1 = 0) ((s.prepare env p).select p) := by
  intro r hr
  obtain ⟨k, j, x, hk, rfl, hx, hpick⟩ := (C42_f64_wheel _ p hp r).1 hr
  refine ⟨_, rfl, ?_⟩
  by_contra hj
  have hws : ∀ w ∈ p.individuals.map fitness, w.isFinite = true ∧ w.val = 0 := by simpa using hw
  have hfold : ∀ (l : List F64) (z : F64), (∀ w ∈ l, w.isFinite = true ∧ w.val = 0) → z.isFinite = true ∧ z.val = 0 →
      (l.foldl F64.add z).isFinite = true ∧ (l.foldl F64.add z).val = 0 := by
    intro l
    induction l with
    | nil => intro z _ hz; exact hz
    | cons a l ih =>
      intro z hl hz
      refine ih _ (fun w hw => hl w (List.mem_cons_of_mem _ hw)) ?_
      have := F64.add_zero_left hz.1 (hl a (by simp)).1 hz.2
      exact ⟨this.1, this.2.trans (hl a (by simp)).2⟩
  have hz : ∀ z, z = F64.zero ∨ z = F64.nzero → z.isFinite = true ∧ z.val = 0 := by rintro z (rfl | rfl) <;> exact ⟨rfl, rfl⟩
  have htree : ∀ {l : List F64} {t : F64}, TreeSum l t → (∀ w ∈ l, w.isFinite = true ∧ w.val = 0) →
      t.isFinite = true ∧ t.val = 0 := by
    intro l t ht
    induction ht with
    | leaf z h l => intro hl; exact hfold l z hl (hz z h)
    | node z h _ _ ih1 ih2 =>
      intro hl
      have a1 := ih1 fun w hw => hl w (List.mem_append_left _ hw)
      have a2 := ih2 fun w hw => hl w (List.mem_append_right _ hw)
      have b1 := F64.add_zero_left (hz z h).1 a1.1 (hz z h).2
      have b2 := F64.add_zero_left b1.1 a2.1 (b1.2.trans a1.2)
      exact ⟨b2.1, b2.2.trans a2.2⟩
  obtain ⟨t1, t2⟩ := htree (henv (p.individuals.map fitness)) hws
  have h0 := hpick.2.1 0 (Nat.pos_of_ne_zero hj)
  obtain ⟨u1, u2⟩ := F64.unit_val hk.le
  have hm : ((F64.unit k).mul (s.prepare env p).totalFitness).isFinite = true ∧
      ((F64.unit k).mul (s.prepare env p).totalFitness).val = 0 := by
    have hT : (s.prepare env p).totalFitness = env.parSum (p.individuals.map fitness) := rfl
    rw [hT, F64.mul_finite u1 t1, t2, mul_zero]
    exact F64.round_rep rep_zero
  have hrs : (runningSum (lit 0 : F64) (p.individuals.map fitness) 0).isFinite = true ∧
      (runningSum (lit 0 : F64) (p.individuals.map fitness) 0).val = 0 := by
    refine hfold _ (F64.lit 0) (fun w hw => hws w (List.mem_of_mem_take hw)) ?_
    rw [F64.lit_zero]; exact ⟨rfl, rfl⟩
  have : ((F64.unit k).mul (s.prepare env p).totalFitness).le (runningSum (lit 0 : F64) (p.individuals.map fitness) 0) = true := by
    rw [F64.le_finite hm.1 hrs.1, hm.2, hrs.2]
  exact absurd this (by rw [show ((F64.unit k).mul (s.prepare env p).totalFitness).le _ = false from h0]; decide)

/-! ### Example -/

/-- Costs 3, 2 and 1 as negative fitness values. -/
def costs : Population Num := ⟨[num (-3), num (-2), num (-1)], 0, 0, numPop.stats⟩

theorem costs_fair : FairWeights (costs.individuals.map fun x => (fitness x).neg) :=
  ⟨by decide +kernel, by decide +kernel, by decide +kernel, by decide +kernel⟩

-- the middle one is never selected, the worst about every second time
example (env : NumEnv) (henv : env.LawfulSum) (s : RouletteWheelSelection) :
    ((s.prepare env costs).select costs).prob (fun r => r.1 = 1) = 0 ∧
    |((s.prepare env costs).select costs).prob (fun r => r.1 = 0) - 1 / 2| ≤ 3 / 2 ^ 49 := by
  have e : (fitness costs.individuals[0]).val / (costs.individuals.map fun x => (fitness x).val).sum = 1 / 2 := by decide +kernel
  refine ⟨(C83_not_favoured env henv s costs costs_fair (by decide) ?_).1, ?_⟩
  · rw [e]; decide +kernel
  · have := (C83_probability env henv s costs costs_fair (by decide)).1
    rw [e] at this
    norm_num [costs] at this ⊢
    exact this

end RG.Props
