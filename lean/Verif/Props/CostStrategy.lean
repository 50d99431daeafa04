import Verif.Proofs.CostStrategy
import Verif.Props.Cost
import Verif.Props.CostGpx2
import Verif.Props.Crossover

/-!
# C124: what the crossover strategies spend on average

`CrossoverStrategy::crossover` with its random choices. `CrossoverStrategy.counted` returns the offspring with the counters;
`Prog.mean` is an expected value.
-/

namespace RG
open Prog
variable {G : Type} [DecidableEq G]

/-- **C124** Counting changes nothing: same draws, same offspring, for every strategy and all genomes. -/
theorem C124_same (lt : G → G → Bool) (ord : Nat → List G → List G) (fuel : Nat) (s : CrossoverStrategy) (p₁ p₂ : List G) :
    (s.counted lt ord fuel p₁ p₂ >>= fun c => Prog.lift c.result) = s.crossover lt ord fuel p₁ p₂ :=
  counted_same lt ord fuel s p₁ p₂

/-- **C124** `Cycle` makes `n * (n + 1) / 2` comparisons on average (and always). -/
theorem C124_cycle (lt : G → G → Bool) (ord : Nat → List G → List G) (fuel : Nat) (p₁ p₂ : List G) (hnd : p₁.Nodup)
    (hp : p₂.Perm p₁) (hn : 2 ≤ p₁.length) :
    (CrossoverStrategy.cycle.counted lt ord fuel p₁ p₂).mean Counted.eqs = p₁.length * (p₁.length + 1) / 2 := by
  have h : ((2 * (countedCx p₁ p₂).eqs : Nat) : ℚ) = (p₁.length * (p₁.length + 1) : Nat) := by
    rw [C122_cx p₁ p₂ hnd hp hn]
  push_cast at h
  show ((countedCx p₁ p₂).eqs : ℚ) = _
  linarith

/-- **C124** `PartiallyMapped` and `Order` make between `(n² - 1) / 6` and `(n + 1) * (2 * n + 1) / 6` comparisons on average,
whatever the two permutations of `n` genes. -/
theorem C124_range (lt : G → G → Bool) (ord : Nat → List G → List G) (fuel : Nat) (s : CrossoverStrategy)
    (hs : s = .partiallyMapped ∨ s = .order) (p₁ p₂ : List G) (hnd : p₁.Nodup) (hp : p₂.Perm p₁) (hn : 2 ≤ p₁.length)
    (hf : p₁.length < fuel) :
    ((p₁.length : ℚ) ^ 2 - 1) / 6 ≤ (s.counted lt ord fuel p₁ p₂).mean Counted.eqs ∧
      (s.counted lt ord fuel p₁ p₂).mean Counted.eqs ≤ ((p₁.length : ℚ) + 1) * (2 * p₁.length + 1) / 6 := by
  rcases hs with rfl | rfl
  · exact mean_range p₁.length (by omega) (fun range => countedPmx fuel p₁ p₂ range) fun s e hse he =>
      C122_pmx p₁ p₂ hnd hp hn s e hse.le he fuel hf
  · exact mean_range p₁.length (by omega) (fun range => countedOx fuel p₁ p₂ range) fun s e hse he =>
      C122_ox p₁ p₂ hnd hp hn s e hse he fuel hf

/-- **C124** So on average they take about between one and two thirds of the comparisons of `Cycle`. -/
theorem C124_thirds (lt : G → G → Bool) (ord : Nat → List G → List G) (fuel : Nat) (s : CrossoverStrategy)
    (hs : s = .partiallyMapped ∨ s = .order) (p₁ p₂ : List G) (hnd : p₁.Nodup) (hp : p₂.Perm p₁) (hn : 2 ≤ p₁.length)
    (hf : p₁.length < fuel) :
    (1 / 3 - 1 / (3 * p₁.length)) * (CrossoverStrategy.cycle.counted lt ord fuel p₁ p₂).mean Counted.eqs ≤
        (s.counted lt ord fuel p₁ p₂).mean Counted.eqs ∧
      (s.counted lt ord fuel p₁ p₂).mean Counted.eqs ≤
        (2 / 3 + 1 / (3 * p₁.length)) * (CrossoverStrategy.cycle.counted lt ord fuel p₁ p₂).mean Counted.eqs := by
  obtain ⟨h1, h2⟩ := C124_range lt ord fuel s hs p₁ p₂ hnd hp hn hf
  rw [C124_cycle lt ord fuel p₁ p₂ hnd hp hn]
  have hn0 : (p₁.length : ℚ) ≠ 0 := by exact_mod_cast (by omega : p₁.length ≠ 0)
  constructor
  · refine le_trans (le_of_eq ?_) h1
    field_simp; ring
  · refine le_trans h2 (le_of_eq ?_)
    field_simp; ring

/-- **C124** `GeneralizedPartition2`: the mean number of hash operations is that of C123. -/
theorem C124_gpx2 (lt : G → G → Bool) (ord : Nat → List G → List G) (fuel : Nat) (p₁ p₂ : List G) (hnd : p₁.Nodup)
    (parts : List (List G)) (hp : commonPartitions lt p₁ p₂ = .ok parts) :
    (CrossoverStrategy.generalizedPartition2.counted lt ord fuel p₁ p₂).mean Counted.hashes =
      (countedPartitions lt p₁ p₂).hashes + p₁.length * (parts.length + 1) / 2 := by
  rw [← C123_expected lt p₁ p₂ hnd parts hp]
  unfold Prog.mean CrossoverStrategy.counted
  rw [Prog.expect_bind]
  refine Prog.expect_congr _ _ _ fun r _ => ?_
  cases r <;> rfl

theorem always_choose {l : List G} (hl : l ≠ []) : Always (fun r => ∃ g ∈ l, r = some g) (choose l) := by
  unfold choose
  rw [if_neg (by simpa using hl), always_bind, always_rangeExcl]
  refine ⟨List.length_pos_iff.2 hl, fun i _ hi => ?_⟩
  rw [always_pure, List.getElem?_eq_getElem hi]
  exact ⟨_, List.getElem_mem hi, rfl⟩

/-- **C124** Whatever the strategy, the two permutations of `n` genes and the draws: at most `4 * n²` comparisons and
`2 * n² + 14 * n` hash operations; `SinglePoint` and `EdgeRecombination` make no comparisons, `PartiallyMapped`, `Order`, `Cycle`
and `SinglePoint` no hash operations. -/
theorem C124_bound (lt : G → G → Bool) (ord : Nat → List G → List G) (hord : ∀ k l, (ord k l).Perm l) (fuel : Nat)
    (s : CrossoverStrategy) (p₁ p₂ : List G) (hnd : p₁.Nodup) (hp : p₂.Perm p₁) (hn : 2 ≤ p₁.length) (hf : p₁.length < fuel) :
    Always (fun c => c.eqs ≤ 4 * p₁.length ^ 2 ∧ c.hashes ≤ 2 * p₁.length ^ 2 + 14 * p₁.length ∧
        (s = .singlePoint ∨ s = .edgeRecombination → c.eqs = 0) ∧
        (s = .partiallyMapped ∨ s = .order ∨ s = .cycle ∨ s = .singlePoint → c.hashes = 0))
      (s.counted lt ord fuel p₁ p₂) := by
  have hne : p₁ ≠ [] := by rintro rfl; simp at hn
  have hcx := C122_cx p₁ p₂ hnd hp hn
  have hrange : ∀ c : URange → Counted (List G),
      (∀ s e, s < e → e ≤ p₁.length → 2 * (c ⟨s, e⟩).eqs ≤ p₁.length * (p₁.length + 1)) → (∀ r, (c r).hashes = 0) →
      Always (fun c => c.eqs ≤ 4 * p₁.length ^ 2 ∧ c.hashes = 0) (randomRange p₁.length >>= fun range => pure (c range)) := by
    intro c h h0
    rw [always_bind]
    refine (Props.always_randomRange p₁.length (by omega)).mono fun r hr => ?_
    rw [always_pure]
    have := h r.start r.stop (by omega) (by omega)
    exact ⟨by nlinarith, h0 r⟩
  unfold CrossoverStrategy.counted
  cases s <;> dsimp only
  · obtain ⟨h1, h2⟩ := C123_gpx2 lt p₁ p₂ hnd hp (fun _ _ partitions => do
      let i ← Prog.rangeExcl 0 partitions.length
      pure (i, ())) always_anyPartition ()
    rw [always_bind]
    refine h2.mono fun r hr => ?_
    rw [always_pure]
    exact ⟨by nlinarith, by nlinarith, by simp, by simp⟩
  · rw [always_bind]
    refine (always_choose hne).mono ?_
    rintro _ ⟨g, hg, rfl⟩
    have := C122_scx p₁ p₂ g
    obtain ⟨k, hk⟩ : ∃ k, p₁.length = k + 1 := ⟨p₁.length - 1, by omega⟩
    rw [hk, Nat.add_sub_cancel] at this
    simp only [Res.ofOption, lift_ok, bind_pure_left, always_pure, hk]
    exact ⟨by nlinarith, by nlinarith, by simp, by simp⟩
  · rw [always_bind]
    refine (always_choose hne).mono ?_
    rintro _ ⟨g, hg, rfl⟩
    have := C122_erx ord hord p₁ p₂ hnd hp g hg
    obtain ⟨k, hk⟩ : ∃ k, p₁.length = k + 1 := ⟨p₁.length - 1, by omega⟩
    rw [hk, Nat.add_sub_cancel] at this
    simp only [Res.ofOption, lift_ok, bind_pure_left, always_pure, hk]
    exact ⟨by omega, by nlinarith, fun _ => this.1, by simp⟩
  · exact (hrange (countedPmx fuel p₁ p₂) (fun s e h1 h2 => by
      have := (C122_quadratic p₁ p₂ hnd hp hn s e h1 h2 fuel hf).1; omega) (countedPmx_hashes fuel p₁ p₂)).mono
      fun c h => ⟨h.1, by omega, by simp, fun _ => h.2⟩
  · exact (hrange (countedOx fuel p₁ p₂) (fun s e h1 h2 => by
      have := (C122_quadratic p₁ p₂ hnd hp hn s e h1 h2 fuel hf).2; omega) (countedOx_hashes fuel p₁ p₂)).mono
      fun c h => ⟨h.1, by omega, by simp, fun _ => h.2⟩
  · rw [always_pure]
    exact ⟨by nlinarith, by rw [countedCx_hashes]; omega, by simp, fun _ => countedCx_hashes p₁ p₂⟩
  · rw [always_bind, always_rangeExcl]
    refine ⟨by omega, fun i _ hi => ?_⟩
    rw [always_pure]
    exact ⟨by simp, by simp, fun _ => rfl, fun _ => rfl⟩

/-- Example: for two permutations of ten genes `Order` makes between 16.5 and 38.5 comparisons on average, `Cycle` 55. -/
example : ((99 : ℚ) / 6 ≤ (CrossoverStrategy.order.counted (fun a b : Nat => decide (a < b)) (fun _ l => l) 11
      [0, 1, 2, 3, 4, 5, 6, 7, 8, 9] [8, 9, 0, 7, 4, 5, 6, 3, 2, 1]).mean Counted.eqs) ∧
    (CrossoverStrategy.order.counted (fun a b : Nat => decide (a < b)) (fun _ l => l) 11
      [0, 1, 2, 3, 4, 5, 6, 7, 8, 9] [8, 9, 0, 7, 4, 5, 6, 3, 2, 1]).mean Counted.eqs ≤ 231 / 6 ∧
    (CrossoverStrategy.cycle.counted (fun a b : Nat => decide (a < b)) (fun _ l => l) 11
      [0, 1, 2, 3, 4, 5, 6, 7, 8, 9] [8, 9, 0, 7, 4, 5, 6, 3, 2, 1]).mean Counted.eqs = 55 := by
  have h := C124_range (fun a b : Nat => decide (a < b)) (fun _ l => l) 11 .order (Or.inr rfl)
    [0, 1, 2, 3, 4, 5, 6, 7, 8, 9] [8, 9, 0, 7, 4, 5, 6, 3, 2, 1] (by decide) (by decide) (by decide) (by decide)
  have h' := C124_cycle (fun a b : Nat => decide (a < b)) (fun _ l => l) 11
    [0, 1, 2, 3, 4, 5, 6, 7, 8, 9] [8, 9, 0, 7, 4, 5, 6, 3, 2, 1] (by decide) (by decide) (by decide)
  simp only [List.length_cons, List.length_nil] at h h'
  norm_num at h h'
  refine ⟨?_, ?_, h'⟩
  · refine le_trans (by norm_num) h.1
  · exact h.2.trans (by norm_num)

end RG
