import Verif.Props.Crossover
import Verif.Props.Mutation
import Verif.Proofs.Distribution

/-!
# Property C66: which operator a strategy stands for, and with which probabilities

`p.expect obs` is the expected value of the observation `obs` of the outcome of the random program `p`; two programs with
the same expected values have the same distribution (take `obs` the indicator of a set of outcomes). The draws are
assumed uniform and independent.
-/

namespace RG.Props
open RG Prog
set_option linter.unusedSectionVars false
variable {G : Type}

/-! ### Mutation -/

/-- **C66** Which operator each `MutationStrategy` stands for. -/
theorem C66_mutation_dispatch (g : List G) :
    MutationStrategy.swap.mutate g = swapMutation g ∧ MutationStrategy.scramble.mutate g = scrambleMutation g ∧
    MutationStrategy.inversion.mutate g = inversionMutation g ∧
    MutationStrategy.insertion.mutate g = insertionMutation g ∧
    MutationStrategy.duplicate.mutate g = duplicateMutation g := ⟨rfl, rfl, rfl, rfl, rfl⟩

/-- Average over the windows `s..s+len` with `2 ≤ len ≤ n`: first `len` uniformly, then `s` uniformly. -/
def windowAverage (n : Nat) (F : (s len : Nat) → ℚ) : ℚ :=
  (∑ len ∈ Finset.Icc 2 n, (∑ s ∈ Finset.range (n - len + 1), F s len) / (n - len + 1 : ℚ)) / (n - 1 : ℚ)

/-- Average over the ordered pairs of distinct positions. -/
def pairAverage (n : Nat) (F : (a b : Nat) → ℚ) : ℚ :=
  (∑ a ∈ Finset.range n, ∑ b ∈ (Finset.range n).erase a, F a b) / (n * (n - 1) : ℚ)

/-- **C66** `scramble_mutation`: a window of at least two genes is drawn (length uniformly, then position uniformly) and
replaced by one of its rearrangements, all equally likely. For every genome, with or without duplicates. -/
theorem C66_scramble (g : List G) (hn : 2 ≤ g.length) (obs : Res (List G) → ℚ) :
    (scrambleMutation g).expect obs = windowAverage g.length fun s len =>
      (((g.drop s).take len).permutations.map fun w => obs (.ok (g.take s ++ w ++ g.drop (s + len)))).sum /
        (len.factorial : ℚ) := by
  unfold scrambleMutation windowAverage
  simp only [show ¬ g.length < 2 by omega, if_false]
  rw [expect_boundedRandomRange_bind _ 2 _ hn le_rfl]
  congr 1
  · refine Finset.sum_congr rfl fun l hl => ?_
    congr 1
    refine Finset.sum_congr rfl fun s hs => ?_
    rw [Finset.mem_Icc] at hl
    rw [Finset.mem_range] at hs
    unfold onSlice
    rw [if_pos ⟨by simp, by dsimp only; omega⟩, expect_bind]
    have hlen : ((g.drop s).take l).length = l := by simp; omega
    simp only [Nat.add_sub_cancel_left]
    rw [expect_shuffle, hlen]
    rfl
  · push_cast; ring

/-- **C66** `inversion_mutation`: the same windows, reversed. -/
theorem C66_inversion (g : List G) (hn : 2 ≤ g.length) (obs : Res (List G) → ℚ) :
    (inversionMutation g).expect obs = windowAverage g.length fun s len =>
      obs (.ok (g.take s ++ ((g.drop s).take len).reverse ++ g.drop (s + len))) := by
  unfold inversionMutation windowAverage
  simp only [show ¬ g.length < 2 by omega, if_false]
  rw [expect_boundedRandomRange_bind _ 2 _ hn le_rfl]
  congr 1
  · refine Finset.sum_congr rfl fun l hl => ?_
    congr 1
    refine Finset.sum_congr rfl fun s hs => ?_
    rw [Finset.mem_Icc] at hl
    rw [Finset.mem_range] at hs
    unfold onSlice
    rw [if_pos ⟨by simp, by dsimp only; omega⟩]
    simp
  · push_cast; ring

/-- **C66** `swap_mutation`: every ordered pair of distinct positions is equally likely. -/
theorem C66_swap (g : List G) (hn : 2 ≤ g.length) (obs : Res (List G) → ℚ) :
    ∃ sw : Nat → Nat → List G, (∀ a b, a < g.length → b < g.length → a ≠ b → Swapped g (sw a b) a b) ∧
      (swapMutation g).expect obs = pairAverage g.length fun a b => obs (.ok (sw a b)) := by
  refine ⟨exchanged g, fun a b ha hb hab => (swapped_iff g _ a b hab ha hb).2 rfl, ?_⟩
  unfold swapMutation pairAverage
  simp only [show ¬ g.length < 2 by omega, if_false]
  rw [expect_randomPair_bind _ hn]
  congr 1
  refine Finset.sum_congr rfl fun a ha => Finset.sum_congr rfl fun b hb => ?_
  simp only [Finset.mem_erase, Finset.mem_range] at ha hb
  simp only [swapAt_eq g a b ha hb.2, lift_ok, expect_pure]

/-- **C66** `insertion_mutation`: for every ordered pair of distinct positions, equally likely, the gene at the later one
is moved to the earlier one. -/
theorem C66_insertion (g : List G) (hn : 2 ≤ g.length) (obs : Res (List G) → ℚ) :
    ∃ mv : Nat → Nat → List G,
      (∀ a b, a < b → ∀ hb : b < g.length, mv a b = (g.eraseIdx b).insertIdx a g[b] ∧ mv b a = mv a b) ∧
      (insertionMutation g).expect obs = pairAverage g.length fun a b => obs (.ok (mv a b)) := by
  refine ⟨fun a b => if h : max a b < g.length then (g.eraseIdx (max a b)).insertIdx (min a b) g[max a b] else g,
    fun a b hab hb => ?_, ?_⟩
  · have h1 : max a b = b := by omega
    have h2 : min a b = a := by omega
    simp only [max_comm b a, min_comm b a, h1, h2, hb, dite_true, and_self]
  · rw [insertion_eq g hn]
    unfold pairAverage
    rw [expect_randomPair_bind _ hn]
    congr 1
    refine Finset.sum_congr rfl fun a ha => Finset.sum_congr rfl fun b hb => ?_
    simp only [Finset.mem_erase, Finset.mem_range] at ha hb
    have := insertion_step g a b ha hb.2 (Ne.symm hb.1)
    simp only at this ⊢
    rw [this, expect_pure, dif_pos (by omega)]

/-- **C66** `duplicate_mutation`: for every ordered pair `(a, b)` of distinct positions, equally likely, the gene at `a`
is copied to `b`. -/
theorem C66_duplicate (g : List G) (hn : 2 ≤ g.length) (obs : Res (List G) → ℚ) :
    ∃ cp : Nat → Nat → List G, (∀ a b, a < g.length → b < g.length → a ≠ b → CopiedOver g (cp a b) a b) ∧
      (duplicateMutation g).expect obs = pairAverage g.length fun a b => obs (.ok (cp a b)) := by
  refine ⟨fun a b => if h : a < g.length then g.set b g[a] else g, fun a b ha hb hab => ?_, ?_⟩
  · dsimp only; rw [dif_pos ha]; exact (copiedOver_iff g _ a b hab ha hb).2 rfl
  · unfold duplicateMutation pairAverage
    simp only [show ¬ g.length < 2 by omega, if_false]
    rw [expect_randomPair_bind _ hn]
    congr 1
    refine Finset.sum_congr rfl fun a ha => Finset.sum_congr rfl fun b hb => ?_
    simp only [Finset.mem_erase, Finset.mem_range] at ha hb
    simp [ha, hb.2]

/-- Scrambling `[1, 2, 3]` leaves it unchanged with probability `(1/2) (1/2) + (1/2) (1/6) = 1/3`. -/
example : (windowAverage 3 fun s len => ((([1, 2, 3].drop s).take len).permutations.map fun w =>
    if Res.ok ([1, 2, 3].take s ++ w ++ [1, 2, 3].drop (s + len)) = .ok [1, 2, 3] then (1 : ℚ) else 0).sum /
      (len.factorial : ℚ)) = 1 / 3 := by
  refine Eq.trans (C66_scramble [1, 2, 3] (by decide) (fun r => if r = .ok [1, 2, 3] then 1 else 0)).symm ?_
  decide +kernel

/-- Inverting `[1, 2, 3]` gives `[3, 2, 1]` with probability `1/2`. -/
example : (inversionMutation [1, 2, 3]).expect (fun r => if r = .ok [3, 2, 1] then 1 else 0) = 1 / 2 := by
  rw [C66_inversion _ (by decide)]; decide +kernel

/-! ### Crossover -/

variable [DecidableEq G]

/-- **C66** SequentialConstructive: `scx` with the gene at a uniformly drawn position of the first parent as pivot. -/
theorem C66_scx (lt : G → G → Bool) (ord : Nat → List G → List G) (fuel : Nat) (p₁ p₂ : List G) (hne : p₁ ≠ [])
    (obs : Res (List G) → ℚ) :
    (CrossoverStrategy.sequentialConstructive.crossover lt ord fuel p₁ p₂).expect obs =
      (p₁.map fun pivot => obs (scx p₁ p₂ pivot)).sum / p₁.length := by
  unfold CrossoverStrategy.crossover
  exact expect_choose p₁ hne (fun pivot => scx p₁ p₂ pivot) obs

/-- **C66** EdgeRecombination: `erx` with the gene at a uniformly drawn position of the first parent as pivot. -/
theorem C66_erx (lt : G → G → Bool) (ord : Nat → List G → List G) (fuel : Nat) (p₁ p₂ : List G) (hne : p₁ ≠ [])
    (obs : Res (List G) → ℚ) :
    (CrossoverStrategy.edgeRecombination.crossover lt ord fuel p₁ p₂).expect obs =
      (p₁.map fun pivot => obs (erx ord p₁ p₂ pivot)).sum / p₁.length := by
  unfold CrossoverStrategy.crossover
  exact expect_choose p₁ hne (fun pivot => erx ord p₁ p₂ pivot) obs

/-- Average over the non-empty ranges inside `0..n`: first the length uniformly, then the start uniformly. -/
def rangeAverage (n : Nat) (F : URange → ℚ) : ℚ :=
  (∑ len ∈ Finset.Icc 1 n, (∑ s ∈ Finset.range (n - len + 1), F ⟨s, s + len⟩) / (n - len + 1 : ℚ)) / n

/-- **C66** PartiallyMapped: `pmx` with a random non-empty range. -/
theorem C66_pmx (lt : G → G → Bool) (ord : Nat → List G → List G) (fuel : Nat) (p₁ p₂ : List G) (hne : p₁ ≠ [])
    (obs : Res (List G) → ℚ) :
    (CrossoverStrategy.partiallyMapped.crossover lt ord fuel p₁ p₂).expect obs =
      rangeAverage p₁.length fun range => obs (pmx fuel p₁ p₂ range) := by
  unfold CrossoverStrategy.crossover
  exact expect_randomRange_bind _ (by simpa using hne) _ _

/-- **C66** Order: `ox` with a random non-empty range. -/
theorem C66_ox (lt : G → G → Bool) (ord : Nat → List G → List G) (fuel : Nat) (p₁ p₂ : List G) (hne : p₁ ≠ [])
    (obs : Res (List G) → ℚ) :
    (CrossoverStrategy.order.crossover lt ord fuel p₁ p₂).expect obs =
      rangeAverage p₁.length fun range => obs (ox fuel p₁ p₂ range) := by
  unfold CrossoverStrategy.crossover
  exact expect_randomRange_bind _ (by simpa using hne) _ _

/-- **C66** Cycle: `cx` of the first and the second parent, without randomness. -/
theorem C66_cx (lt : G → G → Bool) (ord : Nat → List G → List G) (fuel : Nat) (p₁ p₂ : List G) (r : Res (List G)) :
    (CrossoverStrategy.cycle.crossover lt ord fuel p₁ p₂).yields r ↔ r = cx p₁ p₂ := Iff.rfl

/-- **C66** SinglePoint: `spx` with a point drawn uniformly from `0..n`. -/
theorem C66_spx (lt : G → G → Bool) (ord : Nat → List G → List G) (fuel : Nat) (p₁ p₂ : List G) (hne : p₁ ≠ [])
    (obs : Res (List G) → ℚ) :
    (CrossoverStrategy.singlePoint.crossover lt ord fuel p₁ p₂).expect obs =
      (∑ point ∈ Finset.range p₁.length, obs (spx p₁ p₂ point)) / p₁.length := by
  unfold CrossoverStrategy.crossover
  simp only
  rw [expect_rangeExcl_bind 0 _ (List.length_pos_iff.2 hne)]
  rw [show Finset.Ico 0 p₁.length = Finset.range p₁.length from by ext; simp]
  simp [Prog.lift]

/-- **C66** GeneralizedPartition2: all orders of the common partitions are equally likely. -/
theorem C66_gpx2 (lt : G → G → Bool) (ord : Nat → List G → List G) (fuel : Nat) (p₁ p₂ : List G)
    (parts order : List (List G)) (hp : commonPartitions lt p₁ p₂ = .ok parts) (ho : order.Perm parts) :
    (CrossoverStrategy.generalizedPartition2.crossover lt ord fuel p₁ p₂).prob (· = order.flatten) =
      1 / (parts.length.factorial : ℚ) := by
  obtain ⟨parts', h1, h2, h3, -⟩ := C21_partitions lt p₁ p₂
  rw [hp] at h1
  cases h1
  have := prob_gpx2Loop parts.length [] parts le_rfl h2 h3 order ho
  unfold CrossoverStrategy.crossover gpx2
  simp only [hp, lift_ok, bind_pure_left]
  exact this

/-- The parents of the documentation of CX: exactly one result. -/
example : (CrossoverStrategy.cycle.crossover ltNat (fun _ l => l) 0 docP₁ docP₂).yields
    (cx docP₁ docP₂) := (C66_cx ..).2 rfl

/-- GPX2 on `[2, 3, 9, 8, 1]` and `[1, 2, 3, 8, 9]` (partitions `[2, 3]`, `[9, 8]`, `[1]`): `[9, 8, 1, 2, 3]` has
probability 1/6. -/
example : (CrossoverStrategy.generalizedPartition2.crossover ltNat (fun _ l => l) 0 [2, 3, 9, 8, 1] [1, 2, 3, 8, 9]).prob
    (· = [9, 8, 1, 2, 3]) = 1 / 6 := by
  have := C66_gpx2 ltNat (fun _ l => l) 0 [2, 3, 9, 8, 1] [1, 2, 3, 8, 9] _ [[9, 8], [1], [2, 3]]
    C21_not_maximal_counterexample.1 (by decide)
  simpa [Nat.factorial] using this

/-- SinglePoint on two genes: probability 1/2 for each point. -/
example : (CrossoverStrategy.singlePoint.crossover ltNat (fun _ l => l) 0 [1, 2] [3, 4]).expect
    (fun r => if r = .ok [1, 4] then 1 else 0) = 1 / 2 := by
  rw [C66_spx _ _ _ _ _ (by decide)]; decide +kernel

end RG.Props
