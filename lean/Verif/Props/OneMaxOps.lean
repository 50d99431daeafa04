import Verif.Props.OneMax
import Verif.Props.Distribution
import Verif.Proofs.OneMax

/-!
# Property C63: the exact results and distributions of the OneMax operators
-/

set_option linter.unusedSectionVars false

namespace RG.Props
open RG RG.Prog

/-- **C63** As an `Individual`: the fitness is the stored one, valid means a finite fitness, and two individuals are equal when
their genomes are the same and their fitness values compare equal. -/
theorem C63_individual (x y : OneMax) :
    fitness x = x.fit ∧ (isValid x = true ↔ x.fit.isFinite = true) ∧
      (Individual.eq x y = true ↔ x.genome = y.genome ∧ x.fit.feq y.fit = true) := by
  refine ⟨rfl, ?_, ?_⟩
  · rw [DefaultValid.isValid_eq]; rfl
  · show (x.genome == y.genome && x.fit.feq y.fit) = true ↔ _
    simp

-- 0 and -0 compare equal; NaN does not compare equal to itself and is not valid
example : Individual.eq (⟨[true], F64.zero⟩ : OneMax) ⟨[true], F64.nzero⟩ = true ∧
    Individual.eq (⟨[true], F64.zero⟩ : OneMax) ⟨[false], F64.zero⟩ = false ∧
    Individual.eq (⟨[true], F64.nan⟩ : OneMax) ⟨[true], F64.nan⟩ = false ∧ isValid (⟨[true], F64.nan⟩ : OneMax) = false := by
  decide +kernel

/-- **C63** `new_random`: every genome of the given length is equally likely, and the fitness is 0 (not evaluated yet). -/
theorem C63_new_random (g : List Bool) :
    (OneMax.newRandom g.length).prob (fun x => x = ⟨g, F64.zero⟩) = 1 / 2 ^ g.length := by
  have hbit : ∀ b, OneMax.randomBit.prob (fun c => c = b) = 1 / 2 := by decide +kernel
  unfold OneMax.newRandom
  rw [prob_bind_mul _ _ _ (fun g' => g' = g) 1, mul_one, prob_replicate_eq]
  · simp only [hbit, List.map_const', List.prod_replicate]
    rw [one_div, inv_pow, one_div]
  · rintro g' _ rfl; simp [OneMax.ofGenome]
  · intro g' _ h; simp [OneMax.ofGenome, h]

example : (OneMax.newRandom 3).prob (fun x => x = ⟨[true, false, true], F64.zero⟩) = 1 / 8 := by
  refine (C63_new_random [true, false, true]).trans ?_
  norm_num

/-- **C63** `crossover`: the first `k` bits of the first parent and the rest of the second, for a uniform `k < n`; the fitness of
the child is 0 until it is evaluated. -/
theorem C63_crossover (x y : OneMax) (hl : x.genome.length = y.genome.length) (hne : x.genome ≠ []) (obs : Res OneMax → ℚ) :
    (OneMax.crossover x y).expect obs =
      (∑ k ∈ Finset.range x.genome.length, obs (.ok ⟨x.genome.take k ++ y.genome.drop k, F64.zero⟩)) / x.genome.length := by
  unfold OneMax.crossover
  rw [expect_bind, C66_spx _ _ _ _ _ hne]
  congr 1
  refine Finset.sum_congr rfl fun k hk => ?_
  rw [C28_spx _ _ hl]
  simp [OneMax.ofGenome]

/-- **C63** `mutate`: one bit is copied over another, all ordered pairs of positions being equally likely; the fitness keeps its
value until the individual is evaluated again. -/
theorem C63_mutate (x : OneMax) (hn : 2 ≤ x.genome.length) (obs : Res OneMax → ℚ) :
    ∃ cp : Nat → Nat → List Bool,
      (∀ a b, a < x.genome.length → b < x.genome.length → a ≠ b → CopiedOver x.genome (cp a b) a b) ∧
      (OneMax.mutate x).expect obs = pairAverage x.genome.length fun a b => obs (.ok ⟨cp a b, x.fit⟩) := by
  obtain ⟨cp, h1, h2⟩ := C66_duplicate x.genome hn (fun
    | .ok g => obs (.ok ⟨g, x.fit⟩)
    | .panic => obs .panic
    | .diverge => obs .diverge)
  refine ⟨cp, h1, ?_⟩
  unfold OneMax.mutate
  rw [expect_bind]
  refine Eq.trans ?_ h2
  refine congrArg _ (funext fun r => ?_)
  cases r <;> rfl

-- of the two ordered pairs of positions, copying the first bit over the second gives `[true, true]`, the other one `[false, false]`
example : (OneMax.mutate ⟨[true, false], F64.one⟩).prob (fun x => x = ⟨[true, true], F64.one⟩) = 1 / 2 := by decide +kernel

end RG.Props
