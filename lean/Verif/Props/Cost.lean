import Verif.Proofs.Cost

/-!
# C122: what the crossovers spend

The number of comparisons of genes and of hash operations made by one call. `Verif/Cost.lean` is the model of the
crossovers with counters.
-/

namespace RG
variable {G : Type} [DecidableEq G]

/-- **C122** Counting changes nothing: the functions with counters return what the functions without them return, for
every input, also when these panic or do not end. -/
theorem C122_same (ord : Nat → List G → List G) (fuel : Nat) (p₁ p₂ : List G) (pivot : G) (range : URange) :
    (countedScx p₁ p₂ pivot).result = scx p₁ p₂ pivot ∧ (countedErx ord p₁ p₂ pivot).result = erx ord p₁ p₂ pivot ∧
      (countedPmx fuel p₁ p₂ range).result = pmx fuel p₁ p₂ range ∧ (countedOx fuel p₁ p₂ range).result = ox fuel p₁ p₂ range ∧
      (countedCx p₁ p₂).result = cx p₁ p₂ :=
  ⟨countedScx_result _ _ _, countedErx_result _ _ _ _, countedPmx_result _ _ _ _, countedOx_result _ _ _ _,
    countedCx_result _ _⟩

/-- **C122** CX makes exactly `n * (n + 1) / 2` comparisons, whatever the two permutations. -/
theorem C122_cx (p₁ p₂ : List G) (hnd : p₁.Nodup) (hp : p₂.Perm p₁) (hn : 2 ≤ p₁.length) :
    2 * (countedCx p₁ p₂).eqs = p₁.length * (p₁.length + 1) := countedCx_eqs p₁ p₂ hnd hp hn

/-- **C122** PMX with a range of `e - s` genes: each of the other genes is looked for in vain once in the range, and each
gene of the range is found at most once. -/
theorem C122_pmx (p₁ p₂ : List G) (hnd : p₁.Nodup) (hp : p₂.Perm p₁) (hn : 2 ≤ p₁.length) (s e : Nat) (hse : s ≤ e)
    (he : e ≤ p₁.length) (fuel : Nat) (hf : p₁.length < fuel) :
    (p₁.length - (e - s)) * (e - s) ≤ (countedPmx fuel p₁ p₂ ⟨s, e⟩).eqs ∧
      2 * (countedPmx fuel p₁ p₂ ⟨s, e⟩).eqs ≤ 2 * ((p₁.length - (e - s)) * (e - s)) + (e - s) * (e - s + 1) :=
  countedPmx_eqs hnd hp hn hse he fuel hf

/-- **C122** OX with a range of `e - s` genes: the same bounds as for PMX. -/
theorem C122_ox (p₁ p₂ : List G) (hnd : p₁.Nodup) (hp : p₂.Perm p₁) (hn : 2 ≤ p₁.length) (s e : Nat) (hse : s < e)
    (he : e ≤ p₁.length) (fuel : Nat) (hf : p₁.length < fuel) :
    (p₁.length - (e - s)) * (e - s) ≤ (countedOx fuel p₁ p₂ ⟨s, e⟩).eqs ∧
      2 * (countedOx fuel p₁ p₂ ⟨s, e⟩).eqs ≤ 2 * ((p₁.length - (e - s)) * (e - s)) + (e - s) * (e - s + 1) :=
  countedOx_eqs p₁ p₂ hnd hp hn ⟨s, e⟩ hse he fuel hf

theorem half_square {n m : Nat} (h : m ≤ n) : 2 * ((n - m) * m) + m * (m + 1) ≤ n * (n + 1) := by
  obtain ⟨d, rfl⟩ := Nat.exists_eq_add_of_le h
  rw [Nat.add_sub_cancel_left]
  nlinarith [Nat.zero_le d]

/-- **C122** PMX, OX and CX make at most `n * (n + 1) / 2` comparisons, whatever the permutations and the range; CX makes
that many. -/
theorem C122_quadratic (p₁ p₂ : List G) (hnd : p₁.Nodup) (hp : p₂.Perm p₁) (hn : 2 ≤ p₁.length) (s e : Nat) (hse : s < e)
    (he : e ≤ p₁.length) (fuel : Nat) (hf : p₁.length < fuel) :
    (countedPmx fuel p₁ p₂ ⟨s, e⟩).eqs ≤ (countedCx p₁ p₂).eqs ∧ (countedOx fuel p₁ p₂ ⟨s, e⟩).eqs ≤ (countedCx p₁ p₂).eqs := by
  have h1 := (C122_pmx p₁ p₂ hnd hp hn s e hse.le he fuel hf).2
  have h2 := (C122_ox p₁ p₂ hnd hp hn s e hse he fuel hf).2
  have h3 := C122_cx p₁ p₂ hnd hp hn
  have h4 := half_square (show e - s ≤ p₁.length by omega)
  constructor <;> omega

/-- **C122** SCX makes at most `4 * n * (n - 1)` comparisons and `(n - 1) * (n + 3)` operations on its set of visited genes,
for any two genomes and any pivot, also when it panics. -/
theorem C122_scx (p₁ p₂ : List G) (pivot : G) :
    (countedScx p₁ p₂ pivot).eqs ≤ 4 * p₁.length * (p₁.length - 1) ∧
      (countedScx p₁ p₂ pivot).hashes ≤ (p₁.length - 1) * (p₁.length + 3) := countedScx_cost p₁ p₂ pivot

/-- **C122** ERX makes no comparison of its own and at most `6 * n + (n - 1) * (2 * n + 10)` operations on hash sets and
maps, in whatever order these are iterated. -/
theorem C122_erx (ord : Nat → List G → List G) (hord : ∀ k l, (ord k l).Perm l) (p₁ p₂ : List G) (hnd : p₁.Nodup)
    (hp : p₂.Perm p₁) (pivot : G) (hv : pivot ∈ p₁) :
    (countedErx ord p₁ p₂ pivot).eqs = 0 ∧
      (countedErx ord p₁ p₂ pivot).hashes ≤ 6 * p₁.length + (p₁.length - 1) * (2 * p₁.length + 10) :=
  countedErx_cost ord hord p₁ p₂ hnd hp pivot hv

/-- **C122** The bounds of PMX and OX are attained: the upper one and, with two equal parents, the lower one of PMX. -/
theorem C122_attained :
    (countedPmx 6 [0, 1, 2, 3, 4] [1, 2, 3, 4, 0] ⟨1, 4⟩).eqs = 12 ∧
      2 * 12 = 2 * ((5 - 3) * 3) + 3 * (3 + 1) ∧
      (countedOx 6 [0, 1, 2, 3, 4] [1, 2, 3, 0, 4] ⟨1, 4⟩).eqs = 12 ∧
      (countedPmx 6 [0, 1, 2, 3, 4] [0, 1, 2, 3, 4] ⟨1, 4⟩).eqs = (5 - 3) * 3 ∧
      (countedOx 6 [0, 1, 2, 3, 4] [0, 1, 2, 3, 4] ⟨1, 4⟩).eqs = (5 - 3) * 3 := by decide +kernel

/-- Example: the parents of the documentation (`crossover.rs:544-545`). -/
example : (countedCx [0, 1, 2, 3, 4, 5, 6, 7, 8, 9] [8, 9, 0, 7, 4, 5, 6, 3, 2, 1]).eqs = 55 ∧
    (countedPmx 11 [0, 1, 2, 3, 4, 5, 6, 7, 8, 9] [8, 9, 0, 7, 4, 5, 6, 3, 2, 1] ⟨1, 4⟩).eqs = 27 ∧
    (countedOx 11 [0, 1, 2, 3, 4, 5, 6, 7, 8, 9] [8, 9, 0, 7, 4, 5, 6, 3, 2, 1] ⟨1, 4⟩).eqs = 27 ∧
    (countedScx [0, 1, 2, 3, 4, 5, 6, 7, 8, 9] [8, 9, 0, 7, 4, 5, 6, 3, 2, 1] 2).eqs = 150 ∧
    (countedErx (fun _ l => l) [0, 1, 2, 3, 4, 5, 6, 7, 8, 9] [8, 9, 0, 7, 4, 5, 6, 3, 2, 1] 2).eqs = 0 := by
  decide +kernel

end RG
