import Verif.Proofs.CostGpx2

/-!
# C123: what GPX2 spends

The number of comparisons of genes and of hash operations of `common_neighbors`, `common_partitions` and GPX2.
`Verif/CostGpx2.lean` is the model with counters.
-/

namespace RG
open Prog
variable {G : Type} [DecidableEq G]

/-- **C123** Counting changes nothing, for every input and every selector of partitions. -/
theorem C123_same {S : Type} (lt : G → G → Bool) (p₁ p₂ : List G) (sel : S → Option G → List (List G) → Prog (Nat × S)) (s : S) :
    (countedCommonNeighbors lt p₁ p₂).result = commonNeighbors lt p₁ p₂ ∧
      (countedPartitions lt p₁ p₂).result = commonPartitions lt p₁ p₂ ∧
      (countedGpx2 lt p₁ p₂ sel s >>= fun r => pure r.1) = gpx2 lt p₁ p₂ sel s :=
  ⟨countedCommonNeighbors_result lt p₁ p₂, countedPartitions_result lt p₁ p₂, countedGpx2_same' lt p₁ p₂ sel s⟩

/-- **C123** `common_neighbors` makes exactly one comparison and one hash operation per gene of the two genomes (none if one
of them is too short), and finds at most as many pairs as the shorter one has genes. -/
theorem C123_neighbors (lt : G → G → Bool) (p₁ p₂ : List G) :
    (countedCommonNeighbors lt p₁ p₂).eqs = (if p₁.length < 2 ∨ p₂.length ≤ 2 then 0 else p₁.length + p₂.length) ∧
      (countedCommonNeighbors lt p₁ p₂).hashes = (if p₁.length < 2 ∨ p₂.length ≤ 2 then 0 else p₁.length + p₂.length) ∧
      ∃ common, commonNeighbors lt p₁ p₂ = .ok common ∧ common.length ≤ min p₁.length p₂.length := by
  obtain ⟨l, h1, h2, h3, h4⟩ := countedCommonNeighbors_cost lt p₁ p₂
  exact ⟨h3, h4, l, h1, h2⟩

/-- **C123** `common_partitions` of any two genomes: the list of the `c` common pairs is searched once for every gene, at two
comparisons per pair at most, and in full for the last gene of every partition. The hash operations are linear. -/
theorem C123_partitions (lt : G → G → Bool) (p₁ p₂ : List G) (common : List (G × G)) (parts : List (List G))
    (hc : commonNeighbors lt p₁ p₂ = .ok common) (hp : commonPartitions lt p₁ p₂ = .ok parts) :
    2 * common.length * parts.length ≤ (countedPartitions lt p₁ p₂).eqs ∧
      (countedPartitions lt p₁ p₂).eqs ≤ p₁.length + p₂.length + 2 * common.length * p₁.length ∧
      (countedPartitions lt p₁ p₂).hashes ≤ 3 * p₁.length + p₂.length + 2 * common.length := by
  obtain ⟨c', ps', e1, e2, -, h1, h2, h3⟩ := countedPartitions_cost lt p₁ p₂
  rw [hc] at e1; rw [hp] at e2
  cases e1; cases e2
  obtain ⟨ps', e3, hnd, -, -, hmem, -⟩ := commonPartitions_spec lt p₁ p₂
  rw [hp] at e3
  cases e3
  have hlen : parts.flatten.length ≤ p₁.length := (List.subperm_of_subset hnd fun x hx => (hmem x).1 hx).length_le
  have := Nat.mul_le_mul_left (2 * common.length) hlen
  exact ⟨h1, by omega, by omega⟩

/-- **C123** GPX2, exactly: after `common_partitions`, the partition selected as number `j` (from zero) costs `j + 1` hash
operations for each of its genes. The selector may be anything that selects one of the partitions. -/
theorem C123_assembly {S : Type} (lt : G → G → Bool) (p₁ p₂ : List G) (parts : List (List G))
    (hp : commonPartitions lt p₁ p₂ = .ok parts) (sel : S → Option G → List (List G) → Prog (Nat × S))
    (hsel : ∀ s last (ps : List (List G)), ps ≠ [] → Always (fun r => r.1 < ps.length) (sel s last ps)) (s : S) :
    Always (fun r => ∃ order : List (List G), order.Perm parts ∧ r.1 = order.flatten ∧
        r.2 = (countedPartitions lt p₁ p₂).hashes + (order.zipIdx.map fun e => (e.2 + 1) * e.1.length).sum)
      (countedGpx2 lt p₁ p₂ sel s) := by
  obtain ⟨parts', h1, hnd, hne, -⟩ := commonPartitions_spec lt p₁ p₂
  rw [hp] at h1
  cases h1
  unfold countedGpx2
  rw [countedPartitions_result, hp, lift_ok, bind_pure_left]
  refine (countedGpx2Loop_spec sel hsel parts.length s _ [] parts le_rfl hne hnd).mono ?_
  rintro r ⟨order, ho, h1, h2⟩
  refine ⟨order, ho, by simpa using h1, ?_⟩
  rw [h2, zipIdx_waits]
  omega

/-- **C123** The order of the `k` partitions makes a difference of at most `(k - 1) * (n - k)`: the hash operations are between
`n + k * (k - 1) / 2` (if only the first partition selected has several genes) and `k * n - k * (k - 1) / 2` (if only the last
one has). -/
theorem C123_assembly_bounds {S : Type} (lt : G → G → Bool) (p₁ p₂ : List G) (hnd : p₁.Nodup) (parts : List (List G))
    (hp : commonPartitions lt p₁ p₂ = .ok parts) (sel : S → Option G → List (List G) → Prog (Nat × S))
    (hsel : ∀ s last (ps : List (List G)), ps ≠ [] → Always (fun r => r.1 < ps.length) (sel s last ps)) (s : S) :
    Always (fun r =>
        2 * (countedPartitions lt p₁ p₂).hashes + (2 * p₁.length + parts.length * (parts.length - 1)) ≤ 2 * r.2 ∧
        2 * r.2 + parts.length * parts.length ≤
          2 * (countedPartitions lt p₁ p₂).hashes + parts.length * (2 * p₁.length + 1))
      (countedGpx2 lt p₁ p₂ sel s) := by
  obtain ⟨parts', h1, hnd', hne, -, hmem, -⟩ := commonPartitions_spec lt p₁ p₂
  rw [hp] at h1
  cases h1
  have hlen : parts.flatten.length = p₁.length := (((List.perm_ext_iff_of_nodup hnd' hnd).2 hmem)).length_eq
  refine (C123_assembly lt p₁ p₂ parts hp sel hsel s).mono ?_
  rintro r ⟨order, ho, -, h2⟩
  have hne' : ∀ p ∈ order, p ≠ [] := fun p hp => hne p (ho.mem_iff.1 hp)
  have u := (waits_le hne').2
  have l := le_waits hne'
  rw [ho.flatten.length_eq, ho.length_eq, hlen] at u l
  rw [zipIdx_waits] at h2
  constructor <;> omega

/-- **C123** With the random selections of `CrossoverStrategy::GeneralizedPartition2`, assembling `n` genes from `k`
partitions takes `n * (k + 1) / 2` hash operations on average, whatever the sizes of the partitions. -/
theorem C123_expected (lt : G → G → Bool) (p₁ p₂ : List G) (hnd : p₁.Nodup) (parts : List (List G))
    (hp : commonPartitions lt p₁ p₂ = .ok parts) :
    (countedGpx2 lt p₁ p₂ (fun _ _ partitions => do
        let i ← Prog.rangeExcl 0 partitions.length
        pure (i, ())) ()).expect (fun r => match r with | .ok r => (r.2 : ℚ) | _ => 0) =
      (countedPartitions lt p₁ p₂).hashes + p₁.length * (parts.length + 1) / 2 := by
  obtain ⟨parts', h1, hnd', hne, -, hmem, -⟩ := commonPartitions_spec lt p₁ p₂
  rw [hp] at h1
  cases h1
  have hlen : parts.flatten.length = p₁.length := (((List.perm_ext_iff_of_nodup hnd' hnd).2 hmem)).length_eq
  unfold countedGpx2
  rw [countedPartitions_result, hp, lift_ok, bind_pure_left, ← hlen]
  exact expect_countedGpx2Loop parts.length _ [] parts le_rfl hne hnd'

/-- **C123** In all: GPX2 of two permutations of `n` genes makes at most `2 * n * (n + 1)` comparisons and
`6 * n + n * (n + 1) / 2` hash operations, whatever it selects. -/
theorem C123_gpx2 {S : Type} (lt : G → G → Bool) (p₁ p₂ : List G) (hnd : p₁.Nodup) (hperm : p₂.Perm p₁)
    (sel : S → Option G → List (List G) → Prog (Nat × S))
    (hsel : ∀ s last (ps : List (List G)), ps ≠ [] → Always (fun r => r.1 < ps.length) (sel s last ps)) (s : S) :
    (countedPartitions lt p₁ p₂).eqs ≤ 2 * p₁.length * (p₁.length + 1) ∧
      Always (fun r => 2 * r.2 ≤ 12 * p₁.length + p₁.length * (p₁.length + 1)) (countedGpx2 lt p₁ p₂ sel s) := by
  obtain ⟨parts, hp, hnd', hne, -, hmem, -⟩ := commonPartitions_spec lt p₁ p₂
  have hlen : parts.flatten.length = p₁.length := (((List.perm_ext_iff_of_nodup hnd' hnd).2 hmem)).length_eq
  obtain ⟨common, hc, hcl⟩ := (C123_neighbors lt p₁ p₂).2.2
  obtain ⟨-, h2, h3⟩ := C123_partitions lt p₁ p₂ common parts hc hp
  rw [hperm.length_eq] at hcl h2 h3
  rw [min_self] at hcl
  refine ⟨?_, (C123_assembly_bounds lt p₁ p₂ hnd parts hp sel hsel s).mono ?_⟩
  · have := Nat.mul_le_mul_right p₁.length (Nat.mul_le_mul_left 2 hcl)
    rw [Nat.mul_add]
    omega
  · rintro r ⟨-, h⟩
    have hk := (waits_le hne).1
    rw [hlen] at hk
    nlinarith

/-- **C123** The bounds of the assembly are attained: seven genes in five partitions, of which one has three genes, take
17 hash operations if this one is selected first, 25 if it is selected last (and 32 for `common_partitions`). -/
theorem C123_attained :
    countedGpx2 (fun a b : Nat => decide (a < b)) [0, 1, 2, 3, 4, 5, 6] [2, 3, 4, 0, 5, 1, 6]
        (fun _ last _ => pure (if last.isNone then 2 else 0, ())) () = pure ([2, 3, 4, 0, 5, 6, 1], 32 + 17) ∧
      countedGpx2 (fun a b : Nat => decide (a < b)) [0, 1, 2, 3, 4, 5, 6] [2, 3, 4, 0, 5, 1, 6]
        (fun _ _ ps => pure (if ps.length = 2 then 1 else 0, ())) () = pure ([0, 6, 5, 1, 2, 3, 4], 32 + 25) ∧
      2 * 7 + 5 * (5 - 1) = 2 * 17 ∧ 2 * 25 + 5 * 5 = 5 * (2 * 7 + 1) := ⟨rfl, rfl, rfl, rfl⟩

/-- Example: the parents of the documentation (`crossover.rs:134-135`). -/
example : commonPartitions (fun a b : Nat => decide (a < b)) [0, 1, 2, 3, 4, 5, 6, 7, 8, 9] [8, 9, 0, 7, 4, 5, 6, 3, 2, 1] =
      .ok [[0, 9, 8], [1, 2, 3], [4, 5, 6], [7]] ∧
    (countedPartitions (fun a b : Nat => decide (a < b)) [0, 1, 2, 3, 4, 5, 6, 7, 8, 9] [8, 9, 0, 7, 4, 5, 6, 3, 2, 1]).eqs = 105 ∧
    (countedPartitions (fun a b : Nat => decide (a < b)) [0, 1, 2, 3, 4, 5, 6, 7, 8, 9] [8, 9, 0, 7, 4, 5, 6, 3, 2, 1]).hashes = 51 ∧
    (fun _ _ partitions => do
        let i ← Prog.rangeExcl 0 partitions.length
        pure (i, ()) : Unit → Option Nat → List (List Nat) → Prog (Nat × Unit)) = anyPartition := by
  refine ⟨by decide +kernel, by decide +kernel, by decide +kernel, rfl⟩

/-- On average GPX2 takes `51 + 25` hash operations for them. -/
example : (countedGpx2 (fun a b : Nat => decide (a < b)) [0, 1, 2, 3, 4, 5, 6, 7, 8, 9] [8, 9, 0, 7, 4, 5, 6, 3, 2, 1]
    (fun _ _ partitions => do
        let i ← Prog.rangeExcl 0 partitions.length
        pure (i, ())) ()).expect (fun r => match r with | .ok r => (r.2 : ℚ) | _ => 0) = 76 := by
  refine (C123_expected (fun a b : Nat => decide (a < b)) [0, 1, 2, 3, 4, 5, 6, 7, 8, 9] [8, 9, 0, 7, 4, 5, 6, 3, 2, 1]
    (by decide) [[0, 9, 8], [1, 2, 3], [4, 5, 6], [7]] (by decide +kernel)).trans ?_
  rw [show (countedPartitions (fun a b : Nat => decide (a < b)) [0, 1, 2, 3, 4, 5, 6, 7, 8, 9] [8, 9, 0, 7, 4, 5, 6, 3, 2, 1]).hashes
      = 51 by decide +kernel]
  norm_num

end RG
