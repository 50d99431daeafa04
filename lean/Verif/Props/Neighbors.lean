import Verif.Proofs.Neighbors
import Mathlib.Order.Basic

/-!
# Properties C20–C21: common neighbours and common partitions

`Adj g a b` (in `Verif/Spec.lean`): `a` and `b` are at cyclically consecutive positions of `g`, in either order.
-/

namespace RG.Props
open RG
variable {G : Type} [DecidableEq G]

/-- `<` of natural numbers as gene order for the examples. -/
def ltNat (a b : Nat) : Bool := decide (a < b)

-- documentation examples (tests): operators.rs:130-134, 197-201
example : commonNeighbors ltNat [1, 2, 3, 4, 5] [1, 3, 2, 4, 5] = .ok [(2, 3), (4, 5), (1, 5)] := by decide +kernel
example : commonPartitions ltNat [1, 2, 3, 4, 5] [1, 3, 2, 4, 5] = .ok [[1, 5, 4], [2, 3]] := by decide +kernel

/-! ### C20 -/

/-- **C20** For totally ordered genes, a first genome of at least 2 and a second of at least 3 genes (in particular both
at least 3), `common_neighbors` returns exactly the pairs adjacent in both genomes, as (smaller, larger). -/
theorem C20_common_neighbors (lt : G → G → Bool) (hasymm : ∀ a b, lt a b = true → lt b a = false)
    (htotal : ∀ a b, lt a b = true ∨ a = b ∨ lt b a = true) (g₁ g₂ : List G) (h₁ : 2 ≤ g₁.length)
    (h₂ : 3 ≤ g₂.length) :
    ∃ l, commonNeighbors lt g₁ g₂ = .ok l ∧ ∀ x y, (x, y) ∈ l ↔ Adj g₁ x y ∧ Adj g₂ x y ∧ lt y x = false := by
  obtain ⟨l, e, h, -⟩ := commonNeighbors_ok lt g₁ g₂
  refine ⟨l, e, fun x y => ?_⟩
  rw [h (by omega), neighbor_iff_adj hasymm htotal, neighbor_iff_adj hasymm htotal]
  tauto

/-- **C20** Otherwise it returns nothing (the check is not symmetric: a two-gene genome is accepted as the first argument
only). -/
theorem C20_short (lt : G → G → Bool) (g₁ g₂ : List G) (h : g₁.length < 2 ∨ g₂.length ≤ 2) :
    commonNeighbors lt g₁ g₂ = .ok [] := by
  unfold commonNeighbors; rw [if_pos h]

/-- **C20** The asymmetry is real: swapping the arguments changes the result. -/
theorem C20_asymmetric_counterexample :
    commonNeighbors ltNat [1, 2] [1, 2, 3] = .ok [(1, 2), (1, 2)] ∧ commonNeighbors ltNat [1, 2, 3] [1, 2] = .ok [] := by
  decide +kernel

/-- **C20** For any gene type and any `<` (even an inconsistent one) no panic, and every returned pair is adjacent in
both genomes. -/
theorem C20_sound (lt : G → G → Bool) (g₁ g₂ : List G) :
    ∃ l, commonNeighbors lt g₁ g₂ = .ok l ∧ ∀ x y, (x, y) ∈ l → Adj g₁ x y ∧ Adj g₂ x y := by
  obtain ⟨l, e, -⟩ := commonNeighbors_ok lt g₁ g₂
  exact ⟨l, e, fun x y h => commonNeighbors_adj e h⟩

example : (∀ a b, ltNat a b = true → ltNat b a = false) ∧ (∀ a b, ltNat a b = true ∨ a = b ∨ ltNat b a = true) := by
  simp only [ltNat, decide_eq_true_eq, decide_eq_false_iff_not]
  exact ⟨fun a b => by omega, fun a b => by omega⟩

/-! ### C21 -/

/-- **C21** For every two genomes and any `<`: `common_partitions` terminates without panicking; no partition is empty;
every gene of the first genome is in exactly one partition exactly once (`flatten.Nodup`), and nothing else is;
consecutive genes of a partition are adjacent in both genomes. -/
theorem C21_partitions (lt : G → G → Bool) (g₁ g₂ : List G) :
    ∃ parts, commonPartitions lt g₁ g₂ = .ok parts ∧ (∀ p ∈ parts, p ≠ []) ∧ parts.flatten.Nodup ∧
      (∀ x, x ∈ parts.flatten ↔ x ∈ g₁) ∧ (∀ p ∈ parts, p.IsChain fun a b => Adj g₁ a b ∧ Adj g₂ a b) := by
  obtain ⟨ps, e, h1, h2, h3, h4, -⟩ := commonPartitions_spec lt g₁ g₂
  exact ⟨ps, e, h2, h1, h4, h3⟩

/-- **C21** In particular, for a duplicate-free first genome the partitions together are a permutation of it. -/
theorem C21_permutation (lt : G → G → Bool) (g₁ g₂ : List G) (hnd : g₁.Nodup) :
    ∃ parts, commonPartitions lt g₁ g₂ = .ok parts ∧ parts.flatten.Perm g₁ := by
  obtain ⟨ps, e, h1, h2, h3, h4, -⟩ := commonPartitions_spec lt g₁ g₂
  exact ⟨ps, e, (List.perm_ext_iff_of_nodup h1 hnd).2 h4⟩

/-- **C21** Partitions are extended as far as possible at their end: for totally ordered genes, every gene adjacent in
both genomes to the last gene of a partition lies in that partition or an earlier one. -/
theorem C21_maximal_end (lt : G → G → Bool) (hasymm : ∀ a b, lt a b = true → lt b a = false)
    (htotal : ∀ a b, lt a b = true ∨ a = b ∨ lt b a = true) (g₁ g₂ : List G) (h₁ : 2 ≤ g₁.length)
    (h₂ : 3 ≤ g₂.length) (parts : List (List G)) (hp : commonPartitions lt g₁ g₂ = .ok parts) (i : Nat) (p : List G)
    (last x : G) (hi : parts[i]? = some p) (hl : p.getLast? = some last) (ha₁ : Adj g₁ last x) (ha₂ : Adj g₂ last x) :
    x ∈ (parts.take (i + 1)).flatten := by
  obtain ⟨ps, e, -, -, -, -, l, e', h⟩ := commonPartitions_spec lt g₁ g₂
  rw [hp] at e; cases e
  obtain ⟨l', e2, hm⟩ := C20_common_neighbors lt hasymm htotal g₁ g₂ h₁ h₂
  rw [e2] at e'; cases e'
  refine h i p last x hi hl ?_
  by_cases hlt : lt x last = true
  · exact Or.inr ((hm x last).2 ⟨ha₁.symm, ha₂.symm, hasymm _ _ hlt⟩)
  · exact Or.inl ((hm last x).2 ⟨ha₁, ha₂, by simpa using hlt⟩)

/-- **C21** (what partitions are not) They need not be maximal: here 1-2-3 is a common sequence of both genomes, but it is
split because the search starts at 2 and only extends in one direction. -/
theorem C21_not_maximal_counterexample :
    commonPartitions ltNat [2, 3, 9, 8, 1] [1, 2, 3, 8, 9] = .ok [[2, 3], [9, 8], [1]] ∧
      Adj [2, 3, 9, 8, 1] 1 2 ∧ Adj [1, 2, 3, 8, 9] 1 2 := by
  refine ⟨by decide +kernel, Or.inl ⟨4, ?_⟩, Or.inl ⟨0, ?_⟩⟩ <;> simp

example : ([1, 2, 3, 4, 5] : List Nat).Nodup := by decide

end RG.Props
