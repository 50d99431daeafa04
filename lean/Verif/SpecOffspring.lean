import Verif.Spec
import Mathlib.Data.List.SplitBy

/-!
# Specification: the offspring a crossover rule allows

Independent of the model; used by C74 and C75.
-/

namespace RG
variable {G : Type}

/-- Specification: `off` has as many genes as the parents, starts with `pivot`, and every further gene is one that `step`
allows after the genes placed before (newest first). -/
structure Tour (step : List G → G → G → Prop) (p1 : List G) (pivot : G) (off : List G) : Prop where
  length : off.length = p1.length
  head : off.head? = some pivot
  steps : ∀ i a b, off[i]? = some a → off[i + 1]? = some b → step (off.take (i + 1)).reverse a b

/-- Specification of PMX's offspring: the genes of the first parent in `s..e`; outside, the gene to which the mapping
leads from the gene of the second parent. -/
structure PmxOffspring (p1 p2 : List G) (s e : Nat) (off : List G) : Prop where
  length : off.length = p1.length
  inside : ∀ i, s ≤ i → i < e → off[i]? = p1[i]?
  outside : ∀ i, i < p1.length → ¬ (s ≤ i ∧ i < e) → ∃ g r, p2[i]? = some g ∧ off[i]? = some r ∧ PmxMaps p1 p2 s e g r

/-- Specification of OX's offspring: read cyclically from position `e`, first the genes of the second parent (read the
same way) that are not among the genes `s..e` of the first, and then these. -/
def OxOffspring [DecidableEq G] (p1 p2 : List G) (s e : Nat) (off : List G) : Prop :=
  off.rotate e = ((p2.rotate e).filter fun g => decide (g ∉ (p1.drop s).take (e - s))) ++ (p1.drop s).take (e - s)

/-- Specification: the first genome cut into its longest runs of genes in which neighbours are also neighbours (cyclically,
in either direction) in the second genome. -/
def commonRuns [DecidableEq G] (g1 g2 : List G) : List (List G) := g1.splitBy fun a b => decide (Adj g2 a b)

/-- Specification: the first run is a single gene `x`, there is another run, and the last gene of the last run `last` (the
cyclic predecessor of `x`) is a neighbour of `x` in the second genome; `mid` are the runs in between. -/
def Wrapped [DecidableEq G] (g1 g2 : List G) (x : G) (mid : List (List G)) (last : List G) : Prop :=
  commonRuns g1 g2 = [x] :: (mid ++ [last]) ∧ ∃ z, last.getLast? = some z ∧ Adj g2 z x

/-- Specification of the common partitions of two permutations: the common runs of the first genome; only if the first of
them is a single gene continued by the last run (read backwards), these two are one partition. -/
def CommonParts [DecidableEq G] (g1 g2 : List G) (parts : List (List G)) : Prop :=
  (∃ x mid last, Wrapped g1 g2 x mid last ∧ parts = (x :: last.reverse) :: mid) ∨
  ((¬ ∃ x mid last, Wrapped g1 g2 x mid last) ∧ parts = commonRuns g1 g2)

end RG
