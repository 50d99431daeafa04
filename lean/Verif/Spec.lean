import Mathlib.Data.List.Basic
import Mathlib.Logic.Relation

/-!
# Specification vocabulary

Small notions used to state properties, independent of the model.
-/

namespace RG
variable {G : Type}

/-- Specification: `b` directly follows `a` in the cyclic sequence `g`. -/
def Follows (g : List G) (a b : G) : Prop := ∃ i, i < g.length ∧ g[i]? = some a ∧ g[(i + 1) % g.length]? = some b

/-- Specification: `a` and `b` are cyclically adjacent in `g`, in either direction. -/
def Adj (g : List G) (a b : G) : Prop := Follows g a b ∨ Follows g b a

instance [DecidableEq G] (g : List G) (a b : G) : Decidable (Follows g a b) :=
  decidable_of_iff (∃ i : Fin g.length, g[i.1]? = some a ∧ g[(i.1 + 1) % g.length]? = some b)
    ⟨fun ⟨i, h⟩ => ⟨i.1, i.2, h⟩, fun ⟨i, hi, h⟩ => ⟨⟨i, hi⟩, h⟩⟩

instance [DecidableEq G] (g : List G) (a b : G) : Decidable (Adj g a b) := inferInstanceAs (Decidable (_ ∨ _))

/-- Specification of one step of SCX: which gene follows `cur`, `visited` being the genes placed so far (`cur`
included). With `s1`, `s2` the successors of `cur` in the parents: an unvisited successor, if there is one; if both are
unvisited the one that comes first in the other parent; if none is, the first unvisited gene of the first parent. -/
def ScxStep [DecidableEq G] (p1 p2 visited : List G) (cur next : G) : Prop :=
  ∃ s1 s2, Follows p1 cur s1 ∧ Follows p2 cur s2 ∧
    ((s1 ∈ visited ∧ s2 ∈ visited ∧ p1.find? (fun g => decide (g ∉ visited)) = some next) ∨
     (s1 ∈ visited ∧ s2 ∉ visited ∧ next = s2) ∨
     (s1 ∉ visited ∧ s2 ∈ visited ∧ next = s1) ∨
     (s1 ∉ visited ∧ s2 ∉ visited ∧ next = if p2.idxOf s1 < p1.idxOf s2 then s1 else s2))

/-- `x` is an unvisited neighbour of `g` in one of the parents. -/
def Candidate (p1 p2 visited : List G) (g x : G) : Prop := (Adj p1 g x ∨ Adj p2 g x) ∧ x ∉ visited

instance [DecidableEq G] (p1 p2 visited : List G) (g x : G) : Decidable (Candidate p1 p2 visited g x) :=
  inferInstanceAs (Decidable (_ ∧ _))

/-- The number of unvisited neighbours of `g`. -/
def degree [DecidableEq G] (p1 p2 visited : List G) (g : G) : Nat :=
  (p1.filter fun x => decide (Candidate p1 p2 visited g x)).length

/-- Specification of one step of ERX: an unvisited neighbour of `cur` with the fewest unvisited neighbours, if `cur` has
unvisited neighbours, and otherwise the first unvisited gene of the first parent. -/
def ErxStep [DecidableEq G] (p1 p2 visited : List G) (cur next : G) : Prop :=
  (Candidate p1 p2 visited cur next ∧
    ∀ x, Candidate p1 p2 visited cur x → degree p1 p2 visited next ≤ degree p1 p2 visited x) ∨
  ((∀ x, ¬ Candidate p1 p2 visited cur x) ∧ p1.find? (fun g => decide (g ∉ visited)) = some next)

/-- Specification of PMX's mapping for the range `s..e`: `PmxMaps p1 p2 s e g r` if following from `g` the pairs
`p1[j] → p2[j]` with `j` in the range leads to `r`, which is not in the range of `p1`. -/
inductive PmxMaps (p1 p2 : List G) (s e : Nat) : G → G → Prop
  | stop {g : G} : (∀ j, s ≤ j → j < e → p1[j]? ≠ some g) → PmxMaps p1 p2 s e g g
  | step {g g' r : G} {j : Nat} : s ≤ j → j < e → p1[j]? = some g → p2[j]? = some g' → PmxMaps p1 p2 s e g' r →
      PmxMaps p1 p2 s e g r

/-- Specification of CX: position `j` of the second parent holds the gene at position `i` of the first. -/
def CxLink (p1 p2 : List G) (i j : Nat) : Prop := ∃ g, p1[i]? = some g ∧ p2[j]? = some g

/-- Specification of CX: the positions `i` and `j` are in the same cycle of the two parents. -/
def SameCycle (p1 p2 : List G) : Nat → Nat → Prop := Relation.EqvGen (CxLink p1 p2)

/-- Specification of CX: `starts` lists the smallest position of every cycle in ascending order, and the cycles take
their genes from the two parents in turn, the first from `p1`. -/
structure CxResult (p1 p2 : List G) (starts : List Nat) (off : List G) : Prop where
  length : off.length = p1.length
  bound : ∀ s ∈ starts, s < p1.length
  ascending : starts.Pairwise (· < ·)
  distinct : starts.Pairwise (fun s t => ¬ SameCycle p1 p2 s t)
  genes : ∀ i, i < p1.length → ∃ k s, starts[k]? = some s ∧ s ≤ i ∧ SameCycle p1 p2 s i ∧
    off[i]? = if k % 2 = 0 then p1[i]? else p2[i]?

end RG
