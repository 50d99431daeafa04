import Mathlib.Data.List.Rotate
import Mathlib.Data.Multiset.AddSub
import Mathlib.Algebra.BigOperators.Group.Multiset.Basic
import Mathlib.Algebra.Order.Field.Rat

/-!
# Tours

A genome read as a round trip: the genes in their order and back to the first. `f a b` is the edge from `a` to `b`; a
symmetric `f` makes the edges undirected. Nothing here comes from the code: the crate leaves the meaning of a genome to
the user, and a round trip is what the permutation operators (order, edge recombination, GPX2, swap, inversion …) are
documented for.
-/

namespace RG
variable {G E : Type}

/-- The edges of the tour that visits the genes in this order and returns to the first. -/
def tourEdges (f : G → G → E) (g : List G) : Multiset E := Multiset.ofList (List.zipWith f g (g.rotate 1))

/-- How many edges of the tour `g` the tour `g'` lacks. -/
def lostEdges [DecidableEq E] (f : G → G → E) (g g' : List G) : Nat := (tourEdges f g - tourEdges f g').card

/-- The length of the tour, each edge having a length of its own. -/
def tourLength (f : G → G → E) (w : E → ℚ) (g : List G) : ℚ := ((tourEdges f g).map w).sum

end RG
