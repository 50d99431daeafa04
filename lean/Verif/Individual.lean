import Verif.Float.F64

/-!
# Individuals (`/repo/src/individual.rs`) and fitness order (`/repo/src/operators.rs:14-20`)
-/

namespace RG

/-- `trait Individual: Clone + PartialEq + Send + Sync` — `individual.rs:10-33`. The user's `==` is an arbitrary Boolean
relation (no law is assumed). `Clone` is taken to return an identical value. -/
class Individual (I : Type) where
  /-- `fitness` — `individual.rs:17` -/
  fitness : I → F64
  /-- `is_valid` — `individual.rs:30-32`, with its default -/
  isValid : I → Bool := fun i => (fitness i).isFinite
  /-- `PartialEq::eq` -/
  eq : I → I → Bool

export Individual (fitness isValid)

/-- The model instance uses the default `is_valid` (`individual.rs:30-32`). -/
class DefaultValid (I : Type) [Individual I] : Prop where
  isValid_eq : ∀ i : I, isValid i = (fitness i).isFinite

variable {I : Type} [Individual I]

/-- `compare_fitness` — `operators.rs:16-20`. -/
def compareFitness (a b : I) : Ordering :=
  ((fitness a).partialCmp (fitness b)).getD .eq

/-- `struct IndividualWrapper` — `individual.rs:72-74`. -/
structure IndividualWrapper (I : Type) where
  i : I

namespace IndividualWrapper

/-- `From<I>::from` — `individual.rs:127-132`. -/
def ofIndividual (i : I) : IndividualWrapper I := ⟨i⟩
/-- `take` — `individual.rs:83-85`. -/
def take (w : IndividualWrapper I) : I := w.i
/-- `deref` — `individual.rs:92-94`. -/
def deref (w : IndividualWrapper I) : I := w.i
/-- `PartialEq::eq` — `individual.rs:104-109`. -/
def eq (a b : IndividualWrapper I) : Bool := (fitness a.i).feq (fitness b.i)
/-- `PartialOrd::partial_cmp` — `individual.rs:113-118`. -/
def partialCmp (a b : IndividualWrapper I) : Option Ordering := (fitness a.i).partialCmp (fitness b.i)
/-- `Ord::cmp` — `individual.rs:120-125`. -/
def cmp (a b : IndividualWrapper I) : Ordering := (a.partialCmp b).getD .eq

end IndividualWrapper
end RG
