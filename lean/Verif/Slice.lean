import Verif.Prog

/-!
# Vectors and slices

`Vec<T>` and `&[T]` are lists; indexing and slicing out of bounds panic.
-/

namespace RG
variable {T : Type}

/-- `v[i] = x`; panics when out of bounds. -/
def setAt (v : List T) (i : Nat) (x : T) : Res (List T) := if i < v.length then .ok (v.set i x) else .panic

/-- `v[i]`; panics when out of bounds. -/
def index (v : List T) (i : Nat) : Res T := Res.ofOption v[i]?

/-- `&v[start..stop]`; panics when out of bounds. -/
def slice (v : List T) (start stop : Nat) : Res (List T) :=
  if start ≤ stop ∧ stop ≤ v.length then .ok ((v.drop start).take (stop - start)) else .panic

/-- `v[start..stop].copy_from_slice(src)`; panics when out of bounds or when the lengths differ. -/
def copyInto (v : List T) (start stop : Nat) (src : List T) : Res (List T) :=
  if start ≤ stop ∧ stop ≤ v.length ∧ src.length = stop - start then .ok (v.take start ++ src ++ v.drop stop)
  else .panic

/-- `Vec::swap_remove`: the removed element and the remaining vector; panics when out of bounds. -/
def swapRemove (v : List T) (i : Nat) : Res (T × List T) :=
  match v[i]?, v.getLast? with
  | some x, some l => .ok (x, (v.set i l).dropLast)
  | _, _ => .panic

end RG
