import Verif.Selection

/-!
# Repeated selection (`/repo/src/operators/selection.rs:479-620`, the unit tests)

The unit tests of the selectors make many selections from one population and compare the frequencies with probabilities.
The helper functions of the tests are modelled here.

* The tests seed the generator with 0; here the draws are random.
* `MockIndividual` derives `PartialEq` (comparison of the fitness with `==`).
-/

namespace RG
variable {I : Type} [Individual I]

/-- `a + b` on `u32` with overflow check. -/
def u32Add (a b : Nat) : Res Nat := if a + b < 2 ^ 32 then .ok (a + b) else .panic

/-- The loop of `collect_samples` — `selection.rs:517-520`: `counts[index] += 1` for each selection. -/
def collectLoop (select : Prog (Nat × I)) : Nat → List Nat → Prog (List Nat)
  | 0, counts => pure counts
  | n + 1, counts => do
    let r ← select
    let c ← Prog.lift (index counts r.1)
    let c ← Prog.lift (u32Add c 1)
    collectLoop select n (counts.set r.1 c)

/-- `struct MockIndividual` — `selection.rs:483-486`. -/
structure Mock where
  fit : F64
deriving DecidableEq

/-- `impl Individual for MockIndividual` — `selection.rs:488-492`. -/
instance : Individual Mock where
  fitness x := x.fit
  eq a b := a.fit.feq b.fit

/-- The vector in `create_test_population` — `selection.rs:499-503`. -/
def testIndividuals : List Mock := (List.range 10).map fun i => ⟨(F64.ofNat i).div (F64.ofNat 10)⟩

/-- `create_test_population` — `selection.rs:498-506`. -/
def createTestPopulation (sort : List Mock → List Mock) : Res (Population Mock) := do
  match ← Population.tryFrom sort testIndividuals with
  | .inl p => pure p
  | .inr _ => .panic

/-- `collect_samples` — `selection.rs:508-522`: the population and the counts. -/
def collectSamples (env : NumEnv) (sort : List Mock → List Mock) (strategy : Selector) : Prog (List Mock × List Nat) := do
  let population ← Prog.lift (createTestPopulation sort)
  let strategy := strategy.prepare env population
  let counts ← collectLoop (strategy.select env population) 100000 (List.replicate 10 0)
  pure (population.toVec, counts)

end RG
