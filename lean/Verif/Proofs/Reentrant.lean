import Verif.Reentrant
import Verif.Props.Total

/-! # Helper lemmas about runs inside runs -/

set_option linter.unusedSectionVars false

namespace RG
open Prog
variable {I : Type} [Individual I] {Mo U A P Q : Type} {β : Type}

/-- The state of a run with the algorithm in a cell that is not in use. -/
def RunState.inCell (st : RunState I A Q) : RunState I (Cell A) Q :=
  ⟨Cell.new st.algo, st.population, st.buffer, st.q, st.shown⟩

theorem Cell.read_new (a : A) (f : A → Prog β) : (Cell.new a).read f = f a >>= fun b => pure (b, Cell.new a) := by
  simp [Cell.read, Cell.new]

theorem Cell.write_new (a : A) (f : A → Prog A) : (Cell.new a).write f = f a >>= fun b => pure (Cell.new b) := by
  simp [Cell.write, Cell.new]

theorem cellStep_new (alg : EvoAlgo I Mo U A P) (env : Env I) (st : RunState I A Q) :
    cellStep alg env st.inCell = generationStep alg env st >>= fun s => pure s.inCell := by
  unfold cellStep generationStep
  simp only [RunState.inCell, Cell.write_new, Cell.read_new, bind_assoc, bind_pure_left]

theorem cellStep_eq (alg : EvoAlgo I Mo U A P) (env : Env I) (a : A) (pop : Population I) (buffer : List I) (q : Q)
    (shown : List (Population I)) :
    cellStep alg env ⟨Cell.new a, pop, buffer, q, shown⟩ = generationStep alg env ⟨a, pop, buffer, q, shown⟩ >>= fun s => pure s.inCell :=
  cellStep_new alg env ⟨a, pop, buffer, q, shown⟩

end RG
