import Verif.Props.Dominant
import Verif.Algorithm

/-!
# C144 — How likely a generation goes without crossover, or without any change
-/

namespace RG.Props
open RG RG.Prog Arith
variable {I Mo U : Type} [Individual I]

/-- The indicator of returning. -/
def returned {α : Type} : Res α → ℚ
  | .ok _ => 1
  | _ => 0

theorem returns_eq {α : Type} (p : Prog α) : 1 - p.probFail = p.expect returned := by
  rw [sub_eq_iff_eq_add, probFail, ← expect_add]
  refine (expect_const p 1).symm.trans (expect_congr _ _ _ fun r _ => ?_)
  rcases r with r | _ | _ <;> simp [returned]

theorem returns_bind {α β : Type} (p : Prog α) (f : α → Prog β) (c : ℚ) (h : ∀ a, p.yields (.ok a) → 1 - (f a).probFail = c) :
    1 - (p >>= f).probFail = (1 - p.probFail) * c := by
  rw [returns_eq, returns_eq, expect_bind, mul_comm, ← expect_mul_left]
  refine expect_congr _ _ _ fun r hr => ?_
  rcases r with a | _ | _
  · show (f a).expect returned = c * 1
    rw [mul_one, ← h a hr, returns_eq]
  · simp [returned]
  · simp [returned]

theorem returns_pure {α : Type} (a : α) : 1 - (pure a : Prog α).probFail = 1 := by
  show (1 : ℚ) - 0 = 1
  norm_num

theorem returns_replicate {α : Type} (p : Prog α) (n : Nat) : 1 - (Prog.replicate n p).probFail = (1 - p.probFail) ^ n := by
  induction n with
  | zero => rw [pow_zero]; exact returns_pure []
  | succ n ih =>
    unfold Prog.replicate
    rw [returns_bind _ _ ((1 - p.probFail) ^ n) fun a _ => ?_, pow_succ']
    rw [returns_bind _ _ 1 fun _ _ => returns_pure _, ih, mul_one]

/-! ### Theorems -/

/-- **C144** Making the offspring of a generation returns with the probability that `breed` does, to the power of the number of offspring missing,
one that is made only to be dropped included. -/
theorem C144_returns (M : EvoModel I Mo U) (env : NumEnv) (model : Mo) (r : ReproParams U) (size : Nat) (p : Population I) (kept : List I) :
    1 - (defaultGenerate M env model (r, size) p kept).probFail = (1 - (M.breed env model p r).probFail) ^ (size - kept.length) := by
  unfold defaultGenerate
  dsimp only
  split
  · next h => rw [h, pow_zero]; exact returns_pure _
  · next h => rw [h, pow_one, returns_bind _ _ 1 fun _ _ => returns_pure _, mul_one]
  · rw [returns_bind _ _ 1 fun _ _ => returns_pure _, mul_one, returns_replicate]

/-- **C144** So if `breed` is the default one, the generation calls crossover not even once with the probability `(1 - q)^k`, where `q` is that of one
call of `breed` and `k` the number of offspring to make. -/
theorem C144_crossover (M : EvoModel I Mo U) (M' : EvoModel I Mo U) (hM' : M'.breed = defaultBreed (crossPanics M.toEvoOps)) (env : NumEnv) (model : Mo)
    (hM : OthersReturn M.toEvoOps model) (r : ReproParams U) (size : Nat) (p : Population I) (kept : List I) (s : Selector)
    (hs : r.parentSelector = .builtin s) (ht : Always (IsMember p) (s.select env p)) (hu : PairwiseUnequal p) :
    1 - (defaultGenerate M' env model (r, size) p kept).probFail =
      (1 - attempts p r.crossoverRate * (1 - ∑ i ∈ Finset.range p.individuals.length, (s.select env p).prob (fun c => c.1 = i) ^ 4)) ^
        (size - kept.length) := by
  rw [C144_returns, hM', C142_unequal M.toEvoOps env model hM p r s hs ht hu]

/-- **C144** And it calls neither crossover nor mutation with this probability. -/
theorem C144_change (M : EvoModel I Mo U) (M' : EvoModel I Mo U) (hM' : M'.breed = defaultBreed (changePanics M.toEvoOps)) (env : NumEnv) (model : Mo)
    (hM : OthersReturn M.toEvoOps model) (r : ReproParams U) (size : Nat) (p : Population I) (kept : List I) (s : Selector)
    (hs : r.parentSelector = .builtin s) (ht : Always (IsMember p) (s.select env p)) (hu : PairwiseUnequal p) :
    1 - (defaultGenerate M' env model (r, size) p kept).probFail =
      ((1 - attempts p r.crossoverRate * (1 - ∑ i ∈ Finset.range p.individuals.length, (s.select env p).prob (fun c => c.1 = i) ^ 4)) *
        (1 - chance r.mutationRate)) ^ (size - kept.length) := by
  rw [C144_returns, hM', C142_neither M.toEvoOps env model hM p r s hs (Always.mono ht fun _ _ => trivial),
    C142_unequal M.toEvoOps env model hM p r s hs ht hu]

/-! ### Example -/

/-- Ten offspring of three numbers, by rank and with the crossover rate 1. -/
example (env : NumEnv) (r : ReproParams Empty) (hs : r.parentSelector = .builtin .rank) (h1 : r.crossoverRate = F64.one) (e1 e2 : Num) :
    1 - (defaultGenerate { numModel with breed := defaultBreed (crossPanics numOps) } env () (r, 12) numPop [e1, e2]).probFail = (49 / 648) ^ 10 := by
  rw [C144_returns]
  show (1 - (defaultBreed (crossPanics numOps) env () numPop r).probFail) ^ 10 = _
  rw [numPop_rank env r hs h1]
  norm_num

end RG.Props
