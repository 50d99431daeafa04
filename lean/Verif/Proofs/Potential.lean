import Verif.Proofs.Gain
import Verif.Proofs.Ladder

/-! # Potential functions along the loop of a run -/

set_option linter.unusedSectionVars false

namespace RG
open Prog Props
variable {I : Type} [Individual I] {Mo U A P Q : Type}

theorem average_const_le {α : Type} (p : Prog α) (c : ℚ) (hc : 0 ≤ c) : p.average (fun _ => c) ≤ c := by
  unfold average
  refine (expect_mono p _ (fun _ => c) fun r _ => ?_).trans_eq (expect_const p c)
  rcases r with a | _ | _ <;> simp [hc]

theorem average_le_const {α : Type} (p : Prog α) (f : α → ℚ) (c : ℚ) (hc : 0 ≤ c) (h : ∀ a, p.yields (.ok a) → f a ≤ c) : p.average f ≤ c :=
  (average_mono p h).trans (average_const_le p c hc)

theorem le_average_of_always {α : Type} {p : Prog α} (hp : Always (fun _ => True) p) (f : α → ℚ) (c : ℚ) (h : ∀ a, p.yields (.ok a) → c ≤ f a) :
    c ≤ p.average f := (average_const hp c).symm.le.trans (average_mono p h)

/-- The number of calls of `progress` in a run, as an average. -/
theorem expect_callsOf (q : Prog (Bool × RunState I A Q)) : q.expect callsOf = q.average fun r => (r.2.shown.length : ℚ) := by
  unfold average
  refine expect_congr _ _ _ fun r _ => ?_
  rcases r with a | _ | _ <;> rfl

section
variable (alg : EvoAlgo I Mo U A P) (envs : Nat → Env I) (progress : Q → Population I → Prog (Bool × Q)) (R : RunState I A Q → Prop)
  (V : Population I → ℚ) (δ : ℚ) (hδ : 0 ≤ δ)
  (hR : ∀ st q', R st → R { st with q := q', shown := st.shown ++ [st.population] })
  (hstep : ∀ t st st', R st → (generationStep alg (envs t) st).yields (.ok st') → R st')

include hδ hR hstep

theorem potential_upper (hV : ∀ st, R st → 0 ≤ V st.population)
    (hdrift : ∀ t st q', R st → (progress st.q st.population).yields (.ok (true, q')) →
      (generationStep alg (envs t) { st with q := q', shown := st.shown ++ [st.population] }).average (fun st' => V st'.population) ≤
        V st.population - δ)
    (fuel t : Nat) (st : RunState I A Q) (hst : R st) :
    δ * (evolveLoop alg envs progress fuel t st).average (fun r => (r.2.shown.length : ℚ)) ≤ V st.population + δ * (st.shown.length + 1) := by
  have hl : (0 : ℚ) ≤ st.shown.length := Nat.cast_nonneg _
  have hv := hV st hst
  have hpos : 0 ≤ V st.population + δ * (st.shown.length + 1) := by positivity
  induction fuel generalizing t st with
  | zero =>
    rw [evolveLoop, average_pure]
    linarith
  | succ fuel ih =>
    rw [evolveLoop, average_bind, ← average_mul]
    refine average_le_const _ _ _ hpos fun ⟨cont, q'⟩ hc => ?_
    cases cont
    · simp only [Bool.false_eq_true, if_false, average_pure, List.length_append, List.length_singleton]
      push_cast
      linarith
    · simp only [if_true]
      rw [average_bind, ← average_mul]
      have hd := hdrift t st q' hst hc
      refine (average_mono (g := fun st' => V st'.population + δ * (st.shown.length + 2)) _ fun st1 hs1 => ?_).trans ?_
      · have h1 := hstep t _ _ (hR st q' hst) hs1
        have h2 : st1.shown = st.shown ++ [st.population] := by
          obtain ⟨b, el, buf, pop, old, -, -, -, -, rfl⟩ := (yields_generationStep _ _ _ _).1 hs1
          rfl
        have h3 : ((st1.shown.length : ℕ) : ℚ) = st.shown.length + 1 := by rw [h2]; simp
        have := hV st1 h1
        have := ih (t + 1) st1 h1 (Nat.cast_nonneg _) this (by rw [h3]; positivity)
        rw [h3] at this
        linarith
      · rw [average_add]
        have := average_const_le (generationStep alg (envs t) { st with q := q', shown := st.shown ++ [st.population] })
          (δ * (st.shown.length + 2)) (by positivity)
        linarith

theorem potential_lower (hpr : ∀ st, R st → Always (fun _ => True) (progress st.q st.population))
    (halw : ∀ t st, R st → Always (fun _ => True) (generationStep alg (envs t) st))
    (hstop : ∀ st q', R st → (progress st.q st.population).yields (.ok (false, q')) → V st.population ≤ 0)
    (hdrift : ∀ t st q', R st → (progress st.q st.population).yields (.ok (true, q')) →
      V st.population - δ ≤
        (generationStep alg (envs t) { st with q := q', shown := st.shown ++ [st.population] }).average (fun st' => V st'.population))
    (fuel t : Nat) (st : RunState I A Q) (hst : R st) :
    V st.population + δ * (st.shown.length + 1) ≤
      (evolveLoop alg envs progress fuel t st).average (fun r => δ * r.2.shown.length + if r.1 then 0 else V r.2.population + δ) := by
  induction fuel generalizing t st with
  | zero =>
    rw [evolveLoop, average_pure]
    simp only [Bool.false_eq_true, if_false]
    linarith
  | succ fuel ih =>
    rw [evolveLoop, average_bind]
    refine le_average_of_always (hpr st hst) _ _ fun ⟨cont, q'⟩ hc => ?_
    cases cont
    · have := hstop st q' hst hc
      simp only [Bool.false_eq_true, if_false, average_pure, if_true, List.length_append, List.length_singleton]
      push_cast
      linarith
    · simp only [if_true]
      rw [average_bind]
      have hd := hdrift t st q' hst hc
      refine le_trans ?_ (average_mono (f := fun st' => V st'.population + δ * (st.shown.length + 2)) _ fun st1 hs1 => ?_)
      · rw [average_add, average_const (halw t _ (hR st q' hst))]
        linarith
      · have h1 := hstep t _ _ (hR st q' hst) hs1
        have h2 : st1.shown = st.shown ++ [st.population] := by
          obtain ⟨b, el, buf, pop, old, -, -, -, -, rfl⟩ := (yields_generationStep _ _ _ _).1 hs1
          rfl
        have h3 : ((st1.shown.length : ℕ) : ℚ) = st.shown.length + 1 := by rw [h2]; simp
        have := ih (t + 1) st1 h1
        rw [h3] at this
        linarith

end
end RG
