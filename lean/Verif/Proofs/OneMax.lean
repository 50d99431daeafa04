import Verif.Proofs.Convergence

/-! # The OneMax problem, helper lemmas -/

namespace RG
open Prog

theorem prob_replicate_eq {α : Type} [DecidableEq α] (p : Prog α) (l : List α) :
    (Prog.replicate l.length p).prob (fun l' => l' = l) = (l.map fun a => p.prob (fun b => b = a)).prod := by
  induction l with
  | nil => simp [Prog.replicate]
  | cons a l ih =>
    rw [List.map_cons, List.prod_cons, ← ih]
    show (p >>= fun b => Prog.replicate l.length p >>= fun bs => pure (b :: bs)).prob _ = _
    rw [prob_bind_mul _ _ _ (fun b => b = a) ((Prog.replicate l.length p).prob (fun l' => l' = l))]
    · rintro b _ rfl
      rw [prob_bind_mul _ _ _ (fun l' => l' = l) 1, mul_one]
      · rintro l' _ rfl; simp
      · intro l' _ h; simp [h]
    · intro b _ h
      refine prob_eq_zero _ _ fun c hc => ?_
      rw [yields_bind_ok] at hc
      obtain ⟨bs, _, hc⟩ := hc
      cases hc
      simp [h]

end RG
