import Verif.Prog

/-!
# Programs that run in step

`Coupled R p q`: with the same draws, `p` and `q` draw from the same ranges and end alike: both with results related by `R`, or both with a
panic, or both not at all. No part of the model uses it; it states how two runs compare (C103).
-/

namespace RG
namespace Prog
variable {α β γ δ σ : Type}

/-- The outcomes are alike. -/
def _root_.RG.Res.Alike (R : α → β → Prop) : Res α → Res β → Prop
  | .ok a, .ok b => R a b
  | .panic, .panic => True
  | .diverge, .diverge => True
  | _, _ => False

/-- The programs run in step. -/
def Coupled (R : α → β → Prop) : Prog α → Prog β → Prop
  | done r, done r' => Res.Alike R r r'
  | pick n k, pick n' k' => n = n' ∧ ∀ i, i ≤ n → Coupled R (k i) (k' i)
  | _, _ => False

theorem coupled_pure {R : α → β → Prop} {a : α} {b : β} (h : R a b) : Coupled R (pure a) (pure b) := h

theorem coupled_lift {R : α → β → Prop} {a : Res α} {b : Res β} (h : Res.Alike R a b) : Coupled R (lift a) (lift b) := h

theorem Coupled.refl (p : Prog α) : Coupled Eq p p := by
  induction p with
  | done r => cases r <;> simp [Coupled, Res.Alike]
  | pick n k ih => exact ⟨rfl, fun i _ => ih i⟩

theorem Coupled.refl_of {P : α → Prop} {p : Prog α} (hp : Partially P p) : Coupled (fun a b => a = b ∧ P a) p p := by
  induction p with
  | done r =>
    cases r
    · exact ⟨rfl, hp _ rfl⟩
    · exact trivial
    · exact trivial
  | pick n k ih => exact ⟨rfl, fun i hi => ih i fun a ha => hp a ⟨i, hi, ha⟩⟩

theorem Coupled.mono {R S : α → β → Prop} {p : Prog α} {q : Prog β} (h : Coupled R p q) (hRS : ∀ a b, R a b → S a b) :
    Coupled S p q := by
  induction p generalizing q with
  | done r =>
    cases q with
    | done r' => cases r <;> cases r' <;> simp only [Coupled, Res.Alike] at h ⊢ ; exact hRS _ _ h
    | pick => exact h.elim
  | pick n k ih =>
    cases q with
    | done => exact h.elim
    | pick m k' =>
      obtain ⟨rfl, h⟩ := h
      exact ⟨rfl, fun i hi => ih i (h i hi)⟩

theorem Coupled.bind {R : α → β → Prop} {S : γ → δ → Prop} {p : Prog α} {q : Prog β} (h : Coupled R p q) {f : α → Prog γ}
    {g : β → Prog δ} (hfg : ∀ a b, R a b → Coupled S (f a) (g b)) : Coupled S (p >>= f) (q >>= g) := by
  induction p generalizing q with
  | done r =>
    cases q with
    | done r' =>
      cases r <;> cases r' <;> first | exact h.elim | exact trivial | skip
      exact hfg _ _ h
    | pick => exact h.elim
  | pick n k ih =>
    cases q with
    | done => exact h.elim
    | pick m k' =>
      obtain ⟨rfl, h⟩ := h
      exact ⟨rfl, fun i hi => ih i (h i hi)⟩

/-- A program in step with itself. -/
theorem Coupled.bind_right {S : γ → δ → Prop} (p : Prog α) {f : α → Prog γ} {g : α → Prog δ} (hfg : ∀ a, Coupled S (f a) (g a)) :
    Coupled S (p >>= f) (p >>= g) :=
  (Coupled.refl p).bind fun a _ h => h ▸ hfg a

/-- What both yield. -/
theorem Coupled.yields {R : α → β → Prop} {p : Prog α} {q : Prog β} (h : Coupled R p q) {r : Res α} (hr : p.yields r) :
    ∃ r', q.yields r' ∧ Res.Alike R r r' := by
  induction p generalizing q with
  | done x =>
    cases q with
    | done y => cases hr; exact ⟨y, rfl, h⟩
    | pick => exact h.elim
  | pick n k ih =>
    cases q with
    | done => exact h.elim
    | pick m k' =>
      obtain ⟨rfl, h⟩ := h
      obtain ⟨i, hi, hr⟩ := hr
      obtain ⟨r', h1, h2⟩ := ih i (h i hi) hr
      exact ⟨r', ⟨i, hi, h1⟩, h2⟩

/-- With the same source of draws both end alike and leave the source in the same state. -/
theorem Coupled.exec {R : α → β → Prop} {p : Prog α} {q : Prog β} (h : Coupled R p q) (draw : σ → Nat → Nat × σ)
    (hd : ∀ s n, (draw s n).1 ≤ n) (s : σ) :
    Res.Alike R (p.exec draw s).1 (q.exec draw s).1 ∧ (p.exec draw s).2 = (q.exec draw s).2 := by
  induction p generalizing q s with
  | done x =>
    cases q with
    | done y => exact ⟨h, rfl⟩
    | pick => exact h.elim
  | pick n k ih =>
    cases q with
    | done => exact h.elim
    | pick m k' =>
      obtain ⟨rfl, h⟩ := h
      exact ih _ (h _ (hd s n)) _

/-- Corresponding events are equally likely. -/
theorem Coupled.prob {R : α → β → Prop} {p : Prog α} {q : Prog β} (h : Coupled R p q) (P : α → Prop) (Q : β → Prop)
    [DecidablePred P] [DecidablePred Q] (hPQ : ∀ a b, R a b → (P a ↔ Q b)) : p.prob P = q.prob Q := by
  unfold Prog.prob
  induction p generalizing q with
  | done x =>
    cases q with
    | done y =>
      cases x <;> cases y <;> first | exact h.elim | rfl | skip
      rename_i a b
      simp only [expect]
      by_cases hP : P a
      · rw [if_pos hP, if_pos ((hPQ a b h).1 hP)]
      · rw [if_neg hP, if_neg fun hQ => hP ((hPQ a b h).2 hQ)]
    | pick => exact h.elim
  | pick n k ih =>
    cases q with
    | done => exact h.elim
    | pick m k' =>
      obtain ⟨rfl, h⟩ := h
      rw [expect_pick, expect_pick]
      congr 1
      exact Finset.sum_congr rfl fun i hi => ih i (h i (by simpa [Nat.lt_succ_iff] using hi))

theorem Coupled.replicate {R : α → β → Prop} {p : Prog α} {q : Prog β} (h : Coupled R p q) (n : Nat) :
    Coupled (List.Forall₂ R) (Prog.replicate n p) (Prog.replicate n q) := by
  induction n with
  | zero => exact coupled_pure .nil
  | succ n ih =>
    unfold Prog.replicate
    exact h.bind fun a b hab => ih.bind fun as bs hs => coupled_pure (.cons hab hs)

end Prog
end RG
