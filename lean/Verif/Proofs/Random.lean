import Verif.Random
import Mathlib.Algebra.BigOperators.Intervals

/-! Helper lemmas: probabilities and support of the random helpers. -/

namespace RG
namespace Prog
variable {α β : Type}

theorem prob_pick (n : Nat) (k : Nat → Prog α) (P : α → Prop) [DecidablePred P] :
    (pick n k).prob P = (∑ i ∈ Finset.range (n + 1), (k i).prob P) / (n + 1) := rfl

@[simp] theorem prob_pure (a : α) (P : α → Prop) [DecidablePred P] :
    (pure a : Prog α).prob P = if P a then 1 else 0 := rfl

@[simp] theorem prob_done_ok (a : α) (P : α → Prop) [DecidablePred P] :
    (done (.ok a) : Prog α).prob P = if P a then 1 else 0 := rfl

theorem prob_rangeIncl_bind (lo hi : Nat) (h : lo ≤ hi) (f : Nat → Prog β) (P : β → Prop) [DecidablePred P] :
    (rangeIncl lo hi >>= f).prob P = (∑ i ∈ Finset.Icc lo hi, (f i).prob P) / (hi - lo + 1 : ℚ) := by
  unfold rangeIncl
  rw [if_pos h, bind_pick, prob_pick]
  simp only [bind_pure_left]
  congr 1
  · rw [show Finset.Icc lo hi = Finset.Ico lo (hi + 1) from by ext; simp,
      Finset.sum_Ico_eq_sum_range]
    congr 2; omega
  · rw [Nat.cast_sub h]

theorem prob_rangeExcl_bind (lo hi : Nat) (h : lo < hi) (f : Nat → Prog β) (P : β → Prop) [DecidablePred P] :
    (rangeExcl lo hi >>= f).prob P = (∑ i ∈ Finset.Ico lo hi, (f i).prob P) / (hi - lo : ℚ) := by
  unfold rangeExcl
  rw [if_pos h, bind_pick, prob_pick]
  simp only [bind_pure_left]
  congr 1
  · rw [Finset.sum_Ico_eq_sum_range]
    congr 2; omega
  · rw [Nat.sub_sub, Nat.cast_sub (by omega)]; push_cast; ring

theorem prob_map (p : Prog α) (f : α → β) (P : β → Prop) [DecidablePred P] :
    (f <$> p).prob P = p.prob (fun a => P (f a)) := by
  induction p with
  | done r => cases r <;> rfl
  | pick n k ih =>
    rw [← bind_pure_comp, bind_pick, prob_pick, prob_pick]
    congr 1
    refine Finset.sum_congr rfl fun i _ => ?_
    rw [bind_pure_comp]; exact ih i

theorem prob_congr (p : Prog α) (P Q : α → Prop) [DecidablePred P] [DecidablePred Q]
    (h : ∀ a, p.yields (.ok a) → (P a ↔ Q a)) : p.prob P = p.prob Q := by
  unfold prob
  refine expect_congr _ _ _ fun r hr => ?_
  rcases r with a | _ | _ <;> simp
  simp [h a hr]

theorem exists_of_prob_pos (p : Prog α) (P : α → Prop) [DecidablePred P] (h : 0 < p.prob P) :
    ∃ a, p.yields (.ok a) ∧ P a := by
  by_contra hc
  push Not at hc
  rw [prob_eq_zero p P hc] at h
  exact lt_irrefl _ h

end Prog

open Prog

theorem yields_randomPair (n : Nat) (r : Res (Nat × Nat)) :
    (randomPair n).yields r ↔ (n < 2 ∧ r = .panic) ∨
      (2 ≤ n ∧ ∃ a b, a < n ∧ b < n ∧ a ≠ b ∧ r = .ok (a, b)) := by
  unfold randomPair
  by_cases h : 2 ≤ n
  · simp only [h, decide_true, Res.assert_true, lift_ok, bind_pure_left, yields_bind, yields_rangeExcl, yields_pure]
    constructor
    · rintro (⟨a, h1, h2⟩ | h1 | h1)
      · right
        refine ⟨trivial, ?_⟩
        rcases h1 with ⟨h1, -⟩ | ⟨i, -, hi, h1⟩
        · omega
        cases h1
        rcases h2 with ⟨b, h2, h3⟩ | h2 | h2
        · rcases h2 with ⟨h2, -⟩ | ⟨j, -, hj, h2⟩
          · omega
          cases h2
          refine ⟨a, _, hi, ?_, ?_, h3⟩ <;> split <;> omega
        · rcases h2 with ⟨⟨h2, -⟩ | ⟨j, -, hj, h2⟩, -⟩
          · omega
          · cases h2
        · rcases h2 with ⟨⟨h2, -⟩ | ⟨j, -, hj, h2⟩, -⟩
          · omega
          · cases h2
      · rcases h1 with ⟨⟨h1, -⟩ | ⟨j, -, hj, h1⟩, -⟩
        · omega
        · cases h1
      · rcases h1 with ⟨⟨h1, -⟩ | ⟨j, -, hj, h1⟩, -⟩
        · omega
        · cases h1
    · rintro (⟨h1, -⟩ | ⟨-, a, b, ha, hb, hab, rfl⟩)
      · omega
      · refine Or.inl ⟨a, Or.inr ⟨a, by omega, ha, rfl⟩, Or.inl ⟨if b ≤ a then b else b - 1,
          Or.inr ⟨_, by omega, ?_, rfl⟩, ?_⟩⟩
        · split <;> omega
        · congr 2
          split <;> split <;> omega
  · have h' : n < 2 := by omega
    simp [h, h', Prog.lift]

theorem yields_boundedRandomRange (n lo hi : Nat) (r : Res URange) :
    (boundedRandomRange n lo hi).yields r ↔ ((hi < lo ∨ n < hi) ∧ r = .panic) ∨
      ∃ s l, lo ≤ l ∧ l ≤ hi ∧ s + l ≤ n ∧ r = .ok ⟨s, s + l⟩ := by
  unfold boundedRandomRange usizeSub
  simp only [yields_bind, yields_rangeIncl, yields_pure, Prog.lift]
  constructor
  · rintro (⟨l, h1, h2⟩ | h1 | h1)
    · rcases h1 with ⟨h1, h3⟩ | ⟨i, hi1, hi2, h1⟩
      · cases h3
      cases h1
      rcases h2 with ⟨m, h2, h3⟩ | h2 | h2
      · by_cases hl : l ≤ n
        · simp only [hl, if_true, yields_done, Res.ok.injEq] at h2
          subst h2
          rcases h3 with ⟨s, h3, h4⟩ | h3 | h3
          · rcases h3 with ⟨h3, -⟩ | ⟨s', -, hs, h3⟩
            · omega
            cases h3
            exact Or.inr ⟨s, l, hi1, hi2, by omega, h4⟩
          · rcases h3 with ⟨⟨h3, -⟩ | ⟨s', -, hs, h3⟩, -⟩
            · omega
            · cases h3
          · rcases h3 with ⟨⟨h3, -⟩ | ⟨s', -, hs, h3⟩, -⟩
            · omega
            · cases h3
        · simp [hl] at h2
      · left
        by_cases hl : l ≤ n
        · simp [hl] at h2
        · exact ⟨Or.inr (by omega), h2.2⟩
      · by_cases hl : l ≤ n <;> simp [hl] at h2
    · left
      rcases h1 with ⟨⟨h1, -⟩ | ⟨i, -, -, h1⟩, h2⟩
      · exact ⟨Or.inl h1, h2⟩
      · cases h1
    · rcases h1 with ⟨⟨h1, h2⟩ | ⟨i, -, -, h1⟩, -⟩
      · cases h2
      · cases h1
  · rintro (⟨h1 | h1, rfl⟩ | ⟨s, l, h1, h2, h3, rfl⟩)
    · exact Or.inr (Or.inl ⟨Or.inl ⟨h1, trivial⟩, rfl⟩)
    · by_cases hlt : hi < lo
      · exact Or.inr (Or.inl ⟨Or.inl ⟨hlt, trivial⟩, rfl⟩)
      · refine Or.inl ⟨hi, Or.inr ⟨hi, by omega, le_rfl, rfl⟩, Or.inr (Or.inl ⟨?_, rfl⟩)⟩
        simp; omega
    · refine Or.inl ⟨l, Or.inr ⟨l, h1, h2, rfl⟩, Or.inl ⟨n - l, ?_, Or.inl ⟨s, Or.inr ⟨s, by omega, by omega, rfl⟩, rfl⟩⟩⟩
      simp; omega

theorem prob_boundedRandomRange (n lo hi s l : Nat) (h1 : lo ≤ l) (h2 : l ≤ hi) (h3 : hi ≤ n) (h4 : s + l ≤ n) :
    (boundedRandomRange n lo hi).prob (· = ⟨s, s + l⟩) = 1 / ((hi - lo + 1) * (n - l + 1)) := by
  unfold boundedRandomRange
  rw [prob_rangeIncl_bind lo hi (by omega)]
  have inner : ∀ i ∈ Finset.Icc lo hi, ((do
      let last ← Prog.lift (usizeSub n i)
      let start ← rangeIncl 0 last
      pure (⟨start, start + i⟩ : URange)) : Prog URange).prob (· = ⟨s, s + l⟩) =
        if i = l then 1 / ((n : ℚ) - l + 1) else 0 := by
    intro i hi'
    rw [Finset.mem_Icc] at hi'
    have hin : i ≤ n := by omega
    simp only [usizeSub, hin, if_true, lift_ok, bind_pure_left]
    rw [prob_rangeIncl_bind 0 (n - i) (by omega)]
    simp only [prob_pure, URange.mk.injEq]
    split
    · rename_i hil
      subst hil
      rw [Finset.sum_eq_single s]
      · simp; rw [Nat.cast_sub hin]
      · intro b _ hb; simp [hb]
      · intro hs; exact absurd (Finset.mem_Icc.2 ⟨by omega, by omega⟩) hs
    · rename_i hil
      rw [Finset.sum_eq_zero]
      · simp
      · intro b _; rw [if_neg]; omega
  rw [Finset.sum_congr rfl inner, Finset.sum_ite_eq' (Finset.Icc lo hi) l]
  rw [if_pos (Finset.mem_Icc.2 ⟨h1, h2⟩), div_div, mul_comm]

end RG
