import Verif.Prog

/-!
# Equality of programs

`p.Same q`: the two programs make the same draws and end with the same outcome, whatever the draws are. (Plain equality
would also compare what the continuations do with numbers outside the range of a draw.)
-/

namespace RG
namespace Prog
variable {α β : Type}

/-- The programs behave identically for every sequence of draws. -/
def Same : Prog α → Prog α → Prop
  | done r, done r' => r = r'
  | pick n k, pick n' k' => n = n' ∧ ∀ i, i ≤ n → (k i).Same (k' i)
  | _, _ => False

theorem Same.refl (p : Prog α) : p.Same p := by
  induction p with
  | done r => rfl
  | pick n k ih => exact ⟨rfl, fun i _ => ih i⟩

theorem Same.of_eq {p q : Prog α} (h : p = q) : p.Same q := h ▸ Same.refl p

theorem Same.symm {p q : Prog α} (h : p.Same q) : q.Same p := by
  induction p generalizing q with
  | done r => cases q with
    | done r' => exact Eq.symm h
    | pick => exact h.elim
  | pick n k ih => cases q with
    | done => exact h.elim
    | pick m k' =>
      obtain ⟨rfl, h⟩ := h
      exact ⟨rfl, fun i hi => ih i (h i hi)⟩

theorem Same.trans {p q r : Prog α} (h : p.Same q) (h' : q.Same r) : p.Same r := by
  induction p generalizing q r with
  | done x => cases q with
    | done y => cases r with
      | done z => exact Eq.trans h h'
      | pick => exact h'.elim
    | pick => exact h.elim
  | pick n k ih => cases q with
    | done => exact h.elim
    | pick m k' => cases r with
      | done => exact h'.elim
      | pick m' k'' =>
        obtain ⟨rfl, h⟩ := h
        obtain ⟨rfl, h'⟩ := h'
        exact ⟨rfl, fun i hi => ih i (h i hi) (h' i hi)⟩

theorem Same.bind {p q : Prog α} (h : p.Same q) {f g : α → Prog β} (hfg : ∀ a, p.yields (.ok a) → (f a).Same (g a)) :
    (p >>= f).Same (q >>= g) := by
  induction p generalizing q with
  | done r => cases q with
    | done r' =>
      cases h
      cases r <;> first | exact hfg _ rfl | exact rfl
    | pick => exact h.elim
  | pick n k ih => cases q with
    | done => exact h.elim
    | pick m k' =>
      obtain ⟨rfl, h⟩ := h
      exact ⟨rfl, fun i hi => ih i (h i hi) fun a ha => hfg a ⟨i, hi, ha⟩⟩

theorem Same.bind_right (p : Prog α) {f g : α → Prog β} (hfg : ∀ a, p.yields (.ok a) → (f a).Same (g a)) :
    (p >>= f).Same (p >>= g) := (Same.refl p).bind hfg

/-- Identical programs have the same outcomes, -/
theorem Same.yields {p q : Prog α} (h : p.Same q) (r : Res α) : p.yields r ↔ q.yields r := by
  induction p generalizing q with
  | done x => cases q with
    | done y => cases h; rfl
    | pick => exact h.elim
  | pick n k ih => cases q with
    | done => exact h.elim
    | pick m k' =>
      obtain ⟨rfl, h⟩ := h
      exact exists_congr fun i => and_congr_right fun hi => ih i (h i hi)

/-- the same outcome probabilities, -/
theorem Same.expect {p q : Prog α} (h : p.Same q) (g : Res α → ℚ) : p.expect g = q.expect g := by
  induction p generalizing q with
  | done x => cases q with
    | done y => cases h; rfl
    | pick => exact h.elim
  | pick n k ih => cases q with
    | done => exact h.elim
    | pick m k' =>
      obtain ⟨rfl, h⟩ := h
      rw [expect_pick, expect_pick]
      congr 1
      refine Finset.sum_congr rfl fun i hi => ih i (h i ?_)
      have := Finset.mem_range.1 hi
      omega

/-- and the same outcome and final generator state for every generator. -/
theorem Same.exec {σ : Type} {draw : σ → Nat → Nat × σ} (hd : ∀ s n, (draw s n).1 ≤ n) {p q : Prog α} (h : p.Same q) (s : σ) :
    p.exec draw s = q.exec draw s := by
  induction p generalizing q s with
  | done x => cases q with
    | done y => cases h; rfl
    | pick => exact h.elim
  | pick n k ih => cases q with
    | done => exact h.elim
    | pick m k' =>
      obtain ⟨rfl, h⟩ := h
      exact ih _ (h _ (hd s n)) _

end Prog
end RG
