import Verif.Proofs.Cooling
import Verif.Props.OneMaxRandom

/-! Helper lemmas: random tables of bits without a column of zeros, and rates that stay zero. -/

namespace RG.Props
open RG RG.Prog
variable {I Mo U : Type} [Individual I]

/-- The bits that are set in one of both. -/
def orBits (m g : List Bool) : List Bool := List.zipWith (fun a b => a || b) m g

theorem expect_randomBit (g : Bool → ℚ) : OneMax.randomBit.expect (fun r => match r with | .ok b => g b | _ => 0) = (g false + g true) / 2 := by
  unfold OneMax.randomBit
  rw [expect_bind]
  refine (expect_uniform 2 (by norm_num) _).trans ?_
  simp only [Finset.sum_range_succ, Finset.sum_range_zero]
  show (0 + g false + g true) / _ = _
  norm_num

/-- The expectation of a function of the result. -/
def meanOf {α : Type} (p : Prog α) (g : α → ℚ) : ℚ := p.expect fun r => match r with
  | .ok a => g a
  | _ => 0

theorem meanOf_bind {α β : Type} (p : Prog α) (f : α → Prog β) (g : β → ℚ) : meanOf (p >>= f) g = meanOf p fun a => meanOf (f a) g := by
  unfold meanOf
  rw [expect_bind]
  refine expect_congr _ _ _ fun r _ => ?_
  cases r <;> rfl

theorem meanOf_pure {α : Type} (a : α) (g : α → ℚ) : meanOf (pure a) g = g a := rfl

theorem meanOf_randomBit (g : Bool → ℚ) : meanOf OneMax.randomBit g = (g false + g true) / 2 := expect_randomBit g

theorem prob_eq_meanOf {α : Type} (p : Prog α) (P : α → Prop) [DecidablePred P] : p.prob P = meanOf p fun a => if P a then 1 else 0 := rfl

theorem meanOf_row (c : ℚ) (m : List Bool) (d : ℚ) : meanOf (Prog.replicate m.length OneMax.randomBit)
    (fun g => d * c ^ (orBits m g).count false) = d * ((1 + c) / 2) ^ m.count false := by
  induction m generalizing d with
  | nil => simp [Prog.replicate, meanOf_pure, orBits]
  | cons b m ih =>
    rw [List.length_cons, Prog.replicate, meanOf_bind, meanOf_randomBit]
    simp only [meanOf_bind, meanOf_pure]
    have e : ∀ a g, (orBits (b :: m) (a :: g)).count false = (orBits m g).count false + if (b || a) = false then 1 else 0 := fun a g => by
      unfold orBits
      rw [List.zipWith_cons_cons, List.count_cons]
      simp
    simp only [e]
    cases b with
    | true =>
      simp only [Bool.true_or, Bool.true_eq_false, if_false, Nat.add_zero]
      rw [ih, List.count_cons_of_ne (by simp)]
      ring
    | false =>
      simp only [Bool.false_or, if_true, Bool.true_eq_false, if_false, Nat.add_zero, pow_succ]
      have : (fun g => d * (c ^ (orBits m g).count false * c)) = fun g => (d * c) * c ^ (orBits m g).count false := by
        funext g; ring
      rw [this, ih, ih, List.count_cons_self]
      ring

/-- Every column that is not marked contains a bit that is set. -/
def Covered (m : List Bool) (l : List OneMax) : Prop := ∀ i < m.length, m[i]? = some true ∨ ∃ x ∈ l, x.genome[i]? = some true

instance (m : List Bool) : DecidablePred (Covered m) := fun l => inferInstanceAs (Decidable (∀ i < m.length, _ ∨ ∃ x ∈ l, _))

theorem covered_cons (m : List Bool) (x : OneMax) (hx : x.genome.length = m.length) (l : List OneMax) :
    Covered m (x :: l) ↔ Covered (orBits m x.genome) l := by
  have hl : (orBits m x.genome).length = m.length := by simp [orBits, hx]
  unfold Covered
  rw [hl]
  refine forall₂_congr fun i hi => ?_
  have h1 : m[i]? = some m[i] := List.getElem?_eq_getElem hi
  have h2 : x.genome[i]? = some (x.genome[i]'(hx ▸ hi)) := List.getElem?_eq_getElem _
  have h3 : (orBits m x.genome)[i]? = some (m[i] || x.genome[i]'(hx ▸ hi)) := by
    rw [orBits, List.getElem?_zipWith, h1, h2]
  rw [h1, h3]
  simp only [List.mem_cons, exists_eq_or_imp, h2, Option.some.injEq, Bool.or_eq_true]
  tauto

/-- `N` random rows cover the unmarked columns with this probability. -/
theorem prob_covered (N : Nat) (m : List Bool) :
    (Prog.replicate N (OneMax.newRandom m.length)).prob (Covered m) = (1 - 1 / 2 ^ N) ^ m.count false := by
  induction N generalizing m with
  | zero =>
    rw [Prog.replicate, prob_pure]
    have : Covered m [] ↔ m.count false = 0 := by
      unfold Covered
      simp only [List.not_mem_nil, false_and, exists_false, or_false]
      rw [List.count_eq_zero]
      constructor
      · intro h hm
        obtain ⟨i, hi, e⟩ := List.getElem_of_mem hm
        have := h i hi
        rw [List.getElem?_eq_getElem hi, e] at this
        cases this
      · intro h i hi
        rw [List.getElem?_eq_getElem hi]
        cases e : m[i] with
        | true => rfl
        | false => exact absurd (e ▸ List.getElem_mem hi) h
    by_cases h : m.count false = 0
    · rw [if_pos (this.2 h), h]; norm_num
    · rw [if_neg (fun h' => h (this.1 h'))]
      norm_num [h]
  | succ N ih =>
    rw [Prog.replicate, prob_eq_meanOf, meanOf_bind]
    unfold OneMax.newRandom
    rw [meanOf_bind]
    have hc : (1 + (1 - 1 / 2 ^ N) : ℚ) / 2 = 1 - 1 / 2 ^ (N + 1) := by
      rw [pow_succ]; field_simp; ring
    have key := meanOf_row (1 - 1 / 2 ^ N) m 1
    rw [hc, one_mul] at key
    rw [← key]
    unfold meanOf
    refine expect_congr _ _ _ fun r hr => ?_
    cases r with
    | ok g =>
      have hg : g.length = m.length := ((yields_replicate _ _ _).1 hr).1
      show meanOf (pure (OneMax.ofGenome g)) _ = _
      rw [meanOf_pure]
      show meanOf (Prog.replicate N (OneMax.newRandom m.length) >>= fun as => pure (OneMax.ofGenome g :: as)) _ = _
      rw [meanOf_bind]
      simp only [meanOf_pure, one_mul]
      have e := ih (orBits m g)
      have hl : (orBits m g).length = m.length := by simp [orBits, hg]
      rw [hl, prob_eq_meanOf] at e
      rw [← e]
      unfold meanOf OneMax.newRandom
      refine expect_congr _ _ _ fun r _ => ?_
      cases r with
      | ok l => exact if_congr (covered_cons m (OneMax.ofGenome g) hg l) rfl rfl
      | panic => rfl
      | diverge => rfl
    | panic => rfl
    | diverge => rfl

/-- A rate interpolated between zeros is a zero or NaN. -/
theorem interpolate_zeros {a b : F64} (ha : a.isFinite = true ∧ a.val = 0) (hb : b.isFinite = true ∧ b.val = 0) (d : F64) :
    F64.zero.lt (interpolateF64 a b d) = false := by
  show F64.zero.lt (a.add ((b.sub a).mul d)) = false
  have hr : ∀ t, (F64.round t 0).isFinite = true ∧ (F64.round t 0).val = 0 := by decide +kernel
  have hs : (b.sub a).isFinite = true ∧ (b.sub a).val = 0 := by
    rw [F64.sub_finite hb.1 ha.1, ha.2, hb.2, sub_zero]
    exact hr _
  have hz : ∀ x : F64, x.isFinite = true ∧ x.val = 0 → F64.zero.lt x = false := fun x hx => by
    by_contra h
    have h : F64.zero.lt x = true := by simpa using h
    rw [F64.lt_finite rfl hx.1, hx.2] at h
    exact absurd h (lt_irrefl _)
  have hd : d.isFinite = true ∨ (b.sub a).mul d = F64.nan := by
    cases d with
    | nan => exact Or.inr (F64.mul_nan_right _)
    | inf s =>
      right
      generalize b.sub a = z at hs
      obtain ⟨h1, h2⟩ := hs
      cases z with
      | nan => rfl
      | inf t => cases h1
      | nzero => rfl
      | fin q hq =>
        have h2 : q = 0 := h2
        subst h2
        cases s <;> rfl
    | nzero => exact Or.inl rfl
    | fin q hq => exact Or.inl rfl
  rcases hd with hd | hd
  · refine hz _ (add_zeros ha ?_)
    rw [F64.mul_finite hs.1 hd, hs.2, zero_mul]
    exact hr _
  · rw [hd, F64.add_nan_right]
    rfl

end RG.Props
