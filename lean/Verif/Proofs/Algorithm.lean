import Verif.Algorithm
import Verif.Proofs.Model
import Verif.Proofs.Interpolate
import Verif.Proofs.Population

/-! # Helper lemmas about the algorithms -/

namespace RG
open Prog
variable {I : Type} [Individual I] {Mo U : Type}

namespace Prog
variable {α β : Type}

theorem yields_lift (r r' : Res α) : (Prog.lift r).yields r' ↔ r' = r := by
  unfold Prog.lift; simp [Prog.yields]

theorem yields_mapList (f : α → Prog β) (l : List α) (l' : List β) :
    (mapList f l).yields (.ok l') ↔ List.Forall₂ (fun a b => (f a).yields (.ok b)) l l' := by
  induction l generalizing l' with
  | nil => simp [mapList]
  | cons a as ih =>
    unfold mapList
    simp only [yields_bind_ok, yields_pure, Res.ok.injEq, ih]
    constructor
    · rintro ⟨b, hb, bs, hbs, rfl⟩; exact .cons hb hbs
    · intro h
      cases h with
      | cons hb hbs => exact ⟨_, hb, _, hbs, rfl⟩

theorem always_mapList (P : α → Prop) (Q : β → Prop) (f : α → Prog β) (h : ∀ a, P a → Always Q (f a)) (l : List α)
    (hl : ∀ a ∈ l, P a) : Always (fun l' => l'.length = l.length ∧ ∀ b ∈ l', Q b) (mapList f l) := by
  induction l with
  | nil => simp [mapList]
  | cons a as ih =>
    unfold mapList
    rw [always_bind]
    refine (h a (hl a (by simp))).mono fun b hb => ?_
    rw [always_bind]
    refine (ih fun a ha => hl a (by simp [ha])).mono fun bs hbs => ?_
    rw [always_pure]
    simp [hbs.1, hb]; exact hbs.2
end Prog

/-! ### Validation -/

theorem assert_bind {α : Type} (b : Bool) (k : Res α) : (Res.assert b >>= fun _ => k) = if b then k else .panic := by
  cases b <;> rfl

theorem elite_eq {n : Nat} (hn : n ≤ 2 ^ 53) {r : F64} (hr : inHalfOpenUnit r = true) :
    interpolateUsize 0 n r = .ok ⌊rndQ (n * r.val)⌋.toNat ∧ (0 < n → ⌊rndQ (n * r.val)⌋.toNat < n) := by
  obtain ⟨hf, h0, h1⟩ := inHalfOpenUnit_iff.1 hr
  obtain ⟨f, v⟩ := usize_val 0 n (Nat.zero_le _) hn r ⟨hf, h0, h1.le⟩
  have hb := (⟨r⟩ : ElitistSelection).bound_spec hr hn
  have e : interpolateUsize 0 n r = .ok ((F64.ofNat 0).add ((F64.ofNat (n - 0)).mul r)).toUsize := by
    unfold interpolateUsize usizeSub; rw [if_pos (Nat.zero_le _)]; rfl
  obtain ⟨m1, m2, m3, m4⟩ := mul_ratio hn hr
  have key : ((F64.ofNat 0).add ((F64.ofNat (n - 0)).mul r)).toUsize = (⟨r⟩ : ElitistSelection).bound n := by
    unfold ElitistSelection.bound
    rw [F64.toUsize_floor m1 m3, F64.toUsize_finite f, F64.toUsize_finite m1, m2, v]
    simp only [Nat.cast_zero, zero_add, Nat.sub_zero]
    rw [rndQ_of_fmt (fmt_rndQ _)]
  rw [e, key]
  exact ⟨by rw [← hb.1], fun h => by rw [← hb.1]; exact hb.2 h⟩

/-! ### Clamping -/

theorem clampA_unit {x : F64} (h : x.isNaN = false) :
    F64.zero.le (clampA x (Arith.lit 0) (Arith.lit 1)) = true ∧ (clampA x (Arith.lit 0) (Arith.lit 1)).le F64.one = true := by
  have hz : (Arith.lit 0 : F64) = F64.zero := by decide +kernel
  have ho : (Arith.lit 1 : F64) = F64.one := by decide +kernel
  rw [hz, ho]
  unfold clampA
  show F64.zero.le (if F64.one.lt (if x.lt F64.zero = true then F64.zero else x) = true then F64.one else
      if x.lt F64.zero = true then F64.zero else x) = true ∧
    (if F64.one.lt (if x.lt F64.zero = true then F64.zero else x) = true then F64.one else
      if x.lt F64.zero = true then F64.zero else x).le F64.one = true
  cases h0 : x.lt F64.zero
  · simp only [Bool.false_eq_true, if_false]
    cases h1 : F64.one.lt x
    · simp only [Bool.false_eq_true, if_false]
      exact ⟨F64.le_of_not_lt rfl h h0, F64.le_of_not_lt h rfl h1⟩
    · simp only [if_true]; decide +kernel
  · simp only [if_true]
    decide +kernel

theorem clampA_cases (x : F64) :
    (x.lt F64.zero = true → clampA x (Arith.lit 0) (Arith.lit 1) = F64.zero) ∧
    (F64.one.lt x = true → clampA x (Arith.lit 0) (Arith.lit 1) = F64.one) ∧
    (x.lt F64.zero = false → F64.one.lt x = false → clampA x (Arith.lit 0) (Arith.lit 1) = x) := by
  have hz : (Arith.lit 0 : F64) = F64.zero := by decide +kernel
  have ho : (Arith.lit 1 : F64) = F64.one := by decide +kernel
  have h10 : F64.one.lt F64.zero = false := by decide +kernel
  rw [hz, ho]
  have e : clampA x F64.zero F64.one = if F64.one.lt (if x.lt F64.zero = true then F64.zero else x) = true then F64.one else
      if x.lt F64.zero = true then F64.zero else x := rfl
  rw [e]
  refine ⟨fun h => ?_, fun h => ?_, fun h h' => ?_⟩
  · simp [h, h10]
  · have h0 : x.lt F64.zero = false := by
      cases hc : x.lt F64.zero
      · rfl
      · have := F64.lt_trans h hc
        rw [h10] at this; cases this
    simp [h, h0]
  · simp [h, h']

section exact
variable {K : Type} [Field K] [LinearOrder K]

theorem diversity_exact [IsStrictOrderedRing K] (s ref : K) : diversity s ref = min 1 (max 0 (s / ref)) := by
  have e : diversity s ref = if (1 : K) < (if s / ref < 0 then 0 else s / ref) then 1 else
      if s / ref < 0 then 0 else s / ref := by
    unfold diversity clampA
    simp [Arith.lt, Arith.div, Arith.lit]
  rw [e]
  by_cases h : s / ref < 0
  · rw [if_pos h, if_neg (not_lt.2 zero_le_one), max_eq_left h.le, min_eq_right zero_le_one]
  · rw [if_neg h, max_eq_right (not_lt.1 h)]
    by_cases h1 : 1 < s / ref
    · rw [if_pos h1, min_eq_left h1.le]
    · rw [if_neg h1, min_eq_right (not_lt.1 h1)]

theorem adjustedRates_exact (cr mr : FRange K) (s ref : K) : adjustedRates cr mr s ref =
    (cr.start + (cr.stop - cr.start) * diversity s ref, mr.start + (mr.stop - mr.start) * (1 - diversity s ref)) := by
  have h1 : (Arith.lit 1 : K) = 1 := by simp [Arith.lit]
  unfold adjustedRates
  rw [h1]
  rfl
end exact

theorem clampA_nan : clampA F64.nan (Arith.lit 0) (Arith.lit 1) = F64.nan := by decide +kernel

theorem one_sub_unit {d : F64} (h0 : F64.zero.le d = true) (h1 : d.le F64.one = true) :
    F64.zero.le (F64.one.sub d) = true ∧ (F64.one.sub d).le F64.one = true := by
  obtain ⟨f, v0, v1⟩ := F64.unit_interval.1 ⟨h0, h1⟩
  have hv : F64.one.val = 1 := rfl
  have hd : |F64.one.val - d.val| ≤ 1 := by rw [hv]; exact abs_le.2 ⟨by linarith, by linarith⟩
  obtain ⟨f1, e1⟩ := F64.sub_val (a := F64.one) rfl f rep_one hd
  refine F64.unit_interval.2 ⟨f1, ?_, ?_⟩
  · rw [e1]; exact rndQ_nonneg (by rw [hv]; linarith)
  · rw [e1]; exact rndQ_le fmt_one (by rw [hv]; linarith)

end RG
