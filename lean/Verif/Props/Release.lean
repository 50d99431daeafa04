import Verif.Release
import Verif.Props.Selection
import Verif.Props.Linear

/-!
# Property C76: release builds

The model elsewhere checks `usize` arithmetic as dev and test builds do. Here it is shown where a release build, in which
the arithmetic wraps around, behaves the same, and where it does not.
-/

namespace RG.Props
open Prog
set_option linter.unusedSectionVars false
variable {I : Type} [Individual I]

theorem wrapSub_of_le {a b : Nat} (h : b ≤ a) (ha : a < 2 ^ 64) : wrapSub a b = a - b := by
  unfold wrapSub; omega

theorem wrapAdd_of_lt {a b : Nat} (h : a + b < 2 ^ 64) : wrapAdd a b = a + b := Nat.mod_eq_of_lt h

theorem toUsize_lt_pow (x : F64) : x.toUsize < 2 ^ 64 := by
  cases x with
  | inf s => cases s <;> simp [F64.toUsize]
  | fin q h => simp only [F64.toUsize]; omega
  | _ => simp [F64.toUsize]

/-- The index of linear selection, without checks, is in range exactly if the checked computation succeeds. -/
theorem memberAt_wrap (p : Population I) (hp : p.len < 2 ^ 64) (c : Nat) (hc : c < 2 ^ 64) :
    memberAt p (wrapSub (wrapSub p.len c) 1) =
      (do let a ← usizeSub p.len c
          let i ← usizeSub a 1
          memberAt p i) := by
  by_cases h : c + 1 ≤ p.len
  · have e1 : usizeSub p.len c = .ok (p.len - c) := by unfold usizeSub; rw [if_pos (by omega)]
    have e2 : usizeSub (p.len - c) 1 = .ok (p.len - c - 1) := by unfold usizeSub; rw [if_pos (by omega)]
    rw [e1, Res.bind_ok, e2, Res.bind_ok, wrapSub_of_le (a := p.len) (by omega) hp, wrapSub_of_le (by omega) (by omega)]
  · have e : (do let a ← usizeSub p.len c
                 let i ← usizeSub a 1
                 memberAt p i : Res (Nat × I)) = .panic := by
      unfold usizeSub
      by_cases h' : c ≤ p.len
      · rw [if_pos h', Res.bind_ok, if_neg (by omega)]; rfl
      · rw [if_neg h']; rfl
    rw [e]
    have hge : p.individuals.length ≤ wrapSub (wrapSub p.len c) 1 := by
      show p.len ≤ _
      unfold wrapSub; omega
    unfold memberAt index
    rw [List.getElem?_eq_none hge]; rfl

/-- The wheels behave the same, also on an empty population. -/
theorem wheelMemberW_eq (p : Population I) (hp : p.len < 2 ^ 64) (ws : List F64) (hws : ws.length = p.len) (total u : F64) :
    wheelMemberW p ws total u = (do let i ← wheelIndex ws total u
                                    memberAt p i) := by
  unfold wheelMemberW wheelIndex
  dsimp only
  cases wheelScan (Arith.mul u total) (Arith.lit 0) 0 ws with
  | some i => rfl
  | none =>
    unfold usizeSub
    by_cases h : 1 ≤ ws.length
    · have hi : p.individuals.length - 1 < p.individuals.length := by
        have : 1 ≤ p.individuals.length := by rw [hws] at h; exact h
        omega
      simp only [if_pos h, Res.bind_ok]
      rw [wrapSub_of_le (by omega) hp, hws]
      unfold memberAt index
      rw [List.getLast?_eq_getElem?]
      rfl
    · simp only [if_neg h]
      have : p.individuals = [] := by
        rw [← List.length_eq_zero_iff]
        show p.len = 0
        omega
      rw [this]; rfl

/-- The scan of rank selection behaves the same if nothing overflows. -/
theorem rankScanW_eq (t fuel c i : Nat) (r : Option Nat) (h : rankScan t fuel c i = .ok r) : rankScanW t fuel c i = r := by
  induction fuel generalizing c i with
  | zero => unfold rankScan at h; cases h; rfl
  | succ fuel ih =>
    unfold rankScan usizeAdd at h
    by_cases h1 : i + 1 < 2 ^ 64
    · rw [if_pos h1, Res.bind_ok] at h
      by_cases h2 : c + (i + 1) < 2 ^ 64
      · rw [if_pos h2, Res.bind_ok] at h
        unfold rankScanW
        simp only [wrapAdd_of_lt h1, wrapAdd_of_lt h2]
        by_cases h3 : c + (i + 1) ≥ t
        · rw [if_pos h3] at h ⊢; cases h; rfl
        · rw [if_neg h3] at h ⊢; exact ih _ _ h
      · rw [if_neg h2] at h; cases h
    · rw [if_neg h1] at h; cases h

theorem rankScan_returns (t fuel i : Nat) (h : tri (i + fuel) < 2 ^ 64) : ∃ r, rankScan t fuel (tri i) i = .ok r := by
  induction fuel generalizing i with
  | zero => exact ⟨none, rfl⟩
  | succ fuel ih =>
    have hle : tri (i + 1) ≤ tri (i + (fuel + 1)) := tri_mono (by omega)
    have hs := tri_succ i
    unfold rankScan usizeAdd
    rw [if_pos (by omega), Res.bind_ok, if_pos (by omega), Res.bind_ok]
    split
    · exact ⟨some i, rfl⟩
    · rw [← hs]; exact ih (i + 1) (by rw [show i + 1 + fuel = i + (fuel + 1) by omega]; exact h)

/-- More individuals do not change where the scan stops. -/
theorem rankScanW_more (t fuel more c i j : Nat) (h : rankScanW t fuel c i = some j) :
    rankScanW t (fuel + more) c i = some j := by
  induction fuel generalizing c i with
  | zero => cases h
  | succ fuel ih =>
    rw [show fuel + 1 + more = fuel + more + 1 by omega]
    unfold rankScanW at h ⊢
    dsimp only at h ⊢
    split
    · rename_i hc; rw [if_pos hc] at h; exact h
    · rename_i hc; rw [if_neg hc] at h; exact ih _ _ h

theorem lift_bind {α β : Type} (r : Res α) (f : α → Res β) : Prog.lift (r >>= f) = Prog.lift r >>= fun a => Prog.lift (f a) := by
  cases r <;> rfl

/-! ### C76 -/

/-- **C76** On populations of fewer than `2^32` individuals every built-in selector behaves in a release build exactly as
in a checked build: same results, same panics, same probabilities (the programs are equal). Linear selection panics in the
same cases: where the checked subtraction fails, the wrapped index is out of bounds. -/
theorem C76_select (env : NumEnv) (p : Population I) (hp : p.len < 2 ^ 32) (s : Selector) :
    s.selectW env p = s.select env p := by
  cases s with
  | tournament s => rfl
  | elitist s => rfl
  | rouletteWheel s =>
    simp only [Selector.selectW, Selector.select, RouletteWheelSelection.select]
    congr 1; funext u
    rw [wheelMemberW_eq p (by omega) _ (by simp [Population.len]), lift_bind]
  | boltzmann s =>
    simp only [Selector.selectW, Selector.select, BoltzmannSelection.select, BoltzmannSelection.selectIndex]
    congr 1; funext u
    rw [wheelMemberW_eq p (by omega) _ (by simp [Population.len]), lift_bind, List.map_map]
    rfl
  | linear s =>
    simp only [Selector.selectW, Selector.select, LinearSelection.select, linearSelectW, LinearSelection.selectIndex]
    congr 1; funext u
    rw [memberAt_wrap p (by omega) _ (toUsize_lt_pow _)]
    simp only [lift_bind, bind_assoc]
  | rank =>
    simp only [Selector.selectW, Selector.select, rankSelect, rankSelectW]
    obtain ⟨h1, h2⟩ := totalRanks_ok hp
    have e : wrapMul p.len (wrapAdd p.len 1) / 2 = tri p.len := by
      have h3 : p.len * (p.len + 1) < 2 ^ 64 := by
        have : p.len * (p.len + 1) ≤ (2 ^ 32 - 1) * (2 ^ 32 - 1 + 1) := Nat.mul_le_mul (by omega) (by omega)
        norm_num at this ⊢
        omega
      rw [wrapAdd_of_lt (by omega)]
      unfold wrapMul tri
      rw [Nat.mod_eq_of_lt h3]
    rw [h1, e, lift_ok, bind_pure_left]
    congr 1; funext t
    obtain ⟨r, hr⟩ := rankScan_returns t p.len 0 (by rw [Nat.zero_add]; omega)
    rw [show tri 0 = 0 from rfl] at hr
    rw [hr, rankScanW_eq t p.len 0 0 r hr, lift_ok, bind_pure_left]
    rfl

/-- **C76** So does `select_distinct`. -/
theorem C76_select_distinct (env : NumEnv) (p : Population I) (hp : p.len < 2 ^ 32) (s : Selector) (x : I) (tries : Nat) :
    selectDistinct (s.selectW env p) x tries = selectDistinct (s.select env p) x tries := by rw [C76_select env p hp]

/-- **C76** A release build of rank selection is wrong for `2^32` individuals: the total of the ranks wraps to `2^31`, and
only the worst `2^16` individuals can be selected; a checked build panics. -/
theorem C76_rank_counterexample (p : Population I) (hp : p.len = 2 ^ 32) :
    Always (fun r => r.1 < 2 ^ 16) (rankSelectW p) ∧ ∀ r, (rankSelect p).yields r ↔ r = .panic := by
  constructor
  · unfold rankSelectW
    rw [hp]
    have e : wrapMul (2 ^ 32) (wrapAdd (2 ^ 32) 1) / 2 = 2 ^ 31 := by decide +kernel
    dsimp only
    rw [e, always_bind, always_rangeIncl]
    refine ⟨by norm_num, fun t h1 h2 => ?_⟩
    have h16 : tri (2 ^ 16) = 2147516416 := by decide +kernel
    obtain ⟨j, hj, -, hlt, -⟩ := rankScan_ok t (2 ^ 16) 0 (by rw [show tri 0 = 0 from rfl]; omega)
      (by rw [Nat.zero_add, h16]; omega) (by rw [Nat.zero_add, h16]; norm_num)
    rw [show tri 0 = 0 from rfl] at hj
    have hj' := rankScanW_more t (2 ^ 16) (2 ^ 32 - 2 ^ 16) 0 0 j (rankScanW_eq _ _ _ _ _ hj)
    rw [show (2 : Nat) ^ 16 + (2 ^ 32 - 2 ^ 16) = 2 ^ 32 by norm_num] at hj'
    rw [hj']
    have hjl : j < p.individuals.length := by
      have : p.individuals.length = 2 ^ 32 := hp
      omega
    unfold memberAt index
    dsimp only
    rw [List.getElem?_eq_getElem hjl]
    show Always _ (pure (j, p.individuals[j]))
    rw [always_pure]
    omega
  · intro r
    unfold rankSelect
    rw [hp]
    have e : totalRanks (2 ^ 32) = .panic := by decide +kernel
    dsimp only
    rw [e]
    exact Iff.rfl

/-- **C76** `interpolate_usize` behaves the same for ordered arguments. -/
theorem C76_interpolate (min max : Nat) (h : min ≤ max) (hmax : max < 2 ^ 64) (ratio : F64) :
    interpolateUsize min max ratio = .ok (interpolateUsizeW min max ratio) := by
  unfold interpolateUsize interpolateUsizeW usizeSub
  rw [if_pos h, wrapSub_of_le h hmax]; rfl

/-- **C76** Otherwise a checked build panics while a release build returns a number: the one half of the way from 10 to 0 is
9223372036854775808, and not 5 (nor any number between the two). -/
theorem C76_interpolate_counterexample :
    interpolateUsize 10 0 (F64.lit (1 / 2)) = .panic ∧ interpolateUsizeW 10 0 (F64.lit (1 / 2)) = 2 ^ 63 := by
  decide +kernel

/-- **C76** `bounded_random_range` behaves the same for `max_len ≤ n`. -/
theorem C76_bounded_range (n lo hi : Nat) (hn : n < 2 ^ 64) (h : hi ≤ n) (r : Res URange) :
    (boundedRandomRangeW n lo hi).yields r ↔ (boundedRandomRange n lo hi).yields r := by
  unfold boundedRandomRangeW boundedRandomRange
  rw [yields_bind, yields_bind]
  simp only [yields_rangeIncl]
  refine or_congr ?_ Iff.rfl
  refine exists_congr fun l => and_congr_right fun hl => ?_
  rcases hl with ⟨-, hl⟩ | ⟨l', h1, h2, hl⟩
  · cases hl
  cases hl
  unfold usizeSub
  rw [if_pos (by omega), wrapSub_of_le (by omega) hn, lift_ok, bind_pure_left, yields_bind, yields_bind]
  refine or_congr (exists_congr fun s => and_congr_right fun hs => ?_) Iff.rfl
  rcases (yields_rangeIncl _ _ _).1 hs with ⟨-, hs⟩ | ⟨s', h3, h4, hs⟩
  · cases hs
  cases hs
  rw [wrapAdd_of_lt (by omega)]

/-- **C76** With `max_len > n` (which "may panic" according to the documentation) a checked build panics for a length
above `n`, while a release build returns ranges outside `0..n`, or ranges whose end is before their start. -/
theorem C76_bounded_range_counterexample :
    (∀ r, (boundedRandomRange 3 5 5).yields r ↔ r = .panic) ∧
      (boundedRandomRangeW 3 5 5).yields (.ok ⟨3, 8⟩) ∧ (boundedRandomRangeW 3 5 5).yields (.ok ⟨2 ^ 64 - 2, 3⟩) := by
  refine ⟨fun r => ?_, ?_, ?_⟩
  · rw [yields_boundedRandomRange]
    constructor
    · rintro (⟨-, h⟩ | ⟨s, l, h1, h2, h3, -⟩)
      · exact h
      · omega
    · rintro rfl; exact Or.inl ⟨by omega, rfl⟩
  · unfold boundedRandomRangeW
    rw [yields_bind_ok]
    refine ⟨5, (yields_rangeIncl _ _ _).2 (Or.inr ⟨5, by omega, by omega, rfl⟩), ?_⟩
    rw [yields_bind_ok]
    refine ⟨3, (yields_rangeIncl _ _ _).2 (Or.inr ⟨3, by omega, ?_, rfl⟩), ?_⟩
    · decide +kernel
    · rw [yields_pure]; decide +kernel
  · unfold boundedRandomRangeW
    rw [yields_bind_ok]
    refine ⟨5, (yields_rangeIncl _ _ _).2 (Or.inr ⟨5, by omega, by omega, rfl⟩), ?_⟩
    rw [yields_bind_ok]
    refine ⟨2 ^ 64 - 2, (yields_rangeIncl _ _ _).2 (Or.inr ⟨2 ^ 64 - 2, by omega, ?_, rfl⟩), ?_⟩
    · decide +kernel
    · rw [yields_pure]; decide +kernel

example : wrapSub 3 5 = 2 ^ 64 - 2 ∧ wrapSub 5 3 = 2 := by decide +kernel

end RG.Props
