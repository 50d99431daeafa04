import Verif.CostStrategy
import Verif.Proofs.CostGpx2
import Mathlib.Tactic.Linarith
import Mathlib.Tactic.FieldSimp
import Mathlib.Tactic.Ring

/-! Helper lemmas: the cost of the crossover strategies. -/

namespace RG
open Prog
set_option linter.unusedSectionVars false
variable {G : Type} [DecidableEq G]

namespace Counted
variable {α β : Type}

theorem hashes_bind_zero {x : Counted α} {f : α → Counted β} (hx : x.hashes = 0) (hf : ∀ a, (f a).hashes = 0) :
    (x >>= f).hashes = 0 := by
  have := hashes_bind_le x f 0 fun a _ => (hf a).le
  omega

end Counted
open Counted

theorem countedContains_hashes (t : G) (l : List G) : (countedContains t l).hashes = 0 := by
  induction l with
  | nil => rfl
  | cons g l ih =>
    unfold countedContains
    refine hashes_bind_zero rfl fun b => ?_
    cases b
    · exact ih
    · rfl

theorem countedPmxMap_hashes (start stop : List G) (fuel : Nat) (g : G) : (countedPmxMap start stop fuel g).hashes = 0 := by
  induction fuel generalizing g with
  | zero => rfl
  | succ f ih =>
    unfold countedPmxMap
    refine hashes_bind_zero (countedPosition_hashes _ _) fun pos => ?_
    cases pos
    · rfl
    · exact hashes_bind_zero rfl fun m => ih m

theorem countedPmxFill_hashes (fuel : Nat) (range : URange) (p2 start stop : List G) (i : Nat) (off : List G) :
    (countedPmxFill fuel range p2 start stop i off).hashes = 0 := by
  induction off generalizing i with
  | nil => rfl
  | cons g off ih =>
    unfold countedPmxFill
    have tail : ∀ g : G, (do let rest ← countedPmxFill fuel range p2 start stop (i + 1) off; pure (g :: rest) :
        Counted (List G)).hashes = 0 := fun g => hashes_bind_zero (ih _) fun _ => rfl
    cases range.contains i
    · exact hashes_bind_zero rfl fun m => hashes_bind_zero (countedPmxMap_hashes _ _ _ _) tail
    · exact hashes_bind_zero rfl tail

theorem countedPmx_hashes (fuel : Nat) (p1 p2 : List G) (range : URange) : (countedPmx fuel p1 p2 range).hashes = 0 := by
  unfold countedPmx
  refine hashes_bind_zero rfl fun _ => ?_
  dsimp only
  split
  · rfl
  · refine hashes_bind_zero rfl fun _ => hashes_bind_zero rfl fun _ => hashes_bind_zero rfl fun _ =>
      hashes_bind_zero rfl fun _ => hashes_bind_zero rfl fun _ => countedPmxFill_hashes _ _ _ _ _ _ _

theorem countedOxLoop_hashes (n s e : Nat) (p2 : List G) (fuel : Nat) (genome : List G) (i1 i2 : Nat) :
    (countedOxLoop n s e p2 fuel genome i1 i2).hashes = 0 := by
  induction fuel generalizing genome i1 i2 with
  | zero => rfl
  | succ f ih =>
    unfold countedOxLoop
    split
    · refine hashes_bind_zero rfl fun _ => hashes_bind_zero rfl fun _ =>
        hashes_bind_zero (countedContains_hashes _ _) fun found => ?_
      cases found
      · exact hashes_bind_zero rfl fun _ => hashes_bind_zero rfl fun _ => ih _ _ _
      · exact hashes_bind_zero rfl fun _ => ih _ _ _
    · rfl

theorem countedOx_hashes (fuel : Nat) (p1 p2 : List G) (range : URange) : (countedOx fuel p1 p2 range).hashes = 0 := by
  unfold countedOx
  refine hashes_bind_zero rfl fun _ => ?_
  dsimp only
  split
  · rfl
  · refine hashes_bind_zero rfl fun _ => hashes_bind_zero rfl fun _ => hashes_bind_zero rfl fun _ =>
      countedOxLoop_hashes _ _ _ _ _ _ _ _

theorem countedCxCycle_hashes (p1 p2 : List G) (first : Bool) (fuel : Nat) (off : List G) (vis : List Bool) (i : Nat) :
    (countedCxCycle p1 p2 first fuel off vis i).hashes = 0 := by
  induction fuel generalizing off vis i with
  | zero => rfl
  | succ f ih =>
    unfold countedCxCycle
    refine hashes_bind_zero rfl fun v => ?_
    cases v
    · refine hashes_bind_zero rfl fun _ => hashes_bind_zero rfl fun _ => hashes_bind_zero rfl fun _ => ?_
      cases first
      · exact hashes_bind_zero rfl fun _ => hashes_bind_zero (countedPosition_hashes _ _) fun _ =>
          hashes_bind_zero rfl fun _ => ih _ _ _
      · exact hashes_bind_zero rfl fun _ => hashes_bind_zero (countedPosition_hashes _ _) fun _ =>
          hashes_bind_zero rfl fun _ => ih _ _ _
    · rfl

theorem countedCxLoop_hashes (p1 p2 : List G) (n fuel : Nat) (off : List G) (vis : List Bool) (i : Nat) (first : Bool) :
    (countedCxLoop p1 p2 n fuel off vis i first).hashes = 0 := by
  induction fuel generalizing off vis i first with
  | zero => rfl
  | succ f ih =>
    unfold countedCxLoop
    split
    · refine hashes_bind_zero (countedCxCycle_hashes _ _ _ _ _ _ _) fun r => ?_
      obtain ⟨o, v⟩ := r
      dsimp only
      split
      · exact ih _ _ _ _
      · rfl
    · rfl

theorem countedCx_hashes (p1 p2 : List G) : (countedCx p1 p2).hashes = 0 := by
  unfold countedCx
  refine hashes_bind_zero rfl fun _ => ?_
  dsimp only
  split
  · rfl
  · exact hashes_bind_zero rfl fun _ => countedCxLoop_hashes _ _ _ _ _ _ _ _

/-- The counters change nothing. -/
theorem counted_same (lt : G → G → Bool) (ord : Nat → List G → List G) (fuel : Nat) (s : CrossoverStrategy) (p1 p2 : List G) :
    (s.counted lt ord fuel p1 p2 >>= fun c => Prog.lift c.result) = s.crossover lt ord fuel p1 p2 := by
  unfold CrossoverStrategy.counted CrossoverStrategy.crossover
  cases s <;> dsimp only
  · rw [← countedGpx2_same', bind_assoc]; rfl
  all_goals simp only [bind_assoc, bind_pure_left, countedScx_result, countedErx_result, countedPmx_result, countedOx_result,
    countedCx_result, Counted.result_free]

theorem sum_range_mul (n : Nat) : (∑ l ∈ Finset.Icc 1 n, ((n : ℚ) - l) * l) = n * (n ^ 2 - 1) / 6 := by
  have h1 : ∀ m : Nat, (∑ l ∈ Finset.Icc 1 m, (l : ℚ)) = m * (m + 1) / 2 := by
    intro m
    induction m with
    | zero => simp
    | succ m ih => rw [Finset.sum_Icc_succ_top (by omega), ih]; push_cast; ring
  have h2 : ∀ m : Nat, (∑ l ∈ Finset.Icc 1 m, (l : ℚ) ^ 2) = m * (m + 1) * (2 * m + 1) / 6 := by
    intro m
    induction m with
    | zero => simp
    | succ m ih => rw [Finset.sum_Icc_succ_top (by omega), ih]; push_cast; ring
  have : ∀ l : Nat, ((n : ℚ) - l) * l = n * l - (l : ℚ) ^ 2 := fun l => by ring
  simp only [this, Finset.sum_sub_distrib, ← Finset.mul_sum, h1, h2]
  ring

theorem sum_triangle (n : Nat) : (∑ l ∈ Finset.Icc 1 n, (l : ℚ) * (l + 1) / 2) = n * (n + 1) * (n + 2) / 6 := by
  induction n with
  | zero => simp
  | succ m ih => rw [Finset.sum_Icc_succ_top (by omega), ih]; push_cast; ring

/-- The mean over random ranges of a number with the bounds of C122. -/
theorem mean_range (n : Nat) (hn : n ≠ 0) (c : URange → Counted (List G))
    (h : ∀ s e, s < e → e ≤ n → (n - (e - s)) * (e - s) ≤ (c ⟨s, e⟩).eqs ∧
      2 * (c ⟨s, e⟩).eqs ≤ 2 * ((n - (e - s)) * (e - s)) + (e - s) * (e - s + 1)) :
    ((n : ℚ) ^ 2 - 1) / 6 ≤ (randomRange n >>= fun range => pure (c range)).mean Counted.eqs ∧
      (randomRange n >>= fun range => pure (c range)).mean Counted.eqs ≤ ((n : ℚ) + 1) * (2 * n + 1) / 6 := by
  have hn0 : (0 : ℚ) < n := by exact_mod_cast Nat.pos_of_ne_zero hn
  unfold Prog.mean
  rw [expect_randomRange_bind n hn]
  simp only [Prog.expect_pure]
  have inner : ∀ l ∈ Finset.Icc 1 n,
      ((n : ℚ) - l) * l ≤ (∑ s ∈ Finset.range (n - l + 1), ((c ⟨s, s + l⟩).eqs : ℚ)) / (n - l + 1) ∧
      (∑ s ∈ Finset.range (n - l + 1), ((c ⟨s, s + l⟩).eqs : ℚ)) / (n - l + 1) ≤ ((n : ℚ) - l) * l + l * (l + 1) / 2 := by
    intro l hl
    rw [Finset.mem_Icc] at hl
    have hpos : (0 : ℚ) < n - l + 1 := by
      have : (l : ℚ) ≤ n := by exact_mod_cast hl.2
      linarith
    have hcard : ((Finset.range (n - l + 1)).card : ℚ) = n - l + 1 := by
      rw [Finset.card_range, Nat.cast_add, Nat.cast_sub hl.2]; simp
    have hb : ∀ s ∈ Finset.range (n - l + 1), ((n : ℚ) - l) * l ≤ (c ⟨s, s + l⟩).eqs ∧
        ((c ⟨s, s + l⟩).eqs : ℚ) ≤ ((n : ℚ) - l) * l + l * (l + 1) / 2 := by
      intro s hs
      rw [Finset.mem_range] at hs
      obtain ⟨h1, h2⟩ := h s (s + l) (by omega) (by omega)
      rw [Nat.add_sub_cancel_left] at h1 h2
      have q1 : (((n - l) * l : Nat) : ℚ) ≤ (c ⟨s, s + l⟩).eqs := by exact_mod_cast h1
      have q2 : ((2 * (c ⟨s, s + l⟩).eqs : Nat) : ℚ) ≤ ((2 * ((n - l) * l) + l * (l + 1) : Nat) : ℚ) := by exact_mod_cast h2
      push_cast [Nat.cast_sub hl.2] at q1 q2
      exact ⟨q1, by linarith⟩
    constructor
    · rw [le_div_iff₀ hpos]
      have := Finset.card_nsmul_le_sum (Finset.range (n - l + 1)) (fun s => ((c ⟨s, s + l⟩).eqs : ℚ)) _ (fun s hs => (hb s hs).1)
      rw [nsmul_eq_mul, hcard] at this
      linarith
    · rw [div_le_iff₀ hpos]
      have := Finset.sum_le_card_nsmul (Finset.range (n - l + 1)) (fun s => ((c ⟨s, s + l⟩).eqs : ℚ)) _ (fun s hs => (hb s hs).2)
      rw [nsmul_eq_mul, hcard] at this
      linarith
  constructor
  · rw [le_div_iff₀ hn0]
    refine le_trans (le_of_eq ?_) (Finset.sum_le_sum fun l hl => (inner l hl).1)
    rw [sum_range_mul]; ring
  · rw [div_le_iff₀ hn0]
    refine le_trans (Finset.sum_le_sum fun l hl => (inner l hl).2) (le_of_eq ?_)
    rw [Finset.sum_add_distrib, sum_range_mul, sum_triangle]; ring

end RG
