import Verif.Proofs.Mixing
import Verif.Props.Drift

/-!
# Property C99: repeated mutation of arrangements

`benchMutation s k g` is `k` mutations of the genome `g`, one after the other. The draws are assumed uniform and independent.
-/

namespace RG.Props
open RG RG.Prog
set_option linter.unusedSectionVars false
variable {G H : Type}

/-- **C99** No mutation looks at the genes: renaming the genes before or after makes no difference, for every sequence of draws.
(Two genes may get the same name.) -/
theorem C99_blind (s : MutationStrategy) (f : H → G) (k : Nat) (g : List H) :
    s.mutate (g.map f) = List.map f <$> s.mutate g ∧ benchMutation s k (g.map f) = List.map f <$> benchMutation s k g :=
  ⟨mutate_map s f g, benchMutation_map s f k g⟩

/-- **C99** Every mutation but `Duplicate` keeps the uniform distribution: mutating a shuffled genome, any number of times, gives
what shuffling alone gives. -/
theorem C99_stationary (s : MutationStrategy) (hs : s ≠ .duplicate) (k : Nat) (g : List G) (F : List G → ℚ) :
    average (shuffle g >>= benchMutation s k) F = average (shuffle g) F := by
  rw [average_eq, average_eq, expect_bind, expect_shuffle, expect_shuffle]
  exact arrangementMean_bench s hs k g F

-- `Duplicate` does not: genes get lost
example : average (shuffle [1, 2] >>= benchMutation .duplicate 1) (fun g => if g = [1, 1] then 1 else 0) = 1 / 2 ∧
    average (shuffle [1, 2]) (fun g => if g = [1, 1] then 1 else 0) = 0 := by decide +kernel

/-! ### Scramble mixes -/

/-- **C99** Scramble mutation mixes: whatever the genome, after `k` mutations every average differs from the one over all
rearrangements by at most `((n - 2) / (n - 1)) ^ k` times the largest deviation. With the indicator of a set of genomes this
bounds the distance to the uniform distribution. -/
theorem C99_scramble_mixes (k : Nat) (g : List G) (hn : 2 ≤ g.length) (F : List G → ℚ) (D : ℚ)
    (hD : ∀ g', g'.Perm g → |F g' - (g.permutations.map F).sum / g.length.factorial| ≤ D) :
    |average (benchMutation .scramble k g) F - (g.permutations.map F).sum / g.length.factorial| ≤
      ((g.length - 2 : ℚ) / (g.length - 1)) ^ k * D := by
  have hn' : (2 : ℚ) ≤ g.length := by exact_mod_cast hn
  have h0 : (0 : ℚ) ≤ (g.length - 2 : ℚ) / (g.length - 1) := div_nonneg (by linarith) (by linarith)
  set U := (g.permutations.map F).sum / (g.length.factorial : ℚ) with hU
  -- from every rearrangement of `g`
  have key : ∀ k g', g'.Perm g → |(benchMutation .scramble k g').expect (onOk F) - U| ≤
      ((g.length - 2 : ℚ) / (g.length - 1)) ^ k * D := by
    intro k
    induction k with
    | zero => intro g' hp; simpa [benchMutation, onOk] using hD g' hp
    | succ k ih =>
      intro g' hp
      have hl := hp.length_eq
      have e : (benchMutation .scramble (k + 1) g').expect (onOk F) =
          (scrambleMutation g').expect (onOk fun g'' => (benchMutation .scramble k g'').expect (onOk F)) := by
        rw [benchMutation, expect_bind]
        refine expect_congr _ _ _ fun r hr => ?_
        obtain ⟨l, rfl, -⟩ := C37_permutation .scramble (by decide) _ r hr
        rfl
      rw [e, C66_scramble g' (by omega), hl, pow_succ, mul_comm (_ ^ k), mul_assoc]
      refine windowAverage_near _ hn _ _ _ ?_ fun s len h2 hs => ?_
      · have := arrangementMean_bench .scramble (by decide) k g' F
        unfold arrangementMean at this
        simp only [List.drop_zero, List.take_zero, List.nil_append, Nat.zero_add, ← hl, List.take_length, List.drop_length,
          List.append_nil, onOk]
        rw [this, hl, hU, ((List.perm_permutations_iff.2 hp).map F).sum_eq]
      · have hwl : ((g'.drop s).take len).length = len := by rw [List.length_take, List.length_drop]; omega
        have hpl : ((g'.drop s).take len).permutations.length = len.factorial := by rw [List.length_permutations, hwl]
        rw [← hpl]
        refine abs_list_mean _ _ _ _ (List.ne_nil_of_length_pos (by rw [hpl]; exact Nat.factorial_pos _)) fun w hw => ?_
        refine ih _ (List.Perm.trans ?_ hp)
        have hw' := List.mem_permutations.1 hw
        refine ((hw'.append_left _).append_right _).trans (List.Perm.of_eq ?_)
        rw [List.append_assoc, ← List.drop_drop, List.take_append_drop, List.take_append_drop]
  rw [average_eq]
  exact key k g (List.Perm.refl g)

-- two genes: after one scramble both arrangements are equally likely
example : (benchMutation .scramble 1 [5, 6]).prob (fun g' => g' = [6, 5]) = 1 / 2 := by decide +kernel

/-! ### Swap does not -/

/-- **C99** Swap mutation does not mix: after `k` mutations the genes have been rearranged by a permutation of the parity of `k`. -/
theorem C99_swap_parity (n k : Nat) (hn : 2 ≤ n) (g : List G) (hg : g.length = n) :
    Always (fun g' => g'.length = n ∧ ∃ σ : Equiv.Perm (Fin n), Equiv.Perm.sign σ = (-1) ^ k ∧ ∀ i : Fin n, g'[(i : Nat)]? = g[(σ i : Nat)]?)
      (benchMutation .swap k g) := by
  induction k generalizing g with
  | zero => simpa [benchMutation] using ⟨hg, 1, by simp⟩
  | succ k ih =>
    unfold benchMutation
    rw [always_bind]
    intro r hr
    obtain ⟨g1, a, b, rfl, h⟩ := (C32_swap g (by omega) r).1 hr
    refine ⟨g1, rfl, (ih g1 (h.len.trans hg)).mono ?_⟩
    rintro g' ⟨hl, σ, hs, hi⟩
    have ha : a < n := hg ▸ h.hi
    have hb : b < n := hg ▸ h.hj
    refine ⟨hl, Equiv.swap ⟨a, ha⟩ ⟨b, hb⟩ * σ, ?_, fun i => ?_⟩
    · rw [map_mul, hs, Equiv.Perm.sign_swap (by simpa using h.ne), pow_succ]
      exact mul_comm _ _
    · rw [hi i, Equiv.Perm.mul_apply]
      by_cases h1 : σ i = ⟨a, ha⟩
      · rw [h1, Equiv.swap_apply_left]; exact h.at_i
      · by_cases h2 : σ i = ⟨b, hb⟩
        · rw [h2, Equiv.swap_apply_right]; exact h.at_j
        · rw [Equiv.swap_apply_of_ne_of_ne h1 h2]
          exact h.rest _ (fun e => h1 (Fin.ext e)) (fun e => h2 (Fin.ext e))

/-- **C99** So an odd number of swap mutations never gives back a genome of different genes, although the share of each genome
among the rearrangements is positive. -/
theorem C99_swap_never_back [DecidableEq G] (k : Nat) (hk : k % 2 = 1) (g : List G) (hn : 2 ≤ g.length) (hnd : g.Nodup) :
    (benchMutation .swap k g).prob (fun g' => g' = g) = 0 ∧
      0 < (g.permutations.map fun g' => if g' = g then (1 : ℚ) else 0).sum / g.length.factorial := by
  constructor
  · refine prob_eq_zero _ _ fun g' hy he => ?_
    subst he
    obtain ⟨g'', e, -, σ, hs, hi⟩ := C99_swap_parity _ k hn g' rfl _ hy
    cases e
    have h1 : σ = 1 := by
      ext i
      have := hi i
      rw [List.getElem?_eq_getElem i.2, List.getElem?_eq_getElem (σ i).2, Option.some.injEq] at this
      exact ((List.Nodup.getElem_inj_iff hnd).1 this).symm
    rw [h1, Equiv.Perm.sign_one, Odd.neg_one_pow (Nat.odd_iff.2 hk)] at hs
    exact absurd hs (by decide)
  · refine div_pos ?_ (by exact_mod_cast Nat.factorial_pos _)
    refine lt_of_lt_of_le (show (0 : ℚ) < 1 by norm_num) ?_
    refine (le_of_eq (by simp)).trans (List.single_le_sum ?_ _ (List.mem_map.2 ⟨g, List.mem_permutations.2 (List.Perm.refl g), rfl⟩))
    intro x hx
    obtain ⟨y, -, rfl⟩ := List.mem_map.1 hx
    split <;> norm_num

example : (benchMutation .swap 1 [5, 6]).prob (fun g' => g' = [6, 5]) = 1 := by decide +kernel

end RG.Props
