import Verif.Bench
import Verif.SpecBench
import Verif.Props.Distribution
import Verif.Proofs.Parallel
import Mathlib.GroupTheory.Perm.Sign
import Mathlib.Data.List.FinRange
import Mathlib.Data.Fintype.Perm

/-!
# Repeated mutation of arrangements: helpers
-/

namespace RG
open RG Prog
set_option linter.unusedSectionVars false
variable {G H : Type}

/-! ### Mutation does not look at the genes -/

theorem onSlice_map (f : H → G) (l : List H) (start stop : Nat) (p : List H → Prog (List H)) (p' : List G → Prog (List G))
    (h : ∀ l, p' (l.map f) = List.map f <$> p l) : onSlice (l.map f) start stop p' = List.map f <$> onSlice l start stop p := by
  unfold onSlice
  rw [List.length_map]
  split
  · rw [← List.map_drop, ← List.map_take, h, map_bind, bind_map_left]
    congr 1
    funext l'
    rw [map_pure]
    congr 1
    simp [List.map_take, List.map_drop]
  · rfl

theorem rotateRight1_map (f : H → G) (l : List H) : rotateRight1 (l.map f) = match rotateRight1 l with
      | .ok l' => .ok (l'.map f)
      | .panic => .panic
      | .diverge => .diverge := by
  unfold rotateRight1
  rw [List.getLast?_map]
  cases l.getLast? <;> simp [List.map_dropLast]

theorem mutate_map (s : MutationStrategy) (f : H → G) (g : List H) : s.mutate (g.map f) = List.map f <$> s.mutate g := by
  by_cases hn : g.length < 2
  · rw [Props.C37_short s g hn, Props.C37_short s _ (by simpa using hn)]; rfl
  cases s with
  | swap =>
    unfold MutationStrategy.mutate swapMutation
    simp only [if_neg hn, List.length_map, map_bind]
    congr 1; funext p
    rw [swapAt_map]
    cases swapAt g p.1 p.2 <;> rfl
  | scramble =>
    unfold MutationStrategy.mutate scrambleMutation
    simp only [if_neg hn, List.length_map, map_bind]
    congr 1; funext p
    exact onSlice_map f g _ _ _ _ (shuffle_map f)
  | inversion =>
    unfold MutationStrategy.mutate inversionMutation
    simp only [if_neg hn, List.length_map, map_bind]
    congr 1; funext p
    exact onSlice_map f g _ _ _ _ fun l => by rw [map_pure, List.map_reverse]
  | insertion =>
    unfold MutationStrategy.mutate insertionMutation
    simp only [if_neg hn, List.length_map, map_bind]
    congr 1; funext p
    exact onSlice_map f g _ _ _ _ fun l => by
      rw [rotateRight1_map]
      cases rotateRight1 l <;> rfl
  | duplicate =>
    unfold MutationStrategy.mutate duplicateMutation
    simp only [if_neg hn, List.length_map, map_bind]
    congr 1; funext p
    rw [List.getElem?_map]
    cases g[p.1]? with
    | none => rfl
    | some x =>
      simp only [Option.map_some, Res.ofOption_some, lift_ok, bind_pure_left]
      split
      · rw [map_pure, List.map_set]
      · rfl

theorem benchMutation_map (s : MutationStrategy) (f : H → G) (k : Nat) (g : List H) :
    benchMutation s k (g.map f) = List.map f <$> benchMutation s k g := by
  induction k generalizing g with
  | zero => rfl
  | succ k ih =>
    rw [benchMutation, benchMutation, mutate_map, bind_map_left, map_bind]
    congr 1; funext g'
    exact ih g'

/-! ### The average over all arrangements -/

/-- The average of `F` over the rearrangements of `g` (counted with multiplicity if there are equal genes). -/
def arrangementMean (g : List G) (F : List G → ℚ) : ℚ := (g.permutations.map F).sum / (g.length.factorial : ℚ)

theorem sum_permutations (g : List G) (F : List G → ℚ) :
    (g.permutations.map F).sum = ∑ σ : Equiv.Perm (Fin g.length), F ((List.finRange g.length).map fun i => g.get (σ i)) := by
  have hl : g = (List.finRange g.length).map g.get := by simp
  have hperm : (List.finRange g.length).permutations.Perm
      ((Finset.univ : Finset (Equiv.Perm (Fin g.length))).toList.map fun σ : Equiv.Perm (Fin g.length) => (List.finRange g.length).map σ) := by
    refine (List.perm_ext_iff_of_nodup (List.nodup_permutations _ (List.nodup_finRange _)) ?_).2 fun l => ?_
    · refine List.Nodup.map ?_ (Finset.nodup_toList _)
      intro σ τ h
      ext i
      have := List.map_inj_left.1 h i (List.mem_finRange i)
      exact congrArg _ this
    · rw [List.mem_permutations, List.mem_map]
      constructor
      · intro hp
        have hlen : l.length = g.length := by rw [hp.length_eq, List.length_finRange]
        have hnd : l.Nodup := hp.nodup_iff.2 (List.nodup_finRange _)
        let τ : Fin g.length → Fin g.length := fun i => l.get (i.cast hlen.symm)
        have hinj : Function.Injective τ := fun i j h => by
          have := (List.nodup_iff_injective_get.1 hnd) h
          simpa [Fin.ext_iff] using this
        refine ⟨Equiv.ofBijective τ (Finite.injective_iff_bijective.1 hinj), Finset.mem_toList.2 (Finset.mem_univ _), ?_⟩
        apply List.ext_getElem (by simp [hlen])
        intro i h1 h2
        simp [τ]
      · rintro ⟨σ, -, rfl⟩
        refine (List.perm_ext_iff_of_nodup (List.Nodup.map σ.injective (List.nodup_finRange _)) (List.nodup_finRange _)).2 fun i => ?_
        simp only [List.mem_finRange, iff_true, List.mem_map, true_and]
        exact ⟨σ.symm i, by simp⟩
  conv_lhs => rw [hl, ← List.map_permutations, List.map_map]
  rw [(hperm.map _).sum_eq, List.map_map, ← Finset.sum_map_toList]
  congr 1
  refine List.map_congr_left fun σ _ => ?_
  simp only [Function.comp_apply, List.map_map]
  rfl

/-- Rearranging the positions first does not change the average. -/
theorem arrangementMean_perm (n : Nat) (f : Fin n → G) (l : List (Fin n)) (hl : l.Perm (List.finRange n)) (F : List G → ℚ) :
    ∑ σ : Equiv.Perm (Fin n), F (l.map fun i => f (σ i)) = ∑ σ : Equiv.Perm (Fin n), F ((List.finRange n).map fun i => f (σ i)) := by
  have hlen : l.length = n := by rw [hl.length_eq, List.length_finRange]
  have hnd : l.Nodup := hl.nodup_iff.2 (List.nodup_finRange _)
  let τ : Fin n → Fin n := fun i => l.get (i.cast hlen.symm)
  have hinj : Function.Injective τ := fun i j h => by
    have := (List.nodup_iff_injective_get.1 hnd) h
    simpa [Fin.ext_iff] using this
  let e := Equiv.ofBijective τ (Finite.injective_iff_bijective.1 hinj)
  have he : l = (List.finRange n).map e := by
    apply List.ext_getElem (by simp [hlen])
    intro i h1 h2
    simp [e, τ]
  rw [← Equiv.sum_comp (Equiv.mulRight e) fun σ : Equiv.Perm (Fin n) => F ((List.finRange n).map fun i => f (σ i))]
  refine Finset.sum_congr rfl fun σ _ => ?_
  rw [he, List.map_map]
  rfl

/-- A mutation that only moves genes keeps the average over all arrangements. -/
theorem arrangementMean_mutate (s : MutationStrategy) (hs : s ≠ .duplicate) (g : List G) (F : List G → ℚ) :
    arrangementMean g (fun g' => (s.mutate g').expect (onOk F)) = arrangementMean g F := by
  unfold arrangementMean
  rw [sum_permutations, sum_permutations]
  congr 1
  have h1 : ∀ σ : Equiv.Perm (Fin g.length), (s.mutate ((List.finRange g.length).map fun i => g.get (σ i))).expect (onOk F) =
      (s.mutate (List.finRange g.length)).expect (onOk fun l => F (l.map fun i => g.get (σ i))) := fun σ => by
    rw [mutate_map, expect_map]
    refine congrArg _ (funext fun r => ?_)
    cases r <;> rfl
  rw [Finset.sum_congr rfl fun σ _ => h1 σ, ← expect_finset_sum]
  rw [expect_congr _ _ (fun _ => ∑ σ : Equiv.Perm (Fin g.length), F ((List.finRange g.length).map fun i => g.get (σ i))),
    expect_const]
  intro r hr
  obtain ⟨l, rfl, hp⟩ := Props.C37_permutation s hs _ r hr
  exact arrangementMean_perm _ g.get l hp F

theorem arrangementMean_congr (g g' : List G) (h : g'.Perm g) (F : List G → ℚ) : arrangementMean g' F = arrangementMean g F := by
  unfold arrangementMean
  rw [h.length_eq, ((List.perm_permutations_iff.2 h).map F).sum_eq]

theorem benchMutation_perm (s : MutationStrategy) (hs : s ≠ .duplicate) (k : Nat) (g : List G) :
    Always (fun g' => g'.Perm g) (benchMutation s k g) := by
  induction k generalizing g with
  | zero => simp [benchMutation]
  | succ k ih =>
    unfold benchMutation
    rw [always_bind]
    exact (Props.C37_permutation s hs g).mono fun g' h => (ih g').mono fun g'' h' => h'.trans h

theorem arrangementMean_bench (s : MutationStrategy) (hs : s ≠ .duplicate) (k : Nat) (g : List G) (F : List G → ℚ) :
    arrangementMean g (fun g' => (benchMutation s k g').expect (onOk F)) = arrangementMean g F := by
  induction k with
  | zero => rfl
  | succ k ih =>
    rw [← ih, ← arrangementMean_mutate s hs g fun g' => (benchMutation s k g').expect (onOk F)]
    congr 1
    funext g'
    rw [benchMutation, expect_bind]
    refine expect_congr _ _ _ fun r hr => ?_
    obtain ⟨l, rfl, -⟩ := Props.C37_permutation s hs _ r hr
    rfl

theorem abs_list_mean {α : Type} (L : List α) (f : α → ℚ) (U D : ℚ) (hne : L ≠ []) (h : ∀ x ∈ L, |f x - U| ≤ D) :
    |(L.map f).sum / L.length - U| ≤ D := by
  have key : |(L.map f).sum - L.length * U| ≤ L.length * D := by
    clear hne
    induction L with
    | nil => simp
    | cons x L ih =>
      have h1 := ih fun y hy => h y (List.mem_cons_of_mem _ hy)
      have h2 := h x List.mem_cons_self
      rw [abs_le] at h1 h2 ⊢
      simp only [List.map_cons, List.sum_cons, List.length_cons, Nat.cast_add, Nat.cast_one]
      constructor <;> linarith [h1.1, h1.2, h2.1, h2.2]
  have hpos : (0 : ℚ) < L.length := by exact_mod_cast List.length_pos_iff.2 hne
  rw [div_sub' hpos.ne', abs_div, abs_of_pos hpos, div_le_iff₀ hpos, mul_comm D]
  exact key

open RG.Props in
theorem windowAverage_near (n : Nat) (hn : 2 ≤ n) (F : Nat → Nat → ℚ) (U D : ℚ) (hfull : F 0 n = U)
    (h : ∀ s len, 2 ≤ len → s + len ≤ n → |F s len - U| ≤ D) :
    |windowAverage n F - U| ≤ (n - 2 : ℚ) / (n - 1) * D := by
  have hn' : (2 : ℚ) ≤ n := by exact_mod_cast hn
  have e : windowAverage n F - U =
      (∑ len ∈ Finset.Icc 2 n, ((∑ s ∈ Finset.range (n - len + 1), F s len) / (n - len + 1 : ℚ) - U)) / (n - 1 : ℚ) := by
    unfold windowAverage
    rw [Finset.sum_sub_distrib, Finset.sum_const, Nat.card_Icc, nsmul_eq_mul, sub_div]
    have : ((n + 1 - 2 : ℕ) : ℚ) = n - 1 := by rw [Nat.cast_sub (by omega)]; push_cast; ring
    rw [this, mul_div_cancel_left₀ _ (by linarith)]
  have hb : ∀ len ∈ Finset.Icc 2 n, |(∑ s ∈ Finset.range (n - len + 1), F s len) / (n - len + 1 : ℚ) - U| ≤
      if len = n then 0 else D := by
    intro len hlen
    rw [Finset.mem_Icc] at hlen
    have hpos : (0 : ℚ) < n - len + 1 := by
      have : (len : ℚ) ≤ n := by exact_mod_cast hlen.2
      linarith
    split
    · next hl => subst hl; simp [hfull]
    · have hcard : ∑ _s ∈ Finset.range (n - len + 1), U = (n - len + 1) * U := by
        rw [Finset.sum_const, Finset.card_range, nsmul_eq_mul, Nat.cast_add, Nat.cast_sub hlen.2]; push_cast; ring
      have hcardD : ∑ _s ∈ Finset.range (n - len + 1), D = (n - len + 1) * D := by
        rw [Finset.sum_const, Finset.card_range, nsmul_eq_mul, Nat.cast_add, Nat.cast_sub hlen.2]; push_cast; ring
      rw [div_sub' hpos.ne', ← hcard, ← Finset.sum_sub_distrib, abs_div, abs_of_pos hpos, div_le_iff₀ hpos, mul_comm D, ← hcardD]
      refine (Finset.abs_sum_le_sum_abs _ _).trans (Finset.sum_le_sum fun s hs => ?_)
      rw [Finset.mem_range] at hs
      exact h s len hlen.1 (by omega)
  rw [e, abs_div, abs_of_pos (show (0 : ℚ) < n - 1 by linarith), div_mul_eq_mul_div, div_le_div_iff_of_pos_right (by linarith)]
  refine (Finset.abs_sum_le_sum_abs _ _).trans ((Finset.sum_le_sum hb).trans (le_of_eq ?_))
  rw [← Finset.sum_erase_add _ _ (Finset.mem_Icc.2 ⟨hn, le_rfl⟩), if_pos rfl, add_zero,
    Finset.sum_congr rfl fun len hlen => if_neg (Finset.ne_of_mem_erase hlen), Finset.sum_const,
    Finset.card_erase_of_mem (Finset.mem_Icc.2 ⟨hn, le_rfl⟩), Nat.card_Icc, nsmul_eq_mul,
    show ((n + 1 - 2 - 1 : ℕ) : ℚ) = n - 2 by rw [show n + 1 - 2 - 1 = n - 2 by omega, Nat.cast_sub hn]; norm_num]

end RG
