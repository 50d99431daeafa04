import Mathlib.Data.List.Permutation
import Mathlib.Algebra.BigOperators.Field
import Verif.Proofs.Mutation
import Verif.Proofs.Gpx2

/-! # Expected values of the random helpers, helper lemmas -/

namespace RG
open Prog

namespace Prog
variable {α β : Type}

theorem expect_rangeExcl_bind (lo hi : Nat) (h : lo < hi) (f : Nat → Prog β) (g : Res β → ℚ) :
    (rangeExcl lo hi >>= f).expect g = (∑ i ∈ Finset.Ico lo hi, (f i).expect g) / (hi - lo : ℚ) := by
  unfold rangeExcl
  rw [if_pos h, bind_pick, expect_pick]
  simp only [bind_pure_left]
  congr 1
  · rw [Finset.sum_Ico_eq_sum_range]
    congr 2; omega
  · rw [← Nat.cast_sub h.le, ← Nat.cast_succ]; congr 1; omega

theorem expect_rangeIncl_bind (lo hi : Nat) (h : lo ≤ hi) (f : Nat → Prog β) (g : Res β → ℚ) :
    (rangeIncl lo hi >>= f).expect g = (∑ i ∈ Finset.Icc lo hi, (f i).expect g) / (hi - lo + 1 : ℚ) := by
  unfold rangeIncl
  rw [if_pos h, bind_pick, expect_pick]
  simp only [bind_pure_left]
  congr 1
  · rw [show Finset.Icc lo hi = Finset.Ico lo (hi + 1) from by ext; simp, Finset.sum_Ico_eq_sum_range]
    congr 2; omega
  · rw [Nat.cast_sub h]

/-- Observation of `f a` as an observation of `a`. -/
def obsMap (f : α → β) (g : Res β → ℚ) : Res α → ℚ
  | .ok a => g (.ok (f a))
  | .panic => g .panic
  | .diverge => g .diverge

theorem expect_map (p : Prog α) (f : α → β) (g : Res β → ℚ) : (f <$> p).expect g = p.expect (obsMap f g) := by
  rw [← bind_pure_comp, expect_bind]
  exact expect_congr _ _ _ fun r _ => by cases r <;> rfl

/-- An expected value as a sum over the possible normal results. -/
theorem expect_eq_sum [DecidableEq α] (p : Prog α) (L : List α) (hL : L.Nodup)
    (h : ∀ r, p.yields r → ∃ a, r = .ok a ∧ a ∈ L) (g : Res α → ℚ) :
    p.expect g = (L.map fun a => p.prob (· = a) * g (.ok a)).sum := by
  have key : ∀ r, p.yields r → g r = (L.map fun a => (match r with
      | .ok b => if b = a then (1 : ℚ) else 0
      | _ => 0) * g (.ok a)).sum := by
    intro r hr
    obtain ⟨b, rfl, hb⟩ := h r hr
    clear h hr
    simp only
    induction L with
    | nil => simp at hb
    | cons c cs ih =>
      rw [List.nodup_cons] at hL
      simp only [List.map_cons, List.sum_cons]
      by_cases hbc : b = c
      · subst hbc
        rw [if_pos rfl, one_mul]
        have : (cs.map fun a => (if b = a then (1 : ℚ) else 0) * g (.ok a)).sum = 0 := by
          apply List.sum_eq_zero
          intro x hx
          obtain ⟨a, ha, rfl⟩ := List.mem_map.1 hx
          rw [if_neg (by rintro rfl; exact hL.1 ha), zero_mul]
        rw [this, add_zero]
      · rw [if_neg hbc, zero_mul, zero_add]
        exact ih hL.2 ((List.mem_cons.1 hb).resolve_left hbc)
  rw [expect_congr p g _ key]
  clear key h
  induction L with
  | nil => simp [expect_const]
  | cons c cs ih =>
    simp only [List.map_cons, List.sum_cons]
    rw [expect_add, ih (List.nodup_cons.1 hL).2]
    congr 1
    rw [show (fun r : Res α => (match r with
      | .ok b => if b = c then (1 : ℚ) else 0
      | _ => 0) * g (.ok c)) = fun r => g (.ok c) * (match r with
      | .ok b => if b = c then (1 : ℚ) else 0
      | _ => 0) from funext fun r => mul_comm _ _, expect_mul_left, mul_comm]
    rfl

end Prog

theorem expect_boundedRandomRange_bind {β : Type} (n lo hi : Nat) (h1 : lo ≤ hi) (h2 : hi ≤ n) (f : URange → Prog β)
    (g : Res β → ℚ) :
    (boundedRandomRange n lo hi >>= f).expect g =
      (∑ l ∈ Finset.Icc lo hi, (∑ s ∈ Finset.range (n - l + 1), (f ⟨s, s + l⟩).expect g) / (n - l + 1 : ℚ)) /
        (hi - lo + 1 : ℚ) := by
  unfold boundedRandomRange
  rw [bind_assoc, expect_rangeIncl_bind lo hi h1]
  congr 1
  refine Finset.sum_congr rfl fun l hl => ?_
  rw [Finset.mem_Icc] at hl
  have hln : l ≤ n := by omega
  simp only [usizeSub, hln, if_true, lift_ok, bind_pure_left, bind_assoc]
  rw [expect_rangeIncl_bind 0 (n - l) (by omega)]
  congr 1
  · rw [show Finset.Icc 0 (n - l) = Finset.range (n - l + 1) from by ext; simp]
  · rw [Nat.cast_sub hln]; simp

theorem expect_randomRange_bind {β : Type} (n : Nat) (h : n ≠ 0) (f : URange → Prog β) (g : Res β → ℚ) :
    (randomRange n >>= f).expect g =
      (∑ l ∈ Finset.Icc 1 n, (∑ s ∈ Finset.range (n - l + 1), (f ⟨s, s + l⟩).expect g) / (n - l + 1 : ℚ)) / n := by
  unfold randomRange
  simp only [h, ne_eq, not_false_eq_true, decide_true, Res.assert_true, lift_ok, bind_pure_left]
  rw [expect_boundedRandomRange_bind n 1 n (by omega) le_rfl]
  congr 1; simp

theorem sum_skip (n a : Nat) (ha : a < n) (F : Nat → ℚ) :
    ∑ j ∈ Finset.Ico 0 (n - 1), F (if j ≥ a then j + 1 else j) = ∑ b ∈ (Finset.range n).erase a, F b := by
  refine Finset.sum_bij' (fun j _ => if j ≥ a then j + 1 else j) (fun b _ => if b > a then b - 1 else b) ?_ ?_ ?_ ?_ ?_
  · intro j hj
    simp only [Finset.mem_Ico, Finset.mem_erase, Finset.mem_range] at *
    split <;> omega
  · intro b hb
    simp only [Finset.mem_Ico, Finset.mem_erase, Finset.mem_range] at *
    split <;> omega
  · intro j hj
    simp only [Finset.mem_Ico] at hj
    split_ifs <;> omega
  · intro b hb
    simp only [Finset.mem_erase, Finset.mem_range] at hb
    split_ifs <;> omega
  · intro j hj; rfl

theorem expect_randomPair_bind {β : Type} (n : Nat) (h : 2 ≤ n) (f : Nat × Nat → Prog β) (g : Res β → ℚ) :
    (randomPair n >>= f).expect g =
      (∑ a ∈ Finset.range n, ∑ b ∈ (Finset.range n).erase a, (f (a, b)).expect g) / (n * (n - 1) : ℚ) := by
  unfold randomPair
  simp only [h, decide_true, Res.assert_true, lift_ok, bind_pure_left, bind_assoc]
  rw [expect_rangeExcl_bind 0 n (by omega)]
  have inner : ∀ a ∈ Finset.range n, (rangeExcl 0 (n - 1) >>= fun x => f (a, if x ≥ a then x + 1 else x)).expect g =
      (∑ b ∈ (Finset.range n).erase a, (f (a, b)).expect g) / (n - 1 : ℚ) := by
    intro a ha
    rw [expect_rangeExcl_bind 0 (n - 1) (by omega), sum_skip n a (Finset.mem_range.1 ha) (fun b => (f (a, b)).expect g)]
    rw [Nat.cast_sub (by omega : 1 ≤ n)]; simp
  rw [show Finset.Ico 0 n = Finset.range n from by ext; simp, Finset.sum_congr rfl inner, ← Finset.sum_div, div_div,
    mul_comm]
  simp

variable {G : Type}

/-! ### Shuffling -/

theorem swapAt_map {H : Type} (f : H → G) (l : List H) (i j : Nat) :
    swapAt (l.map f) i j = match swapAt l i j with
      | .ok l' => .ok (l'.map f)
      | .panic => .panic
      | .diverge => .diverge := by
  unfold swapAt
  rw [List.getElem?_map, List.getElem?_map]
  cases l[i]? <;> cases l[j]? <;> simp [List.map_set]

theorem shuffleLoop_map {H : Type} (f : H → G) (i : Nat) (l : List H) :
    shuffleLoop i (l.map f) = (List.map f) <$> shuffleLoop i l := by
  induction i generalizing l with
  | zero => rfl
  | succ i ih =>
    unfold shuffleLoop
    rw [map_bind]
    congr 1
    funext j
    rw [map_bind, swapAt_map]
    cases swapAt l (i + 1) j with
    | ok l' => exact ih l'
    | panic => rfl
    | diverge => rfl

theorem shuffle_map {H : Type} (f : H → G) (l : List H) : shuffle (l.map f) = (List.map f) <$> shuffle l := by
  unfold shuffle; rw [List.length_map]; exact shuffleLoop_map f _ l

theorem expect_shuffle_nodup {H : Type} [DecidableEq H] (l : List H) (hnd : l.Nodup) (g : Res (List H) → ℚ) :
    (shuffle l).expect g = (l.permutations.map fun l' => g (.ok l')).sum / (l.length.factorial : ℚ) := by
  rw [expect_eq_sum _ l.permutations (List.nodup_permutations l hnd)]
  · rw [div_eq_mul_inv, ← List.sum_map_mul_right]
    congr 1
    refine List.map_congr_left fun l' hl' => ?_
    rw [prob_shuffle l l' hnd (List.mem_permutations.1 hl')]
    ring
  · intro r hr
    obtain ⟨l', rfl, hp⟩ := (yields_shuffle l r).1 hr
    exact ⟨l', rfl, List.mem_permutations.2 hp⟩

/-- A shuffle averages over all rearrangements (counted with multiplicity if there are equal elements). -/
theorem expect_shuffle (l : List G) (g : Res (List G) → ℚ) :
    (shuffle l).expect g = (l.permutations.map fun l' => g (.ok l')).sum / (l.length.factorial : ℚ) := by
  have hl : l = (List.finRange l.length).map l.get := by simp
  have h := expect_shuffle_nodup (List.finRange l.length) (List.nodup_finRange _)
    (obsMap (List.map l.get) g)
  rw [← expect_map, ← shuffle_map, ← hl] at h
  rw [h, List.length_finRange]
  congr 2
  conv_rhs => rw [hl, ← List.map_permutations, List.map_map]
  rfl

theorem expect_choose (l : List G) (h : l ≠ []) {β : Type} (f : G → Res β) (g : Res β → ℚ) :
    (choose l >>= fun o => Prog.lift (Res.ofOption o) >>= fun x => Prog.lift (f x)).expect g =
      (l.map fun x => g (f x)).sum / l.length := by
  unfold choose
  rw [if_neg (by simpa using h), bind_assoc, expect_rangeExcl_bind 0 _ (List.length_pos_iff.2 h)]
  congr 1
  · rw [show Finset.Ico 0 l.length = Finset.range l.length from by ext; simp]
    have e : l.map (fun x => g (f x)) = List.ofFn fun i : Fin l.length => g (f l[i]) := by
      apply List.ext_getElem <;> simp
    rw [e, List.sum_ofFn, Finset.sum_range]
    refine Finset.sum_congr rfl fun i _ => ?_
    rw [bind_pure_left, List.getElem?_eq_getElem i.2]
    rfl
  · simp

/-! ### GPX2 -/

theorem eq_of_mem_flatten_nodup {parts : List (List G)} (hnd : parts.flatten.Nodup) {i j : Nat} (hi : i < parts.length)
    (hj : j < parts.length) {x : G} (hxi : x ∈ parts[i]) (hxj : x ∈ parts[j]) : i = j := by
  by_contra hne
  have hp := (List.nodup_flatten.1 hnd).2
  rw [List.pairwise_iff_getElem] at hp
  rcases Nat.lt_or_gt_of_ne hne with h | h
  · exact hp i j hi hj h hxi hxj
  · exact hp j i hj hi h hxj hxi

/-- Removing the genes of a chosen partition from the others changes nothing when the partitions are disjoint. -/
theorem prune_eq [DecidableEq G] {q : List G} {rest : List (List G)} (hflat : (q ++ rest.flatten).Nodup)
    (hmem : ∀ o ∈ rest, o ≠ []) :
    ((rest.map fun other => other.filter fun g => decide (g ∉ q)).filter fun p => !p.isEmpty) = rest := by
  have hsame : (rest.map fun other => other.filter fun g => decide (g ∉ q)) = rest := by
    conv_rhs => rw [← List.map_id rest]
    refine List.map_congr_left fun other ho => ?_
    rw [id, List.filter_eq_self]
    intro g hg
    have : g ∉ q := fun hgq => (List.nodup_append.1 hflat).2.2 g hgq g (List.mem_flatten.2 ⟨other, ho, hg⟩) rfl
    simpa using this
  rw [hsame, List.filter_eq_self]
  intro o ho
  have := hmem o ho
  cases o <;> simp_all

/-- The random selector of `CrossoverStrategy::crossover` for GPX2. -/
def anyPartition (_ : Unit) (_ : Option G) (partitions : List (List G)) : Prog (Nat × Unit) := do
  let i ← Prog.rangeExcl 0 partitions.length
  pure (i, ())

theorem always_anyPartition (s : Unit) (last : Option G) (ps : List (List G)) (h : ps ≠ []) :
    Always (fun r => r.1 < ps.length) (anyPartition s last ps) := by
  unfold anyPartition
  rw [always_bind, always_rangeExcl]
  exact ⟨List.length_pos_iff.2 h, fun i _ hi => by simpa using hi⟩

theorem prob_gpx2Loop [DecidableEq G] (fuel : Nat) (off : List G) (parts : List (List G)) (hf : parts.length ≤ fuel)
    (hne : ∀ p ∈ parts, p ≠ []) (hnd : parts.flatten.Nodup) (order : List (List G)) (ho : order.Perm parts) :
    (gpx2Loop anyPartition fuel () off parts).prob (· = off ++ order.flatten) = 1 / (parts.length.factorial : ℚ) := by
  induction fuel generalizing off parts order with
  | zero =>
    have : parts = [] := List.length_eq_zero_iff.1 (by omega)
    subst this
    have := ho.eq_nil
    subst this
    simp [gpx2Loop]
  | succ fuel ih =>
    cases order with
    | nil =>
      have := ho.symm.eq_nil
      subst this
      simp [gpx2Loop]
    | cons q order =>
      cases parts with
      | nil => have := ho.eq_nil; cases this
      | cons p ps =>
        have hmemq : q ∈ p :: ps := ho.mem_iff.1 (by simp)
        obtain ⟨k, hk, hkq⟩ := List.getElem_of_mem hmemq
        unfold gpx2Loop anyPartition
        rw [bind_assoc, prob_rangeExcl_bind 0 _ (by simp)]
        rw [Finset.sum_eq_single k]
        · obtain ⟨rest, he, hp⟩ := swapRemove_ok (p :: ps) k hk
          simp only [bind_pure_left, he, lift_ok]
          rw [hkq] at hp ⊢
          have hflat : (q ++ rest.flatten).Nodup := by
            have := (hp.flatten).nodup_iff.2 hnd
            simpa using this
          have hmem : ∀ o ∈ rest, o ≠ [] := fun o ho => hne o (hp.mem_iff.1 (List.mem_cons_of_mem _ ho))
          rw [prune_eq hflat hmem]
          have hlen := hp.length_eq
          simp only [List.length_cons] at hlen hf
          have := ih (off ++ q) rest (by omega) hmem (List.nodup_append.1 hflat).2.1 order
            ((List.perm_cons q).1 (ho.trans hp.symm))
          rw [List.append_assoc] at this
          rw [List.flatten_cons, show (fun (s : Unit) (last : Option G) (partitions : List (List G)) => (do
            let i ← Prog.rangeExcl 0 partitions.length
            pure (i, ()) : Prog (Nat × Unit))) = anyPartition from rfl, this, List.length_cons, ← hlen,
            Nat.factorial_succ]
          push_cast
          rw [div_div, mul_comm]; simp
        · intro i hi hik
          rw [Finset.mem_Ico] at hi
          apply prob_eq_zero
          intro r hr hreq
          obtain ⟨rest, he, hp⟩ := swapRemove_ok (p :: ps) i hi.2
          simp only [bind_pure_left, he, lift_ok] at hr
          have hflat : ((p :: ps)[i] ++ rest.flatten).Nodup := by
            have := (hp.flatten).nodup_iff.2 hnd
            simpa using this
          have hmem : ∀ o ∈ rest, o ≠ [] := fun o ho => hne o (hp.mem_iff.1 (List.mem_cons_of_mem _ ho))
          rw [prune_eq hflat hmem] at hr
          have hlen := hp.length_eq
          simp only [List.length_cons] at hlen hf
          obtain ⟨r', hr', order', -, hr''⟩ := gpx2Loop_spec anyPartition always_anyPartition fuel ()
            (off ++ (p :: ps)[i]) rest (by omega) hmem (List.nodup_append.1 hflat).2.1 _ hr
          cases hr'
          rw [hr''] at hreq
          simp only [List.append_assoc, List.append_cancel_left_eq, List.flatten_cons] at hreq
          have h1 : (p :: ps)[i] ≠ [] := hne _ (List.getElem_mem _)
          have h2 : q ≠ [] := hne _ hmemq
          obtain ⟨x, xs, hx⟩ := List.exists_cons_of_ne_nil h1
          obtain ⟨y, ys, hy⟩ := List.exists_cons_of_ne_nil h2
          rw [hx, hy] at hreq
          simp only [List.cons_append, List.cons.injEq] at hreq
          refine hik (eq_of_mem_flatten_nodup hnd hi.2 hk (x := x) ?_ ?_)
          · rw [hx]; simp
          · rw [hkq, hy, hreq.1]; simp
        · intro hk'; exact absurd (Finset.mem_Ico.2 ⟨by omega, hk⟩) hk'

end RG
