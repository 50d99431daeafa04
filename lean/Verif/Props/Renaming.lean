import Verif.Proofs.Renaming

/-!
# Property C101: crossover does not depend on how genes are represented

`f` renames the genes, `lt` and `lt'` are the orders of the old and the new genes, `ord` and `ord'` the orders in which their hash
sets are iterated.
-/

set_option linter.unusedSectionVars false

namespace RG.Props
open RG RG.Prog
variable {G H : Type} [DecidableEq G] [DecidableEq H] {f : G → H}

/-- **C101** Renaming the genes of both parents renames those of the offspring: the same draws give the renamed offspring, and
the same panics and endless loops. The order of the genes has to be kept for `GeneralizedPartition2`, the order of the hash sets
for `EdgeRecombination`; the other strategies use neither. -/
theorem C101_renaming (hf : f.Injective) (lt : G → G → Bool) (lt' : H → H → Bool) (ord : Nat → List G → List G)
    (ord' : Nat → List H → List H) (fuel : Nat) (s : CrossoverStrategy)
    (hl : s = .generalizedPartition2 → ∀ a b, lt' (f a) (f b) = lt a b)
    (ho : s = .edgeRecombination → ∀ k l, ord' k (l.map f) = (ord k l).map f) (p₁ p₂ : List G) :
    s.crossover lt' ord' fuel (p₁.map f) (p₂.map f) = s.crossover lt ord fuel p₁ p₂ >>= fun o => pure (o.map f) := by
  have hch : ∀ l : List G, choose (l.map f) = choose l >>= fun o => pure (o.map f) := by
    intro l
    unfold choose
    rw [List.isEmpty_map, List.length_map]
    split
    · rfl
    · simp only [bind_assoc, bind_pure_left, List.getElem?_map]
  cases s with
  | generalizedPartition2 =>
    simp only [CrossoverStrategy.crossover, gpx2, commonPartitions_map hf (hl rfl), lift_relabel_bind, bind_assoc, List.length_map]
    refine bind_congr fun parts => ?_
    exact gpx2Loop_map hf (fun _ _ ps => by rw [List.length_map]) parts.length () [] parts
  | sequentialConstructive =>
    simp only [CrossoverStrategy.crossover, hch, bind_assoc, bind_pure_left, ← Res.relabel_ofOption, scx_map hf, lift_relabel]
  | edgeRecombination =>
    simp only [CrossoverStrategy.crossover, hch, bind_assoc, bind_pure_left, ← Res.relabel_ofOption,
      erx_map hf (ho rfl), lift_relabel]
  | partiallyMapped => simp only [CrossoverStrategy.crossover, List.length_map, pmx_map hf, lift_relabel, bind_assoc]
  | order => simp only [CrossoverStrategy.crossover, List.length_map, ox_map hf, lift_relabel, bind_assoc]
  | cycle => simp only [CrossoverStrategy.crossover, cx_map hf, lift_relabel]
  | singlePoint => simp only [CrossoverStrategy.crossover, List.length_map, spx_map, lift_relabel, bind_assoc]

/-- **C101** With `SinglePoint` also a renaming that makes different genes equal is followed. -/
theorem C101_single_point (f : G → H) (lt : G → G → Bool) (lt' : H → H → Bool) (ord : Nat → List G → List G)
    (ord' : Nat → List H → List H) (fuel : Nat) (p₁ p₂ : List G) :
    CrossoverStrategy.singlePoint.crossover lt' ord' fuel (p₁.map f) (p₂.map f) =
      CrossoverStrategy.singlePoint.crossover lt ord fuel p₁ p₂ >>= fun o => pure (o.map f) := by
  simp only [CrossoverStrategy.crossover, List.length_map, spx_map, lift_relabel, bind_assoc]

/-- **C101** For permutations it does not matter which total order the genes have: any two give the same partitions, and the same
offspring from the same draws. -/
theorem C101_any_order (lt lt' : G → G → Bool) (hasymm : ∀ a b, lt a b = true → lt b a = false)
    (htotal : ∀ a b, lt a b = true ∨ a = b ∨ lt b a = true) (hasymm' : ∀ a b, lt' a b = true → lt' b a = false)
    (htotal' : ∀ a b, lt' a b = true ∨ a = b ∨ lt' b a = true) (ord : Nat → List G → List G) (fuel : Nat) (s : CrossoverStrategy)
    (p₁ p₂ : List G) (hnd : p₁.Nodup) (hp : p₂.Perm p₁) :
    commonPartitions lt p₁ p₂ = commonPartitions lt' p₁ p₂ ∧
      s.crossover lt ord fuel p₁ p₂ = s.crossover lt' ord fuel p₁ p₂ := by
  have h : commonPartitions lt p₁ p₂ = commonPartitions lt' p₁ p₂ := by
    by_cases hn : 3 ≤ p₁.length
    · exact (C75_partitions lt hasymm htotal p₁ p₂ hnd hp hn _).2 ((C75_partitions lt' hasymm' htotal' p₁ p₂ hnd hp hn _).1 rfl)
    · rw [C75_short lt p₁ p₂ hnd (Or.inr (by rw [hp.length_eq]; omega)), C75_short lt' p₁ p₂ hnd (Or.inr (by rw [hp.length_eq]; omega))]
  refine ⟨h, ?_⟩
  cases s <;> first | rfl | skip
  unfold CrossoverStrategy.crossover gpx2
  simp only [h]

/-- **C101** So for permutations of totally ordered genes the renaming need not keep the order. -/
theorem C101_permutations (hf : f.Injective) (lt : G → G → Bool) (lt' : H → H → Bool)
    (hasymm : ∀ a b, lt a b = true → lt b a = false) (htotal : ∀ a b, lt a b = true ∨ a = b ∨ lt b a = true)
    (hasymm' : ∀ a b, lt' a b = true → lt' b a = false) (htotal' : ∀ a b, lt' a b = true ∨ a = b ∨ lt' b a = true)
    (ord : Nat → List G → List G) (ord' : Nat → List H → List H) (fuel : Nat) (s : CrossoverStrategy)
    (ho : s = .edgeRecombination → ∀ k l, ord' k (l.map f) = (ord k l).map f) (p₁ p₂ : List G) (hnd : p₁.Nodup) (hp : p₂.Perm p₁) :
    s.crossover lt' ord' fuel (p₁.map f) (p₂.map f) = s.crossover lt ord fuel p₁ p₂ >>= fun o => pure (o.map f) := by
  rw [C101_renaming hf (fun a b => lt' (f a) (f b)) lt' ord ord' fuel s (fun _ _ _ => rfl) ho]
  rw [(C101_any_order (fun a b => lt' (f a) (f b)) lt (fun a b => hasymm' _ _) (fun a b => (htotal' _ _).imp_right
    (Or.imp_left fun h => hf h)) hasymm htotal ord fuel s p₁ p₂ hnd hp).2]

/-! ### What the hypotheses are for -/

/-- **C101** (the hypotheses are needed) An order that is not total loses common neighbours passed in the other direction; the order
of a hash set decides ties in `EdgeRecombination`; and `PartiallyMapped`, which looks at the equality of genes, may loop for ever
after a renaming that makes two of them equal. -/
theorem C101_needed :
    commonPartitions (fun a b : Nat => decide (a < b)) [1, 2, 3, 4] [4, 3, 2, 1] = .ok [[1, 2, 3, 4]] ∧
    commonPartitions (fun _ _ : Nat => false) [1, 2, 3, 4] [4, 3, 2, 1] = .ok [[1], [2], [3], [4]] ∧
    erx (fun _ l => l) [1, 2, 3, 4, 5] [2, 4, 1, 3, 5] 1 = .ok [1, 5, 4, 3, 2] ∧
    erx (fun _ l => l.reverse) [1, 2, 3, 4, 5] [2, 4, 1, 3, 5] 1 = .ok [1, 3, 5, 2, 4] ∧
    (∀ fuel, pmx (fuel + 2) [1, 2] [3, 1] ⟨0, 1⟩ = .ok [1, 3]) ∧
    ∀ fuel, pmx fuel ([1, 2].map fun _ => 0) ([3, 1].map fun _ => 0) ⟨0, 1⟩ = .diverge := by
  refine ⟨by decide +kernel, by decide +kernel, by decide +kernel, by decide +kernel, fun fuel => rfl, ?_⟩
  have hd : ∀ fuel, pmxMap [0] [0] fuel 0 = .diverge := by
    intro fuel
    induction fuel with
    | zero => rfl
    | succ fuel ih => exact ih
  intro fuel
  have : pmx fuel ([1, 2].map fun _ => 0) ([3, 1].map fun _ => 0) ⟨0, 1⟩ = (do
      let rest ← (do
        let r ← pmxMap [0] [0] fuel 0
        let rest ← Res.ok []
        pure (r :: rest))
      pure (0 :: rest)) := rfl
  rw [this, hd fuel]; rfl

-- a renaming that turns the order around: the offspring of permutations are still renamed
example (ord : Nat → List Int → List Int) (p₁ p₂ : List Nat) (hnd : p₁.Nodup) (hp : p₂.Perm p₁) (fuel : Nat) :
    CrossoverStrategy.generalizedPartition2.crossover (fun a b : Int => decide (a < b)) ord fuel (p₁.map fun x : Nat => -(x : Int))
        (p₂.map fun x : Nat => -(x : Int)) =
      CrossoverStrategy.generalizedPartition2.crossover (fun a b => decide (a < b)) (fun _ l => l) fuel p₁ p₂ >>=
        fun o => pure (o.map fun x : Nat => -(x : Int)) :=
  C101_permutations (f := fun x : Nat => -(x : Int)) (fun a b h => by simpa using h) (fun a b => decide (a < b))
    (fun a b => decide (a < b)) (fun a b h => by simp at h ⊢; omega) (fun a b => by simp; omega)
    (fun a b h => by simp at h ⊢; omega) (fun a b => by simp; omega) (fun _ l => l) ord fuel .generalizedPartition2
    (fun h => by cases h) p₁ p₂ hnd hp

end RG.Props
