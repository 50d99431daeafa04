import Verif.Proofs.AgaLadder

/-! # Helper lemmas for C79: climbing when the offspring are crossed -/

set_option linter.unusedSectionVars false

namespace RG
open Prog

namespace Prog
variable {α β : Type}

theorem split_prob_le_bind (p : Prog α) (f : α → Prog β) (E : α → Prop) [DecidablePred E] (P : β → Prop) [DecidablePred P]
    (a b : ℚ) (h1 : ∀ x, p.yields (.ok x) → E x → a ≤ (f x).prob P) (h2 : ∀ x, p.yields (.ok x) → ¬ E x → b ≤ (f x).prob P) :
    a * p.prob E + b * p.prob (fun x => ¬ E x) ≤ (p >>= f).prob P := by
  unfold prob at *
  rw [expect_bind, ← expect_mul_left, ← expect_mul_left, ← expect_add]
  refine expect_mono p _ _ fun r hr => ?_
  rcases r with x | _ | _
  · by_cases hx : E x
    · simpa [hx] using h1 x hr hx
    · simpa [hx] using h2 x hr hx
  · simp
  · simp

theorem prob_bind_scale (p : Prog α) (f g : α → Prog β) (P Q : β → Prop) [DecidablePred P] [DecidablePred Q] (c : ℚ)
    (h : ∀ x, p.yields (.ok x) → c * (g x).prob Q ≤ (f x).prob P) : c * (p >>= g).prob Q ≤ (p >>= f).prob P := by
  unfold prob at *
  rw [expect_bind, expect_bind, ← expect_mul_left]
  refine expect_mono p _ _ fun r hr => ?_
  rcases r with x | _ | _
  · exact h x hr
  · simp
  · simp

end Prog

variable {I : Type} [Individual I] {Mo U A P Q : Type}

/-- A pair of parents of which the one that the offspring may copy is in `S`: the second one, or the only one. -/
def GoodPair (S : I → Prop) (ps : I × Option I) : Prop := match ps.2 with
  | none => S ps.1
  | some b => S b

instance (S : I → Prop) [DecidablePred S] : DecidablePred (GoodPair S) := fun ps => by
  unfold GoodPair; cases ps.2 <;> infer_instance

section
variable (S : I → Prop) [DecidablePred S] (select : Prog (Nat × I))

theorem distinct_good_in (x : I) (hx : S x) (k : Nat) :
    (select.prob fun c => S c.2) ^ k ≤ (selectDistinct select x k).prob (fun o => GoodPair S (x, o.map Prod.snd)) := by
  induction k with
  | zero =>
    rw [selectDistinct, prob_pure, if_pos (show GoodPair S (x, Option.map Prod.snd none) from hx)]; simp
  | succ k ih =>
    rw [selectDistinct, pow_succ]
    refine mul_prob_le_bind _ _ (fun c : Nat × I => S c.2) _ _ fun c _ hc => ?_
    dsimp only
    split
    · rw [prob_pure, if_pos (by simpa [GoodPair] using hc)]
      exact pow_le_one₀ (prob_nonneg _ _) (prob_le_one _ _)
    · exact ih

theorem distinct_good_out (x : I) (hd : ∀ c, S c → Individual.eq c x = false) (k : Nat) :
    (select.prob fun c => S c.2) ≤ (selectDistinct select x (k + 1)).prob (fun o => GoodPair S (x, o.map Prod.snd)) := by
  rw [selectDistinct]
  refine prob_le_bind _ _ _ _ fun c _ hc => ?_
  dsimp only
  rw [if_pos (hd _ hc), prob_pure, if_pos (by simpa [GoodPair] using hc)]

end

/-- Whatever the crossover rate, a good pair is chosen at least half as often as a parent in `S`. -/
theorem prob_goodPair (M : EvoOps I Mo U) (env : NumEnv) (p : Population I) (r : ReproParams U) (S : I → Prop) [DecidablePred S]
    (sel : Selector) (hsel : r.parentSelector = .builtin sel) (htot : Always (fun _ => True) (sel.select env p))
    (hd : ∀ c x, S c → ¬ S x → Individual.eq c x = false) (σ : ℚ)
    (hσ : σ ≤ (sel.select env p).prob fun x => S x.2) : σ / 2 ≤ (breedParents M env p r).prob (GoodPair S) := by
  set s := (sel.select env p).prob fun x => S x.2 with hs
  have hs0 : 0 ≤ s := prob_nonneg _ _
  have hs1 : s ≤ 1 := prob_le_one _ _
  have hsum := prob_add_not_of_always _ (fun x : Nat × I => S x.2) htot
  rw [← hs] at hsum
  unfold breedParents
  rw [hsel]
  set cross : Prog Bool := if p.len > 1 then genF64 >>= fun u => pure (u.lt r.crossoverRate) else pure false with hcr
  have hct : Always (fun _ => True) cross := by
    rw [hcr]
    split
    · rw [always_bind]
      unfold genF64
      rw [always_bind, always_uniform]
      exact ⟨by norm_num, fun i _ => by simp⟩
    · simp
  have hcs := prob_add_not_of_always _ (fun c : Bool => c = true) hct
  set χ := cross.prob (fun c => c = true) with hχ
  have hχ0 : 0 ≤ χ := prob_nonneg _ _
  have hχ1 : χ ≤ 1 := prob_le_one _ _
  have key := split_prob_le_bind (sel.select env p) (fun x => cross >>= fun c =>
    (if c then selectDistinct (sel.select env p) x.2 3 >>= fun r => pure (r.map Prod.snd) else pure none) >>= fun p2 =>
      pure (x.2, p2)) (fun x => S x.2) (GoodPair S) (s ^ 3 * χ + 1 * (1 - χ)) (s * χ + 0 * (1 - χ)) ?_ ?_
  · refine le_trans ?_ key
    rw [← hs, show (sel.select env p).prob (fun x => ¬ S x.2) = 1 - s by linarith]
    have h3 : 0 ≤ s ^ 3 - s + 1 / 2 := by nlinarith [sq_nonneg (s - 1 / 2), mul_nonneg hs0 (sq_nonneg (s - 3 / 5))]
    have : (s ^ 3 * χ + 1 * (1 - χ)) * s + (s * χ + 0 * (1 - χ)) * (1 - s) = s / 2 + s * (χ * (s ^ 3 - s + 1 / 2) + (1 - χ) / 2) := by
      ring
    rw [this]
    have h4 : 0 ≤ s * (χ * (s ^ 3 - s + 1 / 2) + (1 - χ) / 2) :=
      mul_nonneg hs0 (add_nonneg (mul_nonneg hχ0 h3) (by linarith))
    linarith
  · intro x _ hx
    rw [show 1 - χ = cross.prob (fun c => ¬ c = true) by linarith]
    refine split_prob_le_bind cross _ (fun c => c = true) _ _ _ (fun c _ hc => ?_) (fun c _ hc => ?_)
    · rw [if_pos hc, bind_assoc]
      simp only [bind_pure_left]
      rw [prob_bind_pure _ _ _ (fun _ _ => rfl)]
      exact distinct_good_in S _ x.2 hx 3
    · rw [if_neg hc, bind_pure_left, prob_pure, if_pos (by simpa [GoodPair] using hx)]
  · intro x _ hx
    rw [show 1 - χ = cross.prob (fun c => ¬ c = true) by linarith]
    refine split_prob_le_bind cross _ (fun c => c = true) _ _ _ (fun c _ hc => ?_) (fun c _ hc => prob_nonneg _ _)
    rw [if_pos hc, bind_assoc]
    simp only [bind_pure_left]
    rw [prob_bind_pure _ _ _ (fun _ _ => rfl)]
    exact distinct_good_out S _ x.2 (fun c hc => hd c _ hc hx) 2

/-- The end of `breed` keeps what the offspring reached, if the parent is not NaN. -/
theorem breedEnd_reaches (M : EvoOps I Mo U)
    (hcs : M.canSurvive = fun _ offspring parent _ => pure ((fitness parent).le (fitness offspring)))
    (model : Mo) (p : Population I) (fp : I) (hnan : (fitness fp).isNaN = false) (target : F64) (o : I) :
    (M.improve model o >>= fun o => M.evaluate model o).prob (fun c => isValid c = true ∧ target.le (fitness c) = true) ≤
      (breedEnd M model p fp o).prob (fun c => target.le (fitness c) = true) := by
  have e : breedEnd M model p fp o = (M.improve model o >>= fun o => M.evaluate model o) >>= fun c =>
      (if isValid c then M.canSurvive model c fp p else pure false) >>= fun survives => pure (if survives then c else fp) := by
    unfold breedEnd; simp only [bind_assoc]
  rw [e]
  refine prob_le_bind _ _ _ _ fun c _ hc => ?_
  obtain ⟨hc1, hc2⟩ := hc
  rw [if_pos hc1, hcs]
  simp only [Prog.bind_pure_left, prob_pure]
  rw [if_pos]
  cases hle : (fitness fp).le (fitness c) with
  | true => simpa using hc2
  | false =>
    simp only [Bool.false_eq_true, if_false]
    obtain ⟨t1, t2, t3⟩ := F64.le_iff.1 hc2
    refine F64.le_iff.2 ⟨t1, hnan, ?_⟩
    by_contra hlt
    have : (fitness fp).le (fitness c) = true := F64.le_iff.2 ⟨hnan, t2, (le_of_not_ge hlt).trans t3⟩
    rw [this] at hle; cases hle

/-- The end of `breed` keeps what the parent reached. -/
theorem breedEnd_keeps (M : EvoOps I Mo U)
    (hcs : M.canSurvive = fun _ offspring parent _ => pure ((fitness parent).le (fitness offspring)))
    (model : Mo) (p : Population I) (fp : I) (target : F64) (hfp : target.le (fitness fp) = true) (o : I) :
    (M.improve model o >>= fun o => M.evaluate model o).prob (fun _ => True) ≤
      (breedEnd M model p fp o).prob (fun c => target.le (fitness c) = true) := by
  have e : breedEnd M model p fp o = (M.improve model o >>= fun o => M.evaluate model o) >>= fun c =>
      (if isValid c then M.canSurvive model c fp p else pure false) >>= fun survives => pure (if survives then c else fp) := by
    unfold breedEnd; simp only [bind_assoc]
  rw [e]
  refine prob_le_bind _ _ _ _ fun c _ _ => ?_
  rw [hcs]
  split
  · simp only [Prog.bind_pure_left, prob_pure]
    rw [if_pos]
    cases hle : (fitness fp).le (fitness c) with
    | true => simpa using F64.le_trans hfp hle
    | false => simpa using hfp
  · simp only [Prog.bind_pure_left, prob_pure]
    rw [if_pos]
    simpa using hfp

/-- Breeding, if parents in `T` are chosen with probability at least `τ`. -/
theorem prob_breed_pairs (M : EvoOps I Mo U)
    (hcs : M.canSurvive = fun _ offspring parent _ => pure ((fitness parent).le (fitness offspring)))
    (env : NumEnv) (model : Mo) (p : Population I) (r : ReproParams U) (T : I × Option I → Prop) [DecidablePred T]
    (sel : Selector) (hsel : r.parentSelector = .builtin sel) (htot : Always (fun _ => True) (sel.select env p))
    (hnan : ∀ x ∈ p.individuals, (fitness x).isNaN = false)
    (target : F64) (τ ρ δ : ℚ) (hρ0 : 0 ≤ ρ) (hδ : 0 ≤ δ) (hδ1 : δ ≤ 1)
    (hτ : τ ≤ (breedParents M env p r).prob T)
    (hρ : ρ ≤ genF64.prob (fun u => u.lt r.mutationRate = true))
    (htotal : ∀ o ∈ p.individuals, Always (fun _ => True)
      (M.mutate model o >>= fun o => M.improve model o >>= fun o => M.evaluate model o))
    (hcrosses : ∀ a ∈ p.individuals, ∀ b ∈ p.individuals, Always (fun o => Always (fun _ => True)
      (M.mutate model o >>= fun o => M.improve model o >>= fun o => M.evaluate model o)) (M.crossover model a b))
    (hmut : ∀ o ∈ p.individuals, T (o, none) → target.le (fitness o) = false → δ ≤ (M.mutate model o >>= fun o => M.improve model o >>= fun o => M.evaluate model o).prob
      (fun c => isValid c = true ∧ target.le (fitness c) = true))
    (hcross : ∀ a ∈ p.individuals, ∀ b ∈ p.individuals, T (a, some b) → target.le (fitness a) = false → target.le (fitness b) = false →
      δ ≤ (M.crossover model a b >>= fun o => M.mutate model o >>= fun o => M.improve model o >>= fun o => M.evaluate model o).prob
        (fun c => isValid c = true ∧ target.le (fitness c) = true)) :
    (defaultBreed M env model p r).prob (fun c => ¬ target.le (fitness c) = true) ≤ 1 - τ * ρ * δ := by
  suffices h : τ * ρ * δ ≤ (defaultBreed M env model p r).prob (fun c => target.le (fitness c) = true) by
    have := prob_add_not (defaultBreed M env model p r) (fun c => target.le (fitness c) = true)
    linarith
  rw [defaultBreed_eq]
  have hmem : ∀ ps, (breedParents M env p r).yields (.ok ps) → ps.1 ∈ p.individuals ∧ ∀ b, ps.2 = some b → b ∈ p.individuals := by
    intro ps hps
    unfold breedParents at hps
    rw [hsel] at hps
    obtain ⟨x, hx, hps⟩ := (yields_bind_ok _ _ _).1 hps
    obtain ⟨c, -, hps⟩ := (yields_bind_ok _ _ _).1 hps
    obtain ⟨p2, hp2, hps⟩ := (yields_bind_ok _ _ _).1 hps
    cases hps
    refine ⟨(sel.select_isMember env p x hx).mem, ?_⟩
    rintro b rfl
    have hall : Always (IsMember p) (sel.select env p) := fun r hr => by
      obtain ⟨y, rfl, -⟩ := htot r hr
      exact ⟨y, rfl, sel.select_isMember env p y hr⟩
    split at hp2
    · obtain ⟨o, ho, hp2⟩ := (yields_bind_ok _ _ _).1 hp2
      cases o with
      | none => cases hp2
      | some y =>
        cases hp2
        exact (((Props.C45_distinct p _ hall x.2 3).partially _ ho) y rfl).1.mem
    · cases hp2
  have hu : ∀ fp o, (fitness fp).isNaN = false → ρ * (M.mutate model o >>= fun o => M.improve model o >>= fun o => M.evaluate model o).prob
      (fun c => isValid c = true ∧ target.le (fitness c) = true) ≤
      (breedMutate M model r.mutationRate o >>= fun o => breedEnd M model p fp o).prob (fun c => target.le (fitness c) = true) := by
    intro fp o hfp
    unfold breedMutate
    rw [bind_assoc, mul_comm]
    set d := (M.mutate model o >>= fun o => M.improve model o >>= fun o => M.evaluate model o).prob
      (fun c => isValid c = true ∧ target.le (fitness c) = true) with hd
    refine le_trans ?_ (mul_prob_le_bind _ _ (fun u => u.lt r.mutationRate = true) _ d fun u _ hu => ?_)
    · exact mul_le_mul_of_nonneg_left hρ (prob_nonneg _ _)
    rw [if_pos hu, hd]
    have := prob_bind_scale (M.mutate model o) (fun o => breedEnd M model p fp o)
      (fun o => M.improve model o >>= fun o => M.evaluate model o) (fun c => target.le (fitness c) = true)
      (fun c => isValid c = true ∧ target.le (fitness c) = true) 1 (fun y _ => by
        rw [one_mul]; exact breedEnd_reaches M hcs model p fp hfp target y)
    rwa [one_mul] at this
  have hk : ∀ fp o, target.le (fitness fp) = true →
      Always (fun _ => True) (M.mutate model o >>= fun o => M.improve model o >>= fun o => M.evaluate model o) →
      ρ ≤ (breedMutate M model r.mutationRate o >>= fun o => breedEnd M model p fp o).prob (fun c => target.le (fitness c) = true) := by
    intro fp o hfp ho
    unfold breedMutate
    rw [bind_assoc, ← one_mul ρ]
    refine le_trans ?_ (mul_prob_le_bind _ _ (fun u => u.lt r.mutationRate = true) _ 1 fun u _ hu => ?_)
    · exact mul_le_mul_of_nonneg_left hρ zero_le_one
    rw [if_pos hu, ← prob_eq_one_of_always _ _ ho]
    have := prob_bind_scale (M.mutate model o) (fun o => breedEnd M model p fp o)
      (fun o => M.improve model o >>= fun o => M.evaluate model o) (fun c => target.le (fitness c) = true)
      (fun _ => True) 1 (fun y _ => by rw [one_mul]; exact breedEnd_keeps M hcs model p fp target hfp y)
    rwa [one_mul] at this
  refine le_trans ?_ (mul_prob_le_bind _ _ T _ (ρ * δ) fun ps hy hps => ?_)
  · calc τ * ρ * δ = ρ * δ * τ := by ring
      _ ≤ _ := mul_le_mul_of_nonneg_left hτ (mul_nonneg hρ0 hδ)
  · obtain ⟨m1, m2⟩ := hmem ps hy
    obtain ⟨x, o2⟩ := ps
    cases o2 with
    | none =>
      have hx : T (x, none) := hps
      show ρ * δ ≤ (pure x >>= fun o => breedMutate M model r.mutationRate o >>= fun o => breedEnd M model p x o).prob _
      rw [bind_pure_left]
      cases hreached : target.le (fitness x) with
      | true => exact (mul_le_of_le_one_right hρ0 hδ1).trans (hk x x hreached (htotal x m1))
      | false => exact (mul_le_mul_of_nonneg_left (hmut x m1 hx hreached) hρ0).trans (hu x x (hnan x m1))
    | some b =>
      have hb : T (x, some b) := hps
      have mb := m2 b rfl
      have hfp : (fitness (fitterParent x (some b))).isNaN = false := by
        show (fitness (if (fitness x).lt (fitness b) then b else x)).isNaN = false
        split
        · exact hnan b mb
        · exact hnan x m1
      show ρ * δ ≤ (M.crossover model x b >>= fun o => breedMutate M model r.mutationRate o >>= fun o =>
        breedEnd M model p (fitterParent x (some b)) o).prob _
      cases hreached : target.le (fitness (fitterParent x (some b))) with
      | true =>
        refine (mul_le_of_le_one_right hρ0 hδ1).trans (le_prob_bind_of_always _ _ _ ρ (hcrosses x m1 b mb) fun o ho => ?_)
        exact hk _ o hreached ho
      | false =>
        have hxb : target.le (fitness x) = false ∧ target.le (fitness b) = false := by
          have hreached : target.le (fitness (if (fitness x).lt (fitness b) then b else x)) = false := hreached
          have hnx := hnan x m1
          have hnb := hnan b mb
          constructor
          · by_contra hc
            obtain ⟨t1, t2, t3⟩ := F64.le_iff.1 (by simpa using hc)
            split at hreached
            · rename_i hlt
              rw [F64.le_iff.2 ⟨t1, hnb, t3.trans (F64.lt_iff.1 hlt).2.2.le⟩] at hreached; cases hreached
            · exact hc hreached
          · by_contra hc
            obtain ⟨t1, t2, t3⟩ := F64.le_iff.1 (by simpa using hc)
            split at hreached
            · exact hc hreached
            · rename_i hlt
              refine hlt (F64.lt_iff.2 ⟨hnx, hnb, ?_⟩)
              by_contra hle
              rw [F64.le_iff.2 ⟨t1, hnx, t3.trans (not_lt.1 hle)⟩] at hreached; cases hreached
        exact (mul_le_mul_of_nonneg_left (hcross x m1 b mb hb hxb.1 hxb.2) hρ0).trans
          (prob_bind_scale _ _ _ _ _ ρ fun o _ => hu _ o hfp)

/-- Breeding with any crossover rate, if crossover can climb from the second parent. -/
theorem prob_breed_crossed (M : EvoOps I Mo U)
    (hcs : M.canSurvive = fun _ offspring parent _ => pure ((fitness parent).le (fitness offspring)))
    (env : NumEnv) (model : Mo) (p : Population I) (r : ReproParams U) (S : I → Prop) [DecidablePred S]
    (sel : Selector) (hsel : r.parentSelector = .builtin sel) (htot : Always (fun _ => True) (sel.select env p))
    (hd : ∀ c x, S c → ¬ S x → Individual.eq c x = false)
    (hnan : ∀ x ∈ p.individuals, (fitness x).isNaN = false)
    (target : F64) (σ ρ δ : ℚ) (hρ0 : 0 ≤ ρ) (hδ : 0 ≤ δ) (hδ1 : δ ≤ 1)
    (hσ : σ ≤ (sel.select env p).prob fun x => S x.2)
    (hρ : ρ ≤ genF64.prob (fun u => u.lt r.mutationRate = true))
    (htotal : ∀ o ∈ p.individuals, Always (fun _ => True)
      (M.mutate model o >>= fun o => M.improve model o >>= fun o => M.evaluate model o))
    (hcrosses : ∀ a ∈ p.individuals, ∀ b ∈ p.individuals, Always (fun o => Always (fun _ => True)
      (M.mutate model o >>= fun o => M.improve model o >>= fun o => M.evaluate model o)) (M.crossover model a b))
    (hmut : ∀ o ∈ p.individuals, S o → target.le (fitness o) = false → δ ≤ (M.mutate model o >>= fun o => M.improve model o >>= fun o => M.evaluate model o).prob
      (fun c => isValid c = true ∧ target.le (fitness c) = true))
    (hcross : ∀ a ∈ p.individuals, ∀ b ∈ p.individuals, S b → target.le (fitness a) = false → target.le (fitness b) = false →
      δ ≤ (M.crossover model a b >>= fun o => M.mutate model o >>= fun o => M.improve model o >>= fun o => M.evaluate model o).prob
        (fun c => isValid c = true ∧ target.le (fitness c) = true)) :
    (defaultBreed M env model p r).prob (fun c => ¬ target.le (fitness c) = true) ≤ 1 - σ / 2 * ρ * δ := by
  refine prob_breed_pairs M hcs env model p r (GoodPair S) sel hsel htot hnan target (σ / 2) ρ δ hρ0 hδ hδ1
    (prob_goodPair M env p r S sel hsel htot hd σ hσ) hρ htotal hcrosses (fun o ho h => hmut o ho h)
    (fun a ha b hb h => hcross a ha b hb h)

/-- Breeding with any crossover rate, if crossover can climb from the first parent. -/
theorem prob_breed_first (M : EvoOps I Mo U)
    (hcs : M.canSurvive = fun _ offspring parent _ => pure ((fitness parent).le (fitness offspring)))
    (env : NumEnv) (model : Mo) (p : Population I) (r : ReproParams U) (S : I → Prop) [DecidablePred S]
    (sel : Selector) (hsel : r.parentSelector = .builtin sel) (htot : Always (fun _ => True) (sel.select env p))
    (hnan : ∀ x ∈ p.individuals, (fitness x).isNaN = false)
    (target : F64) (σ ρ δ : ℚ) (hρ0 : 0 ≤ ρ) (hδ : 0 ≤ δ) (hδ1 : δ ≤ 1)
    (hσ : σ ≤ (sel.select env p).prob fun x => S x.2)
    (hρ : ρ ≤ genF64.prob (fun u => u.lt r.mutationRate = true))
    (htotal : ∀ o ∈ p.individuals, Always (fun _ => True)
      (M.mutate model o >>= fun o => M.improve model o >>= fun o => M.evaluate model o))
    (hcrosses : ∀ a ∈ p.individuals, ∀ b ∈ p.individuals, Always (fun o => Always (fun _ => True)
      (M.mutate model o >>= fun o => M.improve model o >>= fun o => M.evaluate model o)) (M.crossover model a b))
    (hmut : ∀ o ∈ p.individuals, S o → target.le (fitness o) = false → δ ≤ (M.mutate model o >>= fun o => M.improve model o >>= fun o => M.evaluate model o).prob
      (fun c => isValid c = true ∧ target.le (fitness c) = true))
    (hcross : ∀ a ∈ p.individuals, ∀ b ∈ p.individuals, S a → target.le (fitness a) = false → target.le (fitness b) = false →
      δ ≤ (M.crossover model a b >>= fun o => M.mutate model o >>= fun o => M.improve model o >>= fun o => M.evaluate model o).prob
        (fun c => isValid c = true ∧ target.le (fitness c) = true)) :
    (defaultBreed M env model p r).prob (fun c => ¬ target.le (fitness c) = true) ≤ 1 - σ * ρ * δ := by
  refine prob_breed_pairs M hcs env model p r (fun ps => S ps.1) sel hsel htot hnan target σ ρ δ hρ0 hδ hδ1
    ?_ hρ htotal hcrosses (fun o ho h => hmut o ho h) (fun a ha b hb h => hcross a ha b hb h)
  unfold breedParents
  rw [hsel]
  refine hσ.trans (prob_le_bind _ _ _ _ fun x _ hx => ?_)
  refine prob_eq_one_of_always _ (fun ps : I × Option I => S ps.1) ?_
  rw [always_bind]
  have hct : Always (fun _ : Bool => True) (if p.len > 1 then genF64 >>= fun u => pure (u.lt r.crossoverRate) else pure false) := by
    split
    · rw [always_bind]
      unfold genF64
      rw [always_bind, always_uniform]
      exact ⟨by norm_num, fun i _ => by simp⟩
    · simp
  refine hct.mono fun c _ => ?_
  rw [always_bind]
  have hp2 : Always (fun _ : Option I => True) (if c then selectDistinct (sel.select env p) x.2 3 >>= fun r => pure (r.map Prod.snd)
      else pure none) := by
    split
    · have hall : Always (IsMember p) (sel.select env p) := fun r hr => by
        obtain ⟨y, rfl, -⟩ := htot r hr
        exact ⟨y, rfl, sel.select_isMember env p y hr⟩
      rw [always_bind]
      exact (Props.C45_distinct p _ hall x.2 3).mono fun _ _ => by simp
    · simp
  refine hp2.mono fun o _ => ?_
  rw [always_pure]
  exact hx

end RG

namespace RG.Props
open RG RG.Prog
variable {I : Type} [Individual I] {Mo U A P Q : Type}

/-- Crossed, mutated, improved and evaluated, two evaluated individuals, the second one at the level `lo` and none at the level `hi`,
become a valid individual at the level `hi` with probability at least `δ`. -/
def CrossClimbs (M : EvoModel I Mo U) (model : Mo) (Pr : I → Prop) (lo hi : F64) (δ : ℚ) : Prop :=
  ∀ a b, (Pr a ∧ Evaluated M a ∧ isValid a = true) → (Pr b ∧ Evaluated M b ∧ isValid b = true) → lo.le (fitness b) = true →
    hi.le (fitness a) = false → hi.le (fitness b) = false →
    δ ≤ (M.crossover model a b >>= fun o => M.mutate model o >>= fun o => M.improve model o >>= fun o => M.evaluate model o).prob
      (fun c => isValid c = true ∧ hi.le (fitness c) = true)

/-- The same, if the first one is at the level `lo`. -/
def FirstClimbs (M : EvoModel I Mo U) (model : Mo) (Pr : I → Prop) (lo hi : F64) (δ : ℚ) : Prop :=
  ∀ a b, (Pr a ∧ Evaluated M a ∧ isValid a = true) → (Pr b ∧ Evaluated M b ∧ isValid b = true) → lo.le (fitness a) = true →
    hi.le (fitness a) = false → hi.le (fitness b) = false →
    δ ≤ (M.crossover model a b >>= fun o => M.mutate model o >>= fun o => M.improve model o >>= fun o => M.evaluate model o).prob
      (fun c => isValid c = true ∧ hi.le (fitness c) = true)

section
variable {M : EvoModel I Mo U} {alg : EvoAlgo I Mo U A P} {elite size : A → Nat} {eliteOf : P → Nat} {okP : P → Prop}
  {Pr : I → Prop} {B : Nat} {ok : A → Population I → Prop} {model : Mo} {s : SelectionStrategy} {ρ κ : ℚ}

/-- Breeding misses the next level with probability at most `1 - σ ρ δ / 2`, whatever the crossover rate. -/
theorem ClimbState.breed_crossed (halg : SafeAlgo alg okP) (hM : SafeOps M Pr)
    (hcs : M.canSurvive = fun _ offspring parent _ => pure ((fitness parent).le (fitness offspring)))
    (hv : ValidNotNaN I) (he : EqFitness I) (hst : Steady alg (FinePop M Pr B) ok model s ρ κ) (env : NumEnv) (lo hi : F64) (σ δ : ℚ)
    (hρ0 : 0 ≤ ρ) (hδ : 0 ≤ δ ∧ δ ≤ 1)
    (hsel : SelectsFit s env (FinePop M Pr B) lo σ) (hmut : MutationClimbs M model Pr lo hi δ)
    (hcross : CrossClimbs M model Pr lo hi δ)
    (st : RunState I A Q) (a : A) (hs : ClimbState M alg elite size Pr B ok st) (hlo : Reached lo st.population)
    (ha : (alg.prepare env st.algo st.population).yields (.ok a)) :
    (M.breed env (alg.model a) st.population (alg.repro a).1).prob (fun c => ¬ hi.le (fitness c) = true) ≤ 1 - σ / 2 * ρ * δ := by
  classical
  obtain ⟨b1, b2, b3, sel, b4, b5⟩ := hst.breeds _ _ _ _ hs.ok ha
  obtain ⟨sel', b6, b7, b8⟩ := (halg.prepare env st.algo st.population hs.safe.sel).partially a ha
  rw [b5] at b6
  cases b6
  have hlen := hs.safe.len
  have htot : Always (IsMember st.population) ((sel.prepare env st.population).select env st.population) :=
    C38_member env st.population hs.safe.wf.ne (hlen.le.trans (by norm_num)) _ b7 b8 fun _ => hlen
  rw [hM.breed, b1]
  refine prob_breed_crossed M.toEvoOps hcs env model st.population (alg.repro a).1
    (fun x => lo.le (fitness x) = true) _ b5 (htot.mono fun _ _ => trivial) (fun c x hc hx => ?_)
    (fun x hx => hv x (hs.fine.good.valid x hx)) hi σ ρ δ hρ0 hδ.1 hδ.2 (hsel sel b4 _ hs.fine hlo) b2
    (fun o ho => hM.develops model o (hs.fine.prop o ho))
    (fun a ha b hb => (hM.crossover model a b (hs.fine.prop a ha) (hs.fine.prop b hb)).mono fun o ho => hM.develops model o ho)
    (fun o ho hlo => hmut o (hs.fine.prop o ho) (hs.fine.evaluated o ho) (hs.fine.good.valid o ho) hlo)
    (fun a ha b hb hlo => hcross a b ⟨hs.fine.prop a ha, hs.fine.evaluated a ha, hs.fine.good.valid a ha⟩
      ⟨hs.fine.prop b hb, hs.fine.evaluated b hb, hs.fine.good.valid b hb⟩ hlo)
  by_contra hne
  have heq := he c x (by simpa using hne)
  exact hx (F64.le_trans hc (F64.le_of_feq heq))

/-- Breeding misses the next level with probability at most `1 - σ ρ δ`, whatever the crossover rate, if crossover climbs from
the first parent. -/
theorem ClimbState.breed_first (halg : SafeAlgo alg okP) (hM : SafeOps M Pr)
    (hcs : M.canSurvive = fun _ offspring parent _ => pure ((fitness parent).le (fitness offspring)))
    (hv : ValidNotNaN I) (hst : Steady alg (FinePop M Pr B) ok model s ρ κ) (env : NumEnv) (lo hi : F64) (σ δ : ℚ)
    (hρ0 : 0 ≤ ρ) (hδ : 0 ≤ δ ∧ δ ≤ 1)
    (hsel : SelectsFit s env (FinePop M Pr B) lo σ) (hmut : MutationClimbs M model Pr lo hi δ)
    (hcross : FirstClimbs M model Pr lo hi δ)
    (st : RunState I A Q) (a : A) (hs : ClimbState M alg elite size Pr B ok st) (hlo : Reached lo st.population)
    (ha : (alg.prepare env st.algo st.population).yields (.ok a)) :
    (M.breed env (alg.model a) st.population (alg.repro a).1).prob (fun c => ¬ hi.le (fitness c) = true) ≤ 1 - σ * ρ * δ := by
  classical
  obtain ⟨b1, b2, b3, sel, b4, b5⟩ := hst.breeds _ _ _ _ hs.ok ha
  obtain ⟨sel', b6, b7, b8⟩ := (halg.prepare env st.algo st.population hs.safe.sel).partially a ha
  rw [b5] at b6
  cases b6
  have hlen := hs.safe.len
  have htot : Always (IsMember st.population) ((sel.prepare env st.population).select env st.population) :=
    C38_member env st.population hs.safe.wf.ne (hlen.le.trans (by norm_num)) _ b7 b8 fun _ => hlen
  rw [hM.breed, b1]
  exact prob_breed_first M.toEvoOps hcs env model st.population (alg.repro a).1
    (fun x => lo.le (fitness x) = true) _ b5 (htot.mono fun _ _ => trivial)
    (fun x hx => hv x (hs.fine.good.valid x hx)) hi σ ρ δ hρ0 hδ.1 hδ.2 (hsel sel b4 _ hs.fine hlo) b2
    (fun o ho => hM.develops model o (hs.fine.prop o ho))
    (fun a ha b hb => (hM.crossover model a b (hs.fine.prop a ha) (hs.fine.prop b hb)).mono fun o ho => hM.develops model o ho)
    (fun o ho hlo => hmut o (hs.fine.prop o ho) (hs.fine.evaluated o ho) (hs.fine.good.valid o ho) hlo)
    (fun a ha b hb hlo => hcross a b ⟨hs.fine.prop a ha, hs.fine.evaluated a ha, hs.fine.good.valid a ha⟩
      ⟨hs.fine.prop b hb, hs.fine.evaluated b hb, hs.fine.good.valid b hb⟩ hlo)

end

/-! ### The run, for any algorithm -/

section
variable {M : EvoModel I Mo U} {alg : EvoAlgo I Mo U A P} {elite size : A → Nat} {eliteOf : P → Nat}
  (hstd : Standard M alg elite size eliteOf) (envs : Nat → Env I) (henv : ∀ t, (envs t).Lawful)
  (hb : M.BreedsValid) (hv : ValidNotNaN I) (he : EqFitness I) (progress : Q → Population I → Prog (Bool × Q))
  (level : Nat → F64) (c : Nat → ℚ) (hc : ∀ i, 0 ≤ c i ∧ c i ≤ 1) (e n L : Nat) (hsz : e + 2 ≤ n)
  (hel : 1 ≤ e) (R : RunState I A Q → Prop) (hgood : ∀ st, R st → GoodPop st.population)
  (hR : ∀ st q', R st → R { st with q := q', shown := st.shown ++ [st.population] })
  (hstep : ∀ t st st', R st → (generationStep alg (envs t) st).yields (.ok st') → R st')
  (hbreed : ∀ t st a i, R st → GoodPop st.population → i < L → Reached (level i) st.population →
    (alg.prepare (envs t).num st.algo st.population).yields (.ok a) →
    (M.breed (envs t).num (alg.model a) st.population (alg.repro a).1).prob
      (fun x => ¬ (level (i + 1)).le (fitness x) = true) ≤ 1 - c i)
  (a : A) (p : P) (init : List I)
  (hbegin : ∃ a', alg.configure a p = .ok a' ∧ Always (fun pop => ∀ q : Q,
    R { algo := a', population := pop, buffer := [], q, shown := [] } ∧ Reached (level 0) pop ∧ elite a' = e ∧ size a' = n)
    (alg.initPopulation (envs 0) a' init))
  (hstop : ∀ q pop q', GoodPop pop → Reached (level L) pop → ¬ (progress q pop).yields (.ok (true, q')))
include hstd henv hb hv he hc hsz hel hgood hR hstep hbreed hbegin hstop

theorem ladder_run_expected (hpos : ∀ i, i < L → 0 < c i) (k : Nat) (q : Q) :
    (evolvePopulation alg envs progress k a init p q).expect callsOf ≤
      1 + ∑ i ∈ Finset.range L, 1 / (1 - (1 - c i) ^ (n - e)) := by
  obtain ⟨a', hcf, hi⟩ := hbegin
  have hx1 : ∀ i, i < L → (1 - c i) ^ (n - e) < 1 := fun i hi =>
    pow_lt_one₀ (by have := hc i; linarith) (by have := hpos i hi; linarith) (by omega)
  have hsum : 0 ≤ ∑ i ∈ Finset.range L, 1 / (1 - (1 - c i) ^ (n - e)) :=
    Finset.sum_nonneg fun i hi => one_div_nonneg.2 (by have := hx1 i (Finset.mem_range.1 hi); linarith)
  unfold evolvePopulation
  rw [hcf]
  simp only [lift_ok, bind_pure_left]
  refine expect_bind_le_const _ _ _ _ (by simp only [callsOf]; linarith) (by simp only [callsOf]; linarith) fun pop hpop => ?_
  obtain ⟨i1, i2, i3, i4⟩ := hi.partially pop hpop q
  have := expect_ladder_calls hstd envs henv hb hv he
    progress level (fun i => 1 - c i) (fun i => by have := hc i; linarith) (fun i => by have := hc i; linarith)
    (n - e) e n L (by omega) (by omega) hel R hR hstep hbreed
    hstop (fun i => (1 - c i) ^ (n - e)) hx1 (fun i _ => le_rfl) k 1 0 (Nat.zero_le _) _ i1 (hgood _ i1) i3 i4 i2
  rw [Nat.Ico_zero_eq_range] at this
  simpa using this

theorem ladder_run_ends (δ : ℚ) (hδ : ∀ i, c i = δ) (k : Nat) (q : Q)
    (hrun : Always (fun _ => True) (evolvePopulation alg envs progress (k + 1) a init p q)) :
    1 - fewSuccesses ((1 - δ) ^ (n - e)) k L ≤ (evolvePopulation alg envs progress (k + 1) a init p q).prob (fun r => r.1 = true) := by
  have hsum := prob_add_not_of_always _ (fun r : Bool × RunState I A Q => r.1 = true) hrun
  have hle : (evolvePopulation alg envs progress (k + 1) a init p q).prob (fun r => ¬ r.1 = true) ≤
      fewSuccesses ((1 - δ) ^ (n - e)) k L := by
    obtain ⟨a', hcf, hi⟩ := hbegin
    have hch := hc 0
    rw [hδ] at hch
    have hx0 : 0 ≤ (1 - δ) ^ (n - e) := pow_nonneg (by linarith) _
    have hx1 : (1 - δ) ^ (n - e) ≤ 1 := pow_le_one₀ (by linarith) (by linarith)
    unfold evolvePopulation
    rw [hcf]
    simp only [lift_ok, bind_pure_left, Bool.not_eq_true]
    refine prob_bind_le_const _ _ _ _ (fewSuccesses_nonneg hx0 hx1 _ _) fun pop hpop => ?_
    obtain ⟨i1, i2, i3, i4⟩ := hi.partially pop hpop q
    exact prob_ladder_runs hstd envs henv hb hv he
      progress level (fun i => 1 - c i) (fun i => by have := hc i; linarith) (fun i => by have := hc i; linarith)
      (n - e) e n L (by omega) (by omega) hel R hR hstep hbreed
      hstop _ hx0 hx1 (fun i _ => by rw [hδ]) k 1 L le_rfl _ i1 (hgood _ i1) i3 i4 (by simpa using i2)
  linarith

end
end RG.Props
