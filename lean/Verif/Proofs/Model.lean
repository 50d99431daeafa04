import Verif.SpecModel
import Verif.SpecSelection
import Verif.ProgSame
import Verif.Proofs.Selection

/-! # Helper lemmas about breeding -/

namespace RG
open Prog
variable {I : Type} [Individual I] {Mo U : Type}

theorem canFire_iff {rate : F64} : CanFire rate ↔ ∃ u, genF64.yields (.ok u) ∧ u.lt rate = true := by
  constructor
  · rintro ⟨k, hk, h⟩; exact ⟨_, (yields_genF64 _).2 ⟨k, hk, rfl⟩, h⟩
  · rintro ⟨u, hu, h⟩
    obtain ⟨k, hk, e⟩ := (yields_genF64 _).1 hu
    cases e; exact ⟨k, hk, h⟩

theorem canSkip_iff {rate : F64} : CanSkip rate ↔ ∃ u, genF64.yields (.ok u) ∧ u.lt rate = false := by
  constructor
  · rintro ⟨k, hk, h⟩; exact ⟨_, (yields_genF64 _).2 ⟨k, hk, rfl⟩, h⟩
  · rintro ⟨u, hu, h⟩
    obtain ⟨k, hk, e⟩ := (yields_genF64 _).1 hu
    cases e; exact ⟨k, hk, h⟩

/-- The part of `breed` before the offspring is made. -/
def breedParents (M : EvoOps I Mo U) (env : NumEnv) (population : Population I) (parameters : ReproParams U) :
    Prog (I × Option I) :=
  parameters.parentSelector.select env M.selectors population >>= fun x =>
  (if population.len > 1 then genF64 >>= fun u => pure (u.lt parameters.crossoverRate) else pure false) >>= fun cross =>
  (if cross then parameters.parentSelector.selectDistinct env M.selectors population 3 x.2 >>= fun r =>
      pure (r.map Prod.snd)
    else pure none) >>= fun parent2 =>
  pure (x.2, parent2)

/-- `if parent2.fitness() > parent1.fitness()`. -/
def fitterParent (p1 : I) : Option I → I
  | none => p1
  | some p2 => if (fitness p1).lt (fitness p2) then p2 else p1

/-- The part of `breed` that makes the offspring, up to mutation. -/
def breedStart (M : EvoOps I Mo U) (model : Mo) (p1 : I) : Option I → Prog I
  | none => pure p1
  | some p2 => M.crossover model p1 p2

/-- The part of `breed` after the mutation. -/
def breedEnd (M : EvoOps I Mo U) (model : Mo) (population : Population I) (fp o : I) : Prog I :=
  M.improve model o >>= fun offspring =>
  M.evaluate model offspring >>= fun offspring =>
  (if isValid offspring then M.canSurvive model offspring fp population else pure false) >>= fun survives =>
  pure (if survives then offspring else fp)

/-- The mutation step of `breed`. -/
def breedMutate (M : EvoOps I Mo U) (model : Mo) (rate : F64) (o : I) : Prog I := do
  let u ← genF64
  if u.lt rate then M.mutate model o else pure o

theorem defaultBreed_eq (M : EvoOps I Mo U) (env : NumEnv) (model : Mo) (population : Population I) (r : ReproParams U) :
    defaultBreed M env model population r = (breedParents M env population r >>= fun ps =>
      breedStart M model ps.1 ps.2 >>= fun o => breedMutate M model r.mutationRate o >>= fun o =>
        breedEnd M model population (fitterParent ps.1 ps.2) o) := by
  have hite : ∀ {α β : Type} (c : Prop) [Decidable c] (x y : Prog α) (k : α → Prog β),
      ((if c then x else y) >>= k) = if c then x >>= k else y >>= k := by
    intro α β c _ x y k; split <;> rfl
  unfold defaultBreed breedParents breedMutate breedEnd
  simp only [bind_assoc, hite, Prog.bind_pure_left]
  congr 1; funext x
  split
  · congr 1; funext u
    split
    · congr 1; funext p2
      cases Option.map Prod.snd p2 <;> rfl
    · rfl
  · rfl

theorem isFittestParent_iff {p1 : I} {p2 : Option I} {f : I} : IsFittestParent p1 p2 f ↔ f = fitterParent p1 p2 := by
  cases p2 with
  | none => rfl
  | some b =>
    unfold IsFittestParent fitterParent
    cases h : (fitness p1).lt (fitness b) <;> simp only [h] <;> simp

theorem yields_breedParents (M : EvoOps I Mo U) (env : NumEnv) (p : Population I) (r : ReproParams U) (p1 : I)
    (p2 : Option I) : (breedParents M env p r).yields (.ok (p1, p2)) ↔ Mating M env p r p1 p2 := by
  unfold breedParents
  simp only [yields_bind_ok, Prod.exists, yields_pure, Res.ok.injEq, Prod.mk.injEq]
  constructor
  · rintro ⟨i, x, h1, c, hc, o, ho, rfl, rfl⟩
    by_cases hl : 1 < p.len
    · rw [if_pos hl] at hc
      obtain ⟨u, hu, e⟩ := (yields_bind_ok _ _ _).1 hc
      cases e
      cases hcr : u.lt r.crossoverRate
      · rw [hcr] at ho
        cases ho
        exact .alone h1 (Or.inr (canSkip_iff.2 ⟨u, hu, hcr⟩))
      · rw [hcr] at ho
        obtain ⟨s, hs, e⟩ := (yields_bind_ok _ _ _).1 ho
        cases e
        cases s with
        | none => exact .gaveUp h1 hl (canFire_iff.2 ⟨u, hu, hcr⟩) hs
        | some s => obtain ⟨j, b⟩ := s; exact .pair h1 hl (canFire_iff.2 ⟨u, hu, hcr⟩) hs
    · rw [if_neg hl] at hc
      cases hc
      cases ho
      exact .alone h1 (Or.inl (Nat.le_of_not_lt hl))
  · intro hm
    cases hm with
    | @alone i _ h1 h2 =>
      by_cases hl : 1 < p.len
      · obtain ⟨u, hu, h⟩ := canSkip_iff.1 (h2.resolve_left (Nat.not_le_of_lt hl))
        refine ⟨i, p1, h1, false, ?_, none, rfl, rfl, rfl⟩
        rw [if_pos hl]
        exact (yields_bind_ok _ _ _).2 ⟨u, hu, by rw [h]; rfl⟩
      · exact ⟨i, p1, h1, false, by rw [if_neg hl]; rfl, none, rfl, rfl, rfl⟩
    | @gaveUp i _ h1 h2 h3 h4 =>
      obtain ⟨u, hu, h⟩ := canFire_iff.1 h3
      refine ⟨i, p1, h1, true, ?_, none, ?_, rfl, rfl⟩
      · rw [if_pos (show p.len > 1 from h2)]
        exact (yields_bind_ok _ _ _).2 ⟨u, hu, by rw [h]; rfl⟩
      · exact (yields_bind_ok _ _ _).2 ⟨none, h4, rfl⟩
    | @pair i j _ b h1 h2 h3 h4 =>
      obtain ⟨u, hu, h⟩ := canFire_iff.1 h3
      refine ⟨i, p1, h1, true, ?_, some b, ?_, rfl, rfl⟩
      · rw [if_pos (show p.len > 1 from h2)]
        exact (yields_bind_ok _ _ _).2 ⟨u, hu, by rw [h]; rfl⟩
      · exact (yields_bind_ok _ _ _).2 ⟨some (j, b), h4, rfl⟩

theorem yields_breedMutate (M : EvoOps I Mo U) (model : Mo) (rate : F64) (o o' : I) :
    (breedMutate M model rate o).yields (.ok o') ↔
      (CanSkip rate ∧ o' = o ∨ CanFire rate ∧ (M.mutate model o).yields (.ok o')) := by
  unfold breedMutate
  rw [yields_bind_ok, canSkip_iff, canFire_iff]
  constructor
  · rintro ⟨u, hu, h⟩
    cases hc : u.lt rate
    · rw [hc] at h; cases h; exact Or.inl ⟨⟨u, hu, hc⟩, rfl⟩
    · rw [hc] at h; exact Or.inr ⟨⟨u, hu, hc⟩, h⟩
  · rintro (⟨⟨u, hu, hc⟩, rfl⟩ | ⟨⟨u, hu, hc⟩, h⟩)
    · exact ⟨u, hu, by rw [hc]; rfl⟩
    · exact ⟨u, hu, by rw [hc]; exact h⟩

theorem yields_breedEnd (M : EvoOps I Mo U) (model : Mo) (p : Population I) (fp o c : I) :
    (breedEnd M model p fp o).yields (.ok c) ↔ ∃ o2 o3, (M.improve model o).yields (.ok o2) ∧
      (M.evaluate model o2).yields (.ok o3) ∧
      ((isValid o3 = true ∧ (M.canSurvive model o3 fp p).yields (.ok true) ∧ c = o3) ∨
       ((isValid o3 = false ∨ (M.canSurvive model o3 fp p).yields (.ok false)) ∧ c = fp)) := by
  unfold breedEnd
  simp only [yields_bind_ok, yields_pure, Res.ok.injEq]
  refine exists_congr fun o2 => ?_
  rw [← exists_and_left]
  refine exists_congr fun o3 => and_congr_right fun _ => and_congr_right fun _ => ?_
  constructor
  · rintro ⟨s, hs, rfl⟩
    by_cases hv : isValid o3 = true
    · rw [if_pos hv] at hs
      cases s
      · exact Or.inr ⟨Or.inr hs, rfl⟩
      · exact Or.inl ⟨hv, hs, rfl⟩
    · rw [if_neg hv] at hs
      cases hs
      exact Or.inr ⟨Or.inl (by simpa using hv), rfl⟩
  · rintro (⟨hv, hs, rfl⟩ | ⟨hv | hs, rfl⟩)
    · exact ⟨true, by rw [if_pos hv]; exact hs, rfl⟩
    · exact ⟨false, by rw [if_neg (by simp [hv])]; rfl, rfl⟩
    · by_cases hv : isValid o3 = true
      · exact ⟨false, by rw [if_pos hv]; exact hs, rfl⟩
      · exact ⟨false, by rw [if_neg hv]; rfl, rfl⟩

theorem yields_breedStart (M : EvoOps I Mo U) (model : Mo) (p1 : I) (p2 : Option I) (o : I) :
    (breedStart M model p1 p2).yields (.ok o) ↔
      (p2 = none ∧ o = p1 ∨ ∃ b, p2 = some b ∧ (M.crossover model p1 b).yields (.ok o)) := by
  cases p2 <;> simp [breedStart]

theorem yields_defaultBreed (M : EvoOps I Mo U) (env : NumEnv) (model : Mo) (p : Population I) (r : ReproParams U) (c : I) :
    (defaultBreed M env model p r).yields (.ok c) ↔ ∃ p1 p2 f o, Mating M env p r p1 p2 ∧ IsFittestParent p1 p2 f ∧
      IsChild M model r.mutationRate p1 p2 o ∧
      ((isValid o = true ∧ (M.canSurvive model o f p).yields (.ok true) ∧ c = o) ∨
       ((isValid o = false ∨ (M.canSurvive model o f p).yields (.ok false)) ∧ c = f)) := by
  rw [defaultBreed_eq]
  simp only [yields_bind_ok, Prod.exists, yields_breedParents, yields_breedStart, yields_breedMutate, yields_breedEnd,
    isFittestParent_iff]
  constructor
  · rintro ⟨p1, p2, hm, o0, h0, o1, h1, o2, o3, h2, h3, hc⟩
    exact ⟨p1, p2, _, o3, hm, rfl, ⟨o0, o1, o2, h0, h1, h2, h3⟩, hc⟩
  · rintro ⟨p1, p2, f, o3, hm, rfl, ⟨o0, o1, o2, h0, h1, h2, h3⟩, hc⟩
    exact ⟨p1, p2, hm, o0, h0, o1, h1, o2, o3, h2, h3, hc⟩

/-! ### Members -/

theorem yields_memberAt {p : Population I} {i : Nat} {r : Nat × I} (h : (Prog.lift (memberAt p i)).yields (.ok r)) :
    IsMember p r := by
  obtain ⟨h1, h2⟩ := memberAt_eq_ok (show memberAt p i = .ok r from Eq.symm h)
  obtain ⟨j, x⟩ := r
  cases h1
  exact ⟨(List.getElem?_eq_some_iff.1 h2).1, h2⟩

theorem Selector.select_isMember (env : NumEnv) (p : Population I) (s : Selector) (r : Nat × I)
    (h : (s.select env p).yields (.ok r)) : IsMember p r := by
  cases s with
  | tournament s =>
    unfold Selector.select TournamentSelection.select at h
    simp only [yields_bind_ok] at h
    obtain ⟨_, _, _, _, _, _, h⟩ := h
    exact yields_memberAt h
  | rouletteWheel s =>
    unfold Selector.select RouletteWheelSelection.select at h
    simp only [yields_bind_ok] at h
    obtain ⟨_, _, _, _, h⟩ := h
    exact yields_memberAt h
  | boltzmann s =>
    unfold Selector.select BoltzmannSelection.select at h
    simp only [yields_bind_ok] at h
    obtain ⟨_, _, _, _, h⟩ := h
    exact yields_memberAt h
  | rank =>
    unfold Selector.select rankSelect at h
    simp only [yields_bind_ok] at h
    obtain ⟨_, _, _, _, o, _, h⟩ := h
    cases o <;> exact yields_memberAt h
  | linear s =>
    unfold Selector.select LinearSelection.select at h
    simp only [yields_bind_ok] at h
    obtain ⟨_, _, _, _, h⟩ := h
    exact yields_memberAt h
  | elitist s =>
    unfold Selector.select ElitistSelection.select at h
    simp only [yields_bind_ok] at h
    obtain ⟨_, _, h⟩ := h
    exact yields_memberAt h

theorem DynSel.select_mem {env : NumEnv} {cs : CustomSelector I U} (hcs : cs.ReturnsMembers) {p : Population I}
    {s : DynSel U} {r : Nat × I} (h : (s.select env cs p).yields (.ok r)) : r.2 ∈ p.individuals := by
  cases s with
  | builtin s => exact (s.select_isMember env p r h).mem
  | custom u => exact hcs u p r h

theorem DynSel.selectDistinct_mem {env : NumEnv} {cs : CustomSelector I U} (hcs : cs.DistinctMembers) {p : Population I}
    {s : DynSel U} {n : Nat} {ex : I} {r : Nat × I} (h : (s.selectDistinct env cs p n ex).yields (.ok (some r))) :
    r.2 ∈ p.individuals ∧ Individual.eq r.2 ex = false := by
  cases s with
  | builtin s =>
    obtain ⟨h1, h2⟩ := selectDistinct_some _ ex n r h
    exact ⟨(s.select_isMember env p r h2).mem, h1⟩
  | custom u => exact hcs u p n ex r h

theorem Mating.mem {M : EvoOps I Mo U} {env : NumEnv} {p : Population I} {r : ReproParams U} {p1 : I} {p2 : Option I}
    (h1 : M.selectors.ReturnsMembers) (h2 : M.selectors.DistinctMembers) (h : Mating M env p r p1 p2) :
    p1 ∈ p.individuals ∧ ∀ b, p2 = some b → b ∈ p.individuals ∧ Individual.eq b p1 = false := by
  cases h with
  | alone h => exact ⟨DynSel.select_mem h1 h, by simp⟩
  | gaveUp h => exact ⟨DynSel.select_mem h1 h, by simp⟩
  | pair h _ _ h' =>
    refine ⟨DynSel.select_mem h1 h, ?_⟩
    rintro b e; cases e
    exact DynSel.selectDistinct_mem h2 h'

theorem IsFittestParent.mem {p : Population I} {p1 : I} {p2 : Option I} {f : I} (h : IsFittestParent p1 p2 f)
    (h1 : p1 ∈ p.individuals) (h2 : ∀ b, p2 = some b → b ∈ p.individuals) : f ∈ p.individuals := by
  cases p2 with
  | none => cases h; exact h1
  | some b =>
    rcases h with ⟨rfl, _⟩ | ⟨rfl, _⟩
    · exact h2 _ rfl
    · exact h1

theorem IsFittestParent.le {p1 : I} {p2 : Option I} {f : I} (h : IsFittestParent p1 p2 f)
    (h1 : (fitness p1).isNaN = false) (h2 : ∀ b, p2 = some b → (fitness b).isNaN = false) :
    (fitness p1).le (fitness f) = true ∧ ∀ b, p2 = some b → (fitness b).le (fitness f) = true := by
  cases p2 with
  | none => cases h; exact ⟨F64.le_refl h1, by simp⟩
  | some b =>
    rcases h with ⟨rfl, h⟩ | ⟨rfl, h⟩
    · refine ⟨F64.le_of_lt h, ?_⟩
      rintro c e; cases e; exact F64.le_refl (h2 _ rfl)
    · refine ⟨F64.le_refl h1, ?_⟩
      rintro c e; cases e; exact F64.le_of_not_lt (h2 _ rfl) h1 h

/-! ### Rates -/

theorem F64.unit_nonneg {k : Nat} (h : k ≤ 2 ^ 53) : F64.zero.le (F64.unit k) = true := by
  obtain ⟨h1, h2⟩ := F64.unit_val h
  rw [F64.le_finite rfl h1, h2]
  show (0 : ℚ) ≤ _
  exact _root_.div_nonneg (Nat.cast_nonneg k) (by norm_num)

theorem F64.unit_lt_one {k : Nat} (h : k < 2 ^ 53) : (F64.unit k).lt F64.one = true := by
  obtain ⟨h1, h2⟩ := F64.unit_val (Nat.le_of_lt h)
  rw [F64.lt_finite h1 rfl, h2]
  show _ < (1 : ℚ)
  rw [div_lt_one (by norm_num)]
  exact_mod_cast h

theorem canFire_iff_pos {rate : F64} : CanFire rate ↔ F64.zero.lt rate = true := by
  constructor
  · rintro ⟨k, hk, h⟩
    exact F64.lt_of_le_of_lt (F64.unit_nonneg (Nat.le_of_lt hk)) h
  · intro h
    refine ⟨0, by norm_num, ?_⟩
    have : F64.unit 0 = F64.zero := by decide +kernel
    rwa [this]

theorem not_canSkip {rate : F64} (h : F64.one.le rate = true) : ¬ CanSkip rate := by
  rintro ⟨k, hk, h'⟩
  rw [F64.lt_of_lt_of_le (F64.unit_lt_one hk) h] at h'
  cases h'

theorem prob_fire {rate : F64} (h : rate.isFinite = true) (h0 : 0 ≤ rate.val) (h1 : rate.val ≤ 1) :
    genF64.prob (fun u => u.lt rate = true) = (⌈rate.val * 2 ^ 53⌉ : ℤ) / 2 ^ 53 := by
  rw [prob_genF64]
  have hc : ((⌈rate.val * 2 ^ 53⌉ : ℤ) : ℚ) = ((⌈rate.val * 2 ^ 53⌉₊ : Nat) : ℚ) := by
    have := Int.natCast_ceil_eq_ceil (a := rate.val * 2 ^ 53) (mul_nonneg h0 (by norm_num))
    exact_mod_cast this.symm
  rw [hc]
  have hle : ⌈rate.val * 2 ^ 53⌉₊ ≤ 2 ^ 53 := by
    rw [Nat.ceil_le]
    have : rate.val * 2 ^ 53 ≤ 1 * 2 ^ 53 := mul_le_mul_of_nonneg_right h1 (by norm_num)
    exact_mod_cast this.trans_eq (by norm_num)
  have hf : (Finset.range (2 ^ 53)).filter (fun k => (F64.unit k).lt rate = true) =
      Finset.range ⌈rate.val * 2 ^ 53⌉₊ := by
    ext k
    rw [Finset.mem_filter, Finset.mem_range, Finset.mem_range]
    constructor
    · rintro ⟨hk, hlt⟩
      obtain ⟨f, v⟩ := F64.unit_val (Nat.le_of_lt hk)
      rw [F64.lt_finite f h, v, div_lt_iff₀ (by norm_num)] at hlt
      exact Nat.lt_ceil.2 hlt
    · intro hk
      have hk' := Nat.lt_of_lt_of_le hk hle
      obtain ⟨f, v⟩ := F64.unit_val (Nat.le_of_lt hk')
      refine ⟨hk', ?_⟩
      rw [F64.lt_finite f h, v, div_lt_iff₀ (by norm_num)]
      exact Nat.lt_ceil.1 hk
  rw [hf, Finset.card_range]

namespace Prog
variable {α β : Type}

theorem probFail_bind_const {p : Prog α} {f : α → Prog β} {q : ℚ} (h : Always (fun a => (f a).probFail = q) p) :
    (p >>= f).probFail = q := by
  unfold probFail
  rw [expect_bind, ← expect_const p q]
  refine expect_congr _ _ _ fun r hr => ?_
  obtain ⟨a, rfl, ha⟩ := h r hr
  exact ha

theorem probFail_of_always {P : α → Prop} {p : Prog α} (h : Always P p) : p.probFail = 0 := by
  unfold probFail
  refine Eq.trans (expect_congr _ _ (fun _ => 0) fun r hr => ?_) (expect_const p 0)
  obtain ⟨a, rfl, _⟩ := h r hr
  rfl

theorem probFail_bind_cond {p : Prog α} {f : α → Prog β} (Q : α → Prop) [DecidablePred Q]
    (h : Always (fun a => (f a).probFail = if Q a then 1 else 0) p) : (p >>= f).probFail = p.prob Q := by
  unfold probFail prob
  rw [expect_bind]
  refine expect_congr _ _ _ fun r hr => ?_
  obtain ⟨a, rfl, ha⟩ := h r hr
  exact ha
end Prog

theorem always_genF64_true : Always (fun _ => True) genF64 := (always_genF64 _).2 fun _ _ => trivial

theorem probFail_breed (M : EvoOps I Mo U) (env : NumEnv) (model : Mo) (p : Population I) (r : ReproParams U)
    (h : Always (fun _ => True) (defaultBreed (M.withMutate fun _ i => pure i) env model p r)) :
    (defaultBreed (M.withMutate fun _ _ => Prog.done .panic) env model p r).probFail =
      genF64.prob (fun u => u.lt r.mutationRate = true) := by
  rw [defaultBreed_eq] at h ⊢
  rw [always_bind] at h
  refine probFail_bind_const (h.mono fun ps hps => ?_)
  rw [always_bind] at hps
  refine probFail_bind_const (hps.mono fun o ho => ?_)
  unfold breedMutate at ho ⊢
  rw [bind_assoc] at ho ⊢
  rw [always_bind] at ho
  refine probFail_bind_cond _ (ho.mono fun u hu => ?_)
  cases hc : u.lt r.mutationRate
  · have hu' : Always (fun _ => True) ((if u.lt r.mutationRate = true then (pure o : Prog I) else pure o) >>= fun o =>
        breedEnd M model p (fitterParent ps.1 ps.2) o) := hu
    rw [hc] at hu'
    exact probFail_of_always hu'
  · rfl

/-! ### No failures -/

theorem always_ite {α : Type} {P : α → Prop} {c : Prop} [Decidable c] {x y : Prog α} (hx : Always P x) (hy : Always P y) :
    Always P (if c then x else y) := by split <;> assumption

/-- If selection and the operators never fail and keep an invariant `P`, so does `breed`. -/
theorem defaultBreed_always (P : I → Prop) (M : EvoOps I Mo U) (env : NumEnv) (model : Mo) (p : Population I)
    (r : ReproParams U) (hsel : Always (fun x => P x.2) (r.parentSelector.select env M.selectors p))
    (hd : ∀ ex, P ex → Always (fun o => ∀ c, o = some c → P c.2) (r.parentSelector.selectDistinct env M.selectors p 3 ex))
    (hc : ∀ a b, P a → P b → Always P (M.crossover model a b)) (hm : ∀ a, P a → Always P (M.mutate model a))
    (hi : ∀ a, P a → Always P (M.improve model a)) (he : ∀ a, P a → Always P (M.evaluate model a))
    (hs : ∀ a f, P a → P f → Always (fun _ => True) (M.canSurvive model a f p)) :
    Always P (defaultBreed M env model p r) := by
  rw [defaultBreed_eq, always_bind]
  have hp : Always (fun ps : I × Option I => P ps.1 ∧ ∀ b, ps.2 = some b → P b) (breedParents M env p r) := by
    unfold breedParents
    rw [always_bind]
    refine hsel.mono fun x hx => ?_
    rw [always_bind]
    have hcr : Always (fun _ : Bool => True)
        (if p.len > 1 then genF64 >>= fun u => pure (u.lt r.crossoverRate) else pure false) := by
      refine always_ite ?_ (by simp)
      rw [always_bind]
      exact always_genF64_true.mono fun u _ => by simp
    refine hcr.mono fun c _ => ?_
    rw [always_bind]
    have h2 : Always (fun o : Option I => ∀ b, o = some b → P b)
        (if c = true then r.parentSelector.selectDistinct env M.selectors p 3 x.2 >>= fun r => pure (r.map Prod.snd)
          else pure none) := by
      refine always_ite ?_ (by simp)
      rw [always_bind]
      refine (hd x.2 hx).mono fun o ho => ?_
      rw [always_pure]
      rintro b hb
      obtain ⟨c, rfl, rfl⟩ := Option.map_eq_some_iff.1 hb
      exact ho c rfl
    refine h2.mono fun o ho => ?_
    rw [always_pure]; exact ⟨hx, ho⟩
  refine hp.mono fun ps hps => ?_
  obtain ⟨p1, p2⟩ := ps
  have hf : P (fitterParent p1 p2) := by
    cases p2 with
    | none => exact hps.1
    | some b => simp only [fitterParent]; split; exacts [hps.2 b rfl, hps.1]
  rw [always_bind]
  have h0 : Always P (breedStart M model p1 p2) := by
    cases p2 with
    | none => unfold breedStart; rw [always_pure]; exact hps.1
    | some b => exact hc p1 b hps.1 (hps.2 b rfl)
  refine h0.mono fun o ho => ?_
  rw [always_bind]
  have h1 : Always P (breedMutate M model r.mutationRate o) := by
    unfold breedMutate
    rw [always_bind]
    exact always_genF64_true.mono fun u _ => always_ite (hm o ho) (by rwa [always_pure])
  refine h1.mono fun o ho => ?_
  unfold breedEnd
  rw [always_bind]
  refine (hi o ho).mono fun o ho => ?_
  rw [always_bind]
  refine (he o ho).mono fun o ho => ?_
  rw [always_bind]
  have h2 : Always (fun _ : Bool => True)
      (if isValid o = true then M.canSurvive model o (fitterParent p1 p2) p else pure false) :=
    always_ite (hs o _ ho hf) (by simp)
  refine h2.mono fun c _ => ?_
  rw [always_pure]
  split <;> assumption

/-! ### Which calls are made -/

theorem breed_same_crossover (M : EvoOps I Mo U) (c : Mo → I → I → Prog I) (env : NumEnv) (model : Mo) (p : Population I)
    (r : ReproParams U) (h : ∀ p1 p2, Mating M env p r p1 (some p2) → (c model p1 p2).Same (M.crossover model p1 p2)) :
    (defaultBreed (M.withCrossover c) env model p r).Same (defaultBreed M env model p r) := by
  rw [defaultBreed_eq, defaultBreed_eq]
  refine Same.bind (Same.refl _) fun ps hps => ?_
  obtain ⟨p1, p2⟩ := ps
  have hm := (yields_breedParents (M.withCrossover c) env p r p1 p2).1 hps
  cases p2 with
  | none => exact Same.refl _
  | some b =>
    refine Same.bind (h p1 b ?_) fun _ _ => Same.refl _
    cases hm with
    | pair h1 h2 h3 h4 => exact .pair h1 h2 h3 h4

theorem breed_same_mutate (M : EvoOps I Mo U) (c : Mo → I → Prog I) (env : NumEnv) (model : Mo) (p : Population I)
    (r : ReproParams U) (h : ¬ CanFire r.mutationRate) :
    (defaultBreed (M.withMutate c) env model p r).Same (defaultBreed M env model p r) := by
  rw [defaultBreed_eq, defaultBreed_eq]
  refine Same.bind (Same.refl _) fun ps _ => ?_
  refine Same.bind ?_ fun o _ => Same.bind ?_ fun _ _ => Same.refl _
  · cases ps.2 <;> exact Same.refl _
  · unfold breedMutate
    refine Same.bind (Same.refl _) fun u hu => ?_
    have : u.lt r.mutationRate = false := by
      by_contra hc
      exact h (canFire_iff.2 ⟨u, hu, by simpa using hc⟩)
    rw [this]
    exact Same.refl _

end RG
