import Verif.Proofs.GaLadder

/-! # Runs that stop when they stagnate: helpers -/

set_option linter.unusedSectionVars false

namespace RG.Props
open RG RG.Prog
variable {I : Type} [Individual I] {Mo U A P Q : Type}

/-- The highest rank of the acceptable individuals whose fitness is at most that of the best of the population. -/
noncomputable def levelOf (ok : I → Prop) (rank : I → Nat) (pop : Population I) : Nat :=
  sSup {r | ∃ y, ok y ∧ (fitness y).le pop.stats.max = true ∧ rank y = r}

section
variable {ok : I → Prop} {rank : I → Nat} {B : Nat}

theorem levelOf_le (hB : ∀ x, ok x → rank x ≤ B) (pop : Population I) : levelOf ok rank pop ≤ B := by
  unfold levelOf
  refine csSup_le' ?_
  rintro r ⟨y, hy, -, rfl⟩
  exact hB y hy

theorem le_levelOf (hB : ∀ x, ok x → rank x ≤ B) (pop : Population I) {y : I} (hy : ok y) (hl : (fitness y).le pop.stats.max = true) :
    rank y ≤ levelOf ok rank pop :=
  le_csSup ⟨B, by rintro r ⟨y, hy, -, rfl⟩; exact hB y hy⟩ ⟨y, hy, hl, rfl⟩

theorem levelOf_mono (hB : ∀ x, ok x → rank x ≤ B) {pop pop' : Population I} (h : pop.stats.max.le pop'.stats.max = true) :
    levelOf ok rank pop ≤ levelOf ok rank pop' := by
  unfold levelOf
  refine csSup_le' ?_
  rintro r ⟨y, hy, hl, rfl⟩
  exact le_levelOf hB pop' hy (F64.le_trans hl h)

theorem levelOf_lt (hB : ∀ x, ok x → rank x ≤ B)
    (hr : ∀ x y, ok x → ok y → (fitness x).lt (fitness y) = true → rank x < rank y) {pop pop' : Population I} {b c : I} (hb : ok b)
    (hbm : fitness b = pop'.stats.max) (hbn : (fitness b).isNaN = false) (hc : ok c) (hcm : fitness c = pop.stats.max)
    (hcn : (fitness c).isNaN = false) (h : pop.stats.max.lt pop'.stats.max = true) :
    levelOf ok rank pop < levelOf ok rank pop' := by
  have hle : rank b ≤ levelOf ok rank pop' := le_levelOf hB pop' hb (by rw [← hbm]; exact F64.le_refl hbn)
  obtain ⟨y, hy, hl, e⟩ : levelOf ok rank pop ∈ {r | ∃ y, ok y ∧ (fitness y).le pop.stats.max = true ∧ rank y = r} :=
    Nat.sSup_mem ⟨rank c, c, hc, by rw [hcm]; rw [hcm] at hcn; exact F64.le_refl hcn, rfl⟩
      ⟨B, by rintro r ⟨y, hy, -, rfl⟩; exact hB y hy⟩
  rw [← e]
  exact lt_of_lt_of_le (hr y b hy hb (by rw [hbm]; exact F64.lt_of_le_of_lt hl h)) hle

end

section
variable {M : EvoModel I Mo U} {alg : EvoAlgo I Mo U A P} {elite size : A → Nat} {eliteOf : P → Nat} {okP : P → Prop}
  {Pr : I → Prop}

/-- Individuals as a run contains them: valid, evaluated, with the property that the operators keep. -/
def Occurs (M : EvoModel I Mo U) (Pr : I → Prop) (x : I) : Prop := Pr x ∧ Evaluated M x ∧ isValid x = true

/-- The states of a run with elites. -/
structure EliteState (M : EvoModel I Mo U) (alg : EvoAlgo I Mo U A P) (elite size : A → Nat) (Pr : I → Prop) (st : RunState I A Q) :
    Prop where
  safe : Safe alg elite size Pr st
  good : GoodPop st.population
  evaluated : ∀ x ∈ st.population.individuals, Evaluated M x
  elite : 1 ≤ elite st.algo

theorem EliteState.show (st : RunState I A Q) (q' : Q) (hs : EliteState M alg elite size Pr st) :
    EliteState M alg elite size Pr { st with q := q', shown := st.shown ++ [st.population] } :=
  ⟨⟨hs.safe.wf, hs.safe.len, hs.safe.prop, hs.safe.sel, hs.safe.two, hs.safe.sizeLt, hs.safe.eliteLe, fun pop hp => by
    rcases List.mem_append.1 hp with hp | hp
    · exact hs.safe.shown pop hp
    · rw [List.mem_singleton.1 hp]; exact hs.safe.prop⟩, hs.good, hs.evaluated, hs.elite⟩

theorem EliteState.step (hstd : Standard M alg elite size eliteOf) (halg : SafeAlgo alg okP) (hM : SafeOps M Pr)
    (hmem : M.selectors.ReturnsMembers) (hdis : M.selectors.DistinctMembers) (hv : ValidNotNaN I) {env : Env I} (henv : env.Lawful)
    {st st' : RunState I A Q} (hs : EliteState M alg elite size Pr st) (h : (generationStep alg env st).yields (.ok st')) :
    EliteState M alg elite size Pr st' := by
  have hf := hstd.step henv h
  refine ⟨(step_always hstd halg hM env henv st hs.safe).partially st' h,
    hf.good henv (breedsValid_default M hM.breed hmem hdis) hv hs.good, fun x hx => ?_, by rw [hf.eliteEq]; exact hs.elite⟩
  obtain ⟨new, m1, m2, -⟩ := hf.made
  rw [m1] at hx
  rcases List.mem_append.1 (mem_dedup_sort henv.sort hx) with hx | hx
  · exact hs.evaluated x (List.mem_of_mem_drop hx)
  · exact bred_evaluated hM.breed hmem hdis _ _ _ _ hs.evaluated x (m2 x hx)

theorem EliteState.best (hv : ValidNotNaN I) {st : RunState I A Q} (hs : EliteState M alg elite size Pr st) :
    ∃ x, Occurs M Pr x ∧ fitness x = st.population.stats.max ∧ (fitness x).isNaN = false := by
  obtain ⟨x, hx, -, hm, -⟩ := hs.good.best hv
  exact ⟨x, ⟨hs.safe.prop x hx, hs.evaluated x hx, hs.good.valid x hx⟩, hm, hv x (hs.good.valid x hx)⟩

/-- The generation is bounded by the level of the best and the stagnation. -/
theorem whileImproving_loop (hstd : Standard M alg elite size eliteOf) (halg : SafeAlgo alg okP) (hM : SafeOps M Pr)
    (hmem : M.selectors.ReturnsMembers) (hdis : M.selectors.DistinctMembers) (hv : ValidNotNaN I) (he : EqFitness I)
    (envs : Nat → Env I) (henv : ∀ t, (envs t).Lawful) (rank : I → Nat) (B : Nat) (hB : ∀ x, Occurs M Pr x → rank x ≤ B)
    (hr : ∀ x y, Occurs M Pr x → Occurs M Pr y → (fitness x).lt (fitness y) = true → rank x < rank y)
    (progress : Q → Population I → Prog (Bool × Q)) (k : Nat)
    (hpr : ∀ q pop b q', (progress q pop).yields (.ok (b, q')) → b = decide (pop.stagnation < k)) (fuel t : Nat) (st : RunState I A Q)
    (hs : EliteState M alg elite size Pr st) (hlen : st.shown.length = st.population.generation)
    (hgen : st.population.generation ≤ levelOf (Occurs M Pr) rank st.population * k + st.population.stagnation)
    (hstag : st.population.stagnation ≤ k) (hfuel : (B + 1) * k + 1 ≤ fuel + st.population.generation) (fin : Bool)
    (st' : RunState I A Q) (h : (evolveLoop alg envs progress fuel t st).yields (.ok (fin, st'))) :
    fin = true ∧ GoodPop st'.population ∧ st'.population.stagnation = k ∧ st'.shown.length = st'.population.generation + 1 ∧
      st'.population.generation ≤ (B + 1) * k := by
  have hbound : ∀ st : RunState I A Q, st.population.generation ≤ levelOf (Occurs M Pr) rank st.population * k + st.population.stagnation →
      st.population.stagnation ≤ k → st.population.generation ≤ (B + 1) * k := by
    intro st h1 h2
    have := Nat.mul_le_mul_right k (levelOf_le hB st.population)
    rw [Nat.add_mul]
    omega
  induction fuel generalizing t st with
  | zero => have := hbound st hgen hstag; omega
  | succ fuel ih =>
    rcases (yields_evolveLoop_succ _ _ _ _ _ _ _).1 h with ⟨q1, g1, e1⟩ | ⟨q1, st2, g1, g2, g3⟩
    · have hd := of_decide_eq_false (hpr _ _ _ _ g1).symm
      cases e1
      exact ⟨rfl, hs.good, by simp only; omega, by simp [hlen], hbound st hgen hstag⟩
    · have hd := of_decide_eq_true (hpr _ _ _ _ g1).symm
      have hs2 := (hs.show st q1).step hstd halg hM hmem hdis hv (henv t) g2
      have hf := hstd.step (henv t) g2
      have hgn := hf.generation
      have hsn := hf.stagnation
      have hmono := hf.best (henv t) (breedsValid_default M hM.breed hmem hdis) hv he hs.good hs.elite
      simp only at hgn hsn hmono
      have hlv := levelOf_mono (ok := Occurs M Pr) (rank := rank) hB hmono
      have hmul := Nat.mul_le_mul_right k hlv
      refine ih (t + 1) st2 hs2 (by rw [hf.shown, hgn]; simp [hlen]) ?_ ?_ (by omega) g3
      · rw [hgn, hsn]
        split
        · rename_i hlt
          obtain ⟨c, hc, hcm, hcn⟩ := hs.best hv
          obtain ⟨b, hb, hbm, hbn⟩ := hs2.best hv
          have := Nat.mul_le_mul_right k (levelOf_lt hB hr hb hbm hbn hc hcm hcn hlt)
          rw [Nat.succ_mul] at this
          omega
        · omega
      · rw [hsn]
        split <;> omega

end
end RG.Props
