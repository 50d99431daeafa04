import Verif.Calls
import Verif.Proofs.Evolution

/-! # Helper lemmas about the number of marks -/

set_option linter.unusedSectionVars false

namespace RG
open Prog
variable {α β : Type}

namespace Prog

/-- Every normal end of `p` with result `a` after `c` marks satisfies `R a c`. -/
def Spent (R : α → Nat → Prop) (p : Prog α) : Prop := ∀ a c, p.spends (.ok a) c → R a c

theorem Spent.mono {R S : α → Nat → Prop} {p : Prog α} (h : Spent R p) (hRS : ∀ a c, R a c → S a c) : Spent S p :=
  fun a c hc => hRS a c (h a c hc)

theorem yields_of_spends {p : Prog α} {r : Res α} {c : Nat} (h : p.spends r c) : p.yields r := by
  induction p generalizing c with
  | done r' => exact h.1
  | pick n k ih =>
    obtain ⟨i, hi, c', h, -⟩ := h
    exact ⟨i, hi, ih i h⟩

theorem spends_of_yields {p : Prog α} {r : Res α} (h : p.yields r) : ∃ c, p.spends r c := by
  induction p with
  | done r' => exact ⟨0, h, rfl⟩
  | pick n k ih =>
    obtain ⟨i, hi, h⟩ := h
    obtain ⟨c, hc⟩ := ih i h
    exact ⟨_, i, hi, c, hc, rfl⟩

theorem Spent.and_yields {R : α → Nat → Prop} {p : Prog α} (h : Spent R p) : Spent (fun a c => p.yields (.ok a) ∧ R a c) p :=
  fun a c hc => ⟨yields_of_spends hc, h a c hc⟩

theorem spends_bind {p : Prog α} {f : α → Prog β} {b : β} {c : Nat} (h : (p >>= f).spends (.ok b) c) :
    ∃ a c1 c2, p.spends (.ok a) c1 ∧ (f a).spends (.ok b) c2 ∧ c = c1 + c2 := by
  induction p generalizing c with
  | done r =>
    cases r with
    | ok a => exact ⟨a, 0, c, ⟨rfl, rfl⟩, h, by omega⟩
    | panic => exact absurd h.1 (by simp)
    | diverge => exact absurd h.1 (by simp)
  | pick n k ih =>
    obtain ⟨i, hi, c', h, rfl⟩ := h
    obtain ⟨a, c1, c2, h1, h2, rfl⟩ := ih i h
    exact ⟨a, _, c2, ⟨i, hi, c1, h1, rfl⟩, h2, by omega⟩

theorem spends_bind_of {p : Prog α} {f : α → Prog β} {a : α} {r : Res β} {c1 c2 : Nat} (h1 : p.spends (.ok a) c1)
    (h2 : (f a).spends r c2) : (p >>= f).spends r (c1 + c2) := by
  induction p generalizing c1 with
  | done r' =>
    obtain ⟨rfl, rfl⟩ := h1
    rw [Nat.zero_add]; exact h2
  | pick n k ih =>
    obtain ⟨i, hi, c', h, rfl⟩ := h1
    exact ⟨i, hi, c' + c2, ih i h, by omega⟩

theorem spent_bind {R : β → Nat → Prop} {p : Prog α} {f : α → Prog β}
    (h : Spent (fun a c => Spent (fun b c' => R b (c + c')) (f a)) p) : Spent R (p >>= f) := fun b c hc => by
  obtain ⟨a, c1, c2, h1, h2, rfl⟩ := spends_bind hc
  exact h a c1 h1 b c2 h2

theorem spent_pure {R : α → Nat → Prop} {a : α} (h : R a 0) : Spent R (pure a : Prog α) := fun b c hc => by
  obtain ⟨h1, rfl⟩ := hc
  cases h1; exact h

theorem spent_lift {R : α → Nat → Prop} {r : Res α} (h : ∀ a, r = .ok a → R a 0) : Spent R (lift r) := fun b c hc => by
  obtain ⟨h1, rfl⟩ := hc
  exact h b h1.symm

theorem spent_ite {R : α → Nat → Prop} {p q : Prog α} (b : Prop) [Decidable b] (hp : Spent R p) (hq : Spent R q) :
    Spent R (if b then p else q) := by
  split
  · exact hp
  · exact hq

theorem Unmarked.spent {p : Prog α} (h : p.Unmarked) : Spent (fun _ c => c = 0) p := by
  intro a c hc
  induction p generalizing c with
  | done r => exact hc.2
  | pick n k ih =>
    obtain ⟨i, hi, c', hc, rfl⟩ := hc
    rw [if_neg h.1, ih i (h.2 i hi) c' hc]

theorem unmarked_pure (a : α) : (pure a : Prog α).Unmarked := trivial
theorem unmarked_lift (r : Res α) : (lift r).Unmarked := trivial

theorem Unmarked.bind {p : Prog α} {f : α → Prog β} (h : p.Unmarked) (hf : ∀ a, p.yields (.ok a) → (f a).Unmarked) :
    (p >>= f).Unmarked := by
  induction p with
  | done r => cases r with
    | ok a => exact hf a rfl
    | panic => trivial
    | diverge => trivial
  | pick n k ih => exact ⟨h.1, fun i hi => ih i (h.2 i hi) fun a ha => hf a ⟨i, hi, ha⟩⟩

theorem Unmarked.replicate {p : Prog α} (h : p.Unmarked) (n : Nat) : (Prog.replicate n p).Unmarked := by
  induction n with
  | zero => exact trivial
  | succ n ih => exact h.bind fun a _ => ih.bind fun _ _ => unmarked_pure _

theorem unmarked_uniform {n : Nat} (h : n ≤ 2 ^ 64) : (uniform n).Unmarked := by
  unfold uniform
  split
  · trivial
  · exact ⟨by unfold markSize; omega, fun i _ => unmarked_pure _⟩

theorem unmarked_rangeExcl {lo hi : Nat} (h : hi ≤ 2 ^ 64) : (rangeExcl lo hi).Unmarked := by
  unfold rangeExcl
  split
  · exact ⟨by unfold markSize; omega, fun i _ => unmarked_pure _⟩
  · trivial

theorem unmarked_rangeIncl {lo hi : Nat} (h : hi < 2 ^ 64) : (rangeIncl lo hi).Unmarked := by
  unfold rangeIncl
  split
  · exact ⟨by unfold markSize; omega, fun i _ => unmarked_pure _⟩
  · trivial

theorem unmarked_genF64 : genF64.Unmarked :=
  (unmarked_uniform (by norm_num)).bind fun _ _ => unmarked_pure _

/-- The cost of a program preceded by a mark. -/
theorem spent_marked {R : α → Nat → Prop} {p : Prog α} {b : Bool} (h : Spent (fun a c => R a ((if b then 1 else 0) + c)) p) :
    Spent R (p.marked b) := by
  unfold marked
  cases b
  · exact h.mono fun a c hc => by simpa using hc
  · rintro a c ⟨i, -, c', hc, rfl⟩
    have := h a c' hc
    simp only [if_true] at this ⊢
    exact this

theorem spent_unmarked {p : Prog α} {b : Bool} (h : p.Unmarked) :
    Spent (fun _ c => c = if b then 1 else 0) (p.marked b) :=
  spent_marked (h.spent.mono fun _ _ hc => by rw [hc]; rfl)

theorem spent_replicate {p : Prog α} {lo hi : Nat} (h : Spent (fun _ c => lo ≤ c ∧ c ≤ hi) p) (n : Nat) :
    Spent (fun _ c => n * lo ≤ c ∧ c ≤ n * hi) (Prog.replicate n p) := by
  induction n with
  | zero => exact spent_pure (by simp)
  | succ n ih =>
    refine spent_bind (h.mono fun a c hc => spent_bind (ih.mono fun b c' hc' => spent_pure ?_))
    rw [Nat.succ_mul, Nat.succ_mul]; omega

theorem spent_mapList {f : α → Prog β} {k : Nat} (h : ∀ a, Spent (fun _ c => c = k) (f a)) (l : List α) :
    Spent (fun _ c => c = l.length * k) (mapList f l) := by
  induction l with
  | nil => exact spent_pure (by simp)
  | cons a l ih =>
    refine spent_bind ((h a).mono fun b c hc => spent_bind (ih.mono fun bs c' hc' => spent_pure ?_))
    rw [List.length_cons, Nat.succ_mul]; omega

/-! ### Programs with the same law -/

/-- The outcomes have the same probabilities. -/
def EqLaw (p q : Prog α) : Prop := ∀ g, p.expect g = q.expect g

theorem EqLaw.refl (p : Prog α) : EqLaw p p := fun _ => rfl

theorem EqLaw.bind {p q : Prog α} {f f' : α → Prog β} (h : EqLaw p q) (hf : ∀ a, EqLaw (f a) (f' a)) :
    EqLaw (p >>= f) (q >>= f') := fun g => by
  rw [expect_bind, expect_bind, h]
  refine expect_congr _ _ _ fun r _ => ?_
  cases r with
  | ok a => exact hf a g
  | panic => rfl
  | diverge => rfl

theorem EqLaw.marked (b : Bool) (p : Prog α) : EqLaw (p.marked b) p := fun g => by
  unfold Prog.marked
  cases b
  · rfl
  · rw [if_pos rfl, expect_pick]
    simp only [Finset.sum_const, Finset.card_range, nsmul_eq_mul]
    have : ((markSize : ℚ) + 1) ≠ 0 := by positivity
    push_cast
    field_simp

theorem EqLaw.replicate {p q : Prog α} (h : EqLaw p q) (n : Nat) : EqLaw (Prog.replicate n p) (Prog.replicate n q) := by
  induction n with
  | zero => exact EqLaw.refl _
  | succ n ih => exact h.bind fun a => ih.bind fun _ => EqLaw.refl _

theorem EqLaw.mapList {f f' : α → Prog β} (h : ∀ a, EqLaw (f a) (f' a)) (l : List α) : EqLaw (mapList f l) (mapList f' l) := by
  induction l with
  | nil => exact EqLaw.refl _
  | cons a l ih => exact (h a).bind fun b => ih.bind fun _ => EqLaw.refl _

theorem EqLaw.ite {p p' q q' : Prog α} (c : Prop) [Decidable c] (h : EqLaw p q) (h' : EqLaw p' q') :
    EqLaw (if c then p else p') (if c then q else q') := by
  split
  · exact h
  · exact h'

end Prog

/-! ### Selection -/

variable {I : Type} [Individual I] {Mo U A P Q : Type}

theorem totalRanks_lt {n t : Nat} (h : totalRanks n = .ok t) : t < 2 ^ 64 := by
  unfold totalRanks usizeAdd usizeMul at h
  split at h
  · simp only [Res.bind_ok] at h
    split at h
    · simp only [Res.bind_ok, Res.pure_eq, Res.ok.injEq] at h
      omega
    · cases h
  · cases h

theorem Selector.unmarked (env : NumEnv) (s : Selector) (p : Population I) (hp : p.len ≤ 2 ^ 64) : (s.select env p).Unmarked := by
  cases s with
  | tournament s =>
    exact (unmarked_lift _).bind fun _ _ => ((unmarked_uniform hp).replicate _).bind fun _ _ => (unmarked_lift _).bind fun _ _ => unmarked_lift _
  | rouletteWheel s => exact unmarked_genF64.bind fun _ _ => (unmarked_lift _).bind fun _ _ => unmarked_lift _
  | boltzmann s => exact unmarked_genF64.bind fun _ _ => (unmarked_lift _).bind fun _ _ => unmarked_lift _
  | rank =>
    refine (unmarked_lift _).bind fun t ht => (unmarked_rangeIncl (totalRanks_lt ((yields_lift _ _).1 ht).symm)).bind fun _ _ =>
      (unmarked_lift _).bind fun r _ => ?_
    cases r <;> exact unmarked_lift _
  | linear s => exact unmarked_genF64.bind fun _ _ => (unmarked_lift _).bind fun _ _ => unmarked_lift _
  | elitist s => exact (unmarked_rangeExcl hp).bind fun _ _ => unmarked_lift _

theorem selectDistinct_unmarked {sel : Prog (Nat × I)} (h : sel.Unmarked) (x : I) (n : Nat) : (selectDistinct sel x n).Unmarked := by
  induction n with
  | zero => exact unmarked_pure _
  | succ n ih =>
    refine h.bind fun a _ => ?_
    obtain ⟨i, c⟩ := a
    show Prog.Unmarked (if _ then _ else _)
    split
    · exact unmarked_pure _
    · exact ih

theorem DynSel.unmarked_select {M : EvoOps I Mo U} (hM : M.Unmarked) (env : NumEnv) (s : DynSel U) (p : Population I)
    (hp : p.len ≤ 2 ^ 64) : (s.select env M.selectors p).Unmarked := by
  cases s with
  | builtin s => exact s.unmarked env p hp
  | custom u => exact hM.select u p

theorem DynSel.unmarked_distinct {M : EvoOps I Mo U} (hM : M.Unmarked) (env : NumEnv) (s : DynSel U) (p : Population I)
    (hp : p.len ≤ 2 ^ 64) (n : Nat) (x : I) : (s.selectDistinct env M.selectors p n x).Unmarked := by
  cases s with
  | builtin s => exact selectDistinct_unmarked (s.unmarked env p hp) x n
  | custom u => exact hM.selectDistinct u p n x

/-! ### Breeding -/

theorem breedParents_unmarked {M : EvoOps I Mo U} (hM : M.Unmarked) (env : NumEnv) (p : Population I) (hp : p.len ≤ 2 ^ 64)
    (r : ReproParams U) : (breedParents M env p r).Unmarked := by
  refine (DynSel.unmarked_select hM env _ p hp).bind fun x _ => Unmarked.bind ?_ fun cross _ => Unmarked.bind ?_ fun _ _ => unmarked_pure _
  · split
    · exact unmarked_genF64.bind fun _ _ => unmarked_pure _
    · exact unmarked_pure _
  · split
    · exact (DynSel.unmarked_distinct hM env _ p hp _ _).bind fun _ _ => unmarked_pure _
    · exact unmarked_pure _

theorem breed_spent (op : Method) {M : EvoOps I Mo U} (hM : M.Unmarked) (env : NumEnv) (model : Mo) (p : Population I)
    (hp : p.len ≤ 2 ^ 64) (r : ReproParams U) :
    Spent (fun _ c => op.least ≤ c ∧ c ≤ op.most) (defaultBreed (M.counting op) env model p r) := by
  rw [defaultBreed_eq]
  refine spent_bind (Spent.mono (R := fun _ c => c = 0) (breedParents_unmarked hM env p hp r).spent fun ps c1 h1 => ?_)
  refine spent_bind (Spent.mono (R := fun _ c => c ≤ if op = .crossover then 1 else 0) ?_ fun o c4 h4 => ?_)
  · obtain ⟨x, _ | y⟩ := ps
    · exact spent_pure (Nat.zero_le _)
    · exact (spent_unmarked (hM.crossover _ _ _)).mono fun o c hc => by rw [hc]; simp
  refine spent_bind (Spent.mono (R := fun _ c => c ≤ if op = .mutate then 1 else 0) ?_ fun o c6 h6 => ?_)
  · refine spent_bind (unmarked_genF64.spent.mono fun u c5 h5 => ?_)
    subst h5
    exact spent_ite _ ((spent_unmarked (hM.mutate _ _)).mono fun o c hc => by rw [hc]; simp) (spent_pure (Nat.zero_le _))
  refine spent_bind ((spent_unmarked (hM.improve _ _)).mono fun o c7 h7 => ?_)
  refine spent_bind ((spent_unmarked (hM.evaluate _ _)).mono fun o c8 h8 => ?_)
  refine spent_bind (Spent.mono (R := fun _ c => c ≤ if op = .canSurvive then 1 else 0) ?_ fun b c9 h9 => ?_)
  · exact spent_ite _ ((spent_unmarked (hM.canSurvive _ _ _ _)).mono fun o c hc => by rw [hc]; simp) (spent_pure (Nat.zero_le _))
  refine spent_pure ?_
  cases op <;> simp [Method.least, Method.most] at * <;> omega

theorem breed_law (op : Method) (M : EvoOps I Mo U) (env : NumEnv) (model : Mo) (p : Population I) (r : ReproParams U) :
    EqLaw (defaultBreed (M.counting op) env model p r) (defaultBreed M env model p r) := by
  rw [defaultBreed_eq, defaultBreed_eq]
  refine EqLaw.bind (EqLaw.refl _) fun ps => EqLaw.bind ?_ fun o => EqLaw.bind ?_ fun o => EqLaw.bind (EqLaw.marked _ _) fun o =>
    EqLaw.bind (EqLaw.marked _ _) fun o => EqLaw.bind ?_ fun _ => EqLaw.refl _
  · obtain ⟨x, _ | y⟩ := ps
    · exact EqLaw.refl _
    · exact EqLaw.marked _ _
  · exact EqLaw.bind (EqLaw.refl _) fun u => EqLaw.ite _ (EqLaw.marked _ _) (EqLaw.refl _)
  · exact EqLaw.ite _ (EqLaw.marked _ _) (EqLaw.refl _)

theorem generate_law (op : Method) (M : EvoModel I Mo U) (hM : M.breed = defaultBreed M.toEvoOps) (env : NumEnv) (model : Mo)
    (r : ReproParams U × Nat) (p : Population I) (l : List I) :
    EqLaw (defaultGenerate (M.counting op) env model r p l) (defaultGenerate M env model r p l) := by
  have hb : EqLaw ((M.counting op).breed env model p r.1) (M.breed env model p r.1) := by
    rw [hM]; exact breed_law op M.toEvoOps env model p r.1
  obtain ⟨r, n⟩ := r
  simp only [defaultGenerate]
  split
  · exact EqLaw.refl _
  · exact hb.bind fun _ => EqLaw.refl _
  · exact (hb.replicate _).bind fun _ => EqLaw.refl _

theorem generate_spent (op : Method) {M : EvoModel I Mo U} (hM : M.toEvoOps.Unmarked) (env : NumEnv) (model : Mo) (p : Population I)
    (hp : p.len ≤ 2 ^ 64) (r : ReproParams U × Nat) (l : List I) :
    Spent (fun _ c => (r.2 - l.length) * op.least ≤ c ∧ c ≤ (r.2 - l.length) * op.most)
      (defaultGenerate (M.counting op) env model r p l) := by
  have hb := breed_spent op hM env model p hp r.1
  obtain ⟨r, n⟩ := r
  simp only [defaultGenerate]
  split
  · rename_i h; rw [h]; exact spent_pure (by simp)
  · rename_i h; rw [h]
    exact spent_bind (hb.mono fun _ c hc => spent_pure (by simpa using hc))
  · exact spent_bind ((spent_replicate hb _).mono fun _ c hc => spent_pure (by simpa using hc))

/-! ### Runs -/

/-- What counting needs to know about an algorithm. -/
structure CountedAlgo (op : Method) (alg : EvoAlgo I Mo U A P) : Prop where
  prepare : ∀ env a p, Spent (fun _ c => c = if op = .preGeneration then 1 else 0) (alg.prepare env a p)

/-- The number of calls in a generation with `n` bred individuals, given the number per individual. -/
def Method.inGeneration (op : Method) (each n : Nat) : Nat := (if op = .preGeneration then 1 else 0) + n * each

section
variable {op : Method} {M : EvoModel I Mo U} {alg : EvoAlgo I Mo U A P} {elite size : A → Nat} {eliteOf : P → Nat}

theorem step_spent (hM : M.toEvoOps.Unmarked) (hstd : Standard (M.counting op) alg elite size eliteOf) (h : CountedAlgo op alg)
    (env : Env I) (st : RunState I A Q) (hl : st.population.len ≤ 2 ^ 64) :
    Spent (fun _ c => op.inGeneration op.least (size st.algo - min (elite st.algo) st.population.len) ≤ c ∧
      c ≤ op.inGeneration op.most (size st.algo - min (elite st.algo) st.population.len)) (generationStep alg env st) := by
  refine spent_bind ((h.prepare _ _ _).and_yields.mono fun a c1 ⟨ha, h1⟩ => ?_)
  obtain ⟨e1, e2⟩ := hstd.prepare _ _ _ _ ha
  rw [hstd.elites, takeElites_eq]
  refine spent_bind (spent_lift fun el hel => ?_)
  rw [hstd.generate]
  refine spent_bind ((generate_spent op hM env.num _ _ hl _ el).mono fun buf c2 h2 => ?_)
  refine spent_bind (spent_lift fun x hx => spent_pure ?_)
  cases hel
  rw [hstd.bred, e2, List.nil_append, List.length_drop, e1] at h2
  have hlen : st.population.individuals.length - (st.population.individuals.length - elite st.algo) =
      min (elite st.algo) st.population.len := by show _ = min _ st.population.individuals.length; omega
  rw [hlen] at h2
  unfold Method.inGeneration
  omega

theorem loop_spent (hM : M.toEvoOps.Unmarked) (hstd : Standard (M.counting op) alg elite size eliteOf) (h : CountedAlgo op alg)
    (envs : Nat → Env I) (henv : ∀ t, (envs t).Lawful) (progress : Q → Population I → Prog (Bool × Q))
    (hq : ∀ q p, (progress q p).Unmarked) (N E fuel t : Nat) (st : RunState I A Q)
    (hl : st.population.len ≤ 2 ^ 64) (hN : size st.algo = N) (hE : elite st.algo = E) (hEN : E ≤ N) (hsz : N ≤ 2 ^ 64) :
    Spent (fun x c => ∃ new, x.2.shown = st.shown ++ new ∧ (x.1 = true → new ≠ []) ∧
        ((bredFrom x.1 new).map fun p => op.inGeneration op.least (N - min E p.len)).sum ≤ c ∧
        c ≤ ((bredFrom x.1 new).map fun p => op.inGeneration op.most (N - min E p.len)).sum)
      (evolveLoop alg envs progress fuel t st) := by
  induction fuel generalizing t st with
  | zero => exact spent_pure ⟨[], by simp, by simp, by simp [bredFrom], by simp [bredFrom]⟩
  | succ fuel ih =>
    rw [evolveLoop]
    refine spent_bind ((hq _ _).spent.mono fun ⟨cont, q'⟩ c0 h0 => ?_)
    subst h0
    cases cont
    · exact spent_pure ⟨[st.population], by simp, by simp, by simp [bredFrom], by simp [bredFrom]⟩
    · simp only [if_true]
      refine spent_bind (((step_spent hM hstd h (envs t) { st with q := q', shown := st.shown ++ [st.population] } hl).and_yields).mono
        fun st1 c1 ⟨hs1, h1, h2⟩ => ?_)
      have hstep := hstd.step (henv t) hs1
      have he : elite st1.algo = elite st.algo := hstep.eliteEq
      have hz : size st1.algo = size st.algo := hstep.sizeEq
      obtain ⟨new, m1, -, m3⟩ := hstep.made
      have hl1 : st1.population.len ≤ 2 ^ 64 := by
        show st1.population.individuals.length ≤ _
        rw [m1]
        refine ((length_dedup_sort (henv t).sort _).trans (m3 ?_)).trans ?_
        · show elite st.algo ≤ size st.algo; omega
        · show size st.algo ≤ _; omega
      refine (ih (t + 1) st1 hl1 (by omega) (by omega)).mono ?_
      rintro ⟨fin, st'⟩ c ⟨new, n1, n2, n3, n4⟩
      have hshown : st1.shown = st.shown ++ [st.population] := hstep.shown
      simp only at n1 n2 n3 n4 h1 h2
      rw [hN, hE] at h1 h2
      have hb : bredFrom fin (st.population :: new) = st.population :: bredFrom fin new := by
        cases fin
        · rfl
        · exact List.dropLast_cons_of_ne_nil (n2 rfl)
      refine ⟨st.population :: new, by rw [n1, hshown]; simp, by simp, ?_, ?_⟩
      · simp only [hb, List.map_cons, List.sum_cons]; omega
      · simp only [hb, List.map_cons, List.sum_cons]; omega

theorem run_spent (hM : M.toEvoOps.Unmarked) (hstd : Standard (M.counting op) alg elite size eliteOf) (h : CountedAlgo op alg)
    (envs : Nat → Env I) (henv : ∀ t, (envs t).Lawful) (progress : Q → Population I → Prog (Bool × Q))
    (hq : ∀ q p, (progress q p).Unmarked) (fuel : Nat) (a : A) (init : List I) (hl : init.length ≤ 2 ^ 64) (p : P)
    (hp : alg.initialSize p ≤ 2 ^ 53) (q : Q) :
    Spent (fun x c =>
        (if op = .evaluate then init.length else 0) +
          ((bredFrom x.1 x.2.shown).map fun pop => op.inGeneration op.least (alg.initialSize p - min (eliteOf p) pop.len)).sum ≤ c ∧
        c ≤ (if op = .evaluate then init.length else 0) +
          ((bredFrom x.1 x.2.shown).map fun pop => op.inGeneration op.most (alg.initialSize p - min (eliteOf p) pop.len)).sum)
      (evolvePopulation alg envs progress fuel a init p q) := by
  unfold evolvePopulation
  refine spent_bind (spent_lift fun a' ha' => ?_)
  obtain ⟨-, s1, s2, s3⟩ := hstd.configure _ _ _ ha' hp
  rw [hstd.init]
  refine spent_bind (Spent.mono (Spent.and_yields (R := fun _ c => c = if op = .evaluate then init.length else 0) ?_)
    fun pop c ⟨hpop, hc⟩ => ?_)
  · refine spent_bind ((spent_mapList (fun x => spent_unmarked (hM.evaluate _ x)) init).mono fun ev c hc => spent_lift fun pop hpop => ?_)
    rw [hc]; simp
  · obtain ⟨-, -, -, g3, -⟩ := init_wf (henv 0) hpop
    refine (loop_spent hM hstd h envs henv progress hq (alg.initialSize p) (eliteOf p) fuel 1
      { algo := a', population := pop, buffer := [], q, shown := [] } (g3.trans hl) s1 s2 s3.le (hp.trans (by norm_num))).mono ?_
    rintro ⟨fin, st⟩ c' ⟨new, n1, -, n3, n4⟩
    simp only [List.nil_append] at n1
    subst n1
    simp only at n3 n4 ⊢
    omega

end

/-! ### The law of a run -/

/-- What counting must not change of an algorithm. -/
structure SameAlgo (alg alg' : EvoAlgo I Mo U A P) : Prop where
  configure : ∀ a p, alg'.configure a p = alg.configure a p
  init : ∀ env a l, EqLaw (alg'.initPopulation env a l) (alg.initPopulation env a l)
  elites : ∀ a p l, alg'.selectElites a p l = alg.selectElites a p l
  prepare : ∀ env a p, EqLaw (alg'.prepare env a p) (alg.prepare env a p)
  generate : ∀ env a p l, EqLaw (alg'.generate env a p l) (alg.generate env a p l)
  replace : ∀ env a p l, alg'.replace env a p l = alg.replace env a p l

theorem run_law {alg alg' : EvoAlgo I Mo U A P} (h : SameAlgo alg alg') (envs : Nat → Env I)
    (progress : Q → Population I → Prog (Bool × Q)) (fuel : Nat) (a : A) (init : List I) (p : P) (q : Q) :
    EqLaw (evolvePopulation alg' envs progress fuel a init p q) (evolvePopulation alg envs progress fuel a init p q) := by
  have hloop : ∀ (fuel t : Nat) (st : RunState I A Q),
      EqLaw (evolveLoop alg' envs progress fuel t st) (evolveLoop alg envs progress fuel t st) := by
    intro fuel
    induction fuel with
    | zero => exact fun _ _ => EqLaw.refl _
    | succ fuel ih =>
      intro t st
      rw [evolveLoop, evolveLoop]
      refine EqLaw.bind (EqLaw.refl _) fun ⟨cont, q'⟩ => EqLaw.ite _ (EqLaw.bind ?_ fun st1 => ih _ _) (EqLaw.refl _)
      unfold generationStep
      simp only [h.elites, h.replace]
      exact (h.prepare _ _ _).bind fun a => EqLaw.bind (EqLaw.refl _) fun el => (h.generate _ _ _ _).bind fun _ => EqLaw.refl _
  unfold evolvePopulation
  rw [h.configure]
  exact EqLaw.bind (EqLaw.refl _) fun a' => (h.init _ _ _).bind fun _ => hloop _ _ _

theorem initialize_law (op : Method) (M : EvoModel I Mo U) (env : Env I) (model : Mo) (l : List I) :
    EqLaw (defaultInitialize (M.counting op) env model l) (defaultInitialize M env model l) :=
  (EqLaw.mapList (fun _ => EqLaw.marked _ _) l).bind fun _ => EqLaw.refl _

theorem ga_sameAlgo (op : Method) (M : EvoModel I Mo U) (hM : M.breed = defaultBreed M.toEvoOps) : SameAlgo (ga M) (ga (M.counting op)) where
  configure _ _ := rfl
  init env a l := initialize_law op M env a.model l
  elites _ _ _ := rfl
  prepare env a p := (EqLaw.marked _ _).bind fun _ => EqLaw.refl _
  generate env a p l := generate_law op M hM env a.model (a.breeding, a.populationSize) p l
  replace _ _ _ _ := rfl

theorem aga_sameAlgo (op : Method) (M : EvoModel I Mo U) (hM : M.breed = defaultBreed M.toEvoOps) : SameAlgo (aga M) (aga (M.counting op)) where
  configure _ _ := rfl
  init env a l := initialize_law op M env a.model l
  elites _ _ _ := rfl
  prepare env a p := (EqLaw.marked _ _).bind fun _ => EqLaw.refl _
  generate env a p l := generate_law op M hM env a.model (a.breeding, a.populationSize) p l
  replace _ _ _ _ := rfl

theorem ga_counted (op : Method) {M : EvoModel I Mo U} (hM : M.toEvoOps.Unmarked) : CountedAlgo op (ga (M.counting op)) where
  prepare env a p := spent_bind ((spent_unmarked (hM.preGeneration _ _ _)).mono fun _ c hc => spent_pure (by rw [hc]; simp))

theorem aga_counted (op : Method) {M : EvoModel I Mo U} (hM : M.toEvoOps.Unmarked) : CountedAlgo op (aga (M.counting op)) where
  prepare env a p := spent_bind ((spent_unmarked (hM.preGeneration _ _ _)).mono fun _ c hc => spent_pure (by rw [hc]; simp))

end RG
