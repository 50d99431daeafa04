import Verif.SpecRun
import Verif.Proofs.Evolution

/-! # Helper lemmas about the path of a run -/

set_option linter.unusedSectionVars false

namespace RG
open Prog
variable {I : Type} [Individual I] {Mo U A P Q : Type}

theorem dedupFrom_eq (x : I) (l : List I) :
    x :: dedupFrom x l = l.destutter' (fun a b => Individual.eq b a = false) x := by
  induction l generalizing x with
  | nil => rfl
  | cons y l ih =>
    rw [dedupFrom, List.destutter']
    by_cases h : Individual.eq y x = true
    · rw [if_pos h, if_neg (by simp [h]), ih]
    · rw [if_neg h, if_pos (by simpa using h), ih]

theorem dedup_eq_destutter (l : List I) : dedup l = l.destutter (fun a b => Individual.eq b a = false) := by
  cases l with
  | nil => rfl
  | cons x l => exact dedupFrom_eq x l

theorem new_iff {sort : List I → List I} (hs : LawfulSort sort) (v : List I) (pop : Population I) :
    Population.new sort v = .ok pop ↔ Starts sort v pop := by
  rw [Population.new_eq hs]
  constructor
  · intro h
    split at h
    · cases h
    · next hv =>
      cases h
      exact ⟨⟨hv, dedup_eq_destutter _, rfl⟩, rfl, rfl⟩
  · rintro ⟨⟨h1, h2, h3⟩, h4, h5⟩
    rw [if_neg h1]
    rw [← dedup_eq_destutter] at h2
    obtain ⟨i, g, s, st⟩ := pop
    simp only at h2 h3 h4 h5
    subst h2 h3 h4 h5
    rfl

theorem replace_iff {sort : List I → List I} (hs : LawfulSort sort) (pop : Population I) (v : List I) (pop' : Population I)
    (old : List I) :
    pop.replace sort v = .ok (pop', old) ↔ Replaces sort pop v pop' ∧ old = pop.individuals := by
  rw [Population.replace_eq hs]
  constructor
  · intro h
    split at h
    · cases h
    · next hv =>
      cases h
      refine ⟨⟨⟨hv, dedup_eq_destutter _, rfl⟩, rfl, fun h => if_pos h, fun h => if_neg ?_⟩, rfl⟩
      intro h'
      exact absurd (h.symm.trans h') (by decide)
  · rintro ⟨⟨⟨h1, h2, h3⟩, h4, h5, h6⟩, rfl⟩
    rw [if_neg h1]
    rw [← dedup_eq_destutter] at h2
    obtain ⟨i, g, s, st⟩ := pop'
    simp only at h2 h3 h4 h5 h6
    subst h2 h3 h4
    congr 3
    split
    · next h => exact (h5 h).symm
    · next h => exact (h6 (Bool.eq_false_iff.2 h)).symm

theorem suffix_iff (l e : List I) (k : Nat) :
    e <:+ l ∧ e.length = min k l.length ↔ e = l.drop (l.length - k) := by
  constructor
  · rintro ⟨h, hl⟩
    rw [List.suffix_iff_eq_drop] at h
    rw [h]
    congr 1
    omega
  · rintro rfl
    refine ⟨List.drop_suffix _ _, ?_⟩
    rw [List.length_drop]
    omega

theorem generate_iff (M : EvoModel I Mo U) (env : NumEnv) (model : Mo) (r : ReproParams U) (n k : Nat) (pop : Population I)
    (members : List I) :
    (defaultGenerate M env model (r, n) pop (takeElites k pop [])).yields (.ok members) ↔
      NextMembers M env model r k n pop members := by
  rw [Props.C52_generate, takeElites_eq, List.nil_append]
  constructor
  · intro h
    generalize he : pop.individuals.drop (pop.individuals.length - k) = el at h
    have hs := (suffix_iff pop.individuals el k).2 he.symm
    rcases h with ⟨h, rfl⟩ | ⟨h, rfl, c, hc⟩ | ⟨h, new, rfl, hl, hb⟩
    · exact ⟨_, [], [], hs.1, hs.2, by simp, by simp; omega, by simp, by simp⟩
    · exact ⟨_, [], [c], hs.1, hs.2, by simp, by simp; omega, by simpa using hc, by simp⟩
    · rw [List.length_append] at hl
      exact ⟨el, new, new, hs.1, hs.2, rfl, by omega, hb, by rw [if_neg (by omega)]⟩
  · rintro ⟨el, new, bred, h1, h2, rfl, h4, h5, rfl⟩
    rw [← (suffix_iff pop.individuals el k).1 ⟨h1, h2⟩]
    rcases hb : n - el.length with _ | _ | m
    · left
      have : bred = [] := List.length_eq_zero_iff.1 (by omega)
      subst this
      exact ⟨by omega, by simp⟩
    · right; left
      rw [if_pos (by omega)]
      obtain ⟨c, rfl⟩ := List.length_eq_one_iff.1 (h4.trans hb)
      exact ⟨by omega, by simp, c, h5 c (by simp)⟩
    · right; right
      rw [if_neg (by omega)]
      exact ⟨by omega, bred, rfl, by rw [List.length_append]; omega, h5⟩

/-- The loop as a path. -/
theorem loop_path (alg : EvoAlgo I Mo U A P) (envs : Nat → Env I) (progress : Q → Population I → Prog (Bool × Q))
    (next : Nat → A → Population I → A → Population I → Prop)
    (hstep : ∀ t (st st' : RunState I A Q), (generationStep alg (envs t) st).yields (.ok st') ↔
      next t st.algo st.population st'.algo st'.population ∧ st'.buffer = st.population.individuals ∧ st'.q = st.q ∧
        st'.shown = st.shown)
    (fuel t : Nat) (st : RunState I A Q) (fin : Bool) (a : A) (pop : Population I) (q : Q) (shown : List (Population I)) :
    (∃ buffer, (evolveLoop alg envs progress fuel t st).yields (.ok (fin, ⟨a, pop, buffer, q, shown⟩))) ↔
      ∃ new, shown = st.shown ++ new ∧ new.length ≤ fuel ∧ (fin = false → new.length = fuel) ∧
        RunPath next progress t st.algo st.population st.q new fin a pop q := by
  induction fuel generalizing t st with
  | zero =>
    constructor
    · rintro ⟨b, h⟩
      cases h
      exact ⟨[], by simp, by simp, by simp, .cut _ _ _ _⟩
    · rintro ⟨new, rfl, h1, h2, h3⟩
      have : new = [] := List.length_eq_zero_iff.1 (by omega)
      subst this
      cases h3
      refine ⟨st.buffer, ?_⟩
      rw [evolveLoop, yields_pure]
      simp
  | succ fuel ih =>
    constructor
    · rintro ⟨b, h⟩
      rcases (yields_evolveLoop_succ _ _ _ _ _ _ _).1 h with ⟨q', h1, h2⟩ | ⟨q', st1, h1, h2, h3⟩
      · cases h2
        exact ⟨[st.population], rfl, by simp, by simp, .stop _ _ _ _ _ h1⟩
      · obtain ⟨n1, -, n3, n4⟩ := (hstep _ _ _).1 h2
        obtain ⟨new, rfl, k1, k2, k3⟩ := (ih (t + 1) st1).1 ⟨b, h3⟩
        refine ⟨st.population :: new, by rw [n4]; simp, by simpa using k1, fun h => by simpa using k2 h, ?_⟩
        refine .step t st.algo st1.algo a st.population st1.population pop st.q q' q new fin h1 n1 ?_
        rw [n3] at k3
        exact k3
    · rintro ⟨new, rfl, h1, h2, h3⟩
      cases h3 with
      | cut => exact absurd (h2 rfl) (by simp)
      | stop _ _ _ _ q' hq =>
        refine ⟨st.buffer, (yields_evolveLoop_succ _ _ _ _ _ _ _).2 (Or.inl ⟨q, hq, rfl⟩)⟩
      | step _ _ a1 _ _ pop1 _ _ q1 _ new' _ hq hn hp =>
        obtain ⟨b, hb⟩ := (ih (t + 1) ⟨a1, pop1, st.population.individuals, q1, st.shown ++ [st.population]⟩).2
          ⟨new', by simp, by simpa using h1, fun h => by simpa using h2 h, hp⟩
        refine ⟨b, (yields_evolveLoop_succ _ _ _ _ _ _ _).2 (Or.inr
          ⟨q1, ⟨a1, pop1, st.population.individuals, q1, st.shown ++ [st.population]⟩, hq,
            (hstep _ _ _).2 ⟨hn, rfl, rfl, rfl⟩, hb⟩)⟩

end RG
