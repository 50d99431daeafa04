import Verif.SpecDraws
import Verif.Proofs.Evolution
import Verif.Proofs.Gpx2
import Verif.Proofs.Calls

/-! # Helper lemmas about the number of random draws -/

set_option linter.unusedSectionVars false

namespace RG
open Prog
variable {α β : Type}

namespace Prog

/-- Every normal end of `p` with result `a` after `c` draws satisfies `R a c`. -/
def Drawn (R : α → Nat → Prop) (p : Prog α) : Prop := ∀ a c, p.draws (.ok a) c → R a c

theorem Drawn.mono {R S : α → Nat → Prop} {p : Prog α} (h : Drawn R p) (hRS : ∀ a c, R a c → S a c) : Drawn S p :=
  fun a c hc => hRS a c (h a c hc)

theorem yields_of_drawing {p : Prog α} {r : Res α} {c : Nat} (h : p.draws r c) : p.yields r := by
  induction p generalizing c with
  | done r' => exact h.1
  | pick n k ih =>
    obtain ⟨i, hi, c', h, -⟩ := h
    exact ⟨i, hi, ih i h⟩

theorem draws_of_yields {p : Prog α} {r : Res α} (h : p.yields r) : ∃ c, p.draws r c := by
  induction p with
  | done r' => exact ⟨0, h, rfl⟩
  | pick n k ih =>
    obtain ⟨i, hi, h⟩ := h
    obtain ⟨c, hc⟩ := ih i h
    exact ⟨_, i, hi, c, hc, rfl⟩

theorem Drawn.and_yields {R : α → Nat → Prop} {p : Prog α} (h : Drawn R p) : Drawn (fun a c => p.yields (.ok a) ∧ R a c) p :=
  fun a c hc => ⟨yields_of_drawing hc, h a c hc⟩

theorem draws_bind {p : Prog α} {f : α → Prog β} {b : β} {c : Nat} (h : (p >>= f).draws (.ok b) c) :
    ∃ a c1 c2, p.draws (.ok a) c1 ∧ (f a).draws (.ok b) c2 ∧ c = c1 + c2 := by
  induction p generalizing c with
  | done r =>
    cases r with
    | ok a => exact ⟨a, 0, c, ⟨rfl, rfl⟩, h, by omega⟩
    | panic => exact absurd h.1 (by simp)
    | diverge => exact absurd h.1 (by simp)
  | pick n k ih =>
    obtain ⟨i, hi, c', h, rfl⟩ := h
    obtain ⟨a, c1, c2, h1, h2, rfl⟩ := ih i h
    exact ⟨a, _, c2, ⟨i, hi, c1, h1, rfl⟩, h2, by omega⟩

theorem draws_bind_of {p : Prog α} {f : α → Prog β} {a : α} {r : Res β} {c1 c2 : Nat} (h1 : p.draws (.ok a) c1)
    (h2 : (f a).draws r c2) : (p >>= f).draws r (c1 + c2) := by
  induction p generalizing c1 with
  | done r' =>
    obtain ⟨rfl, rfl⟩ := h1
    rw [Nat.zero_add]; exact h2
  | pick n k ih =>
    obtain ⟨i, hi, c', h, rfl⟩ := h1
    exact ⟨i, hi, c' + c2, ih i h, by omega⟩

theorem drawn_bind {R : β → Nat → Prop} {p : Prog α} {f : α → Prog β}
    (h : Drawn (fun a c => Drawn (fun b c' => R b (c + c')) (f a)) p) : Drawn R (p >>= f) := fun b c hc => by
  obtain ⟨a, c1, c2, h1, h2, rfl⟩ := draws_bind hc
  exact h a c1 h1 b c2 h2

theorem drawn_pure {R : α → Nat → Prop} {a : α} (h : R a 0) : Drawn R (pure a : Prog α) := fun b c hc => by
  obtain ⟨h1, rfl⟩ := hc
  cases h1; exact h

theorem drawn_lift {R : α → Nat → Prop} {r : Res α} (h : ∀ a, r = .ok a → R a 0) : Drawn R (lift r) := fun b c hc => by
  obtain ⟨h1, rfl⟩ := hc
  exact h b h1.symm

theorem drawn_panic {R : α → Nat → Prop} : Drawn R (done .panic : Prog α) := fun _ _ hc => by cases hc.1

theorem drawn_diverge {R : α → Nat → Prop} : Drawn R (done .diverge : Prog α) := fun _ _ hc => by cases hc.1

theorem drawn_ite {R : α → Nat → Prop} {p q : Prog α} (b : Prop) [Decidable b] (hp : b → Drawn R p) (hq : ¬ b → Drawn R q) :
    Drawn R (if b then p else q) := by
  split
  · exact hp ‹_›
  · exact hq ‹_›

theorem drawn_uniform {R : Nat → Nat → Prop} {n : Nat} (h : ∀ i, i < n → R i 1) : Drawn R (uniform n) := by
  unfold uniform
  split
  · exact drawn_panic
  · rintro a c ⟨i, hi, c', ⟨h1, rfl⟩, rfl⟩
    cases h1
    exact h _ (by omega)

theorem drawn_rangeExcl {R : Nat → Nat → Prop} {lo hi : Nat} (h : ∀ i, lo ≤ i → i < hi → R i 1) : Drawn R (rangeExcl lo hi) := by
  unfold rangeExcl
  split
  · rintro a c ⟨i, hi, c', ⟨h1, rfl⟩, rfl⟩
    cases h1
    exact h _ (by omega) (by omega)
  · exact drawn_panic

theorem drawn_rangeIncl {R : Nat → Nat → Prop} {lo hi : Nat} (h : ∀ i, lo ≤ i → i ≤ hi → R i 1) : Drawn R (rangeIncl lo hi) := by
  unfold rangeIncl
  split
  · rintro a c ⟨i, hi, c', ⟨h1, rfl⟩, rfl⟩
    cases h1
    exact h _ (by omega) (by omega)
  · exact drawn_panic

theorem drawn_genF64 {R : F64 → Nat → Prop} (h : ∀ u, R u 1) : Drawn R genF64 :=
  drawn_bind (drawn_uniform fun _ _ => drawn_pure (h _))

theorem drawn_replicate {p : Prog α} {lo hi : Nat} (h : p.DrawsBetween lo hi) (n : Nat) :
    Drawn (fun _ c => n * lo ≤ c ∧ c ≤ n * hi) (Prog.replicate n p) := by
  induction n with
  | zero => exact drawn_pure (by simp)
  | succ n ih =>
    refine drawn_bind (Drawn.mono h fun a c hc => drawn_bind (ih.mono fun b c' hc' => drawn_pure ?_))
    rw [Nat.succ_mul, Nat.succ_mul]; omega

theorem drawn_mapList {f : α → Prog β} (h : ∀ a, (f a).DrawsExactly 0) (l : List α) :
    Drawn (fun _ c => c = 0) (mapList f l) := by
  induction l with
  | nil => exact drawn_pure rfl
  | cons a l ih => exact drawn_bind (Drawn.mono (h a) fun b c hc => drawn_bind (ih.mono fun bs c' hc' => drawn_pure (by omega)))

end Prog

/-! ### Operators -/

variable {G : Type}

theorem drawn_randomPair {R : Nat × Nat → Nat → Prop} {n : Nat} (h : ∀ x, R x 2) : Drawn R (randomPair n) :=
  drawn_bind (drawn_lift fun _ _ => drawn_bind (drawn_rangeExcl fun _ _ _ => drawn_bind (drawn_rangeExcl fun _ _ _ => drawn_pure (h _))))

theorem drawn_bounded {R : URange → Nat → Prop} {n lo hi : Nat}
    (h : ∀ start len, lo ≤ len → len ≤ hi → start + len ≤ n → R ⟨start, start + len⟩ 2) : Drawn R (boundedRandomRange n lo hi) := by
  refine drawn_bind (drawn_rangeIncl fun len h1 h2 => drawn_bind (drawn_lift fun last hl => drawn_bind (drawn_rangeIncl fun s _ hs =>
    drawn_pure (h s len h1 h2 ?_))))
  unfold usizeSub at hl
  split at hl
  · cases hl; omega
  · cases hl

theorem drawn_shuffleLoop (i : Nat) (l : List G) : Drawn (fun _ c => c = i) (shuffleLoop i l) := by
  induction i generalizing l with
  | zero => exact drawn_pure rfl
  | succ i ih => exact drawn_bind (drawn_rangeExcl fun _ _ _ => drawn_bind (drawn_lift fun l' _ => (ih l').mono fun _ c hc => by omega))

theorem drawn_onSlice {R : List G → Nat → Prop} {l : List G} {start stop : Nat} {f : List G → Prog (List G)}
    (h : start ≤ stop → stop ≤ l.length → Drawn (fun seg c => R (l.take start ++ seg ++ l.drop stop) c) (f ((l.drop start).take (stop - start)))) :
    Drawn R (onSlice l start stop f) := by
  unfold onSlice
  split
  · rename_i hs
    exact drawn_bind ((h hs.1 hs.2).mono fun seg c hc => drawn_pure hc)
  · exact drawn_panic

section
variable [DecidableEq G]

theorem drawn_gpx2Loop (fuel : Nat) (off : List G) (parts : List (List G)) (hne : ∀ p ∈ parts, p ≠ []) (hnd : parts.flatten.Nodup) :
    Drawn (fun _ c => c = parts.length) (gpx2Loop (fun (_ : Unit) _ partitions => do
      let i ← Prog.rangeExcl 0 partitions.length
      pure (i, ())) fuel () off parts) := by
  induction fuel generalizing off parts with
  | zero =>
    cases parts with
    | nil => exact drawn_pure rfl
    | cons p ps => exact drawn_diverge
  | succ fuel ih =>
    cases parts with
    | nil => exact drawn_pure rfl
    | cons p ps =>
      unfold gpx2Loop
      refine drawn_bind (drawn_bind (drawn_rangeExcl fun i _ hr => drawn_pure ?_))
      obtain ⟨rest, he, hp⟩ := swapRemove_ok (p :: ps) i hr
      refine drawn_bind (drawn_lift fun x hx => ?_)
      rw [he] at hx
      cases hx
      dsimp only
      set q := (p :: ps)[i] with hq
      have hflat : (q ++ rest.flatten).Nodup := by
        have := (hp.flatten).nodup_iff.2 hnd
        simpa using this
      have hsame : (rest.map fun other => other.filter fun g => decide (g ∉ q)) = rest := by
        conv_rhs => rw [← List.map_id rest]
        refine List.map_congr_left fun other ho => ?_
        rw [id, List.filter_eq_self]
        intro g hg
        have : g ∉ q := fun hgq => by
          have := (List.nodup_append.1 hflat).2.2 g hgq g (List.mem_flatten.2 ⟨other, ho, hg⟩)
          exact this rfl
        simpa using this
      have hmem : ∀ o ∈ rest, o ≠ [] := fun o ho => hne o (hp.mem_iff.1 (List.mem_cons_of_mem _ ho))
      have hkeep : (rest.filter fun p => !p.isEmpty) = rest := by
        rw [List.filter_eq_self]
        intro o ho
        have := hmem o ho
        cases o <;> simp_all
      rw [hsame, hkeep]
      have hlen := hp.length_eq
      simp only [List.length_cons] at hlen ⊢
      exact (ih (off ++ q) rest hmem (List.nodup_append.1 hflat).2.1).mono fun _ c hc => by omega
end

/-! ### Selection -/

variable {I : Type} [Individual I] {Mo U A P Q : Type}

theorem drawn_select (env : NumEnv) (p : Population I) (s : Selector) : Drawn (fun _ c => c = s.draws) (s.select env p) := by
  cases s with
  | tournament s =>
    refine drawn_bind (drawn_lift fun _ _ => drawn_bind ((drawn_replicate (lo := 1) (hi := 1) (drawn_uniform fun _ _ => ⟨le_rfl, le_rfl⟩) s.size).mono
      fun _ c hc => drawn_bind (drawn_lift fun _ _ => drawn_lift fun _ _ => ?_)))
    show _ = s.size
    omega
  | rouletteWheel s => exact drawn_bind (drawn_genF64 fun _ => drawn_bind (drawn_lift fun _ _ => drawn_lift fun _ _ => rfl))
  | boltzmann s => exact drawn_bind (drawn_genF64 fun _ => drawn_bind (drawn_lift fun _ _ => drawn_lift fun _ _ => rfl))
  | rank =>
    refine drawn_bind (drawn_lift fun _ _ => drawn_bind (drawn_rangeIncl fun _ _ _ => drawn_bind (drawn_lift fun r _ => ?_)))
    cases r <;> exact drawn_lift fun _ _ => rfl
  | linear s => exact drawn_bind (drawn_genF64 fun _ => drawn_bind (drawn_lift fun _ _ => drawn_lift fun _ _ => rfl))
  | elitist s => exact drawn_bind (drawn_rangeExcl fun _ _ _ => drawn_lift fun _ _ => rfl)

theorem drawn_distinct {sel : Prog (Nat × I)} {d : Nat} (h : Drawn (fun _ c => c = d) sel) (x : I) (n : Nat) :
    Drawn (fun o c => (o = none → c = n * d) ∧ ∃ k, c = k * d ∧ k ≤ n ∧ (0 < n → 0 < k)) (selectDistinct sel x n) := by
  induction n with
  | zero => exact drawn_pure ⟨fun _ => by simp, 0, by simp, le_rfl, by simp⟩
  | succ n ih =>
    refine drawn_bind (h.mono fun a c hc => ?_)
    obtain ⟨i, y⟩ := a
    subst hc
    refine drawn_ite _ (fun _ => drawn_pure ⟨by simp, 1, by simp, by omega, by simp⟩) fun _ => ih.mono ?_
    rintro o c ⟨h1, k, rfl, hk, -⟩
    refine ⟨fun ho => ?_, k + 1, by rw [Nat.succ_mul, Nat.add_comm], by omega, fun _ => by omega⟩
    rw [h1 ho, Nat.succ_mul, Nat.add_comm]

/-! ### Breeding -/

theorem drawn_breed {M : EvoOps I Mo U} {x m s : Nat} (hM : M.DrawsAtMost x m s) (env : NumEnv) (model : Mo) (p : Population I)
    (r : ReproParams U) {sel : Selector} (hs : r.parentSelector = .builtin sel) :
    Drawn (fun _ c => breedLeast sel.draws p.len ≤ c ∧ c ≤ breedMost sel.draws p.len x m s) (defaultBreed M env model p r) := by
  have hsel := drawn_select (I := I) env p sel
  rw [defaultBreed_eq]
  refine drawn_bind (Drawn.mono (R := fun ps c => sel.draws + (if 1 < p.len then 1 else 0) ≤ c ∧
      c ≤ sel.draws + (if 1 < p.len then 1 + 3 * sel.draws else 0) ∧ (ps.2.isSome → 1 < p.len)) ?_ fun ps c1 h1 => ?_)
  · unfold breedParents
    rw [hs]
    refine drawn_bind (hsel.mono fun a c hc => ?_)
    subst hc
    refine drawn_bind (Drawn.mono (R := fun b c => c = (if 1 < p.len then 1 else 0) ∧ (b = true → 1 < p.len)) ?_ fun cross c hc => ?_)
    · refine drawn_ite _ (fun h => drawn_bind (drawn_genF64 fun _ => drawn_pure ⟨by rw [if_pos h], fun _ => h⟩)) fun h => drawn_pure ⟨?_, by simp⟩
      rw [if_neg h]
    · refine drawn_bind (Drawn.mono (R := fun o c => c ≤ (if 1 < p.len then 3 * sel.draws else 0) ∧ (o.isSome → 1 < p.len)) ?_ fun o c hc => drawn_pure ?_)
      · refine drawn_ite _ (fun h => drawn_bind ((drawn_distinct hsel a.2 3).mono ?_)) fun h => drawn_pure ⟨Nat.zero_le _, by simp⟩
        rintro o c ⟨-, k, rfl, hk, -⟩
        refine drawn_pure ⟨?_, fun _ => hc.2 h⟩
        rw [if_pos (hc.2 h)]
        simpa using Nat.mul_le_mul_right _ hk
      · refine ⟨?_, ?_, hc.2⟩
        · omega
        · have := hc.1
          split_ifs at * <;> omega
  refine drawn_bind (Drawn.mono (R := fun _ c => c ≤ if 1 < p.len then x else 0) ?_ fun o c2 h2 => ?_)
  · obtain ⟨y, _ | z⟩ := ps
    · exact drawn_pure (Nat.zero_le _)
    · refine Drawn.mono (hM.crossover model y z) fun o c hc => ?_
      rw [if_pos (h1.2.2 rfl)]
      exact hc.2
  refine drawn_bind (Drawn.mono (R := fun _ c => 1 ≤ c ∧ c ≤ 1 + m) ?_ fun o c3 h3 => ?_)
  · refine drawn_bind (drawn_genF64 fun u => drawn_ite _ (fun _ => ?_) fun _ => drawn_pure ⟨le_rfl, by omega⟩)
    exact Drawn.mono (hM.mutate model _) fun o c hc => by omega
  refine drawn_bind (Drawn.mono (hM.improve model _) fun o c4 h4 => ?_)
  refine drawn_bind (Drawn.mono (hM.evaluate model _) fun o c5 h5 => ?_)
  refine drawn_bind (Drawn.mono (R := fun _ c => c ≤ s) ?_ fun b c6 h6 => drawn_pure ?_)
  · exact drawn_ite _ (fun _ => Drawn.mono (hM.canSurvive model _ _ _) fun _ _ hc => hc.2) fun _ => drawn_pure (Nat.zero_le _)
  unfold breedLeast breedMost
  split_ifs at * <;> omega

theorem drawn_generate {M : EvoModel I Mo U} (hb : M.breed = defaultBreed M.toEvoOps) {x m s : Nat} (hM : M.toEvoOps.DrawsAtMost x m s)
    (env : NumEnv) (model : Mo) (p : Population I) (r : ReproParams U × Nat) {sel : Selector} (hs : r.1.parentSelector = .builtin sel) (l : List I) :
    Drawn (fun _ c => (r.2 - l.length) * breedLeast sel.draws p.len ≤ c ∧ c ≤ (r.2 - l.length) * breedMost sel.draws p.len x m s)
      (defaultGenerate M env model r p l) := by
  have hd := drawn_breed hM env model p r.1 hs
  obtain ⟨r, n⟩ := r
  simp only [defaultGenerate, hb]
  split
  · rename_i h; rw [h]; exact drawn_pure (by simp)
  · rename_i h; rw [h]
    exact drawn_bind (hd.mono fun _ c hc => drawn_pure (by simpa using hc))
  · exact drawn_bind ((drawn_replicate hd _).mono fun _ c hc => drawn_pure (by simpa using hc))

/-! ### Runs -/

/-- The selector is a built-in one with `d` draws for a selection. -/
def DynSel.Takes (d : Nat) (s : DynSel U) : Prop := ∃ t, s = .builtin t ∧ t.draws = d

theorem DynSel.Takes.prepare {d : Nat} {s : DynSel U} (h : s.Takes d) (env : NumEnv) (cs : CustomSelector I U) (p : Population I) :
    (s.prepare env cs p).Takes d := by
  obtain ⟨t, rfl, rfl⟩ := h
  exact ⟨_, rfl, by cases t <;> rfl⟩

theorem draws_createSelector {s : SelectionStrategy} {t : Selector} (h : s.createSelector = .ok t) : t.draws = s.draws := by
  cases s with
  | tournament n =>
    simp only [SelectionStrategy.createSelector, TournamentSelection.new, Res.assert] at h
    split at h
    · cases h; rfl
    · cases h
  | elitist n =>
    simp only [SelectionStrategy.createSelector, ElitistSelection.new, Res.assert] at h
    split at h
    · cases h; rfl
    · cases h
  | boltzmann n c =>
    simp only [SelectionStrategy.createSelector, BoltzmannSelection.new, Res.assert] at h
    split at h
    · cases h; rfl
    · cases h
  | rouletteWheel => cases h; rfl
  | rank => cases h; rfl
  | linear b => cases h; rfl

private theorem ok_of_bind {r : Res α} {f : α → Res β} {b : β} (h : (r >>= f) = .ok b) : ∃ a, r = .ok a ∧ f a = .ok b := by
  cases r with
  | ok a => exact ⟨a, rfl, h⟩
  | panic => cases h
  | diverge => cases h

/-- What counting draws needs to know about an algorithm. -/
structure DrawnAlgo (alg : EvoAlgo I Mo U A P) (strategy : P → SelectionStrategy) : Prop where
  prepare : ∀ env a p d, (alg.repro a).1.parentSelector.Takes d →
    Drawn (fun a' c => c = 0 ∧ (alg.repro a').1.parentSelector.Takes d) (alg.prepare env a p)
  configure : ∀ a p a', alg.configure a p = .ok a' → (alg.repro a').1.parentSelector.Takes (strategy p).draws

theorem ga_drawn {M : EvoModel I Mo U} {x m s : Nat} (hM : M.toEvoOps.DrawsAtMost x m s) :
    DrawnAlgo (ga M) GaParams.selectionStrategy where
  prepare env a p d hd := by
    refine drawn_bind ((Drawn.and_yields (hM.preGeneration a.model p a.breeding)).mono fun y c ⟨hy, hc⟩ => drawn_pure ⟨hc, ?_⟩)
    have he := hM.selector _ _ _ _ _ hy
    refine DynSel.Takes.prepare ?_ env _ p
    rw [he]; exact hd
  configure a p a' h := by
    change Ga.configure a p = .ok a' at h
    simp only [Ga.configure] at h
    obtain ⟨_, -, h⟩ := ok_of_bind h
    obtain ⟨_, -, h⟩ := ok_of_bind h
    obtain ⟨t, ht, h⟩ := ok_of_bind h
    cases h
    exact ⟨t, rfl, draws_createSelector ht⟩

theorem aga_drawn {M : EvoModel I Mo U} {x m s : Nat} (hM : M.toEvoOps.DrawsAtMost x m s) :
    DrawnAlgo (aga M) AgaParams.selectionStrategy where
  prepare env a p d hd := by
    refine drawn_bind ((Drawn.and_yields (hM.preGeneration _ p _)).mono fun y c ⟨hy, hc⟩ => drawn_pure ⟨hc, ?_⟩)
    have he := hM.selector _ _ _ _ _ hy
    refine DynSel.Takes.prepare ?_ env _ p
    rw [he]
    unfold Aga.adjust
    split
    · exact hd
    · split <;> exact hd
  configure a p a' h := by
    change Aga.configure a p = .ok a' at h
    simp only [Aga.configure] at h
    obtain ⟨_, -, h⟩ := ok_of_bind h
    obtain ⟨_, -, h⟩ := ok_of_bind h
    obtain ⟨t, ht, h⟩ := ok_of_bind h
    cases h
    exact ⟨t, rfl, draws_createSelector ht⟩

section
variable {M : EvoModel I Mo U} {alg : EvoAlgo I Mo U A P} {elite size : A → Nat} {eliteOf : P → Nat} {strategy : P → SelectionStrategy}
  {x m s : Nat}

theorem drawn_step (hb : M.breed = defaultBreed M.toEvoOps) (hM : M.toEvoOps.DrawsAtMost x m s) (hstd : Standard M alg elite size eliteOf)
    (h : DrawnAlgo alg strategy) (env : Env I) (st : RunState I A Q) {d : Nat} (hd : (alg.repro st.algo).1.parentSelector.Takes d) :
    Drawn (fun st' c => missing (size st.algo) (elite st.algo) st.population * breedLeast d st.population.len ≤ c ∧
      c ≤ missing (size st.algo) (elite st.algo) st.population * breedMost d st.population.len x m s ∧
      (alg.repro st'.algo).1.parentSelector.Takes d) (generationStep alg env st) := by
  refine drawn_bind ((h.prepare _ _ _ d hd).and_yields.mono fun a c1 ⟨ha, h1, h1'⟩ => ?_)
  obtain ⟨e1, e2⟩ := hstd.prepare _ _ _ _ ha
  obtain ⟨t, ht, rfl⟩ := id h1'
  rw [hstd.elites, takeElites_eq]
  refine drawn_bind (drawn_lift fun el hel => ?_)
  rw [hstd.generate]
  refine drawn_bind ((drawn_generate hb hM env.num _ _ _ ht el).mono fun buf c2 h2 => ?_)
  refine drawn_bind (drawn_lift fun x hx => drawn_pure ?_)
  cases hel
  rw [hstd.bred, e2, List.nil_append, List.length_drop, e1] at h2
  have hlen : size st.algo - (st.population.individuals.length - (st.population.individuals.length - elite st.algo)) =
      missing (size st.algo) (elite st.algo) st.population := by
    show _ = size st.algo - min _ st.population.individuals.length; omega
  rw [hlen] at h2
  exact ⟨by omega, by omega, h1'⟩

theorem drawn_loop (hb : M.breed = defaultBreed M.toEvoOps) (hM : M.toEvoOps.DrawsAtMost x m s) (hstd : Standard M alg elite size eliteOf)
    (h : DrawnAlgo alg strategy) (envs : Nat → Env I) (henv : ∀ t, (envs t).Lawful) (progress : Q → Population I → Prog (Bool × Q))
    (hq : ∀ q p, (progress q p).DrawsExactly 0) (N E d fuel t : Nat) (st : RunState I A Q)
    (hN : size st.algo = N) (hE : elite st.algo = E) (hd : (alg.repro st.algo).1.parentSelector.Takes d) :
    Drawn (fun y c => ∃ new, y.2.shown = st.shown ++ new ∧ (y.1 = true → new ≠ []) ∧
        ((bredFrom y.1 new).map fun p => missing N E p * breedLeast d p.len).sum ≤ c ∧
        c ≤ ((bredFrom y.1 new).map fun p => missing N E p * breedMost d p.len x m s).sum)
      (evolveLoop alg envs progress fuel t st) := by
  induction fuel generalizing t st with
  | zero => exact drawn_pure ⟨[], by simp, by simp, by simp [bredFrom], by simp [bredFrom]⟩
  | succ fuel ih =>
    rw [evolveLoop]
    refine drawn_bind (Drawn.mono (hq _ _) fun ⟨cont, q'⟩ c0 h0 => ?_)
    subst h0
    cases cont
    · exact drawn_pure ⟨[st.population], by simp, by simp, by simp [bredFrom], by simp [bredFrom]⟩
    · simp only [if_true]
      refine drawn_bind (((drawn_step hb hM hstd h (envs t) { st with q := q', shown := st.shown ++ [st.population] } hd).and_yields).mono
        fun st1 c1 ⟨hs1, h1, h2, h3⟩ => ?_)
      have hstep := hstd.step (henv t) hs1
      have he : elite st1.algo = elite st.algo := hstep.eliteEq
      have hz : size st1.algo = size st.algo := hstep.sizeEq
      refine (ih (t + 1) st1 (by omega) (by omega) h3).mono ?_
      rintro ⟨fin, st'⟩ c ⟨new, n1, n2, n3, n4⟩
      have hshown : st1.shown = st.shown ++ [st.population] := hstep.shown
      simp only at n1 n2 n3 n4 h1 h2
      rw [hN, hE] at h1 h2
      have hbf : bredFrom fin (st.population :: new) = st.population :: bredFrom fin new := by
        cases fin
        · rfl
        · exact List.dropLast_cons_of_ne_nil (n2 rfl)
      refine ⟨st.population :: new, by rw [n1, hshown]; simp, by simp, ?_, ?_⟩
      · simp only [hbf, List.map_cons, List.sum_cons]; omega
      · simp only [hbf, List.map_cons, List.sum_cons]; omega

theorem drawn_run (hb : M.breed = defaultBreed M.toEvoOps) (hM : M.toEvoOps.DrawsAtMost x m s) (hstd : Standard M alg elite size eliteOf)
    (h : DrawnAlgo alg strategy) (envs : Nat → Env I) (henv : ∀ t, (envs t).Lawful) (progress : Q → Population I → Prog (Bool × Q))
    (hq : ∀ q p, (progress q p).DrawsExactly 0) (fuel : Nat) (a : A) (init : List I) (p : P) (hp : alg.initialSize p ≤ 2 ^ 53) (q : Q) :
    Drawn (fun y c =>
        ((bredFrom y.1 y.2.shown).map fun pop => missing (alg.initialSize p) (eliteOf p) pop * breedLeast (strategy p).draws pop.len).sum ≤ c ∧
        c ≤ ((bredFrom y.1 y.2.shown).map fun pop =>
          missing (alg.initialSize p) (eliteOf p) pop * breedMost (strategy p).draws pop.len x m s).sum)
      (evolvePopulation alg envs progress fuel a init p q) := by
  unfold evolvePopulation
  refine drawn_bind (drawn_lift fun a' ha' => ?_)
  obtain ⟨-, s1, s2, s3⟩ := hstd.configure _ _ _ ha' hp
  rw [hstd.init]
  refine drawn_bind (Drawn.mono (R := fun _ c => c = 0) ?_ fun pop c hc => ?_)
  · exact drawn_bind ((drawn_mapList (fun y => hM.evaluate _ y) init).mono fun ev c hc => drawn_lift fun pop _ => hc)
  · refine (drawn_loop hb hM hstd h envs henv progress hq (alg.initialSize p) (eliteOf p) (strategy p).draws fuel 1
      { algo := a', population := pop, buffer := [], q, shown := [] } s1 s2 (h.configure _ _ _ ha')).mono ?_
    rintro ⟨fin, st⟩ c' ⟨new, n1, -, n3, n4⟩
    simp only [List.nil_append] at n1
    subst n1
    simp only at n3 n4 ⊢
    omega

end

end RG
