import Verif.Population
import Verif.Proofs.Stats

/-! Helper lemmas about populations. -/

namespace RG
variable {I : Type} [Individual I]

theorem F64.partialCmp_eq (a b : F64) : F64.partialCmp a b =
    if a.isNaN || b.isNaN then none
    else if a.lt b then some .lt else if b.lt a then some .gt else some .eq := by
  unfold F64.partialCmp F64.lt
  cases a.isNaN <;> cases b.isNaN <;> simp

theorem compareFitness_nan {a b : I} (h : (fitness a).isNaN = true ∨ (fitness b).isNaN = true) :
    compareFitness a b = .eq := by
  unfold compareFitness F64.partialCmp
  rcases h with h | h <;> simp [h]

theorem compareFitness_ok {a b : I} (ha : (fitness a).isNaN = false) (hb : (fitness b).isNaN = false) :
    compareFitness a b = if (fitness a).lt (fitness b) then .lt else if (fitness b).lt (fitness a) then .gt else .eq := by
  unfold compareFitness
  rw [F64.partialCmp_eq, ha, hb]
  simp only [Bool.or_self]
  split
  · simp_all
  · split
    · simp
    · split <;> simp

theorem compareFitness_lt {a b : I} : compareFitness a b = .lt ↔ (fitness a).lt (fitness b) = true := by
  by_cases h : (fitness a).isNaN = true ∨ (fitness b).isNaN = true
  · rw [compareFitness_nan h]
    rcases h with h | h
    · simp [F64.lt_of_nan_left h]
    · simp [F64.lt_of_nan_right h]
  · simp only [not_or, Bool.not_eq_true] at h
    rw [compareFitness_ok h.1 h.2]
    by_cases h1 : (fitness a).lt (fitness b) = true <;> simp [h1]
    split <;> simp

theorem compareFitness_gt {a b : I} : compareFitness a b = .gt ↔ (fitness b).lt (fitness a) = true := by
  by_cases h : (fitness a).isNaN = true ∨ (fitness b).isNaN = true
  · rw [compareFitness_nan h]
    rcases h with h | h
    · simp [F64.lt_of_nan_right h]
    · simp [F64.lt_of_nan_left h]
  · simp only [not_or, Bool.not_eq_true] at h
    rw [compareFitness_ok h.1 h.2]
    by_cases h1 : (fitness a).lt (fitness b) = true
    · simp only [h1, if_true]
      have : (fitness b).lt (fitness a) = false := by
        by_contra hc
        have := F64.lt_trans h1 (by simpa using hc)
        rw [F64.lt_irrefl] at this; cases this
      simp [this]
    · simp only [h1]
      by_cases h2 : (fitness b).lt (fitness a) = true <;> simp [h2]

theorem compareFitness_ne_gt {a b : I} (ha : (fitness a).isNaN = false) (hb : (fitness b).isNaN = false) :
    compareFitness a b ≠ .gt ↔ (fitness a).le (fitness b) = true := by
  rw [Ne, compareFitness_gt, Bool.not_eq_true, F64.not_lt_iff_le hb ha]

/-! ### A lawful sort exists -/

/-- Insertion into a list, before the first element that is strictly fitter. -/
def insertFit (x : I) : List I → List I
  | [] => [x]
  | y :: ys => if compareFitness x y = .gt then y :: insertFit x ys else x :: y :: ys

/-- Insertion sort by fitness: one of the lawful sorts. -/
def refSort : List I → List I
  | [] => []
  | x :: xs => insertFit x (refSort xs)

theorem insertFit_perm (x : I) (l : List I) : (insertFit x l).Perm (x :: l) := by
  induction l with
  | nil => exact List.Perm.refl _
  | cons y ys ih =>
    unfold insertFit
    split
    · exact (ih.cons y).trans (List.Perm.swap x y ys)
    · exact List.Perm.refl _

theorem refSort_perm (l : List I) : (refSort l).Perm l := by
  induction l with
  | nil => exact List.Perm.refl _
  | cons x xs ih => exact (insertFit_perm x _).trans (ih.cons x)

theorem insertFit_sorted (x : I) (l : List I) (hx : (fitness x).isNaN = false)
    (hl : ∀ i ∈ l, (fitness i).isNaN = false) (h : l.Pairwise fun a b => (fitness a).le (fitness b) = true) :
    (insertFit x l).Pairwise fun a b => (fitness a).le (fitness b) = true := by
  induction l with
  | nil => simp [insertFit]
  | cons y ys ih =>
    unfold insertFit
    have hy := hl y (by simp)
    rw [List.pairwise_cons] at h
    split
    · rename_i hgt
      rw [List.pairwise_cons]
      refine ⟨fun z hz => ?_, ih (fun i hi => hl i (by simp [hi])) h.2⟩
      rcases List.mem_cons.1 ((insertFit_perm x ys).mem_iff.1 hz) with rfl | hz
      · exact F64.le_of_lt (compareFitness_gt.1 hgt)
      · exact h.1 z hz
    · rename_i hgt
      have hxy := (compareFitness_ne_gt hx hy).1 hgt
      rw [List.pairwise_cons, List.pairwise_cons]
      refine ⟨fun z hz => ?_, h.1, h.2⟩
      rcases List.mem_cons.1 hz with rfl | hz
      · exact hxy
      · exact F64.le_trans hxy (h.1 z hz)

theorem refSort_sorted (l : List I) (hl : ∀ i ∈ l, (fitness i).isNaN = false) :
    (refSort l).Pairwise fun a b => (fitness a).le (fitness b) = true := by
  induction l with
  | nil => simp [refSort]
  | cons x xs ih =>
    refine insertFit_sorted x _ (hl x (by simp)) (fun i hi => hl i ?_) (ih fun i hi => hl i (by simp [hi]))
    exact List.mem_cons_of_mem _ ((refSort_perm xs).mem_iff.1 hi)

theorem LawfulSort.sorted_le {sort : List I → List I} (hs : LawfulSort sort) (l : List I)
    (hl : ∀ i ∈ l, (fitness i).isNaN = false) :
    (sort l).Pairwise fun a b => (fitness a).le (fitness b) = true := by
  refine (hs.sorted l hl).imp_of_mem fun ha hb h => ?_
  exact (compareFitness_ne_gt (hl _ ((hs.perm l).mem_iff.1 ha)) (hl _ ((hs.perm l).mem_iff.1 hb))).1 h

theorem refSort_lawful : LawfulSort (refSort : List I → List I) where
  perm := refSort_perm
  sorted l hl := (refSort_sorted l hl).imp_of_mem fun ha hb h =>
    (compareFitness_ne_gt (hl _ ((refSort_perm l).mem_iff.1 ha)) (hl _ ((refSort_perm l).mem_iff.1 hb))).2 h

/-! ### dedup -/

theorem dedupFrom_sublist (p : I) (l : List I) : (dedupFrom p l).Sublist l := by
  induction l generalizing p with
  | nil => exact List.Sublist.refl _
  | cons c rest ih =>
    unfold dedupFrom
    split
    · exact (ih p).cons c
    · exact (ih c).cons_cons c

theorem dedup_sublist (l : List I) : (dedup l).Sublist l := by
  cases l with
  | nil => exact List.Sublist.refl _
  | cons x xs => exact (dedupFrom_sublist x xs).cons_cons x

theorem dedupFrom_covers (p : I) (l : List I) (x : I) (hx : x ∈ l) :
    x ∈ dedupFrom p l ∨ ∃ y ∈ p :: dedupFrom p l, Individual.eq x y = true := by
  induction l generalizing p with
  | nil => simp at hx
  | cons c rest ih =>
    unfold dedupFrom
    split
    · rename_i h
      rcases List.mem_cons.1 hx with rfl | hx
      · exact Or.inr ⟨p, by simp, h⟩
      · exact ih p hx
    · rename_i h
      rcases List.mem_cons.1 hx with rfl | hx
      · exact Or.inl (by simp)
      · rcases ih c hx with h' | ⟨y, hy, he⟩
        · exact Or.inl (by simp [h'])
        · exact Or.inr ⟨y, List.mem_cons_of_mem _ hy, he⟩

theorem dedup_covers (l : List I) (x : I) (hx : x ∈ l) :
    x ∈ dedup l ∨ ∃ y ∈ dedup l, Individual.eq x y = true := by
  cases l with
  | nil => simp at hx
  | cons a as =>
    rcases List.mem_cons.1 hx with rfl | hx
    · exact Or.inl (by simp [dedup])
    · rcases dedupFrom_covers a as x hx with h | h
      · exact Or.inl (by simp [dedup, h])
      · exact Or.inr h

theorem dedupFrom_chain (p : I) (l : List I) :
    (p :: dedupFrom p l).IsChain fun a b => Individual.eq b a = false := by
  induction l generalizing p with
  | nil => simp [dedupFrom]
  | cons c rest ih =>
    unfold dedupFrom
    split
    · exact ih p
    · rename_i h
      rw [List.isChain_cons_cons]
      exact ⟨by simpa using h, ih c⟩

theorem dedup_chain (l : List I) : (dedup l).IsChain fun a b => Individual.eq b a = false := by
  cases l with
  | nil => simp [dedup]
  | cons x xs => exact dedupFrom_chain x xs

theorem dedup_eq_nil {l : List I} : dedup l = [] ↔ l = [] := by
  cases l <;> simp [dedup]

/-! ### sortDedupCollect, new, replace -/

theorem sortDedupCollect_eq (sort : List I → List I) (v : List I) :
    sortDedupCollect sort v = if dedup (sort v) = [] then .panic
      else .ok (dedup (sort v), ⟨Stats.collect ((dedup (sort v)).map fitness)⟩) := by
  unfold sortDedupCollect PopulatedStats.tryFrom
  simp only [Stats.collect_count, List.length_map]
  by_cases h : dedup (sort v) = []
  · simp [h]
  · have h' : (dedup (sort v)).length ≠ 0 := by simpa using h
    simp [h]

theorem LawfulSort.eq_nil {sort : List I → List I} (hs : LawfulSort sort) {l : List I} : sort l = [] ↔ l = [] := by
  have := hs.perm l
  constructor
  · intro h; rw [h] at this; exact this.symm.eq_nil
  · rintro rfl; exact this.eq_nil

namespace Population

theorem new_eq {sort : List I → List I} (hs : LawfulSort sort) (v : List I) :
    new sort v = if v = [] then .panic
      else .ok ⟨dedup (sort v), 0, 0, ⟨Stats.collect ((dedup (sort v)).map fitness)⟩⟩ := by
  unfold new
  rw [sortDedupCollect_eq]
  simp only [dedup_eq_nil, hs.eq_nil]
  split <;> rfl

theorem replace_eq {sort : List I → List I} (hs : LawfulSort sort) (p : Population I) (v : List I) :
    p.replace sort v = if v = [] then .panic
      else .ok (⟨dedup (sort v), p.generation + 1,
        if p.stats.max.lt (Stats.collect ((dedup (sort v)).map fitness)).max then 0 else p.stagnation + 1,
        ⟨Stats.collect ((dedup (sort v)).map fitness)⟩⟩, p.individuals) := by
  unfold replace
  rw [sortDedupCollect_eq]
  simp only [dedup_eq_nil, hs.eq_nil]
  split <;> rfl

/-- Invariant of reachable populations. -/
structure WF (p : Population I) : Prop where
  ne : p.individuals ≠ []
  stats : p.stats = ⟨Stats.collect (p.individuals.map fitness)⟩

theorem wf_new {sort : List I → List I} (hs : LawfulSort sort) {v : List I} {p : Population I}
    (h : new sort v = .ok p) : p.WF ∧ v ≠ [] ∧ p.individuals = dedup (sort v) ∧ p.generation = 0 ∧ p.stagnation = 0 := by
  rw [new_eq hs] at h
  split at h
  · cases h
  · rename_i hv
    cases h
    exact ⟨⟨by simpa [dedup_eq_nil, hs.eq_nil] using hv, rfl⟩, hv, rfl, rfl, rfl⟩

theorem wf_replace {sort : List I → List I} (hs : LawfulSort sort) {v old : List I} {p p' : Population I}
    (h : p.replace sort v = .ok (p', old)) :
    p'.WF ∧ v ≠ [] ∧ p'.individuals = dedup (sort v) ∧ p'.generation = p.generation + 1 ∧
      (p'.stagnation = if p.stats.max.lt p'.stats.max then 0 else p.stagnation + 1) ∧ old = p.individuals := by
  rw [replace_eq hs] at h
  split at h
  · cases h
  · rename_i hv
    cases h
    exact ⟨⟨by simpa [dedup_eq_nil, hs.eq_nil] using hv, rfl⟩, hv, rfl, rfl, rfl, rfl⟩

theorem WF.stats_max {p : Population I} (h : p.WF) : p.stats.max = (Stats.collect (p.individuals.map fitness)).max := by
  rw [h.stats]; rfl
theorem WF.stats_argMax {p : Population I} (h : p.WF) :
    p.stats.argMax = (Stats.collect (p.individuals.map fitness)).argMax := by rw [h.stats]; rfl

/-- The recorded position is always inside the population (NaN fitness included). -/
theorem WF.argMax_lt {p : Population I} (h : p.WF) : p.stats.argMax < p.individuals.length := by
  rw [h.stats_argMax]
  obtain ⟨x, xs, hx⟩ := List.exists_cons_of_ne_nil h.ne
  rw [hx, List.map_cons]
  by_cases hn : (fitness x).isNaN = true
  · rw [F64.isNaN_iff.1 hn, (Stats.collect_firstNaN _).2.2.2]; simp
  · have := (Stats.collect_firstMax (fitness x) (by simpa using hn) (xs.map fitness)).1
    by_contra hc
    rw [List.getElem?_eq_none (by simp at hc ⊢; omega)] at this
    cases this

omit [Individual I] in
theorem swapRemove_eq (v : List I) (i : Nat) (h : i < v.length) : ∃ r, swapRemove v i = .ok (v[i], r) := by
  unfold swapRemove
  rw [List.getElem?_eq_getElem h]
  have : v ≠ [] := by rintro rfl; simp at h
  rw [List.getLast?_eq_getLast_of_ne_nil this]
  exact ⟨_, rfl⟩

theorem WF.fittest_ok {p : Population I} (h : p.WF) :
    p.fittest = .ok (p.individuals[p.stats.argMax]'h.argMax_lt) ∧ p.takeFittest = p.fittest := by
  have h1 : p.fittest = .ok (p.individuals[p.stats.argMax]'h.argMax_lt) := by
    unfold fittest; rw [List.getElem?_eq_getElem h.argMax_lt]; rfl
  refine ⟨h1, ?_⟩
  obtain ⟨r, hr⟩ := swapRemove_eq p.individuals p.stats.argMax h.argMax_lt
  rw [h1, takeFittest, hr]; rfl

theorem WF.firstMax {p : Population I} (h : p.WF) (hn : ∀ i ∈ p.individuals, (fitness i).isNaN = false) :
    Stats.FirstMax (p.individuals.map fitness) p.stats.max p.stats.argMax := by
  rw [h.stats_max, h.stats_argMax]
  obtain ⟨x, xs, hx⟩ := List.exists_cons_of_ne_nil h.ne
  rw [hx, List.map_cons]
  exact Stats.collect_firstMax (fitness x) (hn x (by simp [hx])) (xs.map fitness)

/-- The fittest individual of a NaN-free population. -/
theorem WF.fittest_spec {p : Population I} (h : p.WF) (hn : ∀ i ∈ p.individuals, (fitness i).isNaN = false) :
    ∃ x ∈ p.individuals, p.fittest = .ok x ∧ fitness x = p.stats.max ∧
      ∀ y ∈ p.individuals, (fitness y).le (fitness x) = true := by
  have hf := h.firstMax hn
  refine ⟨p.individuals[p.stats.argMax]'h.argMax_lt, List.getElem_mem _, h.fittest_ok.1, ?_, ?_⟩
  · have := hf.1
    rw [List.getElem?_map, List.getElem?_eq_getElem h.argMax_lt] at this
    simpa using this
  · intro y hy
    have h1 := hf.1
    rw [List.getElem?_map, List.getElem?_eq_getElem h.argMax_lt] at h1
    simp only [Option.map_some, Option.some.injEq] at h1
    rw [h1]
    exact hf.2.2.1 _ (List.mem_map.2 ⟨y, hy, rfl⟩) (hn y hy)

end Population

theorem History.wf {ps : List (Population I)} (h : History ps) : ∀ p ∈ ps, p.WF := by
  induction h with
  | new hs h => intro p hp; simp only [List.mem_singleton] at hp; subst hp; exact (Population.wf_new hs h).1
  | replace hs h hr ih =>
    intro p hp
    rcases List.mem_cons.1 hp with rfl | hp
    · exact (Population.wf_replace hs hr).1
    · exact ih p hp

end RG
