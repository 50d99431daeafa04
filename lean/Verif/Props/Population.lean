import Verif.Proofs.Population

/-!
# Properties C08–C14: populations and the fitness order

`LawfulSort` is the contract of the parallel unstable sort; `History` lists the populations obtained by `new` and any
sequence of `replace` calls (newest first). `refSort_lawful` shows the contract can be met.
-/

namespace RG.Props
open RG
variable {I : Type} [Individual I]

/-- Individuals for the examples: a fitness and a tag; `==` is equality. -/
structure Toy where
  fit : F64
  tag : Nat
deriving DecidableEq

instance : Individual Toy where
  fitness := Toy.fit
  eq a b := decide (a = b)

def toy (q : ℚ) (tag : Nat) : Toy := ⟨F64.lit q, tag⟩

/-- Specification: two individuals are the same for the user (`==`) or identical. -/
def Same (x y : I) : Prop := x = y ∨ Individual.eq x y = true

/-! ### C08 -/

/-- **C08** A new population is in ascending fitness order, contains only given individuals (each at most as often as
given) and covers every given individual up to `==`. -/
theorem C08_new (sort : List I → List I) (hs : LawfulSort sort) (v : List I)
    (hn : ∀ i ∈ v, (fitness i).isNaN = false) (p : Population I) (hp : Population.new sort v = .ok p) :
    p.individuals.Pairwise (fun a b => (fitness a).le (fitness b) = true) ∧
      (∃ w, w.Perm v ∧ p.individuals.Sublist w) ∧ (∀ x ∈ v, ∃ y ∈ p.individuals, Same x y) := by
  obtain ⟨-, -, h, -, -⟩ := Population.wf_new hs hp
  rw [h]
  refine ⟨(hs.sorted_le v hn).sublist (dedup_sublist _), ⟨sort v, hs.perm v, dedup_sublist _⟩, fun x hx => ?_⟩
  rcases dedup_covers (sort v) x ((hs.perm v).mem_iff.2 hx) with h | ⟨y, hy, he⟩
  · exact ⟨x, h, Or.inl rfl⟩
  · exact ⟨y, hy, Or.inr he⟩

/-- **C08** The same after `replace`. -/
theorem C08_replace (sort : List I → List I) (hs : LawfulSort sort) (v : List I)
    (hn : ∀ i ∈ v, (fitness i).isNaN = false) (p p' : Population I) (old : List I)
    (hp : p.replace sort v = .ok (p', old)) :
    p'.individuals.Pairwise (fun a b => (fitness a).le (fitness b) = true) ∧
      (∃ w, w.Perm v ∧ p'.individuals.Sublist w) ∧ (∀ x ∈ v, ∃ y ∈ p'.individuals, Same x y) := by
  obtain ⟨-, hv, h, -⟩ := Population.wf_replace hs hp
  have hnew : Population.new sort v = .ok ⟨dedup (sort v), 0, 0, ⟨Stats.collect ((dedup (sort v)).map fitness)⟩⟩ := by
    rw [Population.new_eq hs, if_neg hv]
  have := C08_new sort hs v hn _ hnew
  rwa [h]

example : (Population.new refSort [toy 3 0, toy 1 1, toy 3 0]).okAnd
    (fun p => p.individuals = [toy 1 1, toy 3 0]) = true := by decide +kernel

/-! ### C09 -/

/-- **C09** No two neighbouring individuals of a population are equal. -/
theorem C09_neighbours_differ (ps : List (Population I)) (h : History ps) (p : Population I) (hp : p ∈ ps)
    (l₁ l₂ : List I) (a b : I) (hl : p.individuals = l₁ ++ a :: b :: l₂) : Individual.eq b a = false := by
  have key : p.individuals.IsChain fun a b => Individual.eq b a = false := by
    clear hl
    induction h with
    | new hs h =>
      simp only [List.mem_singleton] at hp; subst hp
      rw [(Population.wf_new hs h).2.2.1]; exact dedup_chain _
    | replace hs h hr ih =>
      rcases List.mem_cons.1 hp with rfl | hp
      · rw [(Population.wf_replace hs hr).2.2.1]; exact dedup_chain _
      · exact ih hp
  rw [hl] at key
  have := (List.isChain_append.1 key).2.1
  exact (List.isChain_cons_cons.1 this).1

/-- **C09** If equal individuals have the same fitness and different individuals never share a fitness, all
individuals of a new population are pairwise different. -/
theorem C09_unique (sort : List I → List I) (hs : LawfulSort sort) (v : List I)
    (hn : ∀ i ∈ v, (fitness i).isNaN = false)
    (heq : ∀ x ∈ v, ∀ y ∈ v, Individual.eq x y = true ↔ (fitness x).feq (fitness y) = true)
    (p : Population I) (hp : Population.new sort v = .ok p) :
    p.individuals.Pairwise fun a b => Individual.eq a b = false ∧ Individual.eq b a = false := by
  obtain ⟨-, -, h, -, -⟩ := Population.wf_new hs hp
  have hsub : ∀ x ∈ p.individuals, x ∈ v := by
    intro x hx; rw [h] at hx; exact (hs.perm v).mem_iff.1 ((dedup_sublist _).subset hx)
  have hsorted := (C08_new sort hs v hn p hp).1
  have hchain : p.individuals.IsChain fun a b => Individual.eq b a = false := by rw [h]; exact dedup_chain _
  -- neighbours are strictly ascending, hence all pairs are
  have hlt : p.individuals.Pairwise fun a b => (fitness a).lt (fitness b) = true := by
    have : p.individuals.IsChain fun a b => (fitness a).lt (fitness b) = true := by
      have h2 := hsorted.isChain
      clear h hp
      generalize p.individuals = l at *
      induction l with
      | nil => simp
      | cons a l ih =>
        cases l with
        | nil => simp
        | cons b l =>
          rw [List.isChain_cons_cons] at hchain h2 ⊢
          refine ⟨?_, ih (fun x hx => hsub x (by simp [hx])) (List.pairwise_cons.1 hsorted).2 hchain.2 h2.2⟩
          have hle := F64.le_iff.1 h2.1
          refine F64.lt_iff.2 ⟨hle.1, hle.2.1, lt_of_le_of_ne hle.2.2 fun hc => ?_⟩
          have : Individual.eq b a = true := (heq b (hsub b (by simp)) a (hsub a (by simp))).2
            (F64.feq_iff.2 ⟨hle.2.1, hle.1, hc.symm⟩)
          rw [hchain.1] at this; cases this
    exact @List.IsChain.pairwise _ _ _ ⟨fun h1 h2 => F64.lt_trans h1 h2⟩ this
  refine hlt.imp_of_mem fun {a b} ha hb hab => ?_
  have hab' := F64.lt_iff.1 hab
  constructor
  · by_contra hc
    have := F64.feq_iff.1 ((heq a (hsub a ha) b (hsub b hb)).1 (by simpa using hc))
    exact absurd this.2.2 (ne_of_lt hab'.2.2)
  · by_contra hc
    have := F64.feq_iff.1 ((heq b (hsub b hb) a (hsub a ha)).1 (by simpa using hc))
    exact absurd this.2.2.symm (ne_of_lt hab'.2.2)

example : ∀ x ∈ [toy 3 0, toy 1 1, toy 3 0], ∀ y ∈ [toy 3 0, toy 1 1, toy 3 0],
    Individual.eq x y = true ↔ (fitness x).feq (fitness y) = true := by decide +kernel

/-- **C09** (counterexample to the documentation, `population.rs:8`) With two different individuals of the same fitness,
a lawful sort result `A, B, A` keeps both copies of `A`. -/
theorem C09_duplicates_counterexample :
    ∃ (sort : List Toy → List Toy), LawfulSort sort ∧ ∃ p, Population.new sort [toy 1 0, toy 1 1, toy 1 0] = .ok p ∧
      p.individuals = [toy 1 0, toy 1 1, toy 1 0] :=
  ⟨refSort, refSort_lawful, by
    obtain ⟨p, h1, h2⟩ := Res.of_okAnd (r := Population.new refSort [toy 1 0, toy 1 1, toy 1 0])
      (Q := fun p => p.individuals = [toy 1 0, toy 1 1, toy 1 0]) (by decide +kernel)
    exact ⟨p, h1, by simpa using h2⟩⟩

/-! ### C10 -/

/-- **C10** In every reachable population `fittest` and `take_fittest` return the same member without panicking; if no
fitness is NaN it is at least as fit as every member and its fitness is `stats().max()`. -/
theorem C10_fittest (ps : List (Population I)) (h : History ps) (p : Population I) (hp : p ∈ ps) :
    (∃ x ∈ p.individuals, p.fittest = .ok x ∧ p.takeFittest = .ok x) ∧
    ((∀ i ∈ p.individuals, (fitness i).isNaN = false) → ∃ x ∈ p.individuals, p.fittest = .ok x ∧
      p.takeFittest = .ok x ∧ fitness x = p.stats.max ∧ ∀ y ∈ p.individuals, (fitness y).le (fitness x) = true) := by
  have hw := h.wf p hp
  refine ⟨⟨_, List.getElem_mem hw.argMax_lt, hw.fittest_ok.1, ?_⟩, fun hn => ?_⟩
  · rw [hw.fittest_ok.2, hw.fittest_ok.1]
  · obtain ⟨x, hx, h1, h2, h3⟩ := hw.fittest_spec hn
    exact ⟨x, hx, h1, by rw [hw.fittest_ok.2, h1], h2, h3⟩

example : (Population.new refSort [toy 3 0, toy 1 1, toy 3 7]).okAnd
    (fun p => p.fittest = .ok (toy 3 0)) = true := by decide +kernel

/-! ### C11 -/

/-- **C11** `new` and `replace` panic exactly on an empty vector, `try_from` returns `Err` with the empty vector exactly
then, and every reachable population is non-empty. -/
theorem C11_nonempty (sort : List I → List I) (hs : LawfulSort sort) :
    (∀ v : List I, (Population.new sort v = .panic ↔ v = []) ∧ (v ≠ [] → ∃ p, Population.new sort v = .ok p)) ∧
    (∀ (p : Population I) v, (p.replace sort v = .panic ↔ v = []) ∧ (v ≠ [] → ∃ r, p.replace sort v = .ok r)) ∧
    (∀ v : List I, (v = [] → Population.tryFrom sort v = .ok (.inr v)) ∧
      (v ≠ [] → ∃ p, Population.new sort v = .ok p ∧ Population.tryFrom sort v = .ok (.inl p))) ∧
    ∀ ps : List (Population I), History ps → ∀ p ∈ ps, p.individuals ≠ [] ∧ 1 ≤ p.len := by
  refine ⟨fun v => ?_, fun p v => ?_, fun v => ?_, fun ps h p hp => ?_⟩
  · rw [Population.new_eq hs]; split <;> simp_all
  · rw [Population.replace_eq hs]; split <;> simp_all
  · unfold Population.tryFrom; rw [Population.new_eq hs]; split <;> simp_all
  · have := (h.wf p hp).ne
    exact ⟨this, List.length_pos_iff.2 this⟩

theorem dedup_of_chain (l : List I) (h : l.IsChain fun a b => Individual.eq b a = false) : dedup l = l := by
  have key : ∀ (l : List I) (x : I), (x :: l).IsChain (fun a b => Individual.eq b a = false) → dedupFrom x l = l := by
    intro l
    induction l with
    | nil => intro x _; rfl
    | cons y l ih =>
      intro x h
      rw [List.isChain_cons_cons] at h
      rw [dedupFrom, h.1, if_neg (by simp), ih y h.2]
  cases l with
  | nil => rfl
  | cons x l => rw [dedup, key l x h]

/-- **C11** A population converted to a vector gives its individuals in their order; converting the vector back gives a
population with the same individuals and statistics, at generation 0 (if no two individuals share a fitness, so that the
unstable sort has no freedom). -/
theorem C11_round_trip (ps : List (Population I)) (h : History ps) (p : Population I) (hp : p ∈ ps) :
    p.toVec = p.individuals ∧
    (p.individuals.Pairwise (fun a b => (fitness a).lt (fitness b) = true) →
      ∀ sort : List I → List I, LawfulSort sort →
        Population.tryFrom sort p.toVec = .ok (.inl ⟨p.individuals, 0, 0, p.stats⟩)) := by
  refine ⟨rfl, fun hlt sort hs => ?_⟩
  have hw := h.wf p hp
  show Population.tryFrom sort p.individuals = _
  rcases hl : p.individuals with _ | ⟨x, _ | ⟨y, l⟩⟩
  · exact absurd hl hw.ne
  · have hsort : sort p.individuals = p.individuals := by
      have := hs.perm p.individuals
      rw [hl] at this ⊢
      exact List.perm_singleton.1 this
    have hd : dedup p.individuals = p.individuals := by rw [hl]; rfl
    have hst : p.stats = ⟨Stats.collect (p.individuals.map fitness)⟩ := hw.stats
    unfold Population.tryFrom
    rw [← hl, Population.new_eq hs, hsort, hd, if_neg hw.ne, hst, if_pos hw.ne]
    rfl
  · have hn : ∀ i ∈ p.individuals, (fitness i).isNaN = false := by
      intro i hi
      obtain ⟨k, hk, rfl⟩ := List.getElem_of_mem hi
      rcases Nat.eq_zero_or_pos k with rfl | h0
      · have h2 : 1 < p.individuals.length := by rw [hl]; simp
        exact (F64.lt_iff.1 (List.pairwise_iff_getElem.1 hlt 0 1 hk h2 (by omega))).1
      · exact (F64.lt_iff.1 (List.pairwise_iff_getElem.1 hlt 0 k (by omega) hk h0)).2.1
    have hle : p.individuals.Pairwise fun a b => (fitness a).le (fitness b) = true :=
      hlt.imp fun {a b} hab => by
        have := F64.lt_iff.1 hab
        exact F64.le_iff.2 ⟨this.1, this.2.1, this.2.2.le⟩
    have hsort : sort p.individuals = p.individuals := by
      refine List.Perm.eq_of_pairwise (le := fun a b => (fitness a).le (fitness b) = true) ?_ (hs.sorted_le _ hn) hle (hs.perm _)
      intro a b ha hb h1 h2
      replace ha := (hs.perm _).mem_iff.1 ha
      obtain ⟨i, hi, rfl⟩ := List.getElem_of_mem ha
      obtain ⟨j, hj, rfl⟩ := List.getElem_of_mem hb
      have e := le_antisymm (F64.le_iff.1 h1).2.2 (F64.le_iff.1 h2).2.2
      rcases Nat.lt_trichotomy i j with hij | rfl | hij
      · exact absurd e (ne_of_lt (F64.lt_iff.1 (List.pairwise_iff_getElem.1 hlt i j hi hj hij)).2.2)
      · rfl
      · exact absurd e.symm (ne_of_lt (F64.lt_iff.1 (List.pairwise_iff_getElem.1 hlt j i hj hi hij)).2.2)
    have hd : dedup p.individuals = p.individuals := by
      refine dedup_of_chain _ ?_
      rw [List.isChain_iff_getElem]
      intro i hi
      exact C09_neighbours_differ ps h p hp (p.individuals.take i) (p.individuals.drop (i + 2)) _ _ (by simp)
    have hst : p.stats = ⟨Stats.collect (p.individuals.map fitness)⟩ := hw.stats
    unfold Population.tryFrom
    rw [← hl, Population.new_eq hs, hsort, hd, if_neg hw.ne, hst, if_pos hw.ne]
    rfl

example : (Population.new refSort [toy 3 0, toy 1 1]).okAnd (fun p => p.individuals = [toy 1 1, toy 3 0] ∧
    p.individuals.Pairwise fun a b => (fitness a).lt (fitness b) = true) = true := by decide +kernel

/-! ### C12 -/

/-- **C12** Along any history (newest first, `k` replacements), `generation` is `k`, and `stagnation` is the number of
replacements since the last one that strictly increased the best fitness, or `k` if none did: the last `stagnation`
replacements did not increase it, and the one before them did (if there is one). -/
theorem C12_counters (p : Population I) (ps : List (Population I)) (h : History (p :: ps)) :
    p.generation = ps.length ∧ p.stagnation ≤ ps.length ∧
    (∀ i a b, i < p.stagnation → (p :: ps)[i]? = some a → (p :: ps)[i + 1]? = some b →
      b.stats.max.lt a.stats.max = false) ∧
    (p.stagnation = ps.length ∨ ∃ a b, (p :: ps)[p.stagnation]? = some a ∧ (p :: ps)[p.stagnation + 1]? = some b ∧
      b.stats.max.lt a.stats.max = true) := by
  generalize hq : p :: ps = qs at h
  induction h generalizing p ps with
  | new hs h =>
    cases hq
    obtain ⟨-, -, -, h1, h2⟩ := Population.wf_new hs h
    rw [h1, h2]; simp
  | @replace sort v old p₀ p' ps' hs h hr ih =>
    cases hq
    obtain ⟨-, -, -, h1, h2, -⟩ := Population.wf_replace hs hr
    obtain ⟨i1, i2, i3, i4⟩ := ih p₀ ps' rfl
    rw [h1, h2, i1]
    by_cases hlt : p₀.stats.max.lt p'.stats.max = true
    · rw [if_pos hlt]
      refine ⟨by simp, by simp, by simp, Or.inr ⟨p', p₀, rfl, rfl, hlt⟩⟩
    · rw [if_neg hlt]
      refine ⟨by simp, by simpa using i2, ?_, ?_⟩
      · intro i a b hi ha hb
        cases i with
        | zero => simp at ha hb; subst ha; subst hb; simpa using hlt
        | succ i => exact i3 i a b (by omega) (by simpa using ha) (by simpa using hb)
      · rcases i4 with i4 | ⟨a, b, ha, hb, hab⟩
        · left; simp [i4]
        · right; exact ⟨a, b, by simpa using ha, by simpa using hb, hab⟩

/-- **C12** `replace` hands the previous individuals back through its argument. -/
theorem C12_old_individuals (sort : List I → List I) (hs : LawfulSort sort) (p p' : Population I) (v old : List I)
    (h : p.replace sort v = .ok (p', old)) : old = p.individuals := (Population.wf_replace hs h).2.2.2.2.2

/-- Three generations with best fitness 1, 2, 1. -/
def toyPop (q : ℚ) (g s : Nat) : Population Toy := ⟨[toy q 0], g, s, ⟨Stats.collect [F64.lit q]⟩⟩

example : History [toyPop 1 2 1, toyPop 2 1 0, toyPop 1 0 0] :=
  .replace (v := [toy 1 0]) (old := [toy 2 0]) refSort_lawful (.replace (v := [toy 2 0]) (old := [toy 1 0])
    refSort_lawful (.new (v := [toy 1 0]) refSort_lawful (by decide +kernel)) (by decide +kernel)) (by decide +kernel)

/-! ### C13 -/

/-- **C13** The statistics of a reachable population are those of the fitness values of its individuals in order. -/
theorem C13_stats (ps : List (Population I)) (h : History ps) (p : Population I) (hp : p ∈ ps) :
    PopulatedStats.tryFrom (Stats.collect (p.individuals.map fitness)) = some p.stats ∧ p.stats.count = p.len := by
  have hw := h.wf p hp
  have hc : p.stats.count = p.len := by
    rw [hw.stats, PopulatedStats.count, Stats.collect_count, Population.len, List.length_map]
  refine ⟨?_, hc⟩
  unfold PopulatedStats.tryFrom
  rw [if_pos, hw.stats]
  rw [Stats.collect_count, List.length_map]
  exact Nat.pos_iff_ne_zero.1 (List.length_pos_iff.2 hw.ne)

/-! ### C14 -/

/-- **C14** Without NaN, `compare_fitness` agrees with `<`, `==`, `>` of `f64`; so it is a total preorder. -/
theorem C14_order (a b c : I) (ha : (fitness a).isNaN = false) (hb : (fitness b).isNaN = false)
    (hc : (fitness c).isNaN = false) :
    (compareFitness a b = .lt ↔ (fitness a).lt (fitness b) = true) ∧
    (compareFitness a b = .gt ↔ (fitness b).lt (fitness a) = true) ∧
    (compareFitness a b = .eq ↔ (fitness a).feq (fitness b) = true) ∧
    compareFitness a a = .eq ∧ compareFitness b a = (compareFitness a b).swap ∧
    (compareFitness a b ≠ .gt → compareFitness b c ≠ .gt → compareFitness a c ≠ .gt) ∧
    (compareFitness a b = .lt → compareFitness b c = .lt → compareFitness a c = .lt) ∧
    (compareFitness a b ≠ .gt ∨ compareFitness b a ≠ .gt) := by
  have heq : ∀ x y : I, (fitness x).isNaN = false → (fitness y).isNaN = false →
      (compareFitness x y = .eq ↔ (fitness x).feq (fitness y) = true) := by
    intro x y hx hy
    rw [compareFitness_ok hx hy, F64.feq_iff]
    by_cases h1 : (fitness x).lt (fitness y) = true
    · simp only [h1, if_true]
      simp [(F64.lt_iff.1 h1).2.2.ne]
    · simp only [h1]
      by_cases h2 : (fitness y).lt (fitness x) = true
      · simp [h2, (F64.lt_iff.1 h2).2.2.ne']
      · simp only [Bool.not_eq_true] at h1 h2
        have e1 := (F64.le_iff.1 (F64.le_of_not_lt hy hx h1)).2.2
        have e2 := (F64.le_iff.1 (F64.le_of_not_lt hx hy h2)).2.2
        simp [h2, hx, hy, le_antisymm e2 e1]
  refine ⟨compareFitness_lt, compareFitness_gt, heq a b ha hb, ?_, ?_, ?_, ?_, ?_⟩
  · exact (heq a a ha ha).2 (F64.feq_iff.2 ⟨ha, ha, rfl⟩)
  · rcases hab : compareFitness a b with _ | _ | _
    · exact compareFitness_gt.2 (compareFitness_lt.1 hab)
    · have := F64.feq_iff.1 ((heq a b ha hb).1 hab)
      exact (heq b a hb ha).2 (F64.feq_iff.2 ⟨hb, ha, this.2.2.symm⟩)
    · exact compareFitness_lt.2 (compareFitness_gt.1 hab)
  · rw [compareFitness_ne_gt ha hb, compareFitness_ne_gt hb hc, compareFitness_ne_gt ha hc]
    exact F64.le_trans
  · rw [compareFitness_lt, compareFitness_lt, compareFitness_lt]; exact F64.lt_trans
  · rw [compareFitness_ne_gt ha hb, compareFitness_ne_gt hb ha]; exact F64.le_total ha hb

/-- **C14** A NaN fitness compares `Equal` to everything. -/
theorem C14_nan_equal (a b : I) (h : (fitness a).isNaN = true ∨ (fitness b).isNaN = true) :
    compareFitness a b = .eq := compareFitness_nan h

/-- **C14** (counterexample) So with NaN the relation is not transitive: 2 ≈ NaN ≈ 1 but 2 > 1. -/
theorem C14_nan_not_transitive_counterexample :
    ∃ a b c : Toy, compareFitness a b = .eq ∧ compareFitness b c = .eq ∧ compareFitness a c = .gt :=
  ⟨toy 2 0, ⟨F64.nan, 0⟩, toy 1 0, by decide +kernel⟩

/-- **C14** The wrapper's order is `compare_fitness`, its `==` is equality of fitness (so a wrapped NaN differs from
itself although the type is `Eq`), and wrapping then `take`/`deref` gives back the individual. -/
theorem C14_wrapper (a b : I) :
    (IndividualWrapper.ofIndividual a).cmp (.ofIndividual b) = compareFitness a b ∧
    ((IndividualWrapper.ofIndividual a).eq (.ofIndividual b) = true ↔
      (fitness a).isNaN = false ∧ (fitness b).isNaN = false ∧ compareFitness a b = .eq) ∧
    ((fitness a).isNaN = true → (IndividualWrapper.ofIndividual a).eq (.ofIndividual a) = false) ∧
    (IndividualWrapper.ofIndividual a).take = a ∧ (IndividualWrapper.ofIndividual a).deref = a := by
  refine ⟨rfl, ?_, ?_, rfl, rfl⟩
  · unfold IndividualWrapper.eq IndividualWrapper.ofIndividual
    by_cases ha : (fitness a).isNaN = true
    · simp [F64.feq, ha]
    by_cases hb : (fitness b).isNaN = true
    · simp [F64.feq, hb]
    simp only [Bool.not_eq_true] at ha hb
    rw [(C14_order a b b ha hb hb).2.2.1]
    simp [ha, hb]
  · intro h; simp [IndividualWrapper.eq, IndividualWrapper.ofIndividual, F64.feq, h]

end RG.Props
