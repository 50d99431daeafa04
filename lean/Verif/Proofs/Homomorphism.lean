import Verif.SpecHomomorphism
import Verif.Proofs.Evolution
import Verif.Proofs.Stats

/-! # Runs of models that correspond to each other: helpers -/

set_option linter.unusedSectionVars false

namespace RG.Props
open RG RG.Prog
variable {I J : Type} [Individual I] [Individual J] {Mo U A A' P Q : Type}
variable {M : EvoModel I Mo U} {M' : EvoModel J Mo U} {h : I → J} {Ok : I → Prop} {E : I → J → Prop}

theorem partialCmp_lt (a b : F64) : a.lt b = true ↔ a.partialCmp b = some .lt := by
  rw [F64.lt_iff]
  unfold F64.partialCmp
  cases ha : a.isNaN <;> cases hb : b.isNaN <;> simp only [Bool.or_true, Bool.or_false, if_true, Bool.false_eq_true, if_false]
  all_goals try simp
  rcases lt_trichotomy a.key b.key with h | h | h
  · simp [h]
  · simp [h]
  · simp [h, h.le]

theorem partialCmp_le (a b : F64) : a.le b = true ↔ (a.partialCmp b = some .lt ∨ a.partialCmp b = some .eq) := by
  rw [F64.le_iff]
  unfold F64.partialCmp
  cases ha : a.isNaN <;> cases hb : b.isNaN <;> simp only [Bool.or_true, Bool.or_false, if_true, Bool.false_eq_true, if_false]
  all_goals try simp
  rcases lt_trichotomy a.key b.key with h | h | h
  · simp [h, h.le]
  · simp [h]
  · simp [h, h.not_gt]

theorem _root_.RG.Homomorphism.lt (H : Homomorphism M M' h E Ok) {x y : I} (hx : Ok x) (hy : Ok y) :
    (fitness (h x)).lt (fitness (h y)) = (fitness x).lt (fitness y) := by
  rw [Bool.eq_iff_iff, partialCmp_lt, partialCmp_lt, H.cmp x y hx hy]

theorem _root_.RG.Homomorphism.le (H : Homomorphism M M' h E Ok) {x y : I} (hx : Ok x) (hy : Ok y) :
    (fitness (h x)).le (fitness (h y)) = (fitness x).le (fitness y) := by
  rw [Bool.eq_iff_iff, partialCmp_le, partialCmp_le, H.cmp x y hx hy]

/-! ### Populations -/

theorem dedupFrom_map (heq : ∀ x y, Ok x → Ok y → Individual.eq (h x) (h y) = Individual.eq x y) (l : List I) (hl : ∀ x ∈ l, Ok x) (p : I)
    (hp : Ok p) : dedupFrom (h p) (l.map h) = (dedupFrom p l).map h := by
  induction l generalizing p with
  | nil => rfl
  | cons c l ih =>
    simp only [List.map_cons, dedupFrom]
    rw [heq c p (hl c (by simp)) hp]
    have hl' : ∀ x ∈ l, Ok x := fun x hx => hl x (List.mem_cons_of_mem _ hx)
    split
    · exact ih hl' p hp
    · rw [List.map_cons, ih hl' c (hl c (by simp))]

theorem dedup_map (heq : ∀ x y, Ok x → Ok y → Individual.eq (h x) (h y) = Individual.eq x y) (l : List I) (hl : ∀ x ∈ l, Ok x) :
    dedup (l.map h) = (dedup l).map h := by
  cases l with
  | nil => rfl
  | cons x l => simp only [List.map_cons, dedup, dedupFrom_map heq l (fun y hy => hl y (List.mem_cons_of_mem _ hy)) x (hl x (by simp))]

/-- The best of corresponding lists are corresponding ones, at the same place. -/
theorem collect_alike (hlt : ∀ x y, Ok x → Ok y → (fitness (h x)).lt (fitness (h y)) = (fitness x).lt (fitness y)) (l : List I)
    (hne : l ≠ []) (hl : ∀ x ∈ l, Ok x) :
    (Stats.collect ((l.map h).map fitness)).argMax = (Stats.collect (l.map fitness)).argMax ∧
    ∃ x ∈ l, (Stats.collect (l.map fitness)).max = fitness x ∧ (Stats.collect ((l.map h).map fitness)).max = fitness (h x) := by
  induction l using List.reverseRecOn with
  | nil => exact absurd rfl hne
  | append_singleton l y ih =>
    rcases l with _ | ⟨a, l⟩
    · exact ⟨rfl, y, by simp, rfl, rfl⟩
    · obtain ⟨i1, x, hx, i2, i3⟩ := ih (by simp) fun z hz => hl z (List.mem_append_left _ hz)
      have hc : (Stats.collect ((a :: l).map fitness)).count ≠ 0 := by rw [Stats.collect_count]; simp
      have hc' : (Stats.collect (((a :: l).map h).map fitness)).count ≠ 0 := by rw [Stats.collect_count]; simp
      have e := hlt x y (hl x (List.mem_append_left _ hx)) (hl y (by simp))
      simp only [List.map_append, List.map_cons, List.map_nil, Stats.collect_concat]
      simp only [List.map_cons] at hc hc' i1 i2 i3
      have ea : ∀ u v : F64, (Arith.lt u v) = u.lt v := fun _ _ => rfl
      have ec : (Stats.collect (fitness (h a) :: List.map fitness (List.map h l))).count =
          (Stats.collect (fitness a :: List.map fitness l)).count := by rw [Stats.collect_count, Stats.collect_count]; simp
      rw [Stats.record_argMax _ _ hc, Stats.record_argMax _ _ hc', Stats.record_max _ _ hc, Stats.record_max _ _ hc', i1, i2, i3, ec]
      simp only [ea]
      rw [e]
      split
      · exact ⟨rfl, y, by simp, rfl, rfl⟩
      · exact ⟨rfl, x, List.mem_append_left _ hx, rfl, rfl⟩

theorem _root_.RG.Population.Like.best (H : Homomorphism M M' h E Ok) {p : Population I} {p' : Population J} (hp : p.Like h Ok p') :
    p'.stats.argMax = p.stats.argMax ∧ ∃ x, Ok x ∧ p.stats.max = fitness x ∧ p'.stats.max = fitness (h x) := by
  obtain ⟨e1, x, hx, e2, e3⟩ := collect_alike (Ok := Ok) (h := h) (fun x y hx hy => H.lt hx hy) p.individuals hp.wf.ne hp.ok
  rw [hp.wf.stats_max, hp.wf'.stats_max, hp.wf.stats_argMax, hp.wf'.stats_argMax, hp.individuals]
  exact ⟨e1, x, hp.ok x hx, e2, e3⟩

theorem _root_.RG.Population.Like.len {p : Population I} {p' : Population J} (hp : p.Like h Ok p') : p'.len = p.len := by
  unfold Population.len; rw [hp.individuals, List.length_map]

theorem _root_.RG.Population.Like.takeFittest (H : Homomorphism M M' h E Ok) {p : Population I} {p' : Population J} (hp : p.Like h Ok p') :
    Res.Alike (fun x x' => Ok x ∧ x' = h x) p.takeFittest p'.takeFittest := by
  rw [hp.wf.fittest_ok.2, hp.wf'.fittest_ok.2]
  unfold Population.fittest
  obtain ⟨e, -⟩ := Population.Like.best H hp
  have hlt := hp.wf.argMax_lt
  rw [e, hp.individuals, List.getElem?_map, List.getElem?_eq_getElem hlt]
  exact ⟨hp.ok _ (List.getElem_mem _), rfl⟩

theorem new_alike (H : Homomorphism M M' h E Ok) {env : Env I} {env' : Env J} (henv : env.Lawful) (henv' : env'.Lawful)
    (hs : SortsAlike h Ok env env') (l : List I) (hl : ∀ x ∈ l, Ok x) :
    Res.Alike (Population.Like h Ok) (Population.new env.sort l) (Population.new env'.sort (l.map h)) := by
  rw [Population.new_eq henv.sort, Population.new_eq henv'.sort]
  rcases hn : l with _ | ⟨x, l'⟩
  · exact trivial
  · rw [← hn, if_neg (by simp [hn]), if_neg (by simp [hn])]
    have ho : ∀ x ∈ env.sort l, Ok x := fun x hx => hl x ((henv.sort.perm l).mem_iff.1 hx)
    have e : dedup (env'.sort (l.map h)) = (dedup (env.sort l)).map h := by
      rw [hs l hl, dedup_map H.eq _ ho]
    have hne : dedup (env.sort l) ≠ [] := by rw [Ne, dedup_eq_nil, henv.sort.eq_nil]; simp [hn]
    exact ⟨⟨hne, rfl⟩, ⟨by simp only [e]; simpa using hne, rfl⟩, e, rfl, rfl, fun x hx => ho x ((dedup_sublist _).subset hx)⟩

theorem replace_alike (H : Homomorphism M M' h E Ok) {env : Env I} {env' : Env J} (henv : env.Lawful) (henv' : env'.Lawful)
    (hs : SortsAlike h Ok env env') {p : Population I} {p' : Population J} (hp : p.Like h Ok p') (l : List I) (hl : ∀ x ∈ l, Ok x) :
    Res.Alike (fun r r' => r.1.Like h Ok r'.1 ∧ r'.2 = r.2.map h) (p.replace env.sort l) (p'.replace env'.sort (l.map h)) := by
  rw [Population.replace_eq henv.sort, Population.replace_eq henv'.sort]
  rcases hn : l with _ | ⟨x, l'⟩
  · exact trivial
  · have hne' : ¬ l = [] := by simp [hn]
    have hnm : ¬ l.map h = [] := by simp [hn]
    rw [← hn, if_neg hne', if_neg hnm]
    have ho : ∀ x ∈ env.sort l, Ok x := fun x hx => hl x ((henv.sort.perm l).mem_iff.1 hx)
    have hd : ∀ x ∈ dedup (env.sort l), Ok x := fun x hx => ho x ((dedup_sublist _).subset hx)
    have e : dedup (env'.sort (l.map h)) = (dedup (env.sort l)).map h := by
      rw [hs l hl, dedup_map H.eq _ ho]
    have hne : dedup (env.sort l) ≠ [] := by rw [Ne, dedup_eq_nil, henv.sort.eq_nil]; simp [hn]
    refine ⟨⟨⟨hne, rfl⟩, ⟨by simp only [e]; simpa using hne, rfl⟩, e, by simp only [hp.generation], ?_, hd⟩, hp.individuals⟩
    obtain ⟨-, b, hb, e1, e2⟩ := Population.Like.best H hp
    obtain ⟨-, c, hc, e3, e4⟩ := collect_alike (Ok := Ok) (h := h) (fun x y hx hy => H.lt hx hy) _ hne hd
    simp only [e, e1, e2, e3, e4, hp.stagnation, H.lt hb (hd c hc)]

/-! ### Selection -/

/-- What selectors return corresponds. -/
def SameChoice (h : I → J) (Ok : I → Prop) (r : Nat × I) (r' : Nat × J) : Prop := r'.1 = r.1 ∧ r'.2 = h r.2 ∧ Ok r.2

theorem memberAt_alike {p : Population I} {p' : Population J} (hp : p.Like h Ok p') (i : Nat) :
    Res.Alike (SameChoice h Ok) (memberAt p i) (memberAt p' i) := by
  unfold memberAt index
  rw [hp.individuals, List.getElem?_map]
  rcases hi : p.individuals[i]? with _ | x
  · exact trivial
  · exact ⟨rfl, rfl, hp.ok x (List.mem_of_getElem? hi)⟩

theorem select_coupled {s : DynSel U} (hs : s.Ordinal) (env env' : NumEnv) (cs : CustomSelector I U) (cs' : CustomSelector J U)
    {p : Population I} {p' : Population J} (hp : p.Like h Ok p') :
    Coupled (SameChoice h Ok) (s.select env cs p) (s.select env' cs' p') := by
  have hm := memberAt_alike hp
  have hl := Population.Like.len hp
  rcases s with (s | s | s | _ | s | s) | u
  · show Coupled _ (TournamentSelection.select s p) (TournamentSelection.select s p')
    unfold TournamentSelection.select
    rw [hl]
    exact .bind_right _ fun _ => .bind_right _ fun _ => .bind_right _ fun i => coupled_lift (hm i)
  · exact hs.elim
  · exact hs.elim
  · show Coupled _ (rankSelect p) (rankSelect p')
    unfold rankSelect
    simp only [hl]
    refine .bind_right _ fun _ => .bind_right _ fun _ => .bind_right _ fun r => ?_
    cases r
    · exact coupled_lift (hm 0)
    · exact coupled_lift (hm _)
  · show Coupled _ (LinearSelection.select s p) (LinearSelection.select s p')
    unfold LinearSelection.select
    rw [hl]
    exact .bind_right _ fun _ => .bind_right _ fun i => coupled_lift (hm i)
  · show Coupled _ (ElitistSelection.select s p) (ElitistSelection.select s p')
    unfold ElitistSelection.select
    rw [hl]
    exact .bind_right _ fun i => coupled_lift (hm i)
  · exact hs.elim

theorem selectDistinct_coupled (heq : ∀ x y, Ok x → Ok y → Individual.eq (h x) (h y) = Individual.eq x y) {p : Prog (Nat × I)}
    {p' : Prog (Nat × J)} (hp : Coupled (SameChoice h Ok) p p') (x : I) (hx : Ok x) (n : Nat) :
    Coupled (fun o o' => o'.map Prod.snd = (o.map Prod.snd).map h ∧ ∀ r, o = some r → Ok r.2)
      (selectDistinct p x n) (selectDistinct p' (h x) n) := by
  induction n with
  | zero => exact coupled_pure ⟨rfl, by simp⟩
  | succ n ih =>
    unfold selectDistinct
    refine hp.bind fun r r' hr => ?_
    obtain ⟨i, y⟩ := r
    obtain ⟨i', y'⟩ := r'
    obtain ⟨e1, e2, e3⟩ := hr
    simp only at e1 e2 e3
    subst e1 e2
    show Coupled _ (if Individual.eq y x = false then _ else _) (if Individual.eq (h y) (h x) = false then _ else _)
    rw [heq y x e3 hx]
    split
    · exact coupled_pure ⟨rfl, fun r hr => by cases hr; exact e3⟩
    · exact ih

/-! ### Breeding -/

theorem breedParents_coupled (H : Homomorphism M M' h E Ok) (env env' : NumEnv) {p : Population I} {p' : Population J}
    (hp : p.Like h Ok p') (r : ReproParams U) (hr : r.parentSelector.Ordinal) :
    Coupled (fun x x' => x' = (h x.1, x.2.map h) ∧ Ok x.1 ∧ ∀ y, x.2 = some y → Ok y) (breedParents M.toEvoOps env p r)
      (breedParents M'.toEvoOps env' p' r) := by
  unfold breedParents
  rw [Population.Like.len hp]
  refine (select_coupled hr env env' _ _ hp).bind fun s s' hs => .bind_right _ fun cross => ?_
  obtain ⟨-, e2, hx⟩ := hs
  rw [e2]
  refine Coupled.bind (R := fun o o' => o' = o.map h ∧ ∀ y, o = some y → Ok y) ?_ fun o o' ho => ?_
  · split
    · refine Coupled.bind (R := fun o o' => o'.map Prod.snd = (o.map Prod.snd).map h ∧ ∀ r, o = some r → Ok r.2) ?_ fun o o' ho => ?_
      · obtain ⟨sel, e⟩ : ∃ sel, r.parentSelector = .builtin sel := by
          rcases e : r.parentSelector with sel | u
          · exact ⟨sel, rfl⟩
          · rw [e] at hr; exact hr.elim
        rw [e] at hr ⊢
        exact selectDistinct_coupled H.eq (select_coupled hr env env' M.selectors M'.selectors hp) s.2 hx 3
      · refine coupled_pure ⟨ho.1, fun y hy => ?_⟩
        obtain ⟨r, e, rfl⟩ := Option.map_eq_some_iff.1 hy
        exact ho.2 r e
    · exact coupled_pure ⟨rfl, by simp⟩
  · exact coupled_pure ⟨by rw [ho.1], hx, ho.2⟩

theorem fitterParent_alike (H : Homomorphism M M' h E Ok) (x : I) (o : Option I) (hx : Ok x) (ho : ∀ y, o = some y → Ok y) :
    fitterParent (h x) (o.map h) = h (fitterParent x o) ∧ Ok (fitterParent x o) := by
  cases o with
  | none => exact ⟨rfl, hx⟩
  | some y =>
    simp only [Option.map_some, fitterParent]
    rw [H.lt hx (ho y rfl)]
    split
    · exact ⟨rfl, ho y rfl⟩
    · exact ⟨rfl, hx⟩

theorem breed_coupled (H : Homomorphism M M' h E Ok) (env env' : NumEnv) (m : Mo) {p : Population I} {p' : Population J}
    (hp : p.Like h Ok p') (r : ReproParams U) (hr : r.parentSelector.Ordinal) :
    Coupled (fun c c' => Ok c ∧ c' = h c) (M.breed env m p r) (M'.breed env' m p' r) := by
  rw [H.breed, H.breed', defaultBreed_eq, defaultBreed_eq]
  refine (breedParents_coupled H env env' hp r hr).bind fun x x' hx => ?_
  obtain ⟨rfl, hx1, hx2⟩ := hx
  obtain ⟨ef, hf⟩ := fitterParent_alike H x.1 x.2 hx1 hx2
  refine Coupled.bind (R := E) ?_ fun o o' ho => ?_
  · rcases hx : x.2 with _ | y
    · exact coupled_pure (H.embed _ hx1)
    · exact H.crossover m x.1 y hx1 (hx2 y hx)
  refine Coupled.bind (R := E) ?_ fun o o' ho => ?_
  · unfold breedMutate
    refine .bind_right _ fun u => ?_
    split
    · exact H.mutate m o o' ho
    · exact coupled_pure ho
  unfold breedEnd
  refine (H.improve m o o' ho).bind fun o o' ho => ?_
  refine (H.evaluate m o o' ho).bind fun o o' ho => ?_
  obtain ⟨ho, rfl⟩ := ho
  refine Coupled.bind (R := Eq) ?_ fun b b' hb => ?_
  · rw [H.valid o ho, ef]
    split
    · exact H.canSurvive m o _ p p' ho hf hp
    · exact coupled_pure rfl
  · cases hb
    rw [ef]
    refine coupled_pure ?_
    split
    · exact ⟨ho, rfl⟩
    · exact ⟨hf, rfl⟩

theorem forall₂_map (R : I → Prop) (l : List I) (l' : List J) (hl : List.Forall₂ (fun c c' => R c ∧ c' = h c) l l') :
    l' = l.map h ∧ ∀ x ∈ l, R x := by
  induction hl with
  | nil => simp
  | cons hab _ ih =>
    obtain ⟨h1, rfl⟩ := hab
    obtain ⟨rfl, ih⟩ := ih
    exact ⟨rfl, fun x hx => by rcases List.mem_cons.1 hx with rfl | hx; exacts [h1, ih x hx]⟩

theorem generate_coupled (H : Homomorphism M M' h E Ok) (env env' : NumEnv) (m : Mo) {p : Population I} {p' : Population J}
    (hp : p.Like h Ok p') (r : ReproParams U × Nat) (hr : r.1.parentSelector.Ordinal) (l : List I) (hl : ∀ x ∈ l, Ok x) :
    Coupled (fun b b' => b' = b.map h ∧ ∀ x ∈ b, Ok x) (defaultGenerate M env m r p l) (defaultGenerate M' env' m r p' (l.map h)) := by
  unfold defaultGenerate
  obtain ⟨r, n⟩ := r
  have hb := breed_coupled H env env' m hp r hr
  simp only [List.length_map]
  split
  · exact coupled_pure ⟨rfl, hl⟩
  · exact hb.bind fun _ _ _ => coupled_pure ⟨rfl, hl⟩
  · refine (hb.replicate _).bind fun b b' hbb => ?_
    obtain ⟨rfl, hbo⟩ := forall₂_map Ok b b' hbb
    refine coupled_pure ⟨by rw [List.map_append], fun x hx => ?_⟩
    rcases List.mem_append.1 hx with hx | hx
    exacts [hl x hx, hbo x hx]

theorem mapList_coupled {α β : Type} {R : α → β → Prop} {f : I → Prog α} {g : J → Prog β} {l : List I} {l' : List J}
    (hl : List.Forall₂ E l l') (hfg : ∀ x x', E x x' → Coupled R (f x) (g x')) :
    Coupled (List.Forall₂ R) (Prog.mapList f l) (Prog.mapList g l') := by
  induction hl with
  | nil => exact coupled_pure .nil
  | cons hxy _ ih => exact (hfg _ _ hxy).bind fun a b hab => ih.bind fun as bs hs => coupled_pure (.cons hab hs)

theorem initialize_coupled (H : Homomorphism M M' h E Ok) {env : Env I} {env' : Env J} (henv : env.Lawful) (henv' : env'.Lawful)
    (hs : SortsAlike h Ok env env') (m : Mo) {l : List I} {l' : List J} (hl : List.Forall₂ E l l') :
    Coupled (Population.Like h Ok) (defaultInitialize M env m l) (defaultInitialize M' env' m l') := by
  unfold defaultInitialize
  refine (mapList_coupled hl fun x x' hx => H.evaluate m x x' hx).bind fun b b' hb => ?_
  obtain ⟨rfl, ho⟩ := forall₂_map Ok b b' hb
  have e : (b.map h).filter isValid = (b.filter isValid).map h := by
    rw [List.filter_map]
    congr 1
    exact List.filter_congr fun x hx => H.valid x (ho x hx)
  simp only [e]
  exact coupled_lift (new_alike H henv henv' hs _ fun x hx => ho x (List.mem_filter.1 hx).1)

/-! ### Runs -/

theorem takeElites_map (n : Nat) {p : Population I} {p' : Population J} (hp : p.Like h Ok p') (l : List I) :
    takeElites n p' (l.map h) = (takeElites n p l).map h := by
  unfold takeElites
  rw [Population.Like.len hp, hp.individuals]
  split
  · simp only [List.map_append, List.map_drop]
  · rfl

theorem takeElites_ok (n : Nat) {p : Population I} {p' : Population J} (hp : p.Like h Ok p') : ∀ x ∈ takeElites n p [], Ok x := by
  unfold takeElites
  split
  · intro x hx
    exact hp.ok x (List.mem_of_mem_drop (by simpa using hx))
  · simp

variable {A A' P Q : Type} {alg : EvoAlgo I Mo U A P} {alg' : EvoAlgo J Mo U A' P} {R0 RA : A → A' → Prop} {PP : P → Prop}
  {elite : A → Nat} {elite' : A' → Nat} {size : A → Nat} {size' : A' → Nat} {eliteOf eliteOf' : P → Nat}

theorem step_coupled (H : Homomorphism M M' h E Ok) (hstd : Standard M alg elite size eliteOf)
    (hstd' : Standard M' alg' elite' size' eliteOf') (HA : AlgoLike h Ok alg alg' R0 RA PP elite elite') {env : Env I} {env' : Env J}
    (henv : env.Lawful) (henv' : env'.Lawful) (hs : SortsAlike h Ok env env') {st : RunState I A Q} {st' : RunState J A' Q}
    (hst : st.Like h Ok RA st') : Coupled (RunState.Like h Ok RA) (generationStep alg env st) (generationStep alg' env' st') := by
  unfold generationStep
  refine (HA.prepare _ _ _ _ _ _ hst.algo hst.population).bind fun a a' ha => ?_
  obtain ⟨hr, hro⟩ := HA.repro a a' ha
  rw [hstd.elites, hstd'.elites, HA.elite a a' ha, show ([] : List J) = ([] : List I).map h from rfl,
    takeElites_map _ hst.population]
  show Coupled _ (_ >>= _) (_ >>= _)
  rw [lift_ok, lift_ok, bind_pure_left, bind_pure_left, hstd.generate, hstd'.generate, HA.model a a' ha, hr]
  refine (generate_coupled H env.num env'.num _ hst.population _ hro _ (takeElites_ok _ hst.population)).bind fun b b' hb => ?_
  obtain ⟨rfl, hbo⟩ := hb
  rw [hstd.replace, hstd'.replace]
  unfold defaultReplace
  refine (coupled_lift (replace_alike H henv henv' hs hst.population b hbo)).bind fun r r' hrr => ?_
  exact coupled_pure ⟨ha, hrr.1, hrr.2, hst.q, hst.shown⟩

theorem loop_coupled (H : Homomorphism M M' h E Ok) (hstd : Standard M alg elite size eliteOf)
    (hstd' : Standard M' alg' elite' size' eliteOf') (HA : AlgoLike h Ok alg alg' R0 RA PP elite elite') {envs : Nat → Env I}
    {envs' : Nat → Env J} (henv : ∀ t, (envs t).Lawful) (henv' : ∀ t, (envs' t).Lawful)
    (hs : ∀ t, SortsAlike h Ok (envs t) (envs' t)) {progress : Q → Population I → Prog (Bool × Q)}
    {progress' : Q → Population J → Prog (Bool × Q)}
    (hpr : ∀ q p p', Population.Like h Ok p p' → Coupled Eq (progress q p) (progress' q p')) (fuel t : Nat) {st : RunState I A Q}
    {st' : RunState J A' Q} (hst : st.Like h Ok RA st') :
    Coupled (fun r r' => r'.1 = r.1 ∧ RunState.Like h Ok RA r.2 r'.2) (evolveLoop alg envs progress fuel t st)
      (evolveLoop alg' envs' progress' fuel t st') := by
  induction fuel generalizing t st st' with
  | zero => exact coupled_pure ⟨rfl, hst⟩
  | succ fuel ih =>
    unfold evolveLoop
    rw [hst.q]
    refine (hpr st.q _ _ hst.population).bind fun r r' hr => ?_
    subst hr
    have hst1 : RunState.Like h Ok RA { st with q := r.2, shown := st.shown ++ [st.population] }
        { st' with q := r.2, shown := st'.shown ++ [st'.population] } :=
      ⟨hst.algo, hst.population, hst.buffer, rfl, List.rel_append hst.shown (.cons hst.population .nil)⟩
    obtain ⟨b, q⟩ := r
    cases b
    · exact coupled_pure ⟨rfl, hst1⟩
    · exact (step_coupled H hstd hstd' HA (henv t) (henv' t) (hs t) hst1).bind fun s s' h1 => ih (t + 1) h1

theorem evolvePopulation_coupled (H : Homomorphism M M' h E Ok) (hstd : Standard M alg elite size eliteOf)
    (hstd' : Standard M' alg' elite' size' eliteOf') (HA : AlgoLike h Ok alg alg' R0 RA PP elite elite') {envs : Nat → Env I}
    {envs' : Nat → Env J} (henv : ∀ t, (envs t).Lawful) (henv' : ∀ t, (envs' t).Lawful)
    (hs : ∀ t, SortsAlike h Ok (envs t) (envs' t)) {progress : Q → Population I → Prog (Bool × Q)}
    {progress' : Q → Population J → Prog (Bool × Q)}
    (hpr : ∀ q p p', Population.Like h Ok p p' → Coupled Eq (progress q p) (progress' q p')) (fuel : Nat) {a : A} {a' : A'}
    (ha : R0 a a') {l : List I} {l' : List J} (hl : List.Forall₂ E l l') (p : P) (hp : PP p) (q : Q) :
    Coupled (fun r r' => r'.1 = r.1 ∧ RunState.Like h Ok RA r.2 r'.2) (evolvePopulation alg envs progress fuel a l p q)
      (evolvePopulation alg' envs' progress' fuel a' l' p q) := by
  unfold evolvePopulation
  refine (coupled_lift (HA.configure a a' p ha hp)).bind fun b b' hb => ?_
  rw [hstd.init, hstd'.init, HA.model b b' hb]
  exact (initialize_coupled H (henv 0) (henv' 0) (hs 0) _ hl).bind fun s s' h1 =>
    loop_coupled H hstd hstd' HA henv henv' hs hpr fuel 1 ⟨hb, h1, rfl, rfl, .nil⟩

theorem takeResult_coupled (H : Homomorphism M M' h E Ok) {r : Bool × RunState I A Q} {r' : Bool × RunState J A' Q}
    (hr : r'.1 = r.1 ∧ RunState.Like h Ok RA r.2 r'.2) :
    Coupled (fun r r' => r'.1 = r.1.map h ∧ RunState.Like h Ok RA r.2 r'.2) (takeResult r) (takeResult r') := by
  obtain ⟨b, st⟩ := r
  obtain ⟨b', st'⟩ := r'
  obtain ⟨rfl, hst⟩ := hr
  unfold takeResult
  dsimp only
  split
  · exact (coupled_lift (Population.Like.takeFittest H hst.population)).bind fun x x' hx => coupled_pure ⟨by simp [hx.2], hst⟩
  · exact coupled_pure ⟨rfl, hst⟩

theorem extend_coupled (H : Homomorphism M M' h E Ok) (m : Mo) {newRandom : Prog I} {newRandom' : Prog J}
    (hn : Coupled E newRandom newRandom') (n : Nat) :
    Coupled (List.Forall₂ E) (M.extend m newRandom [] n) (M'.extend m newRandom' [] n) := by
  rw [H.extend, H.extend']
  show Coupled _ (defaultExtend _ _ _) (defaultExtend _ _ _)
  unfold defaultExtend
  split
  · exact coupled_pure .nil
  · exact (hn.replicate n).bind fun l l' hl => coupled_pure hl

theorem extendWith_coupled (H : Homomorphism M M' h E Ok) (m : Mo) (x : I) (x' : J) (hx : E x x') (n : Nat) :
    Coupled (List.Forall₂ E) (M.extendWith m [] n x) (M'.extendWith m [] n x') := by
  rw [H.extendWith, H.extendWith']
  unfold defaultExtendWith
  split
  · exact coupled_pure .nil
  · split
    · exact coupled_pure (.cons hx .nil)
    · exact .bind_right _ fun k => ((H.mutate m x x' hx).replicate k).bind fun l l' hl => coupled_pure (.cons hx hl)

/-! ### The built-in algorithms -/

theorem createSelector_ordinal (s : SelectionStrategy) (hs : s.Ordinal) (sel : Selector) (he : s.createSelector = .ok sel) :
    (DynSel.builtin sel : DynSel U).Ordinal := by
  rcases s with s | s | s | _ | s | s <;> first | exact hs.elim | skip
  · simp only [SelectionStrategy.createSelector] at he
    rcases e : TournamentSelection.new s with x | _ | _ <;> rw [e] at he <;> cases he
    trivial
  · cases he; trivial
  · cases he; trivial
  · simp only [SelectionStrategy.createSelector] at he
    rcases e : ElitistSelection.new s with x | _ | _ <;> rw [e] at he <;> cases he
    trivial

theorem prepare_ordinal {s : DynSel U} (hs : s.Ordinal) (env : NumEnv) (cs : CustomSelector I U) (p : Population I) :
    s.prepare env cs p = s := by
  rcases s with (s | s | s | _ | s | s) | u <;> first | rfl | exact hs.elim

theorem ga_like (H : Homomorphism M M' h E Ok) :
    AlgoLike h Ok (ga M) (ga M') Eq Ga.Same (fun p => p.selectionStrategy.Ordinal) Ga.eliteSize Ga.eliteSize where
  size _ := rfl
  modelBefore _ _ e := by rw [e]; rfl
  configure a a' p e hp := by
    subst e
    show Res.Alike Ga.Same (Ga.configure a p) (Ga.configure a p)
    unfold Ga.configure
    rcases p.validate with u | _ | _ <;> try exact trivial
    rcases interpolateUsize 0 p.populationSize p.elitismRate with n | _ | _ <;> try exact trivial
    rcases he : p.selectionStrategy.createSelector with sel | _ | _ <;> try exact trivial
    exact ⟨rfl, createSelector_ordinal _ hp sel he⟩
  prepare env env' a a' p p' e hp := by
    obtain ⟨rfl, ho⟩ := e
    show Coupled _ (Ga.prepare M env a' p) (Ga.prepare M' env' a' p')
    unfold Ga.prepare
    refine (H.preGeneration a'.model p p' a'.breeding hp ho).bind fun s s' hs => ?_
    obtain ⟨rfl, hso⟩ := hs
    refine coupled_pure ?_
    simp only [prepare_ordinal hso]
    exact ⟨rfl, hso⟩
  model a a' e := by rw [e.1]; rfl
  repro a a' e := by rw [e.1]; exact ⟨rfl, e.2⟩
  elite a a' e := by rw [e.1]

theorem aga_like (H : Homomorphism M M' h E Ok) :
    AlgoLike h Ok (aga M) (aga M') Aga.Like Aga.Same (fun p => p.selectionStrategy.Ordinal ∧ p.adjustmentInterval = 0) Aga.eliteSize
      Aga.eliteSize where
  size _ := rfl
  modelBefore _ _ e := by obtain ⟨s, rfl⟩ := e; rfl
  configure a a' p e hp := by
    obtain ⟨s, rfl⟩ := e
    show Res.Alike Aga.Same (Aga.configure a p) (Aga.configure _ p)
    unfold Aga.configure
    rcases p.validate with u | _ | _ <;> try exact trivial
    rcases interpolateUsize 0 p.populationSize p.elitismRate with n | _ | _ <;> try exact trivial
    rcases he : p.selectionStrategy.createSelector with sel | _ | _ <;> try exact trivial
    exact ⟨⟨s, rfl⟩, createSelector_ordinal _ hp.1 sel he, hp.2⟩
  prepare env env' a a' p p' e hp := by
    obtain ⟨⟨s, rfl⟩, ho, hi⟩ := e
    show Coupled _ (Aga.prepare M env a p) (Aga.prepare M' env' _ p')
    have hadj : Aga.Same (a.adjust p.generation p.stats.std)
        (Aga.adjust { a with referenceStd := s } p'.generation p'.stats.std) := by
      unfold Aga.adjust
      rw [hp.generation]
      by_cases hg : p.generation = 0
      · simp only [hg, if_true]
        exact ⟨⟨_, rfl⟩, ho, hi⟩
      · have h1 : ¬ (a.adjustmentInterval ≠ 0 ∧ p.generation % a.adjustmentInterval = 0) := fun h => h.1 hi
        simp only [hg, if_false, h1]
        exact ⟨⟨_, rfl⟩, ho, hi⟩
    unfold Aga.prepare
    generalize a.adjust p.generation p.stats.std = b at hadj ⊢
    generalize Aga.adjust { a with referenceStd := s } p'.generation p'.stats.std = b' at hadj ⊢
    obtain ⟨⟨s, rfl⟩, ho, hi⟩ := hadj
    refine (H.preGeneration b.model p p' b.breeding hp ho).bind fun s s' hs => ?_
    obtain ⟨rfl, hso⟩ := hs
    refine coupled_pure ?_
    simp only [prepare_ordinal hso]
    exact ⟨⟨_, rfl⟩, hso, hi⟩
  model a a' e := by obtain ⟨⟨s, rfl⟩, -⟩ := e; rfl
  repro a a' e := by obtain ⟨⟨s, rfl⟩, ho, -⟩ := e; exact ⟨rfl, ho⟩
  elite a a' e := by obtain ⟨⟨s, rfl⟩, -⟩ := e; rfl

end RG.Props
