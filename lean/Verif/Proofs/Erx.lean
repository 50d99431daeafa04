import Verif.Proofs.Scx

/-! Helper lemmas: ERX. -/

namespace RG
set_option linter.unusedSectionVars false
variable {G : Type} [DecidableEq G]

theorem mem_setExtend (s xs : List G) (x : G) : x ∈ setExtend s xs ↔ x ∈ s ∨ x ∈ xs := by
  unfold setExtend
  induction xs generalizing s with
  | nil => simp
  | cons y ys ih =>
    rw [List.foldl_cons, ih]
    split
    · rename_i h
      constructor
      · rintro (h1 | h1)
        · exact Or.inl h1
        · exact Or.inr (List.mem_cons_of_mem _ h1)
      · rintro (h1 | h1)
        · exact Or.inl h1
        · rcases List.mem_cons.1 h1 with rfl | h1
          · exact Or.inl h
          · exact Or.inr h1
    · simp only [List.mem_append, List.mem_cons]; tauto

theorem nodup_setExtend (s xs : List G) (h : s.Nodup) : (setExtend s xs).Nodup := by
  unfold setExtend
  induction xs generalizing s with
  | nil => exact h
  | cons y ys ih =>
    rw [List.foldl_cons]
    split
    · exact ih s h
    · rename_i hy
      refine ih _ ?_
      rw [List.nodup_append]
      refine ⟨h, by simp, ?_⟩
      intro a ha b hb
      rw [List.mem_singleton] at hb
      subst hb; rintro rfl; exact hy ha

/-- Lookup as an option. -/
def mapFind (map : List (G × List G)) (k : G) : Option (List G) := (map.find? fun e => decide (e.1 = k)).map (·.2)

theorem mapGet_eq (map : List (G × List G)) (k : G) : mapGet map k = Res.ofOption (mapFind map k) := rfl

theorem mapFind_add (map : List (G × List G)) (g k : G) (ns : List G) :
    mapFind (addNeighbors map g ns) k = if k = g then some (setExtend ((mapFind map g).getD []) ns) else mapFind map k := by
  unfold mapFind
  induction map with
  | nil =>
    unfold addNeighbors
    by_cases h : k = g
    · subst h; simp
    · have : ¬ g = k := fun e => h e.symm
      simp [h, this]
  | cons e map ih =>
    obtain ⟨k', s⟩ := e
    unfold addNeighbors
    by_cases h' : k' = g
    · subst h'
      by_cases h : k = k'
      · subst h; simp
      · have : ¬ k' = k := fun e => h e.symm
        simp [h, this]
    · simp only [h', if_false]
      by_cases h2 : k' = k
      · subst h2; simp [h']
      · simp only [List.find?_cons, h2, h', decide_false]
        exact ih

theorem mapFind_foldl (es : List (G × List G)) (map : List (G × List G)) (k : G)
    (hmap : ∀ s, mapFind map k = some s → s.Nodup)
    (hk : (mapFind map k).isSome ∨ ∃ e ∈ es, e.1 = k) :
    ∃ s, mapFind (es.foldl (fun map e => addNeighbors map e.1 e.2) map) k = some s ∧ s.Nodup ∧
      ∀ x, x ∈ s ↔ x ∈ (mapFind map k).getD [] ∨ ∃ e ∈ es, e.1 = k ∧ x ∈ e.2 := by
  induction es generalizing map with
  | nil =>
    rcases hk with h | ⟨e, he, -⟩
    · obtain ⟨s, hs⟩ := Option.isSome_iff_exists.1 h
      exact ⟨s, hs, hmap s hs, by simp [hs]⟩
    · cases he
  | cons e es ih =>
    rw [List.foldl_cons]
    have hgetnd : ((mapFind map k).getD []).Nodup := by
      cases hm : mapFind map k with
      | none => simp
      | some s => exact hmap s hm
    by_cases hek : e.1 = k
    · have hf : mapFind (addNeighbors map e.1 e.2) k = some (setExtend ((mapFind map k).getD []) e.2) := by
        rw [mapFind_add, if_pos hek.symm, hek]
      obtain ⟨s, h1, h2, h3⟩ := ih (addNeighbors map e.1 e.2)
        (by intro s hs; rw [hf] at hs; cases hs; exact nodup_setExtend _ _ hgetnd) (Or.inl (by rw [hf]; rfl))
      refine ⟨s, h1, h2, fun x => ?_⟩
      rw [h3, hf]
      simp only [Option.getD_some, mem_setExtend, List.exists_mem_cons_iff, hek, true_and, or_assoc]
    · have hf : mapFind (addNeighbors map e.1 e.2) k = mapFind map k := by
        rw [mapFind_add, if_neg (fun h => hek h.symm)]
      obtain ⟨s, h1, h2, h3⟩ := ih (addNeighbors map e.1 e.2)
        (by intro s hs; rw [hf] at hs; exact hmap s hs)
        (by
          rcases hk with h | ⟨e', he', h⟩
          · left; rw [hf]; exact h
          · rcases List.mem_cons.1 he' with rfl | he'
            · exact absurd h hek
            · exact Or.inr ⟨e', he', h⟩)
      refine ⟨s, h1, h2, fun x => ?_⟩
      rw [h3, hf]
      simp only [List.exists_mem_cons_iff, hek, false_and, false_or]

/-- The neighbours recorded for the gene at position `i`. -/
theorem neighborsOf_ok (g : List G) (is : List Nat) (his : ∀ i ∈ is, i < g.length) :
    ∃ l, neighborsOf g.length g is = .ok l ∧ ∀ e, e ∈ l ↔ ∃ i ∈ is, ∃ prev next,
      g[i]? = some e.1 ∧ g[if i ≠ 0 then i - 1 else g.length - 1]? = some prev ∧ g[(i + 1) % g.length]? = some next ∧
      e.2 = [prev, next] := by
  induction is with
  | nil => exact ⟨[], rfl, by simp⟩
  | cons i is ih =>
    obtain ⟨l, hl, hm⟩ := ih fun j hj => his j (List.mem_cons_of_mem _ hj)
    have hi := his i (by simp)
    have hp : (if i ≠ 0 then i - 1 else g.length - 1) < g.length := by split <;> omega
    have hs : (if i + 1 ≠ g.length then i + 1 else 0) < g.length := by split <;> omega
    have hs' : (if i + 1 ≠ g.length then i + 1 else 0) = (i + 1) % g.length := succIndex_eq g.length i hi
    refine ⟨(g[i], [g[if i ≠ 0 then i - 1 else g.length - 1], g[if i + 1 ≠ g.length then i + 1 else 0]]) :: l,
      by unfold neighborsOf; simp only [index_ok _ _ hi, index_ok _ _ hp, index_ok _ _ hs, hl, Res.bind_ok,
        Res.pure_eq], ?_⟩
    intro e
    rw [List.mem_cons, hm, List.exists_mem_cons_iff]
    refine or_congr_left ?_
    rw [← hs', List.getElem?_eq_getElem hi, List.getElem?_eq_getElem hp, List.getElem?_eq_getElem hs]
    constructor
    · rintro rfl; exact ⟨_, _, rfl, rfl, rfl, rfl⟩
    · rintro ⟨prev, next, h1, h2, h3, h4⟩
      cases e
      simp only [Option.some.injEq] at h1 h2 h3 h4
      subst h1 h2 h3 h4; rfl

theorem follows_iff_prev (g : List G) (x k : G) :
    Follows g x k ↔ ∃ i, i < g.length ∧ g[i]? = some k ∧ g[if i ≠ 0 then i - 1 else g.length - 1]? = some x := by
  constructor
  · rintro ⟨j, hj, h1, h2⟩
    refine ⟨(j + 1) % g.length, Nat.mod_lt _ (by omega), h2, ?_⟩
    rw [← h1]
    congr 1
    by_cases h : j + 1 = g.length
    · rw [h, Nat.mod_self]; simp; omega
    · rw [Nat.mod_eq_of_lt (by omega)]; simp
  · rintro ⟨i, hi, h1, h2⟩
    refine ⟨if i ≠ 0 then i - 1 else g.length - 1, by split <;> omega, h2, ?_⟩
    rw [← h1]
    congr 1
    split
    · rw [Nat.sub_add_cancel (by omega), Nat.mod_eq_of_lt hi]
    · rw [Nat.sub_add_cancel (by omega), Nat.mod_self]; omega

theorem neighborsOf_adj (g : List G) : ∃ l, neighborsOf g.length g (List.range g.length) = .ok l ∧
    (∀ k x, (∃ e ∈ l, e.1 = k ∧ x ∈ e.2) ↔ Adj g k x) ∧ ∀ k ∈ g, ∃ e ∈ l, e.1 = k := by
  obtain ⟨l, hl, hm⟩ := neighborsOf_ok g (List.range g.length) (by simp)
  refine ⟨l, hl, fun k x => ?_, fun k hk => ?_⟩
  · constructor
    · rintro ⟨e, he, rfl, hx⟩
      obtain ⟨i, hi, prev, next, h1, h2, h3, h4⟩ := (hm e).1 he
      rw [List.mem_range] at hi
      rw [h4] at hx
      simp only [List.mem_cons, List.not_mem_nil, or_false] at hx
      rcases hx with rfl | rfl
      · exact Or.inr ((follows_iff_prev g x e.1).2 ⟨i, hi, h1, h2⟩)
      · exact Or.inl ⟨i, hi, h1, h3⟩
    · have key : ∀ i, i < g.length → g[i]? = some k → ∃ prev next, (k, [prev, next]) ∈ l ∧
          g[if i ≠ 0 then i - 1 else g.length - 1]? = some prev ∧ g[(i + 1) % g.length]? = some next := by
        intro i hi h1
        have hp : (if i ≠ 0 then i - 1 else g.length - 1) < g.length := by split <;> omega
        have hs : (i + 1) % g.length < g.length := Nat.mod_lt _ (by omega)
        refine ⟨_, _, (hm _).2 ⟨i, by simpa using hi, _, _, h1, List.getElem?_eq_getElem hp, List.getElem?_eq_getElem hs, rfl⟩,
          List.getElem?_eq_getElem hp, List.getElem?_eq_getElem hs⟩
      rintro (⟨i, hi, h1, h2⟩ | h)
      · obtain ⟨prev, next, h3, h4, h5⟩ := key i hi h1
        refine ⟨_, h3, rfl, ?_⟩
        rw [h2] at h5; cases h5; simp
      · obtain ⟨i, hi, h1, h2⟩ := (follows_iff_prev g x k).1 h
        obtain ⟨prev, next, h3, h4, h5⟩ := key i hi h1
        refine ⟨_, h3, rfl, ?_⟩
        rw [h2] at h4; cases h4; simp
  · obtain ⟨i, hi, rfl⟩ := List.getElem_of_mem hk
    have hp : (if i ≠ 0 then i - 1 else g.length - 1) < g.length := by split <;> omega
    have hs : (i + 1) % g.length < g.length := Nat.mod_lt _ (by omega)
    exact ⟨(g[i], [_, _]), (hm _).2 ⟨i, by simpa using hi, _, _, List.getElem?_eq_getElem hi, List.getElem?_eq_getElem hp,
      List.getElem?_eq_getElem hs, rfl⟩, rfl⟩

/-- The map holds, for every gene, the set of its neighbours not removed yet. -/
def ErxMap (p1 p2 removed : List G) (map : List (G × List G)) : Prop :=
  ∀ k ∈ p1, ∃ s, mapFind map k = some s ∧ s.Nodup ∧ ∀ x, x ∈ s ↔ Candidate p1 p2 removed k x

theorem neighborLists_ok (p1 p2 : List G) (hlen : p1.length = p2.length) :
    ∃ map, neighborLists p1 p2 = .ok map ∧ ErxMap p1 p2 [] map := by
  obtain ⟨l1, e1, h1, k1⟩ := neighborsOf_adj p1
  obtain ⟨l2, e2, h2, k2⟩ := neighborsOf_adj p2
  refine ⟨(l1 ++ l2).foldl (fun map e => addNeighbors map e.1 e.2) [], by unfold neighborLists; rw [hlen] at e1 ⊢; simp only [e1, e2, Res.bind_ok, Res.pure_eq], ?_⟩
  intro k hk
  obtain ⟨e, he, hek⟩ := k1 k hk
  obtain ⟨s, hs1, hs2, hs3⟩ := mapFind_foldl (l1 ++ l2) [] k (by intro s hs; cases hs)
    (Or.inr ⟨e, List.mem_append_left _ he, hek⟩)
  refine ⟨s, hs1, hs2, fun x => ?_⟩
  rw [hs3]
  unfold Candidate
  rw [← h1, ← h2]
  have : mapFind ([] : List (G × List G)) k = none := rfl
  simp only [this, Option.getD_none, List.not_mem_nil, false_or, not_false_eq_true, and_true, List.mem_append]
  constructor
  · rintro ⟨e, he | he, h⟩
    · exact Or.inl ⟨e, he, h⟩
    · exact Or.inr ⟨e, he, h⟩
  · rintro (⟨e, he, h⟩ | ⟨e, he, h⟩)
    · exact ⟨e, Or.inl he, h⟩
    · exact ⟨e, Or.inr he, h⟩

theorem mapFind_map (map : List (G × List G)) (f : List G → List G) (k : G) :
    mapFind (map.map fun e => (e.1, f e.2)) k = (mapFind map k).map f := by
  unfold mapFind
  induction map with
  | nil => rfl
  | cons e map ih =>
    simp only [List.map_cons, List.find?_cons]
    by_cases h : e.1 = k
    · simp [h]
    · simp only [h, decide_false]
      exact ih

theorem ErxMap.remove {p1 p2 removed : List G} {map : List (G × List G)} (h : ErxMap p1 p2 removed map) (cur : G) :
    ErxMap p1 p2 (cur :: removed) (map.map fun e => (e.1, e.2.filter fun g => decide (g ≠ cur))) := by
  intro k hk
  obtain ⟨s, h1, h2, h3⟩ := h k hk
  refine ⟨s.filter fun g => decide (g ≠ cur), ?_, h2.filter _, fun x => ?_⟩
  · rw [mapFind_map map (fun s => s.filter fun g => decide (g ≠ cur)), h1]; rfl
  · rw [List.mem_filter, h3]
    unfold Candidate
    simp only [decide_eq_true_eq, List.mem_cons, not_or]
    tauto

theorem minByKeyFrom_ok (key : G → Res Nat) (f : G → Nat) (xs : List G) (hkey : ∀ x ∈ xs, key x = .ok (f x)) (k : Nat)
    (x : G) (hk : k = f x) :
    ∃ m, minByKeyFrom key k x xs = .ok m ∧ m ∈ x :: xs ∧ (∀ y ∈ x :: xs, f m ≤ f y) ∧
      ((∀ y ∈ xs, f x ≤ f y) → m = x) := by
  induction xs generalizing k x with
  | nil => exact ⟨x, rfl, by simp, by simp, fun _ => rfl⟩
  | cons y ys ih =>
    have hy := hkey y (by simp)
    have hys : ∀ x ∈ ys, key x = .ok (f x) := fun z hz => hkey z (List.mem_cons_of_mem _ hz)
    unfold minByKeyFrom
    simp only [hy, Res.bind_ok]
    by_cases h : k > f y
    · rw [if_pos h]
      obtain ⟨m, e, hm, hmin, -⟩ := ih hys (f y) y rfl
      refine ⟨m, e, List.mem_cons_of_mem _ hm, ?_, fun h' => by have := h' y (by simp); omega⟩
      intro z hz
      rcases List.mem_cons.1 hz with rfl | hz
      · have := hmin y (by simp); omega
      · exact hmin z hz
    · rw [if_neg h]
      obtain ⟨m, e, hm, hmin, hfst⟩ := ih hys k x hk
      refine ⟨m, e, ?_, ?_, fun h' => hfst fun z hz => h' z (List.mem_cons_of_mem _ hz)⟩
      · rcases List.mem_cons.1 hm with rfl | hm
        · simp
        · simp [hm]
      · intro z hz
        rcases List.mem_cons.1 hz with rfl | hz
        · exact hmin z (by simp)
        · rcases List.mem_cons.1 hz with rfl | hz
          · have := hmin x (by simp); omega
          · exact hmin z (by simp [hz])

theorem minByKey_ok (key : G → Res Nat) (f : G → Nat) (xs : List G) (hkey : ∀ x ∈ xs, key x = .ok (f x)) :
    (xs = [] ∧ minByKey key xs = .ok none) ∨
      ∃ m, minByKey key xs = .ok (some m) ∧ m ∈ xs ∧ (∀ y ∈ xs, f m ≤ f y) ∧
        ∀ x, xs.head? = some x → (∀ y ∈ xs, f x ≤ f y) → m = x := by
  cases xs with
  | nil => exact Or.inl ⟨rfl, rfl⟩
  | cons x xs =>
    right
    obtain ⟨m, e, h1, h2, h3⟩ := minByKeyFrom_ok key f xs (fun z hz => hkey z (List.mem_cons_of_mem _ hz)) (f x) x rfl
    refine ⟨m, ?_, h1, h2, fun y hy hmin => ?_⟩
    swap
    · simp only [List.head?_cons, Option.some.injEq] at hy
      subst hy
      exact h3 fun z hz => hmin z (List.mem_cons_of_mem _ hz)
    simp only [minByKey, hkey x (by simp), Res.bind_ok, e, Res.pure_eq]

theorem Candidate.mem {p1 p2 removed : List G} {k x : G} (hp : p2.Perm p1) (h : Candidate p1 p2 removed k x) : x ∈ p1 := by
  rcases h.1 with h | h
  · exact h.mem_right
  · exact hp.mem_iff.1 h.mem_right

theorem erxNext_ok (ord : List G → List G) (hord : ∀ l, (ord l).Perm l) (p1 p2 visited : List G)
    (map : List (G × List G)) (cur : G) (hnd : p1.Nodup) (hp : p2.Perm p1) (hc : cur ∈ p1)
    (hm : ErxMap p1 p2 visited map) (hlen : (cur :: visited).length < p1.length) :
    ∃ map' next, erxNext ord p1 (cur :: visited) map cur = .ok (map', next) ∧ ErxMap p1 p2 (cur :: visited) map' ∧
      next ∈ p1 ∧ next ∉ cur :: visited ∧ ErxStep p1 p2 (cur :: visited) cur next ∧
      ∀ x, ErxStep p1 p2 (cur :: visited) cur x → (∀ l, x ∈ l → (ord l).head? = some x) → next = x := by
  have hm' := hm.remove cur
  set map' := map.map fun e => (e.1, e.2.filter fun g => decide (g ≠ cur)) with hmap'
  obtain ⟨s, h1, h2, h3⟩ := hm' cur hc
  have hcand : (ord s).filter (fun g => decide (g ∉ cur :: visited)) = ord s := by
    rw [List.filter_eq_self]
    intro x hx
    have := ((h3 x).1 ((hord s).mem_iff.1 hx)).2
    simpa using this
  have hkey : ∀ x ∈ ord s, (do let s ← mapGet map' x; pure s.length : Res Nat) =
      .ok (degree p1 p2 (cur :: visited) x) := by
    intro x hx
    have hx1 := ((h3 x).1 ((hord s).mem_iff.1 hx)).mem hp
    obtain ⟨t, t1, t2, t3⟩ := hm' x hx1
    rw [mapGet_eq, t1]
    simp only [Res.ofOption_some, Res.bind_ok, Res.pure_eq]
    congr 1
    unfold degree
    apply List.Perm.length_eq
    rw [List.perm_ext_iff_of_nodup t2 (hnd.filter _)]
    intro y
    rw [t3, List.mem_filter]
    constructor
    · intro hy; exact ⟨hy.mem hp, by simpa using hy⟩
    · intro hy; simpa using hy.2
  have hbest := minByKey_ok _ (degree p1 p2 (cur :: visited)) (ord s) hkey
  rcases hbest with ⟨hnil, hb⟩ | ⟨m, hb, hmem, hmin, hfst⟩
  · obtain ⟨x, hx, hxm, hxv⟩ := find_unvisited hnd hlen
    have hno : ∀ y, ¬ Candidate p1 p2 (cur :: visited) cur y := by
      intro y hy
      have := (hord s).mem_iff.2 ((h3 y).2 hy)
      rw [hnil] at this; cases this
    refine ⟨map', x, ?_, hm', hxm, hxv, Or.inr ⟨hno, hx⟩, fun y hy _ => ?_⟩
    · simp only [Res.pure_eq] at hb
      unfold erxNext
      simp only [← hmap', mapGet_eq map' cur, h1, Res.ofOption_some, Res.bind_ok, hcand, hb, hx, Res.pure_eq]
    · rcases hy with ⟨hy, -⟩ | ⟨-, hy⟩
      · exact absurd hy (hno y)
      · rw [hx] at hy; exact Option.some.inj hy
  · have hc' := (h3 m).1 ((hord s).mem_iff.1 hmem)
    refine ⟨map', m, ?_, hm', hc'.mem hp, hc'.2, Or.inl ⟨hc', fun y hy => hmin y ((hord s).mem_iff.2 ((h3 y).2 hy))⟩,
      fun y hy hfront => ?_⟩
    swap
    · rcases hy with ⟨hy, hyl⟩ | ⟨hy, -⟩
      · exact hfst y (hfront s ((h3 y).2 hy)) fun z hz => hyl z ((h3 z).1 ((hord s).mem_iff.1 hz))
      · exact absurd hc' (hy m)
    simp only [Res.pure_eq] at hb
    unfold erxNext
    simp only [← hmap', mapGet_eq map' cur, h1, Res.ofOption_some, Res.bind_ok, hcand, hb, Res.pure_eq]

theorem erxLoop_ok (ord : Nat → List G → List G) (hord : ∀ k l, (ord k l).Perm l) (p1 p2 : List G) (hnd : p1.Nodup)
    (hp : p2.Perm p1) (k : Nat) (visited : List G) (map : List (G × List G)) (cur : G)
    (hv : (cur :: visited).Nodup) (hsub : ∀ x ∈ cur :: visited, x ∈ p1) (hm : ErxMap p1 p2 visited map)
    (hk : visited.length + 1 + k ≤ p1.length) :
    ∃ rest, erxLoop ord p1 k visited map cur = .ok rest ∧ rest.length = k ∧ (rest.reverse ++ cur :: visited).Nodup ∧
      (∀ x ∈ rest, x ∈ p1) ∧ Path (ErxStep p1 p2) visited cur rest := by
  induction k generalizing visited cur map with
  | zero => exact ⟨[], rfl, rfl, hv, by simp, .nil _ _⟩
  | succ k ih =>
    obtain ⟨map', next, e, hm', hmem, hnv, hs, -⟩ := erxNext_ok (ord k) (hord k) p1 p2 visited map cur hnd hp
      (hsub cur (by simp)) hm (by simp only [List.length_cons]; omega)
    obtain ⟨rest, e', hl, hnd', hsub', hpath⟩ := ih (cur :: visited) map' next (List.nodup_cons.2 ⟨hnv, hv⟩)
      (by intro x hx; rcases List.mem_cons.1 hx with rfl | hx
          · exact hmem
          · exact hsub x hx) hm' (by simp only [List.length_cons]; omega)
    refine ⟨next :: rest, ?_, by simp [hl], by simpa using hnd', ?_, .cons hs hpath⟩
    · unfold erxLoop
      simp only [e, Res.bind_ok, e', Res.pure_eq]
    · intro x hx
      rcases List.mem_cons.1 hx with rfl | hx
      · exact hmem
      · exact hsub' x hx

/-- The iteration order that brings `x` to the front. -/
def pullFront (x : G) (l : List G) : List G := if x ∈ l then x :: l.erase x else l

theorem pullFront_perm (x : G) (l : List G) : (pullFront x l).Perm l := by
  unfold pullFront
  split
  · rename_i h; exact (List.perm_cons_erase h).symm
  · exact List.Perm.refl _

/-- Every path along the steps of ERX is taken for some iteration orders. -/
theorem erxLoop_complete (p1 p2 : List G) (hnd : p1.Nodup) (hp : p2.Perm p1) (rest visited : List G)
    (map : List (G × List G)) (cur : G) (hv : (cur :: visited).Nodup) (hsub : ∀ x ∈ cur :: visited, x ∈ p1)
    (hm : ErxMap p1 p2 visited map) (hk : visited.length + 1 + rest.length ≤ p1.length)
    (hpath : Path (ErxStep p1 p2) visited cur rest) :
    ∃ ord : Nat → List G → List G, (∀ k l, (ord k l).Perm l) ∧ erxLoop ord p1 rest.length visited map cur = .ok rest := by
  induction rest generalizing visited cur map with
  | nil => exact ⟨fun _ l => l, fun _ _ => List.Perm.refl _, rfl⟩
  | cons next rest ih =>
    rcases hpath with _ | ⟨hs, hpath⟩
    obtain ⟨map', next', e, hm', hmem, hnv, -, hfst⟩ := erxNext_ok (pullFront next) (pullFront_perm next) p1 p2 visited
      map cur hnd hp (hsub cur (by simp)) hm (by simp only [List.length_cons] at hk ⊢; omega)
    obtain rfl := hfst next hs fun l hl => by unfold pullFront; rw [if_pos hl]; rfl
    obtain ⟨ord, ho, e'⟩ := ih (cur :: visited) map' next' (List.nodup_cons.2 ⟨hnv, hv⟩)
      (by intro x hx; rcases List.mem_cons.1 hx with rfl | hx
          · exact hmem
          · exact hsub x hx) hm' (by simp only [List.length_cons] at hk ⊢; omega) hpath
    have hagree : ∀ (k : Nat), k ≤ rest.length → ∀ vis m c,
        erxLoop (fun k l => if k < rest.length then ord k l else pullFront next' l) p1 k vis m c =
          erxLoop ord p1 k vis m c := by
      intro k
      induction k with
      | zero => intro _ vis m c; rfl
      | succ k ihk =>
        intro hk vis m c
        unfold erxLoop
        simp only [show k < rest.length by omega, if_true, ihk (by omega)]
    refine ⟨fun k l => if k < rest.length then ord k l else pullFront next' l, fun k l => ?_, ?_⟩
    · show (if k < rest.length then ord k l else pullFront next' l).Perm l
      split
      · exact ho k l
      · exact pullFront_perm _ _
    · rw [List.length_cons]
      unfold erxLoop
      simp only [Nat.lt_irrefl, if_false, e, Res.bind_ok, hagree rest.length le_rfl, e', Res.pure_eq]

end RG
