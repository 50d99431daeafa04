import Verif.Neighbors
import Verif.Spec
import Mathlib.Data.List.Perm.Subperm
import Mathlib.Data.List.Nodup
import Mathlib.Data.List.Flatten

/-! Helper lemmas about neighbours and partitions. -/

namespace RG
set_option linter.unusedSectionVars false
variable {G : Type} [DecidableEq G]

theorem Adj.symm {g : List G} {a b : G} (h : Adj g a b) : Adj g b a := Or.symm h

theorem Adj.mem_left {g : List G} {a b : G} (h : Adj g a b) : a ∈ g := by
  rcases h with ⟨i, _, h, _⟩ | ⟨i, _, _, h⟩ <;> exact List.mem_of_getElem? h

theorem Adj.mem_right {g : List G} {a b : G} (h : Adj g a b) : b ∈ g := h.symm.mem_left

theorem mem_windows2 (g : List G) (a b : G) :
    (a, b) ∈ windows2 g ↔ ∃ i, g[i]? = some a ∧ g[i + 1]? = some b := by
  induction g with
  | nil => simp [windows2]
  | cons x xs ih =>
    cases xs with
    | nil =>
      simp only [windows2, List.not_mem_nil, false_iff]
      rintro ⟨i, h1, h2⟩
      cases i <;> simp at h2
    | cons y ys =>
      simp only [windows2, List.mem_cons, ih, Prod.mk.injEq]
      constructor
      · rintro (⟨rfl, rfl⟩ | ⟨i, h1, h2⟩)
        · exact ⟨0, rfl, rfl⟩
        · exact ⟨i + 1, by simpa using h1, by simpa using h2⟩
      · rintro ⟨i, h1, h2⟩
        cases i with
        | zero => left; simp at h1 h2; exact ⟨h1.symm, h2.symm⟩
        | succ i => right; exact ⟨i, by simpa using h1, by simpa using h2⟩

theorem windows2_length (g : List G) : (windows2 g).length = g.length - 1 := by
  induction g with
  | nil => rfl
  | cons x xs ih =>
    cases xs with
    | nil => rfl
    | cons y ys => simp only [windows2, List.length_cons] at *; omega

theorem windows2_getElem? (g : List G) (i : Nat) (a b : G) (h1 : g[i]? = some a) (h2 : g[i + 1]? = some b) :
    (windows2 g)[i]? = some (a, b) := by
  induction g generalizing i with
  | nil => simp at h1
  | cons x xs ih =>
    cases xs with
    | nil => simp at h2
    | cons y ys =>
      cases i with
      | zero => simp at h1 h2; simp [windows2, h1, h2]
      | succ i => simpa [windows2] using ih i (by simpa using h1) (by simpa using h2)

/-- The pairs (unordered, before `neighbor`) listed for a genome are exactly the cyclic successions. -/
theorem follows_iff (g : List G) (a b : G) (hl : 1 ≤ g.length) :
    Follows g a b ↔ (a, b) ∈ windows2 g ∨ (g.getLast? = some a ∧ g.head? = some b) := by
  unfold Follows
  rw [mem_windows2]
  constructor
  · rintro ⟨i, hi, h1, h2⟩
    by_cases hlast : i + 1 = g.length
    · right
      rw [hlast, Nat.mod_self] at h2
      refine ⟨?_, ?_⟩
      · rw [List.getLast?_eq_getElem?, ← hlast]; exact h1
      · rw [List.head?_eq_getElem?]; exact h2
    · left
      rw [Nat.mod_eq_of_lt (by omega)] at h2
      exact ⟨i, h1, h2⟩
  · rintro (⟨i, h1, h2⟩ | ⟨h1, h2⟩)
    · have := List.getElem?_eq_some_iff.1 h2
      obtain ⟨hi, -⟩ := this
      exact ⟨i, by omega, h1, by rw [Nat.mod_eq_of_lt hi]; exact h2⟩
    · refine ⟨g.length - 1, by omega, ?_, ?_⟩
      · rw [← h1, List.getLast?_eq_getElem?]
      · rw [Nat.sub_add_cancel hl, Nat.mod_self, ← h2, List.head?_eq_getElem?]

theorem neighborList_ok (lt : G → G → Bool) (g : List G) (hl : 1 ≤ g.length) :
    ∃ l, neighborList lt g = .ok l ∧ (∀ p, p ∈ l ↔ ∃ a b, Follows g a b ∧ neighbor lt a b = p) ∧
      l.length = g.length := by
  have hne : g ≠ [] := by rintro rfl; simp at hl
  obtain ⟨x, xs, rfl⟩ := List.exists_cons_of_ne_nil hne
  refine ⟨_, by simp [neighborList, List.getLast?_eq_getLast_of_ne_nil hne]; rfl, ?_, ?_⟩
  · intro p
    simp only [List.mem_append, List.mem_map, List.mem_singleton, follows_iff _ _ _ hl,
      List.getLast?_eq_getLast_of_ne_nil hne, List.head?_cons, Option.some.injEq, Prod.exists]
    constructor
    · rintro (⟨a, b, h, rfl⟩ | rfl)
      · exact ⟨a, b, Or.inl h, rfl⟩
      · exact ⟨_, _, Or.inr ⟨rfl, rfl⟩, rfl⟩
    · rintro ⟨a, b, h | ⟨rfl, rfl⟩, rfl⟩
      · exact Or.inl ⟨a, b, h, rfl⟩
      · exact Or.inr rfl
  · simp [windows2_length]

theorem neighbor_cases (lt : G → G → Bool) (a b : G) : neighbor lt a b = (a, b) ∨ neighbor lt a b = (b, a) := by
  unfold neighbor; split <;> simp

theorem adj_of_neighbor {lt : G → G → Bool} {g : List G} {x y : G}
    (h : ∃ a b, Follows g a b ∧ neighbor lt a b = (x, y)) : Adj g x y := by
  obtain ⟨a, b, h, he⟩ := h
  rcases neighbor_cases lt a b with h' | h' <;> rw [h'] at he <;> cases he
  · exact Or.inl h
  · exact Or.inr h

/-- With a total order the pair is listed iff it is adjacent and in order. -/
theorem neighbor_iff_adj {lt : G → G → Bool} (hasymm : ∀ a b, lt a b = true → lt b a = false)
    (htotal : ∀ a b, lt a b = true ∨ a = b ∨ lt b a = true) {g : List G} {x y : G} :
    (∃ a b, Follows g a b ∧ neighbor lt a b = (x, y)) ↔ Adj g x y ∧ lt y x = false := by
  constructor
  · intro h
    refine ⟨adj_of_neighbor h, ?_⟩
    obtain ⟨a, b, -, he⟩ := h
    unfold neighbor at he
    split at he
    · rename_i hl; cases he; exact hasymm _ _ hl
    · rename_i hl; cases he; simpa using hl
  · rintro ⟨h | h, hl⟩
    · refine ⟨x, y, h, ?_⟩
      unfold neighbor
      rcases htotal x y with h' | rfl | h'
      · rw [if_pos h']
      · simp
      · rw [hl] at h'; cases h'
    · refine ⟨y, x, h, ?_⟩
      unfold neighbor; rw [hl]; simp

/-- Everything about `common_neighbors` when it is not trivially empty. -/
theorem commonNeighbors_ok (lt : G → G → Bool) (g1 g2 : List G) :
    ∃ l, commonNeighbors lt g1 g2 = .ok l ∧
      (¬ (g1.length < 2 ∨ g2.length ≤ 2) → ∀ p, p ∈ l ↔
        (∃ a b, Follows g1 a b ∧ neighbor lt a b = p) ∧ (∃ a b, Follows g2 a b ∧ neighbor lt a b = p)) ∧
      ((g1.length < 2 ∨ g2.length ≤ 2) → l = []) := by
  unfold commonNeighbors
  by_cases h : g1.length < 2 ∨ g2.length ≤ 2
  · rw [if_pos h]; exact ⟨[], rfl, fun h' => absurd h h', fun _ => rfl⟩
  · rw [if_neg h]
    obtain ⟨l1, e1, m1, -⟩ := neighborList_ok lt g1 (by omega)
    obtain ⟨l2, e2, m2, -⟩ := neighborList_ok lt g2 (by omega)
    by_cases hl : g1.length ≤ g2.length
    · simp only [hl, if_true, e1, e2]
      refine ⟨_, rfl, fun _ p => ?_, fun h' => absurd h' h⟩
      rw [List.mem_filter, decide_eq_true_iff, m1, m2]
    · simp only [hl, if_false, e1, e2]
      refine ⟨_, rfl, fun _ p => ?_, fun h' => absurd h' h⟩
      rw [List.mem_filter, decide_eq_true_iff, m1, m2, and_comm]

theorem commonNeighbors_adj {lt : G → G → Bool} {g1 g2 : List G} {l : List (G × G)}
    (h : commonNeighbors lt g1 g2 = .ok l) {x y : G} (hm : (x, y) ∈ l) : Adj g1 x y ∧ Adj g2 x y := by
  obtain ⟨l', e, h1, h2⟩ := commonNeighbors_ok lt g1 g2
  rw [h] at e; cases e
  by_cases hs : g1.length < 2 ∨ g2.length ≤ 2
  · rw [h2 hs] at hm; cases hm
  · have := (h1 hs (x, y)).1 hm
    exact ⟨adj_of_neighbor this.1, adj_of_neighbor this.2⟩

/-! ### Partitions -/

/-- Listed as neighbours, in either order. -/
def Linked (common : List (G × G)) (a b : G) : Prop := (a, b) ∈ common ∨ (b, a) ∈ common

theorem nextNode_some {common : List (G × G)} {visited : List G} {last next : G}
    (h : nextNode common visited last = some next) : Linked common last next ∧ next ∉ visited := by
  unfold nextNode at h
  obtain ⟨⟨a, b⟩, hm, h⟩ := List.exists_of_findSome?_eq_some h
  simp only at h
  split at h
  · rename_i hc; cases h; obtain ⟨rfl, hv⟩ := hc; exact ⟨Or.inl hm, hv⟩
  · split at h
    · rename_i hc; cases h; obtain ⟨rfl, hv⟩ := hc; exact ⟨Or.inr hm, hv⟩
    · cases h

theorem nextNode_none {common : List (G × G)} {visited : List G} {last x : G}
    (h : nextNode common visited last = none) (hl : Linked common last x) : x ∈ visited := by
  unfold nextNode at h
  rw [List.findSome?_eq_none_iff] at h
  by_contra hx
  rcases hl with hl | hl
  · have := h _ hl; simp [hx] at this
  · have := h _ hl
    simp only [hx, not_false_eq_true, and_true] at this
    split at this
    · cases this
    · cases this

/-- All genes occurring in a list of pairs. -/
def ends (common : List (G × G)) : List G := common.flatMap fun p => [p.1, p.2]

theorem ends_length (common : List (G × G)) : (ends common).length = 2 * common.length := by
  induction common with
  | nil => rfl
  | cons p ps ih => simp [ends] at *; omega

theorem Linked.mem_ends {common : List (G × G)} {a b : G} (h : Linked common a b) : b ∈ ends common := by
  unfold ends
  rw [List.mem_flatMap]
  rcases h with h | h
  · exact ⟨_, h, by simp⟩
  · exact ⟨_, h, by simp⟩

/-- Unvisited genes still available to the inner loop. -/
def avail (common : List (G × G)) (visited : List G) : Nat := ((ends common).filter (fun x => decide (x ∉ visited))).length

theorem avail_le (common : List (G × G)) (visited : List G) : avail common visited ≤ 2 * common.length := by
  rw [← ends_length]; exact List.length_filter_le _ _

theorem avail_lt {common : List (G × G)} {visited : List G} {x : G} (hx : x ∈ ends common) (hv : x ∉ visited) :
    avail common (x :: visited) < avail common visited := by
  unfold avail
  apply List.length_lt_of_filter
where
  List.length_lt_of_filter : ((ends common).filter (fun y => decide (y ∉ x :: visited))).length <
      ((ends common).filter (fun y => decide (y ∉ visited))).length := by
    have : (ends common).filter (fun y => decide (y ∉ x :: visited)) =
        ((ends common).filter (fun y => decide (y ∉ visited))).filter (fun y => decide (y ≠ x)) := by
      rw [List.filter_filter]
      congr 1; funext y; simp
    rw [this]
    rw [List.length_filter_lt_length_iff_exists]
    exact ⟨x, by simp [hx, hv], by simp⟩

/-- Invariant of the inner loop. -/
theorem growPartition_spec (common : List (G × G)) (fuel : Nat) (partition visited : List G)
    (hfuel : avail common visited < fuel) (hne : partition ≠ [])
    (hchain : partition.IsChain (Linked common)) (hsub : ∀ x ∈ partition, x ∈ visited) (hnd : partition.Nodup)
    (hvnd : visited.Nodup) :
    ∃ ext visited', growPartition common fuel partition visited = .ok (partition ++ ext, visited') ∧
      (partition ++ ext).IsChain (Linked common) ∧ (partition ++ ext).Nodup ∧ visited'.Nodup ∧
      visited'.Perm (ext ++ visited) ∧ (∀ x ∈ ext, x ∈ ends common) ∧
      (∀ l x, (partition ++ ext).getLast? = some l → Linked common l x → x ∈ visited') := by
  induction fuel generalizing partition visited with
  | zero => omega
  | succ fuel ih =>
    unfold growPartition
    rw [List.getLast?_eq_getLast_of_ne_nil hne]
    simp only [Option.bind_some]
    cases hn : nextNode common visited (partition.getLast hne) with
    | none =>
      refine ⟨[], visited, by simp, by simpa using hchain, by simpa using hnd, hvnd, by simp, by simp, ?_⟩
      intro l x hl hx
      rw [List.append_nil, List.getLast?_eq_getLast_of_ne_nil hne] at hl
      cases hl
      exact nextNode_none hn hx
    | some next =>
      obtain ⟨hlink, hnv⟩ := nextNode_some hn
      have hmem := hlink.mem_ends
      obtain ⟨ext, v', e, h1, h2, h3, h4, h5, h6⟩ := ih (partition ++ [next]) (next :: visited)
        (by have := avail_lt hmem hnv; omega) (by simp)
        (by
          rw [List.isChain_append]
          refine ⟨hchain, by simp, ?_⟩
          intro x hx y hy
          rw [List.getLast?_eq_getLast_of_ne_nil hne] at hx
          simp only [Option.mem_def, Option.some.injEq, List.head?_cons] at hx hy
          rw [← hx, ← hy]; exact hlink)
        (by
          intro x hx
          rcases List.mem_append.1 hx with hx | hx
          · exact List.mem_cons_of_mem _ (hsub x hx)
          · simp at hx; simp [hx])
        (by
          rw [List.nodup_append]
          refine ⟨hnd, by simp, ?_⟩
          intro a ha b hb
          simp at hb
          rintro rfl
          subst hb
          exact hnv (hsub _ ha))
        (List.nodup_cons.2 ⟨hnv, hvnd⟩)
      refine ⟨next :: ext, v', ?_, ?_, ?_, h3, ?_, ?_, ?_⟩
      · show growPartition common fuel (partition ++ [next]) (next :: visited) = _
        rw [e]; simp
      · simpa using h1
      · simpa using h2
      · refine h4.trans ?_
        simp
      · intro x hx
        rcases List.mem_cons.1 hx with rfl | hx
        · exact hmem
        · exact h5 x hx
      · simpa using h6

/-- Every gene linked to the last gene of a partition is in that partition or an earlier one. -/
def DeadEnds (common : List (G × G)) (parts : List (List G)) : Prop :=
  ∀ i p l x, parts[i]? = some p → p.getLast? = some l → Linked common l x → x ∈ (parts.take (i + 1)).flatten

/-- Invariant of the outer loop. -/
theorem partitionsLoop_spec (common : List (G × G)) (nodes visited : List G) (parts : List (List G))
    (hvnd : visited.Nodup) (hperm : visited.Perm parts.flatten) (hne : ∀ p ∈ parts, p ≠ [])
    (hch : ∀ p ∈ parts, p.IsChain (Linked common)) (hmax : DeadEnds common parts) :
    ∃ parts', partitionsLoop common nodes visited parts = .ok parts' ∧ parts'.flatten.Nodup ∧
      (∀ p ∈ parts', p ≠ []) ∧ (∀ p ∈ parts', p.IsChain (Linked common)) ∧
      (∀ x ∈ nodes, x ∈ parts'.flatten) ∧ (∀ x ∈ visited, x ∈ parts'.flatten) ∧
      (∀ x ∈ parts'.flatten, x ∈ nodes ∨ x ∈ visited ∨ x ∈ ends common) ∧ DeadEnds common parts' := by
  induction nodes generalizing visited parts with
  | nil =>
    exact ⟨parts, rfl, hperm.nodup_iff.1 hvnd, hne, hch, by simp, fun x hx => hperm.mem_iff.1 hx,
      fun x hx => Or.inr (Or.inl (hperm.mem_iff.2 hx)), hmax⟩
  | cons node nodes ih =>
    unfold partitionsLoop
    by_cases hv : node ∈ visited
    · rw [if_pos hv]
      obtain ⟨ps, e, h1, h2, h3, h4, h5, h6, h7⟩ := ih visited parts hvnd hperm hne hch hmax
      refine ⟨ps, e, h1, h2, h3, ?_, h5, ?_, h7⟩
      · intro x hx
        rcases List.mem_cons.1 hx with rfl | hx
        · exact h5 _ hv
        · exact h4 x hx
      · intro x hx
        rcases h6 x hx with h | h
        · exact Or.inl (List.mem_cons_of_mem _ h)
        · exact Or.inr h
    · rw [if_neg hv]
      obtain ⟨ext, v', e, g1, g2, g3, g4, g5, g6⟩ := growPartition_spec common (2 * common.length + 1) [node]
        (node :: visited) (by have := avail_le common (node :: visited); omega) (by simp) (by simp) (by simp)
        (by simp) (List.nodup_cons.2 ⟨hv, hvnd⟩)
      rw [e]
      have hp : v'.Perm ((parts ++ [[node] ++ ext]).flatten) := by
        rw [List.flatten_append]
        refine g4.trans ?_
        simp only [List.flatten_cons, List.flatten_nil, List.append_nil]
        refine List.Perm.trans ?_ (List.Perm.append_right _ hperm)
        simp only [List.cons_append, List.nil_append]
        refine (List.perm_middle (a := node) (l₁ := ext) (l₂ := visited)).trans ?_
        refine List.Perm.trans ?_ (List.perm_middle (a := node) (l₁ := visited) (l₂ := ext)).symm
        exact (List.perm_append_comm).cons node
      obtain ⟨ps, e', h1, h2, h3, h4, h5, h6, h7⟩ := ih v' (parts ++ [[node] ++ ext]) g3 hp
        (by
          intro p hp
          rcases List.mem_append.1 hp with hp | hp
          · exact hne p hp
          · simp at hp; simp [hp])
        (by
          intro p hp
          rcases List.mem_append.1 hp with hp | hp
          · exact hch p hp
          · simp only [List.mem_singleton] at hp; rw [hp]; exact g1)
        (by
          intro i p l x hi hl hx
          rcases Nat.lt_or_ge i parts.length with hlt | hge
          · rw [List.getElem?_append_left hlt] at hi
            rw [List.take_append_of_le_length (by omega)]
            exact hmax i p l x hi hl hx
          · have hi0 : i = parts.length := by
              obtain ⟨h, -⟩ := List.getElem?_eq_some_iff.1 hi
              simp at h; omega
            subst hi0
            simp only [List.getElem?_concat_length, Option.some.injEq] at hi
            subst hi
            rw [List.take_of_length_le (by simp)]
            exact hp.mem_iff.1 (g6 l x hl hx))
      refine ⟨ps, by simpa using e', h1, h2, h3, ?_, ?_, ?_, h7⟩
      · intro x hx
        rcases List.mem_cons.1 hx with rfl | hx
        · exact h5 _ (g4.mem_iff.2 (by simp))
        · exact h4 x hx
      · intro x hx
        exact h5 x (g4.mem_iff.2 (by simp [hx]))
      · intro x hx
        rcases h6 x hx with h | h | h
        · exact Or.inl (List.mem_cons_of_mem _ h)
        · have := g4.mem_iff.1 h
          simp only [List.mem_append, List.mem_cons] at this
          rcases this with h' | rfl | h'
          · exact Or.inr (Or.inr (g5 x h'))
          · exact Or.inl (by simp)
          · exact Or.inr (Or.inl h')
        · exact Or.inr (Or.inr h)

/-- Summary for `common_partitions`. -/
theorem commonPartitions_spec (lt : G → G → Bool) (g1 g2 : List G) :
    ∃ parts, commonPartitions lt g1 g2 = .ok parts ∧ parts.flatten.Nodup ∧ (∀ p ∈ parts, p ≠ []) ∧
      (∀ p ∈ parts, p.IsChain fun a b => Adj g1 a b ∧ Adj g2 a b) ∧ (∀ x, x ∈ parts.flatten ↔ x ∈ g1) ∧
      ∃ l, commonNeighbors lt g1 g2 = .ok l ∧ DeadEnds l parts := by
  obtain ⟨l, e, -, -⟩ := commonNeighbors_ok lt g1 g2
  have hlink : ∀ a b, Linked l a b → Adj g1 a b ∧ Adj g2 a b := by
    intro a b h
    rcases h with h | h
    · exact commonNeighbors_adj e h
    · have := commonNeighbors_adj e h; exact ⟨this.1.symm, this.2.symm⟩
  have hends : ∀ x ∈ ends l, x ∈ g1 := by
    intro x hx
    unfold ends at hx
    obtain ⟨⟨a, b⟩, hp, hx⟩ := List.mem_flatMap.1 hx
    have := (commonNeighbors_adj e hp).1
    simp only [List.mem_cons, List.not_mem_nil, or_false] at hx
    rcases hx with rfl | rfl
    · exact this.mem_left
    · exact this.mem_right
  obtain ⟨ps, e', h1, h2, h3, h4, -, h6, h7⟩ := partitionsLoop_spec l g1 [] [] (by simp) (by simp) (by simp) (by simp)
    (by intro i p l x h; simp at h)
  refine ⟨ps, by unfold commonPartitions; rw [e]; exact e', h1, h2, fun p hp => (h3 p hp).imp fun _ _ => hlink _ _,
    fun x => ⟨fun hx => ?_, h4 x⟩, l, e, h7⟩
  rcases h6 x hx with h | h | h
  · exact h
  · simp at h
  · exact hends x h

end RG
