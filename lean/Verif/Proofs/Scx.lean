import Verif.Proofs.Gpx2

/-! Helper lemmas: SCX. -/

namespace RG
set_option linter.unusedSectionVars false
variable {G : Type} [DecidableEq G]

@[simp] theorem index_ok {T : Type} (v : List T) (i : Nat) (h : i < v.length) : index v i = .ok v[i] := by
  unfold index; rw [List.getElem?_eq_getElem h]; rfl

theorem index_panic {T : Type} (v : List T) (i : Nat) (h : v.length ≤ i) : index v i = .panic := by
  unfold index; rw [List.getElem?_eq_none h]; rfl

theorem succIndex_eq (n pos : Nat) (h : pos < n) : succIndex n pos = (pos + 1) % n := by
  unfold succIndex
  split
  · rw [Nat.mod_eq_of_lt (by omega)]
  · rename_i h'; have : pos + 1 = n := by omega
    rw [this, Nat.mod_self]

theorem exists_unvisited {m visited : List G} (hnd : m.Nodup) (hlen : visited.length < m.length) :
    ∃ x ∈ m, x ∉ visited := by
  by_contra h
  push Not at h
  have := (List.subperm_of_subset hnd h).length_le
  omega

theorem find_unvisited {m visited : List G} (hnd : m.Nodup) (hlen : visited.length < m.length) :
    ∃ x, m.find? (fun g => decide (g ∉ visited)) = some x ∧ x ∈ m ∧ x ∉ visited := by
  cases h : m.find? (fun g => decide (g ∉ visited)) with
  | none =>
    rw [List.find?_eq_none] at h
    obtain ⟨x, hx, hv⟩ := exists_unvisited hnd hlen
    exact absurd (by simpa using hv) (h x hx)
  | some x => exact ⟨x, rfl, List.mem_of_find?_eq_some h, by simpa using List.find?_some h⟩

theorem findPosition_eq_idxOf {x : G} {l : List G} (h : x ∈ l) : findPosition x l = some (l.idxOf x) := by
  unfold findPosition
  rw [List.idxOf, List.findIdx?_eq_some_iff_findIdx_eq]
  have : (fun g => decide (g = x)) = (fun g => g == x) := by
    funext g; rw [beq_eq_decide]
  rw [this]
  exact ⟨List.findIdx_lt_length.2 ⟨x, h, by simp⟩, rfl⟩

theorem follows_of_findPosition {g : List G} {x : G} {pos : Nat} (h : findPosition x g = some pos) :
    ∃ h2 : succIndex g.length pos < g.length, Follows g x g[succIndex g.length pos] := by
  obtain ⟨hi, he⟩ := findPosition_some h
  have h2 : succIndex g.length pos < g.length := by
    rw [succIndex_eq _ _ hi]; exact Nat.mod_lt _ (by omega)
  refine ⟨h2, pos, hi, by rw [List.getElem?_eq_getElem hi, he], ?_⟩
  rw [← succIndex_eq _ _ hi, List.getElem?_eq_getElem h2]

theorem Follows.mem_right {g : List G} {a b : G} (h : Follows g a b) : b ∈ g := by
  obtain ⟨i, -, -, h⟩ := h; exact List.mem_of_getElem? h

theorem scxNext_ok (p1 p2 visited : List G) (cur : G) (hnd : p1.Nodup) (hp : p2.Perm p1) (hc : cur ∈ p1)
    (hlen : visited.length < p1.length) :
    ∃ next, scxNext p1 p2 visited cur = .ok next ∧ next ∈ p1 ∧ next ∉ visited ∧ ScxStep p1 p2 visited cur next := by
  obtain ⟨pos1, h1⟩ := findPosition_mem hc
  obtain ⟨pos2, h2⟩ := findPosition_mem (hp.mem_iff.2 hc)
  obtain ⟨k1, f1⟩ := follows_of_findPosition h1
  obtain ⟨k2, f2⟩ := follows_of_findPosition h2
  rw [hp.length_eq] at k2
  simp only [hp.length_eq] at f2
  have k2' : succIndex p1.length pos2 < p2.length := by rw [hp.length_eq]; exact k2
  unfold scxNext
  simp only [h1, h2, Res.ofOption_some, Res.bind_ok, index_ok _ _ k1, index_ok _ _ k2']
  set s1 := p1[succIndex p1.length pos1]
  set s2 := p2[succIndex p1.length pos2]
  have m1 : s1 ∈ p1 := f1.mem_right
  have m2 : s2 ∈ p2 := f2.mem_right
  have m1' := hp.mem_iff.2 m1
  have m2' := hp.mem_iff.1 m2
  by_cases v1 : s1 ∈ visited <;> by_cases v2 : s2 ∈ visited <;> simp only [v1, v2, decide_true, decide_false,
    Bool.and_true, Bool.and_false, if_true, if_false, Bool.false_eq_true]
  · obtain ⟨x, hx, hm, hv⟩ := find_unvisited hnd hlen
    exact ⟨x, by rw [hx]; rfl, hm, hv, s1, s2, f1, f2, Or.inl ⟨v1, v2, hx⟩⟩
  · exact ⟨s2, rfl, m2', v2, s1, s2, f1, f2, Or.inr (Or.inl ⟨v1, v2, rfl⟩)⟩
  · exact ⟨s1, rfl, m1, v1, s1, s2, f1, f2, Or.inr (Or.inr (Or.inl ⟨v1, v2, rfl⟩))⟩
  · simp only [findPosition_eq_idxOf m1', findPosition_eq_idxOf m2', Res.ofOption_some, Res.bind_ok, Res.pure_eq]
    refine ⟨_, rfl, ?_, ?_, s1, s2, f1, f2, Or.inr (Or.inr (Or.inr ⟨v1, v2, rfl⟩))⟩
    · split
      · exact m1
      · exact m2'
    · split
      · exact v1
      · exact v2

/-- A path: every next gene is chosen from the genes placed before (newest first) by `step`. -/
inductive Path (step : List G → G → G → Prop) : List G → G → List G → Prop
  | nil (visited cur) : Path step visited cur []
  | cons {visited cur next rest} : step (cur :: visited) cur next → Path step (cur :: visited) next rest →
      Path step visited cur (next :: rest)

theorem scxLoop_ok (p1 p2 : List G) (hnd : p1.Nodup) (hp : p2.Perm p1) (k : Nat) (visited : List G) (cur : G)
    (hv : (cur :: visited).Nodup) (hsub : ∀ x ∈ cur :: visited, x ∈ p1) (hk : visited.length + 1 + k ≤ p1.length) :
    ∃ rest, scxLoop p1 p2 k visited cur = .ok rest ∧ rest.length = k ∧ (rest.reverse ++ cur :: visited).Nodup ∧
      (∀ x ∈ rest, x ∈ p1) ∧ Path (ScxStep p1 p2) visited cur rest := by
  induction k generalizing visited cur with
  | zero => exact ⟨[], rfl, rfl, hv, by simp, .nil _ _⟩
  | succ k ih =>
    obtain ⟨next, e, hm, hnv, hs⟩ := scxNext_ok p1 p2 (cur :: visited) cur hnd hp (hsub cur (by simp))
      (by simp only [List.length_cons]; omega)
    obtain ⟨rest, e', hl, hnd', hsub', hpath⟩ := ih (cur :: visited) next (List.nodup_cons.2 ⟨hnv, hv⟩)
      (by intro x hx; rcases List.mem_cons.1 hx with rfl | hx
          · exact hm
          · exact hsub x hx) (by simp only [List.length_cons]; omega)
    refine ⟨next :: rest, ?_, by simp [hl], by simpa using hnd', ?_, .cons hs hpath⟩
    · unfold scxLoop
      simp only [e, Res.bind_ok, e', Res.pure_eq]
    · intro x hx
      rcases List.mem_cons.1 hx with rfl | hx
      · exact hm
      · exact hsub' x hx

/-- A path says of each consecutive pair that the step relation holds with the genes before it. -/
theorem Path.get {step : List G → G → G → Prop} {visited : List G} {cur : G} {rest : List G}
    (h : Path step visited cur rest) (i : Nat) (a b : G) (ha : (cur :: rest)[i]? = some a)
    (hb : (cur :: rest)[i + 1]? = some b) : step (((cur :: rest).take (i + 1)).reverse ++ visited) a b := by
  induction h generalizing i with
  | nil => simp at hb
  | cons hs hp ih =>
    cases i with
    | zero =>
      simp only [List.getElem?_cons_zero, Option.some.injEq, Nat.zero_add, List.getElem?_cons_succ] at ha hb
      subst ha hb
      simpa using hs
    | succ i =>
      have := ih i (by simpa using ha) (by simpa using hb)
      simpa using this

end RG
