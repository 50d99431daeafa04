import Verif.Proofs.Gpx2
import Verif.Proofs.Erx
import Verif.Proofs.Cx
import Verif.Props.Random
import Verif.Props.Neighbors

/-!
# Properties C22–C31: crossover operators

"Permutations of the same distinct genes" is `p₁.Nodup` and `p₂.Perm p₁`. `Always P prog` says that every execution of
`prog`, whatever the random source, ends without panic in a result satisfying `P`.
-/

namespace RG.Props
open RG Prog
set_option linter.unusedSectionVars false
variable {G : Type} [DecidableEq G]

/-- The genomes of the examples of the documentation. -/
def docP₁ : List Nat := [0, 1, 2, 3, 4, 5, 6, 7, 8, 9]
/-- The genomes of the examples of the documentation. -/
def docP₂ : List Nat := [8, 9, 0, 7, 4, 5, 6, 3, 2, 1]

/-- The parents of the documentation satisfy the hypotheses used below. -/
theorem doc_perm : docP₁.Nodup ∧ docP₂.Perm docP₁ := by decide +kernel

-- documentation examples (tests)
example : scx docP₁ docP₂ 2 = .ok [2, 1, 8, 9, 0, 7, 4, 5, 6, 3] := by decide +kernel
example : pmx 11 docP₁ docP₂ ⟨1, 4⟩ = .ok [8, 1, 2, 3, 4, 5, 6, 7, 0, 9] := by decide +kernel
example : ox 11 docP₁ docP₂ ⟨1, 4⟩ = .ok [7, 1, 2, 3, 4, 5, 6, 8, 9, 0] := by decide +kernel
example : cx docP₁ docP₂ = .ok [0, 9, 2, 3, 4, 5, 6, 7, 8, 1] := by decide +kernel
example : spx "abcde".toList "vwxyz".toList 3 = .ok "abcyz".toList := by decide +kernel

/-! ### C22 -/

/-- **C22** For any two genomes, any `<` and any selector (stateful, possibly random) returning indices in range, GPX2
terminates without panic; the offspring is the concatenation of the common partitions in some order, so that each of
them occurs contiguously, and it has no duplicates and the genes of the first parent. -/
theorem C22_gpx2 {S : Type} (lt : G → G → Bool) (p₁ p₂ : List G) (sel : S → Option G → List (List G) → Prog (Nat × S))
    (hsel : ∀ s last ps, ps ≠ [] → Always (fun r => r.1 < ps.length) (sel s last ps)) (s : S) :
    ∃ parts, commonPartitions lt p₁ p₂ = .ok parts ∧
      Always (fun off => (∃ order : List (List G), order.Perm parts ∧ off = order.flatten) ∧
        (∀ part ∈ parts, part <:+: off) ∧ off.Nodup ∧ ∀ x, x ∈ off ↔ x ∈ p₁) (gpx2 lt p₁ p₂ sel s) := by
  obtain ⟨parts, e, hne, hnd, hmem, -⟩ := C21_partitions lt p₁ p₂
  refine ⟨parts, e, ?_⟩
  unfold gpx2
  rw [e]
  simp only [lift_ok, bind_pure_left]
  refine (gpx2Loop_spec sel hsel parts.length s [] parts le_rfl hne hnd).mono ?_
  rintro off ⟨order, ho, rfl⟩
  rw [List.nil_append]
  refine ⟨⟨order, ho, rfl⟩, fun part hp => ?_, ho.flatten.nodup_iff.2 hnd, fun x => ?_⟩
  · obtain ⟨l, r, rfl⟩ := List.append_of_mem (ho.mem_iff.2 hp)
    exact ⟨l.flatten, r.flatten, by simp⟩
  · rw [ho.flatten.mem_iff, hmem]

/-- **C22** For a duplicate-free first parent the offspring is a permutation of it. -/
theorem C22_permutation {S : Type} (lt : G → G → Bool) (p₁ p₂ : List G) (hnd : p₁.Nodup)
    (sel : S → Option G → List (List G) → Prog (Nat × S))
    (hsel : ∀ s last ps, ps ≠ [] → Always (fun r => r.1 < ps.length) (sel s last ps)) (s : S) :
    Always (fun off => off.Perm p₁) (gpx2 lt p₁ p₂ sel s) := by
  obtain ⟨parts, -, h⟩ := C22_gpx2 lt p₁ p₂ sel hsel s
  exact h.mono fun off ho => (List.perm_ext_iff_of_nodup ho.2.2.1 hnd).2 ho.2.2.2

/-- **C22** If the selector can return any index, any order of the partitions is possible. -/
theorem C22_any_order {S : Type} (lt : G → G → Bool) (p₁ p₂ : List G)
    (sel : S → Option G → List (List G) → Prog (Nat × S))
    (hsel : ∀ s last (ps : List (List G)) i, i < ps.length → ∃ s', (sel s last ps).yields (.ok (i, s'))) (s : S)
    (parts order : List (List G)) (hp : commonPartitions lt p₁ p₂ = .ok parts) (ho : order.Perm parts) :
    (gpx2 lt p₁ p₂ sel s).yields (.ok order.flatten) := by
  obtain ⟨parts', e, hne, hnd, -, -⟩ := C21_partitions lt p₁ p₂
  rw [hp] at e; cases e
  unfold gpx2
  rw [hp]
  simp only [lift_ok, bind_pure_left]
  simpa using gpx2Loop_any sel hsel parts.length s [] parts le_rfl hne hnd order ho

-- the selector of the documentation example (crossover.rs:139-149): always the first partition
example : (gpx2 ltNat docP₁ docP₂ (fun _ _ _ => pure (0, ())) ()).yields (.ok [0, 9, 8, 7, 4, 5, 6, 1, 2, 3]) := by
  have : gpx2 ltNat docP₁ docP₂ (fun _ _ _ => pure (0, ())) () = pure [0, 9, 8, 7, 4, 5, 6, 1, 2, 3] := rfl
  rw [this]; simp

example : ∀ (s : Unit) (_ : Option Nat) (ps : List (List Nat)), ps ≠ [] →
    Always (fun r => r.1 < ps.length) (pure (0, s) : Prog (Nat × Unit)) := by
  intro s _ ps h; rw [always_pure]; exact List.length_pos_of_ne_nil h

/-! ### C23 -/

/-- **C23** SCX: no panic; a permutation starting with the pivot, every further gene being the one `ScxStep` prescribes
(`Verif/Spec.lean`) given the genes placed before it. -/
theorem C23_scx (p₁ p₂ : List G) (hnd : p₁.Nodup) (hp : p₂.Perm p₁) (hn : 2 ≤ p₁.length) (pivot : G) (hv : pivot ∈ p₁) :
    ∃ off, scx p₁ p₂ pivot = .ok off ∧ off.Perm p₁ ∧ off.head? = some pivot ∧
      ∀ i a b, off[i]? = some a → off[i + 1]? = some b → ScxStep p₁ p₂ (off.take (i + 1)).reverse a b := by
  obtain ⟨rest, e, hl, hnd', hsub, hpath⟩ := scxLoop_ok p₁ p₂ hnd hp (p₁.length - 1) [] pivot (by simp)
    (by simpa using hv) (by simp only [List.length_nil]; omega)
  have hperm : (pivot :: rest).Perm p₁ := by
    apply perm_of_nodup
    · have h2 : (rest.reverse ++ [pivot]) = (pivot :: rest).reverse := by simp
      rw [h2, List.nodup_reverse] at hnd'
      exact hnd'
    · intro x hx
      rcases List.mem_cons.1 hx with rfl | hx
      · exact hv
      · exact hsub x hx
    · simp [hl]; omega
  refine ⟨pivot :: rest, ?_, hperm, rfl, ?_⟩
  · unfold scx
    simp only [decide_eq_true hp.length_eq.symm, Res.assert_true, Res.bind_ok, show ¬ p₁.length < 2 by omega, if_false, e,
      Res.pure_eq]
  · intro i a b ha hb
    simpa using hpath.get i a b ha hb

/-- **C23** Genomes of fewer than two genes are returned unchanged. -/
theorem C23_short (p₁ p₂ : List G) (hlen : p₁.length = p₂.length) (hn : p₁.length < 2) (pivot : G) :
    scx p₁ p₂ pivot = .ok p₁ := by
  unfold scx; simp [hlen.symm, hn]

example : 2 ≤ docP₁.length ∧ 2 ∈ docP₁ := by decide

/-! ### C24 -/

/-- **C24** ERX: no panic, whatever the iteration orders of the hash sets; a permutation starting with the pivot, every
further gene being one that `ErxStep` allows given the genes placed before it. -/
theorem C24_erx (ord : Nat → List G → List G) (hord : ∀ k l, (ord k l).Perm l) (p₁ p₂ : List G) (hnd : p₁.Nodup)
    (hp : p₂.Perm p₁) (hn : 2 ≤ p₁.length) (pivot : G) (hv : pivot ∈ p₁) :
    ∃ off, erx ord p₁ p₂ pivot = .ok off ∧ off.Perm p₁ ∧ off.head? = some pivot ∧
      ∀ i a b, off[i]? = some a → off[i + 1]? = some b → ErxStep p₁ p₂ (off.take (i + 1)).reverse a b := by
  obtain ⟨map, em, hm⟩ := neighborLists_ok p₁ p₂ hp.length_eq.symm
  obtain ⟨rest, e, hl, hnd', hsub, hpath⟩ := erxLoop_ok ord hord p₁ p₂ hnd hp (p₁.length - 1) [] map pivot (by simp)
    (by simpa using hv) hm (by simp only [List.length_nil]; omega)
  have hperm : (pivot :: rest).Perm p₁ := by
    apply perm_of_nodup
    · have h2 : (rest.reverse ++ [pivot]) = (pivot :: rest).reverse := by simp
      rw [h2, List.nodup_reverse] at hnd'
      exact hnd'
    · intro x hx
      rcases List.mem_cons.1 hx with rfl | hx
      · exact hv
      · exact hsub x hx
    · simp [hl]; omega
  refine ⟨pivot :: rest, ?_, hperm, rfl, ?_⟩
  · unfold erx
    simp only [decide_eq_true hp.length_eq.symm, Res.assert_true, Res.bind_ok, show ¬ p₁.length < 2 by omega, if_false, em,
      e, Res.pure_eq]
  · intro i a b ha hb
    simpa using hpath.get i a b ha hb

/-- **C24** Genomes of fewer than two genes are returned unchanged. -/
theorem C24_short (ord : Nat → List G → List G) (p₁ p₂ : List G) (hlen : p₁.length = p₂.length) (hn : p₁.length < 2)
    (pivot : G) : erx ord p₁ p₂ pivot = .ok p₁ := by
  unfold erx; simp [hlen.symm, hn]

example : ∀ (_ : Nat) (l : List Nat), (l.reverse).Perm l := fun _ l => List.reverse_perm l

/-! ### C25 -/

/-- **C25** PMX terminates (the mapping loop within `n + 1` evaluations of its condition) without panic for every range
`start ≤ end ≤ n`, and returns a permutation that equals the first parent inside the range, and outside has the gene to
which `PmxMaps` leads from the gene of the second parent; where that gene is not in the range of the first parent, it is
kept. -/
theorem C25_pmx (p₁ p₂ : List G) (hnd : p₁.Nodup) (hp : p₂.Perm p₁) (hn : 2 ≤ p₁.length) (s e : Nat) (hse : s ≤ e)
    (he : e ≤ p₁.length) :
    ∃ off, (∀ fuel, p₁.length < fuel → pmx fuel p₁ p₂ ⟨s, e⟩ = .ok off) ∧ off.Perm p₁ ∧
      (∀ i, s ≤ i → i < e → off[i]? = p₁[i]?) ∧
      (∀ i, i < p₁.length → ¬ (s ≤ i ∧ i < e) →
        ∃ g r, p₂[i]? = some g ∧ off[i]? = some r ∧ PmxMaps p₁ p₂ s e g r) ∧
      (∀ i, i < p₁.length → ¬ (s ≤ i ∧ i < e) → (∀ j, s ≤ j → j < e → p₁[j]? ≠ p₂[i]?) → off[i]? = p₂[i]?) := by
  have hlen := hp.length_eq
  set seg := (p₁.drop s).take (e - s) with hseg
  set seg2 := (p₂.drop s).take (e - s) with hseg2
  have hcont : ∀ i, (URange.mk s e).contains i = true ↔ s ≤ i ∧ i < e := by intro i; simp [URange.contains]
  have hcont' : ∀ i, (URange.mk s e).contains i = false ↔ ¬ (s ≤ i ∧ i < e) := by
    intro i; rw [← hcont, Bool.not_eq_true]
  have hsegmem : ∀ x, x ∈ seg ↔ ∃ j, s ≤ j ∧ j < e ∧ p₁[j]? = some x := by
    intro x
    constructor
    · intro h
      obtain ⟨j, hj, hx⟩ := List.getElem_of_mem h
      have hj' : j < e - s := by simp [hseg] at hj; omega
      refine ⟨s + j, by omega, by omega, ?_⟩
      rw [← hx, ← List.getElem?_eq_getElem hj, hseg, List.getElem?_take_of_lt hj', List.getElem?_drop]
    · rintro ⟨j, h1, h2, h3⟩
      refine List.mem_of_getElem? (i := j - s) ?_
      rw [hseg, List.getElem?_take_of_lt (by omega), List.getElem?_drop, Nat.add_sub_cancel' h1, h3]
  -- the genes at the positions outside the range are not in the segment
  have hout : ∀ i (hi : i < p₁.length), ¬ (s ≤ i ∧ i < e) → p₁[i] ∉ seg := by
    intro i hi hr hm
    obtain ⟨j, h1, h2, h3⟩ := (hsegmem _).1 hm
    rw [List.getElem?_eq_getElem (by omega), Option.some_inj] at h3
    have := (hnd.getElem_inj_iff).1 h3
    omega
  have hT : ∀ i (hi : i < p₁.length), pmxT p₁ p₂ p₁[i] = p₂[i] := fun i hi => pmxT_getElem hnd hp i hi
  obtain ⟨off0, h0l, h0r, -⟩ := pmx_eq (p₁.length + 1) p₁ p₂ ⟨s, e⟩ hlen.symm hn hse he
  have hmapok : ∀ i (hi : i < p₂.length), ¬ (s ≤ i ∧ i < e) → ∃ k, k ≤ e - s ∧
      (∀ fuel, e - s < fuel → pmxMap seg seg2 fuel p₂[i] = .ok ((pmxT p₁ p₂)^[k + 1] (p₁[i]'(by omega)))) ∧
      (∀ j, 1 ≤ j → j ≤ k → (pmxT p₁ p₂)^[j] (p₁[i]'(by omega)) ∈ seg) ∧
      (pmxT p₁ p₂)^[k + 1] (p₁[i]'(by omega)) ∉ seg := by
    intro i hi hr
    obtain ⟨k, h1, h2, h3, h4⟩ := pmx_position hnd hp hse he (p₁[i]'(by omega)) (List.getElem_mem _)
      (hout i (by omega) hr)
    rw [hT i (by omega)] at h2
    exact ⟨k, h1, h2, h3, h4⟩
  have run : ∀ fuel, p₁.length < fuel → ∃ off, pmx fuel p₁ p₂ ⟨s, e⟩ = .ok off ∧ off.length = p₁.length ∧
      (∀ i, s ≤ i → i < e → off[i]? = p₁[i]?) ∧
      (∀ i (hi : i < p₂.length), ¬ (s ≤ i ∧ i < e) → ∃ r, pmxMap seg seg2 fuel p₂[i] = .ok r ∧ off[i]? = some r) := by
    intro fuel hf
    obtain ⟨off1, h1l, h1r, h1e⟩ := pmx_eq fuel p₁ p₂ ⟨s, e⟩ hlen.symm hn hse he
    obtain ⟨res, e', hl, hres⟩ := pmxFill_ok fuel ⟨s, e⟩ p₂ seg seg2 0 off1 (by omega) (by
      intro j hj _ hc
      obtain ⟨k, h1, h2, -⟩ := hmapok j hj ((hcont' j).1 hc)
      exact ⟨_, h2 fuel (by omega)⟩)
    refine ⟨res, by rw [h1e]; exact e', by omega, ?_, ?_⟩
    · intro i h1 h2
      have := (hres i (by omega)).1 (by rw [Nat.zero_add]; exact (hcont i).2 ⟨h1, h2⟩)
      rw [this]; exact h1r i h1 h2
    · intro i hi hr
      have := (hres i (by omega)).2 (by rw [Nat.zero_add]; exact (hcont' i).2 hr)
      simpa using this
  obtain ⟨off, he0, hl, hin, hfill⟩ := run (p₁.length + 1) (by omega)
  refine ⟨off, ?_, ?_, hin, ?_, ?_⟩
  · intro fuel hf
    obtain ⟨off', he1, hl', hin', hfill'⟩ := run fuel hf
    rw [he1]
    congr 1
    apply List.ext_getElem?
    intro i
    by_cases hi : i < p₂.length
    · by_cases hr : s ≤ i ∧ i < e
      · rw [hin' i hr.1 hr.2, hin i hr.1 hr.2]
      · obtain ⟨r, a, b⟩ := hfill i hi hr
        obtain ⟨r', a', b'⟩ := hfill' i hi hr
        obtain ⟨k, h1, h2, -⟩ := hmapok i hi hr
        rw [h2 _ (by omega)] at a a'
        rw [b, b', ← Res.ok.inj a, ← Res.ok.inj a']
    · rw [List.getElem?_eq_none (by omega), List.getElem?_eq_none (by omega)]
  · apply perm_of_nodup
    · rw [List.nodup_iff_injective_getElem]
      have key : ∀ i j, i < p₁.length → j < p₁.length → off[i]? = off[j]? → i = j := by
        intro i j hi hj h
        by_cases hri : s ≤ i ∧ i < e <;> by_cases hrj : s ≤ j ∧ j < e
        · rw [hin i hri.1 hri.2, hin j hrj.1 hrj.2, List.getElem?_eq_getElem hi, List.getElem?_eq_getElem hj,
            Option.some_inj] at h
          exact (hnd.getElem_inj_iff).1 h
        · exfalso
          obtain ⟨r, a, b⟩ := hfill j (by omega) hrj
          obtain ⟨k, h1, h2, h3, h4⟩ := hmapok j (by omega) hrj
          rw [h2 _ (by omega)] at a
          rw [hin i hri.1 hri.2, b] at h
          rw [Res.ok.inj a] at h4
          exact h4 ((hsegmem r).2 ⟨i, hri.1, hri.2, h⟩)
        · exfalso
          obtain ⟨r, a, b⟩ := hfill i (by omega) hri
          obtain ⟨k, h1, h2, h3, h4⟩ := hmapok i (by omega) hri
          rw [h2 _ (by omega)] at a
          rw [hin j hrj.1 hrj.2, b] at h
          rw [Res.ok.inj a] at h4
          exact h4 ((hsegmem r).2 ⟨j, hrj.1, hrj.2, h.symm⟩)
        · obtain ⟨r, a, b⟩ := hfill i (by omega) hri
          obtain ⟨k, h1, h2, h3, h4⟩ := hmapok i (by omega) hri
          obtain ⟨r', a', b'⟩ := hfill j (by omega) hrj
          obtain ⟨k', h1', h2', h3', h4'⟩ := hmapok j (by omega) hrj
          rw [h2 _ (by omega)] at a
          rw [h2' _ (by omega)] at a'
          rw [b, b', Option.some_inj, ← Res.ok.inj a, ← Res.ok.inj a'] at h
          have := pmx_position_inj hnd hp (List.getElem_mem hi) (List.getElem_mem hj) (hout i hi hri) (hout j hj hrj)
            h3 h3' h
          exact (hnd.getElem_inj_iff).1 this
      rintro ⟨i, hi⟩ ⟨j, hj⟩ hij
      apply Fin.ext
      refine key i j (hl ▸ hi) (hl ▸ hj) ?_
      rw [List.getElem?_eq_getElem hi, List.getElem?_eq_getElem hj]
      exact congrArg some hij
    · intro x hx
      obtain ⟨i, hi, rfl⟩ := List.getElem_of_mem hx
      by_cases hr : s ≤ i ∧ i < e
      · have := hin i hr.1 hr.2
        rw [List.getElem?_eq_getElem hi] at this
        exact List.mem_of_getElem? this.symm
      · obtain ⟨r, a, b⟩ := hfill i (by omega) hr
        obtain ⟨k, h1, h2, -⟩ := hmapok i (by omega) hr
        rw [h2 _ (by omega)] at a
        rw [List.getElem?_eq_getElem hi, Option.some_inj] at b
        rw [b, ← Res.ok.inj a]
        exact pmxT_iter_mem hnd hp (List.getElem_mem _) _
    · rw [hl]
  · intro i hi hr
    obtain ⟨r, a, b⟩ := hfill i (by omega) hr
    exact ⟨p₂[i], r, by simp, b, pmxMap_maps p₁ p₂ s e hse he hlen.symm _ _ _ a⟩
  · intro i hi hr hno
    have hi2 : i < p₂.length := by omega
    obtain ⟨r, a, b⟩ := hfill i hi2 hr
    have hns : p₂[i] ∉ seg := by
      intro hm
      obtain ⟨j, h1, h2, h3⟩ := (hsegmem _).1 hm
      exact hno j h1 h2 (by rw [h3, List.getElem?_eq_getElem hi2])
    unfold pmxMap at a
    rw [findPosition_none.2 hns] at a
    rw [b, List.getElem?_eq_getElem hi2, Res.ok.inj a]

/-- **C25** Special case of the empty range: the offspring is the second parent. -/
theorem C25_empty_range (p₁ p₂ : List G) (hnd : p₁.Nodup) (hp : p₂.Perm p₁) (hn : 2 ≤ p₁.length) (s : Nat)
    (hs : s ≤ p₁.length) (fuel : Nat) (hf : p₁.length < fuel) : pmx fuel p₁ p₂ ⟨s, s⟩ = .ok p₂ := by
  obtain ⟨off, h1, h2, -, -, h3⟩ := C25_pmx p₁ p₂ hnd hp hn s s le_rfl hs
  rw [h1 fuel hf]
  congr 1
  apply List.ext_getElem?
  intro i
  by_cases hi : i < p₁.length
  · exact h3 i hi (by omega) (by intro j a b; omega)
  · rw [List.getElem?_eq_none (by rw [h2.length_eq]; omega), List.getElem?_eq_none (by rw [hp.length_eq]; omega)]

/-! ### C26 -/

/-- **C26** OX terminates (within `n + 1` evaluations of the loop condition) without panic for every non-empty range, and
its result is determined by: read cyclically from the end of the range, it holds first the genes of the second parent
that are not in the range of the first, in the second parent's cyclic order from the same point, and then the segment of
the first parent. -/
theorem C26_ox (p₁ p₂ : List G) (hnd : p₁.Nodup) (hp : p₂.Perm p₁) (hn : 2 ≤ p₁.length) (s e : Nat) (hse : s < e)
    (he : e ≤ p₁.length) :
    ∃ off, (∀ fuel, p₁.length < fuel → ox fuel p₁ p₂ ⟨s, e⟩ = .ok off) ∧ off.Perm p₁ ∧
      (∀ i, s ≤ i → i < e → off[i]? = p₁[i]?) ∧
      off.rotate e = ((p₂.rotate e).filter fun g => decide (g ∉ (p₁.drop s).take (e - s))) ++ (p₁.drop s).take (e - s) := by
  have hlen := hp.length_eq
  have hfull := ox_full_length p₁ p₂ s e hse.le he hnd hp
  have run : ∀ fuel, p₁.length < fuel → ∃ off, ox fuel p₁ p₂ ⟨s, e⟩ = .ok off ∧ off.length = p₁.length ∧
      (∀ i, s ≤ i → i < e → off[i]? = p₁[i]?) ∧
      off.rotate e = ((p₂.rotate e).filter fun g => decide (g ∉ (p₁.drop s).take (e - s))) ++
        (p₁.drop s).take (e - s) := by
    intro fuel hf
    obtain ⟨off0, h0l, h0r, -, h0e⟩ := ox_eq fuel p₁ p₂ ⟨s, e⟩ hlen.symm hn hse.le he
    obtain ⟨r, e', hl, hs, hr⟩ := oxLoop_ok p₁ p₂ s e hse he hlen hfull fuel 0 (by omega) (by omega) off0 h0l h0r
      (by simp)
    refine ⟨r, ?_, hl, hs, ox_rotate hse he hl hs hfull hr⟩
    rw [h0e]
    simpa using e'
  obtain ⟨off, he0, hl, hin, hrot⟩ := run (p₁.length + 1) (by omega)
  refine ⟨off, fun fuel hf => ?_, ?_, hin, hrot⟩
  · obtain ⟨off', he1, hl', -, hrot'⟩ := run fuel hf
    rw [he1]
    congr 1
    exact List.rotate_injective e (hrot'.trans hrot.symm)
  · have hsub : ((p₁.drop s).take (e - s)).Sublist p₁ := (List.take_sublist _ _).trans (List.drop_sublist _ _)
    have hrp : (p₂.rotate e).Perm p₁ := (List.rotate_perm p₂ e).trans hp
    refine (List.rotate_perm off e).symm.trans ?_
    rw [hrot]
    apply perm_of_nodup
    · rw [List.nodup_append]
      refine ⟨(hrp.nodup_iff.2 hnd).filter _, hsub.nodup hnd, ?_⟩
      rintro x hx y hy rfl
      have := (List.mem_filter.1 hx).2
      simp only [decide_eq_true_eq] at this
      exact this hy
    · intro x hx
      rcases List.mem_append.1 hx with hx | hx
      · exact hrp.mem_iff.1 (List.mem_filter.1 hx).1
      · exact hsub.subset hx
    · rw [← hrot, List.length_rotate, hl]

/-- **C26** (what OX does with an empty range) For `start = end < n` the result is the first gene of the first parent
repeated, for any parents; it is not a permutation. -/
theorem C26_empty_range_counterexample (p₁ p₂ : List G) (hlen : p₁.length = p₂.length) (hn : 2 ≤ p₁.length) (s fuel : Nat)
    (hs : s < p₁.length) (hf : 0 < fuel) :
    ox fuel p₁ p₂ ⟨s, s⟩ = .ok (List.replicate p₁.length p₁[0]) ∧
      ¬ (p₁.Nodup ∧ (List.replicate p₁.length p₁[0]).Perm p₁) := by
  constructor
  · obtain ⟨off, hl, -, h0, e⟩ := ox_eq fuel p₁ p₂ ⟨s, s⟩ hlen hn le_rfl hs.le
    obtain ⟨f, rfl⟩ : ∃ f, fuel = f + 1 := ⟨fuel - 1, by omega⟩
    rw [e]
    unfold oxLoop
    simp only [Nat.mod_eq_of_lt hs]
    rw [if_neg (by simp)]
    congr 1
    apply List.ext_getElem?
    intro i
    by_cases hi : i < p₁.length
    · rw [h0 i hi (by simp only; omega), List.getElem?_replicate, if_pos hi, List.getElem?_eq_getElem (by omega)]
    · rw [List.getElem?_eq_none (by omega), List.getElem?_eq_none (by simp; omega)]
  · rintro ⟨hnd, hp⟩
    have := hp.nodup_iff.2 hnd
    rw [List.nodup_replicate] at this
    omega

/-- **C26** (what OX does with the empty range at the end) For `start = end = n` the loop never ends, for any parents of two
or more genes, even valid permutations. -/
theorem C26_end_range_counterexample (p₁ p₂ : List G) (hlen : p₁.length = p₂.length) (hn : 2 ≤ p₁.length) (fuel : Nat) :
    ox fuel p₁ p₂ ⟨p₁.length, p₁.length⟩ = .diverge := by
  obtain ⟨off, hl, -, -, e⟩ := ox_eq fuel p₁ p₂ ⟨p₁.length, p₁.length⟩ hlen hn le_rfl le_rfl
  rw [e]
  exact oxLoop_nn p₁.length p₂ hlen.symm fuel off hl _ _ (Nat.mod_lt _ (by omega)) (Nat.mod_lt _ (by omega))

/-! ### C27 -/

/-- **C27** CX on permutations ends without panic; the cycles of the two parents, ordered by their smallest position, take
their genes in turn from the first and the second parent (`CxResult`, `Verif/Spec.lean`); the result is a permutation. -/
theorem C27_cx (p₁ p₂ : List G) (hnd : p₁.Nodup) (hp : p₂.Perm p₁) (hn : 2 ≤ p₁.length) :
    ∃ off starts, cx p₁ p₂ = .ok off ∧ CxResult p₁ p₂ starts off ∧ off.Perm p₁ := by
  have hc : (List.replicate p₁.length false)[0]? = some false := by
    rw [List.getElem?_replicate, if_pos (by omega)]
  obtain ⟨r, starts, e, hr⟩ := cxLoop_ok p₁ p₂ hnd hp (p₁.length + 1) _ _ 0 true [] (cxInv_init p₁ p₂ (p₁[0]'(by omega)))
    (by simp) hc (by intro j hj; omega) (by simp)
  refine ⟨r, starts, ?_, hr, hr.perm hnd hp⟩
  unfold cx
  simp only [decide_eq_true hp.length_eq.symm, Res.assert_true, Res.bind_ok, show ¬ p₁.length < 2 by omega, if_false,
    index_ok p₁ 0 (by omega), e]

/-- **C27** In particular each position holds the gene of one of the parents there, and position 0 that of the first. -/
theorem C27_positions (p₁ p₂ : List G) (hnd : p₁.Nodup) (hp : p₂.Perm p₁) (hn : 2 ≤ p₁.length) :
    ∃ off, cx p₁ p₂ = .ok off ∧ (∀ i : Nat, off[i]? = p₁[i]? ∨ off[i]? = p₂[i]?) ∧ off[0]? = p₁[0]? ∧
      ∀ i j, CxLink p₁ p₂ i j → (off[i]? = p₁[i]? ↔ off[j]? = p₁[j]?) := by
  obtain ⟨off, starts, e, hr, hperm⟩ := C27_cx p₁ p₂ hnd hp hn
  have hlen := hp.length_eq
  -- a position with equal genes is its own cycle, and the owner of a position is the same in all of a cycle
  have hown : ∀ i, i < p₁.length → ∀ j, j < p₁.length → SameCycle p₁ p₂ i j →
      ((off[i]? = p₁[i]? ∧ off[j]? = p₁[j]?) ∨ (off[i]? = p₂[i]? ∧ off[j]? = p₂[j]?)) := by
    intro i hi j hj hij
    obtain ⟨k, s, hk, -, hs, hgi⟩ := hr.genes i hi
    obtain ⟨l, t, hl, -, ht, hgj⟩ := hr.genes j hj
    have hkl : k = l := by
      obtain ⟨hk', hk⟩ := List.getElem?_eq_some_iff.1 hk
      obtain ⟨hl', hl⟩ := List.getElem?_eq_some_iff.1 hl
      have hd := List.pairwise_iff_getElem.1 hr.distinct
      have hst : SameCycle p₁ p₂ s t :=
        Relation.EqvGen.trans _ _ _ hs (Relation.EqvGen.trans _ _ _ hij (Relation.EqvGen.symm _ _ ht))
      rcases Nat.lt_trichotomy k l with hlt | he | hlt
      · exact absurd hst (by have := hd k l hk' hl' hlt; rwa [hk, hl] at this)
      · exact he
      · exact absurd (Relation.EqvGen.symm _ _ hst) (by have := hd l k hl' hk' hlt; rwa [hk, hl] at this)
    subst hkl
    by_cases hpar : k % 2 = 0
    · left; rw [hgi, hgj]; simp [hpar]
    · right; rw [hgi, hgj]; simp [hpar]
  refine ⟨off, e, fun i => ?_, ?_, ?_⟩
  · by_cases hi : i < p₁.length
    · obtain ⟨k, s, -, -, -, hg⟩ := hr.genes i hi
      rw [hg]; split
      · exact Or.inl rfl
      · exact Or.inr rfl
    · left; rw [List.getElem?_eq_none (by rw [hr.length]; omega), List.getElem?_eq_none (by omega)]
  · obtain ⟨k, s, hk, hs0, -, hg⟩ := hr.genes 0 (by omega)
    have hs : s = 0 := by omega
    subst hs
    have hk0 : k = 0 := by
      by_contra hne
      obtain ⟨hk', hk⟩ := List.getElem?_eq_some_iff.1 hk
      have := List.pairwise_iff_getElem.1 hr.ascending 0 k (by omega) hk' (by omega)
      omega
    rw [hg, hk0]; simp
  · intro i j hij
    have hb := hij.lt
    have hsame : SameCycle p₁ p₂ i j := Relation.EqvGen.rel _ _ hij
    rcases hown i hb.1 j (by omega) hsame with ⟨h1, h2⟩ | ⟨h1, h2⟩
    · exact ⟨fun _ => h2, fun _ => h1⟩
    · -- the genes come from the second parent; if one equals the first parent's, then `i = j`
      have h2n := hp.nodup_iff.2 hnd
      obtain ⟨g, ha, hb'⟩ := hij
      constructor
      · intro h
        -- off[i] = p₁[i] = p₂[j] = off[j]
        have : off[i]? = off[j]? := by rw [h, h2, ha, hb']
        have hij' : i = j := by
          have hi' : i < off.length := by rw [hr.length]; exact hb.1
          have hj' : j < off.length := by rw [hr.length]; omega
          rw [List.getElem?_eq_getElem hi', List.getElem?_eq_getElem hj', Option.some_inj] at this
          exact ((hperm.nodup_iff.2 hnd).getElem_inj_iff).1 this
        subst hij'; exact h
      · intro h
        -- off[j] = p₁[j] = p₂[j]; then p₁[j] = p₁[i]
        have : p₁[j]? = p₁[i]? := by rw [← h, h2, hb', ha]
        have hij' : j = i := by
          have hi' : i < p₁.length := hb.1
          have hj' : j < p₁.length := by omega
          rw [List.getElem?_eq_getElem hi', List.getElem?_eq_getElem hj', Option.some_inj] at this
          exact (hnd.getElem_inj_iff).1 this
        subst hij'; exact h

/-- **C27** CX never runs forever, whatever the parents (the fuel `n + 1` of the model's loops is never exhausted). -/
theorem C27_no_diverge (p₁ p₂ : List G) : cx p₁ p₂ ≠ .diverge := by
  unfold cx
  by_cases hlen : p₁.length = p₂.length
  · simp only [decide_eq_true hlen, Res.assert_true, Res.bind_ok]
    by_cases hn : p₁.length < 2
    · simp [hn]
    · simp only [hn, if_false, index_ok p₁ 0 (by omega), Res.bind_ok]
      refine cxLoop_total p₁ p₂ p₁.length rfl hlen.symm _ _ _ 0 true (by simp) (by simp) ?_ (by simp)
      rw [List.getElem?_replicate, if_pos (by omega)]
  · simp [hlen]

/-! ### C28 -/

/-- **C28** SPX: the first `point` genes of the first parent followed by the rest of the second. -/
theorem C28_spx (p₁ p₂ : List G) (hlen : p₁.length = p₂.length) (point : Nat) :
    spx p₁ p₂ point = .ok (p₁.take point ++ p₂.drop point) := by
  unfold spx
  simp only [decide_eq_true hlen, Res.assert_true, Res.bind_ok]
  by_cases hp : point < p₂.length
  · have h1 := slice_ok p₂ point p₂.length hp.le le_rfl
    have h2 := copyInto_ok p₁ ((p₂.drop point).take (p₂.length - point)) point p₁.length (by omega) le_rfl
      (by simp; omega)
    simp only [hp, if_true, h1, Res.bind_ok, h2]
    simp [List.take_of_length_le]
  · simp only [hp, if_false, Res.pure_eq]
    rw [List.take_of_length_le (by omega), List.drop_eq_nil_of_le (by omega), List.append_nil]

/-- **C28** So each position below `point` comes from the first parent and each other from the second. -/
theorem C28_positions (p₁ p₂ : List G) (hlen : p₁.length = p₂.length) (point : Nat) :
    ∃ off, spx p₁ p₂ point = .ok off ∧ off.length = p₁.length ∧
      ∀ i, off[i]? = if i < point then p₁[i]? else p₂[i]? := by
  refine ⟨_, C28_spx p₁ p₂ hlen point, by simp; omega, fun i => ?_⟩
  by_cases hi : i < point
  · rw [if_pos hi]
    by_cases hi1 : i < p₁.length
    · rw [List.getElem?_append_left (by simp; omega), List.getElem?_take_of_lt hi]
    · rw [List.getElem?_eq_none (by simp; omega), List.getElem?_eq_none (by omega)]
  · rw [if_neg hi]
    by_cases hpt : point ≤ p₁.length
    · rw [List.getElem?_append_right (by simp; omega), List.getElem?_drop]
      congr 1; simp; omega
    · rw [List.getElem?_eq_none (by simp; omega), List.getElem?_eq_none (by omega)]

/-! ### C29 -/

/-- **C29** Six of the crossover functions panic when the lengths of the parents differ. -/
theorem C29_length_mismatch (p₁ p₂ : List G) (h : p₁.length ≠ p₂.length) (pivot : G) (ord : Nat → List G → List G)
    (fuel point : Nat) (range : URange) :
    scx p₁ p₂ pivot = .panic ∧ erx ord p₁ p₂ pivot = .panic ∧ pmx fuel p₁ p₂ range = .panic ∧
      ox fuel p₁ p₂ range = .panic ∧ cx p₁ p₂ = .panic ∧ spx p₁ p₂ point = .panic := by
  refine ⟨?_, ?_, ?_, ?_, ?_, ?_⟩
  · unfold scx; simp [h]
  · unfold erx; simp [h]
  · unfold pmx; simp [h]
  · unfold ox; simp [h]
  · unfold cx; simp [h]
  · unfold spx; simp [h]

/-- **C29** `CrossoverStrategy::crossover` panics on parents of different lengths for every strategy but GPX2, for every
random source. -/
theorem C29_strategy_mismatch (lt : G → G → Bool) (ord : Nat → List G → List G) (fuel : Nat) (st : CrossoverStrategy)
    (hst : st ≠ .generalizedPartition2) (p₁ p₂ : List G) (h : p₁.length ≠ p₂.length) (r : Res (List G)) :
    (st.crossover lt ord fuel p₁ p₂).yields r ↔ r = .panic := by
  have key : ∀ {A : Type} (p : Prog A) (f : A → Prog (List G)), (∀ a, f a = done .panic) → ¬ p.yields .diverge →
      ((p >>= f).yields r ↔ r = .panic) := by
    intro A p f hf hd
    rw [yields_bind]
    constructor
    · rintro (⟨a, -, h⟩ | ⟨-, h⟩ | ⟨h, -⟩)
      · rw [hf] at h; simpa using h
      · exact h
      · exact absurd h hd
    · rintro rfl
      obtain ⟨r', hr'⟩ := exists_yields p
      cases r' with
      | ok a => exact Or.inl ⟨a, hr', by rw [hf]; simp⟩
      | panic => exact Or.inr (Or.inl ⟨hr', rfl⟩)
      | diverge => exact absurd hr' hd
  have hch : ¬ (choose p₁).yields .diverge := by
    unfold choose
    split
    · simp
    · rename_i hne
      rw [yields_bind]
      simp only [yields_rangeExcl, yields_pure]
      rintro (⟨a, -, h⟩ | ⟨-, h⟩ | ⟨h, -⟩)
      · cases h
      · cases h
      · rcases h with ⟨_, h⟩ | ⟨_, _, _, h⟩ <;> cases h
  have hrr : ¬ (randomRange p₁.length).yields .diverge := by
    by_cases h0 : p₁.length = 0
    · rw [(C16_random_range p₁.length .diverge).1 h0]; simp
    · rw [(C16_random_range p₁.length .diverge).2 h0]
      rintro ⟨_, _, h, -⟩; cases h
  cases st with
  | generalizedPartition2 => exact absurd rfl hst
  | sequentialConstructive =>
    unfold CrossoverStrategy.crossover
    refine key _ _ (fun a => ?_) hch
    cases a with
    | none => rfl
    | some a => simp only [Res.ofOption_some, lift_ok, bind_pure_left]
                rw [(C29_length_mismatch p₁ p₂ h a ord fuel 0 ⟨0, 0⟩).1]; rfl
  | edgeRecombination =>
    unfold CrossoverStrategy.crossover
    refine key _ _ (fun a => ?_) hch
    cases a with
    | none => rfl
    | some a => simp only [Res.ofOption_some, lift_ok, bind_pure_left]
                rw [(C29_length_mismatch p₁ p₂ h a ord fuel 0 ⟨0, 0⟩).2.1]; rfl
  | partiallyMapped =>
    unfold CrossoverStrategy.crossover
    refine key _ _ (fun a => ?_) hrr
    unfold pmx; simp [h, Prog.lift]
  | order =>
    unfold CrossoverStrategy.crossover
    refine key _ _ (fun a => ?_) hrr
    unfold ox; simp [h, Prog.lift]
  | cycle =>
    unfold CrossoverStrategy.crossover cx; simp [h, Prog.lift]
  | singlePoint =>
    unfold CrossoverStrategy.crossover
    refine key _ _ (fun a => ?_) ?_
    · unfold spx; simp [h, Prog.lift]
    · rw [yields_rangeExcl]
      rintro (⟨_, h⟩ | ⟨_, _, _, h⟩) <;> cases h

/-- **C29** (the documented panic is not there) GPX2 accepts parents of different lengths, for every random source: it
returns an offspring with the genes of the first parent. -/
theorem C29_gpx2_counterexample (lt : G → G → Bool) (ord : Nat → List G → List G) (fuel : Nat) (p₁ p₂ : List G) :
    Always (fun off => off.Nodup ∧ ∀ x, x ∈ off ↔ x ∈ p₁)
      (CrossoverStrategy.generalizedPartition2.crossover lt ord fuel p₁ p₂) := by
  unfold CrossoverStrategy.crossover
  obtain ⟨parts, -, h⟩ := C22_gpx2 lt p₁ p₂ (fun _ _ partitions => do
      let i ← Prog.rangeExcl 0 partitions.length
      pure (i, ())) (by
    intro s last ps hps
    rw [always_bind, always_rangeExcl]
    refine ⟨List.length_pos_of_ne_nil hps, fun i _ hi => ?_⟩
    rw [always_pure]; exact hi) ()
  exact h.mono fun off ho => ho.2.2

/-- **C29** On empty parents the strategies SCX, ERX, PMX, OX and SPX panic, GPX2 and CX return an empty genome. -/
theorem C29_empty (lt : G → G → Bool) (ord : Nat → List G → List G) (fuel : Nat) :
    CrossoverStrategy.sequentialConstructive.crossover lt ord fuel [] [] = done .panic ∧
    CrossoverStrategy.edgeRecombination.crossover lt ord fuel [] [] = done .panic ∧
    CrossoverStrategy.partiallyMapped.crossover lt ord fuel [] [] = done .panic ∧
    CrossoverStrategy.order.crossover lt ord fuel [] [] = done .panic ∧
    CrossoverStrategy.singlePoint.crossover lt ord fuel [] [] = done .panic ∧
    CrossoverStrategy.generalizedPartition2.crossover lt ord fuel [] [] = pure [] ∧
    CrossoverStrategy.cycle.crossover lt ord fuel [] [] = pure [] :=
  ⟨rfl, rfl, rfl, rfl, rfl, rfl, rfl⟩

/-! ### C30 -/

theorem always_choose (l : List G) (h : l ≠ []) : Always (fun o => ∃ g, o = some g ∧ g ∈ l) (choose l) := by
  unfold choose
  have : l.isEmpty = false := by simpa using h
  rw [this]
  simp only [Bool.false_eq_true, if_false]
  rw [always_bind, always_rangeExcl]
  refine ⟨List.length_pos_of_ne_nil h, fun i _ hi => ?_⟩
  rw [always_pure]
  exact ⟨l[i], by simp [hi], List.getElem_mem hi⟩

theorem always_randomRange (n : Nat) (h : n ≠ 0) : Always (fun r => r.start < r.stop ∧ r.stop ≤ n) (randomRange n) := by
  intro r hr
  obtain ⟨s, e, rfl, h1, h2⟩ := ((C16_random_range n r).2 h).1 hr
  exact ⟨_, rfl, h1, h2⟩

/-- **C30** On non-empty parents that are permutations of the same distinct genes, every strategy but SinglePoint ends
without panic in a permutation of the parents, for every random source and every hash iteration order (fuel `n + 1` is
enough for the two loops that need not terminate in general). -/
theorem C30_permutation (lt : G → G → Bool) (ord : Nat → List G → List G) (hord : ∀ k l, (ord k l).Perm l)
    (st : CrossoverStrategy) (hst : st ≠ .singlePoint) (p₁ p₂ : List G) (hnd : p₁.Nodup) (hp : p₂.Perm p₁)
    (hne : p₁ ≠ []) (fuel : Nat) (hf : p₁.length < fuel) :
    Always (fun off => off.Perm p₁) (st.crossover lt ord fuel p₁ p₂) := by
  have hlen := hp.length_eq
  have hpos : 0 < p₁.length := List.length_pos_of_ne_nil hne
  cases st with
  | singlePoint => exact absurd rfl hst
  | generalizedPartition2 =>
    exact (C29_gpx2_counterexample lt ord fuel p₁ p₂).mono fun off h =>
      (List.perm_ext_iff_of_nodup h.1 hnd).2 h.2
  | sequentialConstructive =>
    unfold CrossoverStrategy.crossover
    rw [always_bind]
    refine (always_choose p₁ hne).mono ?_
    rintro _ ⟨g, rfl, hg⟩
    simp only [Res.ofOption_some, lift_ok, bind_pure_left]
    by_cases hn : 2 ≤ p₁.length
    · obtain ⟨off, e, h, -⟩ := C23_scx p₁ p₂ hnd hp hn g hg
      rw [e, lift_ok, always_pure]; exact h
    · rw [C23_short p₁ p₂ hlen.symm (by omega), lift_ok, always_pure]
  | edgeRecombination =>
    unfold CrossoverStrategy.crossover
    rw [always_bind]
    refine (always_choose p₁ hne).mono ?_
    rintro _ ⟨g, rfl, hg⟩
    simp only [Res.ofOption_some, lift_ok, bind_pure_left]
    by_cases hn : 2 ≤ p₁.length
    · obtain ⟨off, e, h, -⟩ := C24_erx ord hord p₁ p₂ hnd hp hn g hg
      rw [e, lift_ok, always_pure]; exact h
    · rw [C24_short ord p₁ p₂ hlen.symm (by omega), lift_ok, always_pure]
  | partiallyMapped =>
    unfold CrossoverStrategy.crossover
    rw [always_bind]
    refine (always_randomRange _ (by omega)).mono ?_
    rintro ⟨s, e⟩ ⟨h1, h2⟩
    by_cases hn : 2 ≤ p₁.length
    · obtain ⟨off, e', h, -⟩ := C25_pmx p₁ p₂ hnd hp hn s e h1.le h2
      rw [e' fuel hf, lift_ok, always_pure]; exact h
    · have : pmx fuel p₁ p₂ ⟨s, e⟩ = .ok p₁ := by unfold pmx; simp [hlen, show p₁.length < 2 by omega]
      rw [this, lift_ok, always_pure]
  | order =>
    unfold CrossoverStrategy.crossover
    rw [always_bind]
    refine (always_randomRange _ (by omega)).mono ?_
    rintro ⟨s, e⟩ ⟨h1, h2⟩
    by_cases hn : 2 ≤ p₁.length
    · obtain ⟨off, e', h, -⟩ := C26_ox p₁ p₂ hnd hp hn s e h1 h2
      rw [e' fuel hf, lift_ok, always_pure]; exact h
    · have : ox fuel p₁ p₂ ⟨s, e⟩ = .ok p₁ := by unfold ox; simp [hlen, show p₁.length < 2 by omega]
      rw [this, lift_ok, always_pure]
  | cycle =>
    unfold CrossoverStrategy.crossover
    by_cases hn : 2 ≤ p₁.length
    · obtain ⟨off, starts, e, -, h⟩ := C27_cx p₁ p₂ hnd hp hn
      rw [e, lift_ok, always_pure]; exact h
    · have : cx p₁ p₂ = .ok p₁ := by unfold cx; simp [hlen, show p₁.length < 2 by omega]
      rw [this, lift_ok, always_pure]

/-- **C30** SinglePoint, for any non-empty parents of equal length: the possible results are exactly the first `k` genes of
the first parent followed by the rest of the second, `0 ≤ k < n` (so the first parent itself is never the result of a
copy of all its genes). -/
theorem C30_single_point (lt : G → G → Bool) (ord : Nat → List G → List G) (fuel : Nat) (p₁ p₂ : List G)
    (hlen : p₁.length = p₂.length) (hne : p₁ ≠ []) (r : Res (List G)) :
    (CrossoverStrategy.singlePoint.crossover lt ord fuel p₁ p₂).yields r ↔
      ∃ k, k < p₁.length ∧ r = .ok (p₁.take k ++ p₂.drop k) := by
  have hpos : 0 < p₁.length := List.length_pos_of_ne_nil hne
  unfold CrossoverStrategy.crossover
  rw [yields_bind]
  simp only [yields_rangeExcl, C28_spx p₁ p₂ hlen, lift_ok, yields_pure]
  constructor
  · rintro (⟨a, h, rfl⟩ | ⟨h, -⟩ | ⟨h, -⟩)
    · rcases h with ⟨_, h⟩ | ⟨k, hk, hk', h⟩
      · cases h
      · cases h; exact ⟨a, by omega, rfl⟩
    · rcases h with ⟨h, _⟩ | ⟨k, hk, hk', h⟩
      · omega
      · cases h
    · rcases h with ⟨h, _⟩ | ⟨k, hk, hk', h⟩
      · omega
      · cases h
  · rintro ⟨k, hk, rfl⟩
    exact Or.inl ⟨k, Or.inr ⟨k, by omega, by omega, rfl⟩, rfl⟩

example : docP₁ ≠ [] ∧ docP₁.length < 11 := by decide

/-! ### C31 -/

/-- **C31** PMX can loop forever when the second parent has duplicates. -/
theorem C31_pmx_infinite : ∀ fuel, pmx fuel [1, 2] [1, 1] ⟨0, 1⟩ = .diverge := by
  have hd : ∀ fuel, pmxMap [1] [1] fuel 1 = .diverge := fun fuel =>
    pmxMap_diverge [1] [1] rfl fuel 1 fun j _ => by
      have : (pmxStep [1] [1])^[j] 1 = 1 := Function.iterate_fixed (by decide) j
      rw [this]; simp
  intro fuel
  have : pmx fuel [1, 2] [1, 1] ⟨0, 1⟩ = (do
      let rest ← (do
        let r ← pmxMap [1] [1] fuel 1
        let rest ← Res.ok []
        pure (r :: rest))
      pure (1 :: rest)) := rfl
  rw [this, hd fuel]; rfl

/-- **C31** OX can loop forever when the second parent has duplicates. -/
theorem C31_ox_infinite : ∀ fuel, ox fuel [1, 2, 3] [1, 1, 1] ⟨0, 1⟩ = .diverge := by
  intro fuel
  have : ox fuel [1, 2, 3] [1, 1, 1] ⟨0, 1⟩ = oxLoop 3 0 1 [1, 1, 1] fuel [1, 1, 1] 1 1 := rfl
  rw [this]
  exact oxLoop_stuck 3 0 1 [1, 1, 1] rfl fuel [1, 1, 1] [1] rfl (by simp) 1 1 (by simp) (by simp)

/-- **C31** For any two genomes and any range, PMX runs forever exactly when its mapping loop has not ended within `n + 1`
evaluations of the condition; otherwise the outcome does not depend on how long one waits. -/
theorem C31_pmx_dichotomy (p₁ p₂ : List G) (range : URange) :
    (∀ fuel, pmx fuel p₁ p₂ range = .diverge) ∨
    ∃ r, r ≠ .diverge ∧ ∀ fuel, p₁.length < fuel → pmx fuel p₁ p₂ range = r := by
  by_cases hlen : p₁.length = p₂.length
  · by_cases hn : p₁.length < 2
    · right; refine ⟨.ok p₁, by simp, fun fuel _ => ?_⟩
      unfold pmx; simp [hlen.symm, hn]
    · by_cases hr : range.start ≤ range.stop ∧ range.stop ≤ p₁.length
      · have hl : ((p₁.drop range.start).take (range.stop - range.start)).length =
          ((p₂.drop range.start).take (range.stop - range.start)).length := by simp; omega
        have hl' : ((p₁.drop range.start).take (range.stop - range.start)).length ≤ p₁.length := by simp
        by_cases hex : ∃ j, ∃ hj : j < p₂.length, range.contains j = false ∧ ∀ fuel,
            pmxMap ((p₁.drop range.start).take (range.stop - range.start))
              ((p₂.drop range.start).take (range.stop - range.start)) fuel p₂[j] = .diverge
        · left
          obtain ⟨j, hj, hc, hd⟩ := hex
          intro fuel
          obtain ⟨off, h1, -, h3⟩ := pmx_eq fuel p₁ p₂ range hlen (by omega) hr.1 hr.2
          rw [h3]
          exact pmxFill_diverge fuel range p₂ _ _ hl 0 off (by omega) j (by omega) (by omega) hc (hd fuel)
        · right
          push Not at hex
          have hok : ∀ j (hj : j < p₂.length), range.contains j = false → ∃ r, ∀ fuel, p₁.length < fuel →
              pmxMap ((p₁.drop range.start).take (range.stop - range.start))
                ((p₂.drop range.start).take (range.stop - range.start)) fuel p₂[j] = .ok r := by
            intro j hj hc
            rcases pmxMap_dichotomy _ _ hl p₂[j] with ⟨r, h⟩ | h
            · exact ⟨r, fun fuel hf => h fuel (by omega)⟩
            · obtain ⟨f, hf⟩ := hex j hj hc
              exact absurd (h f) hf
          have hres : ∃ res, pmx (p₁.length + 1) p₁ p₂ range = .ok res := by
            obtain ⟨off, h1, -, h3⟩ := pmx_eq (p₁.length + 1) p₁ p₂ range hlen (by omega) hr.1 hr.2
            obtain ⟨res, e, -⟩ := pmxFill_ok (p₁.length + 1) range p₂ _ _ 0 off (by omega) (by
              intro j hj _ hc
              obtain ⟨r, h⟩ := hok j hj hc
              exact ⟨r, h _ (by omega)⟩)
            exact ⟨res, by rw [h3]; exact e⟩
          obtain ⟨res, hres⟩ := hres
          refine ⟨.ok res, by simp, fun fuel hf => ?_⟩
          rw [← hres]
          have hs1 := slice_ok p₁ range.start range.stop hr.1 hr.2
          have hs2 := slice_ok p₂ range.start range.stop hr.1 (by omega)
          have hc := copyInto_ok (List.replicate p₁.length (p₁[0]'(by omega)))
            ((p₁.drop range.start).take (range.stop - range.start)) range.start range.stop hr.1 (by simpa using hr.2)
            (by simp; omega)
          unfold pmx
          simp only [decide_eq_true hlen, Res.assert_true, Res.bind_ok, hn, if_false, index_ok p₁ 0 (by omega), hs1, hs2,
            hc]
          refine pmxFill_congr _ _ _ _ _ _ _ _ (by simp; omega) ?_
          intro j hj hcj
          obtain ⟨r, h⟩ := hok j hj hcj
          rw [h fuel hf, h _ (by omega)]
      · right; refine ⟨.panic, by simp, fun fuel _ => ?_⟩
        unfold pmx
        simp only [decide_eq_true hlen, Res.assert_true, Res.bind_ok, hn, if_false, index_ok p₁ 0 (by omega),
          slice_panic p₁ _ _ hr, Res.bind_panic]
  · right; refine ⟨.panic, by simp, fun fuel _ => ?_⟩
    unfold pmx; simp [hlen]

/-- **C31** If the first parent has no duplicates in the range, PMX runs forever exactly when from some gene of the second parent outside the
range the pairs `p₁[j] → p₂[j]` of the range never lead out of the range of `p₁`. -/
theorem C31_pmx_infinite_iff (p₁ p₂ : List G) (hlen : p₁.length = p₂.length) (hn : 2 ≤ p₁.length) (s e : Nat) (hse : s ≤ e)
    (he : e ≤ p₁.length) (hnd : ((p₁.drop s).take (e - s)).Nodup) :
    (∀ fuel, pmx fuel p₁ p₂ ⟨s, e⟩ = .diverge) ↔
      ∃ i g, ¬ (s ≤ i ∧ i < e) ∧ p₂[i]? = some g ∧ ∀ r, ¬ PmxMaps p₁ p₂ s e g r := by
  have hl : ((p₁.drop s).take (e - s)).length = ((p₂.drop s).take (e - s)).length := by simp; omega
  have hcont : ∀ i, (⟨s, e⟩ : URange).contains i = false ↔ ¬ (s ≤ i ∧ i < e) := fun i => by
    rw [← Bool.not_eq_true]; simp [URange.contains]
  constructor
  · intro h
    by_contra hc
    push Not at hc
    obtain ⟨off, h1, -, h3⟩ := pmx_eq (p₁.length + 1) p₁ p₂ ⟨s, e⟩ hlen hn hse he
    obtain ⟨res, e1, -⟩ := pmxFill_ok (p₁.length + 1) ⟨s, e⟩ p₂ _ _ 0 off (by omega) (by
      intro j hj _ hcj
      obtain ⟨r, hr⟩ := hc j _ (fun h => by have := (hcont j).1 hcj; omega) (List.getElem?_eq_getElem hj)
      obtain ⟨f, hf⟩ := pmxMap_complete p₁ p₂ s e hse he hlen hnd _ _ hr
      rcases pmxMap_dichotomy _ _ hl p₂[j] with ⟨r, h⟩ | h
      · exact ⟨r, h _ (by simp)⟩
      · rw [h f] at hf; cases hf)
    have := h (p₁.length + 1)
    rw [h3, e1] at this
    cases this
  · rintro ⟨i, g, hi, hg, hno⟩ fuel
    obtain ⟨hi', rfl⟩ := List.getElem?_eq_some_iff.1 hg
    obtain ⟨off, h1, -, h3⟩ := pmx_eq fuel p₁ p₂ ⟨s, e⟩ hlen hn hse he
    rw [h3]
    refine pmxFill_diverge fuel _ p₂ _ _ hl 0 off (by omega) i (by omega) (by omega) ((hcont i).2 hi) ?_
    rcases pmxMap_not_panic _ _ hl fuel p₂[i] with ⟨r, hr⟩ | hr
    · exact absurd (pmxMap_maps p₁ p₂ s e hse he hlen fuel _ _ hr) (hno r)
    · exact hr

-- the parents of `C31_pmx_infinite`: from the gene 1 outside the range 0..1 the pair 1 → 1 leads nowhere else
example : ∃ i g, ¬ (0 ≤ i ∧ i < 1) ∧ ([1, 1] : List Nat)[i]? = some g ∧ ∀ r, ¬ PmxMaps [1, 2] [1, 1] 0 1 g r :=
  (C31_pmx_infinite_iff [1, 2] [1, 1] rfl (by decide) 0 1 (by decide) (by decide) (by decide)).1 C31_pmx_infinite

/-- **C31** For any two genomes of equal length of two or more genes and any non-empty range in bounds, OX runs forever
exactly when the range is not the whole genome and every gene of the second parent is in the range of the first;
otherwise it ends within `n * n` evaluations of the loop condition. -/
theorem C31_ox_infinite_iff (p₁ p₂ : List G) (hlen : p₁.length = p₂.length) (hn : 2 ≤ p₁.length) (s e : Nat) (hse : s < e)
    (he : e ≤ p₁.length) :
    ((∀ fuel, ox fuel p₁ p₂ ⟨s, e⟩ = .diverge) ↔
      e - s < p₁.length ∧ ∀ g ∈ p₂, g ∈ (p₁.drop s).take (e - s)) ∧
    ((∃ fuel, ox fuel p₁ p₂ ⟨s, e⟩ ≠ .diverge) → ∃ off, ox (p₁.length * p₁.length) p₁ p₂ ⟨s, e⟩ = .ok off) := by
  have hmod : ∀ a, e - s < p₁.length → a < p₁.length - (e - s) → (e + a) % p₁.length ≠ s := by
    intro a h1 h2
    by_cases hw : e + a < p₁.length
    · rw [Nat.mod_eq_of_lt hw]; omega
    · rw [Nat.mod_eq_sub_mod (by omega), Nat.mod_eq_of_lt (by omega)]; omega
  have hsq : p₁.length ≤ p₁.length * p₁.length := Nat.le_mul_of_pos_left _ (by omega)
  -- the two cases
  have hinf : (e - s < p₁.length ∧ ∀ g ∈ p₂, g ∈ (p₁.drop s).take (e - s)) → ∀ fuel, ox fuel p₁ p₂ ⟨s, e⟩ = .diverge := by
    rintro ⟨h1, h2⟩ fuel
    obtain ⟨off, hl, hs, -, e'⟩ := ox_eq fuel p₁ p₂ ⟨s, e⟩ hlen hn hse.le he
    rw [e']
    refine oxLoop_stuck p₁.length s e p₂ hlen.symm fuel off ((p₁.drop s).take (e - s)) ?_ h2 _ _ ?_
      (Nat.mod_lt _ (by omega))
    · rw [slice_ok off s e hse.le (by omega), segment_eq hs]
    · exact hmod 0 h1 (by omega)
  have hfin : ¬ (e - s < p₁.length ∧ ∀ g ∈ p₂, g ∈ (p₁.drop s).take (e - s)) →
      ∃ off, ox (p₁.length * p₁.length) p₁ p₂ ⟨s, e⟩ = .ok off := by
    intro hno
    obtain ⟨off, hl, hs, -, e'⟩ := ox_eq (p₁.length * p₁.length) p₁ p₂ ⟨s, e⟩ hlen hn hse.le he
    rw [e']
    by_cases hw : e - s < p₁.length
    · have : ∃ g ∈ p₂, g ∉ (p₁.drop s).take (e - s) := by
        by_contra hc
        push Not at hc
        exact hno ⟨hw, hc⟩
      obtain ⟨g, hg, hns⟩ := this
      obtain ⟨j, hj, rfl⟩ := List.getElem_of_mem hg
      have := oxLoop_ends p₁.length s e hse he p₂ hlen.symm ((p₁.drop s).take (e - s)) j (by omega) hns
        (p₁.length * p₁.length) 0 (by omega) off hl (segment_eq hs) (e % p₁.length) (Nat.mod_lt _ (by omega)) ?_
      · simpa using this
      · have h1 : (j + p₁.length - e % p₁.length) % p₁.length < p₁.length := Nat.mod_lt _ (by omega)
        have h2 : (p₁.length - (e - s) - 0) * p₁.length + p₁.length ≤ p₁.length * p₁.length := by
          rw [← Nat.succ_mul]
          exact Nat.mul_le_mul_right _ (by omega)
        omega
    · have hs0 : s = 0 := by omega
      have hee : e = p₁.length := by omega
      subst hs0 hee
      obtain ⟨f, hf⟩ : ∃ f, p₁.length * p₁.length = f + 1 := ⟨p₁.length * p₁.length - 1, by omega⟩
      rw [hf]
      refine ⟨off, ?_⟩
      unfold oxLoop
      rw [if_neg (by simp)]
  refine ⟨⟨fun h => ?_, hinf⟩, fun ⟨fuel, hf⟩ => ?_⟩
  · by_contra hc
    obtain ⟨off, ho⟩ := hfin hc
    rw [h] at ho; cases ho
  · by_cases hc : e - s < p₁.length ∧ ∀ g ∈ p₂, g ∈ (p₁.drop s).take (e - s)
    · exact absurd (hinf hc fuel) hf
    · exact hfin hc

/-- **C31** Out-of-bounds ranges panic (for two or more genes). -/
theorem C31_range_panics (p₁ p₂ : List G) (hlen : p₁.length = p₂.length) (hn : 2 ≤ p₁.length) (range : URange)
    (hr : ¬ (range.start ≤ range.stop ∧ range.stop ≤ p₁.length)) (fuel : Nat) :
    pmx fuel p₁ p₂ range = .panic ∧ ox fuel p₁ p₂ range = .panic := by
  constructor
  · unfold pmx
    simp only [decide_eq_true hlen, Res.assert_true, Res.bind_ok, show ¬ p₁.length < 2 by omega, if_false,
      index_ok p₁ 0 (by omega), slice_panic p₁ _ _ hr, Res.bind_panic]
  · unfold ox
    simp only [decide_eq_true hlen, Res.assert_true, Res.bind_ok, show ¬ p₁.length < 2 by omega, if_false,
      index_ok p₁ 0 (by omega), slice_panic p₁ _ _ hr, Res.bind_panic]

end RG.Props
