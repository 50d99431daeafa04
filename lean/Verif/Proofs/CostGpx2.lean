import Verif.CostGpx2
import Verif.Proofs.Cost
import Verif.Proofs.Gpx2
import Verif.Proofs.Distribution

/-! Helper lemmas: the cost of GPX2. -/

namespace RG
open Prog
set_option linter.unusedSectionVars false
variable {G : Type} [DecidableEq G]

@[simp] theorem countedNeighbor_result (lt : G → G → Bool) (a b : G) :
    (countedNeighbor lt a b).result = .ok (neighbor lt a b) := by
  unfold countedNeighbor neighbor Counted.less
  cases h : lt a b <;> simp [h]

theorem countedNeighbor_eqs (lt : G → G → Bool) (a b : G) : (countedNeighbor lt a b).eqs = 1 := by
  unfold countedNeighbor
  rw [Counted.eqs_bind_ok (a := lt a b) rfl]
  cases lt a b <;> rfl

theorem countedNeighbor_hashes (lt : G → G → Bool) (a b : G) : (countedNeighbor lt a b).hashes = 0 := by
  unfold countedNeighbor
  rw [Counted.hashes_bind_ok (a := lt a b) rfl]
  cases lt a b <;> rfl

@[simp] theorem countedNeighborPairs_result (lt : G → G → Bool) (l : List (G × G)) :
    (countedNeighborPairs lt l).result = .ok (l.map fun w => neighbor lt w.1 w.2) := by
  induction l with
  | nil => rfl
  | cons w l ih => unfold countedNeighborPairs; simp [ih]

theorem countedNeighborPairs_eqs (lt : G → G → Bool) (l : List (G × G)) : (countedNeighborPairs lt l).eqs = l.length := by
  induction l with
  | nil => rfl
  | cons w l ih =>
    unfold countedNeighborPairs
    rw [Counted.eqs_bind_ok (countedNeighbor_result lt _ _), Counted.eqs_bind_ok (countedNeighborPairs_result lt l), ih,
      countedNeighbor_eqs, Counted.eqs_pure, List.length_cons]
    omega

theorem countedNeighborPairs_hashes (lt : G → G → Bool) (l : List (G × G)) : (countedNeighborPairs lt l).hashes = 0 := by
  induction l with
  | nil => rfl
  | cons w l ih =>
    unfold countedNeighborPairs
    rw [Counted.hashes_bind_ok (countedNeighbor_result lt _ _), Counted.hashes_bind_ok (countedNeighborPairs_result lt l), ih,
      countedNeighbor_hashes, Counted.hashes_pure]

@[simp] theorem countedNeighborList_result (lt : G → G → Bool) (g : List G) :
    (countedNeighborList lt g).result = neighborList lt g := by
  unfold countedNeighborList neighborList
  simp

theorem countedNeighborList_cost (lt : G → G → Bool) (g : List G) (hg : g ≠ []) :
    (countedNeighborList lt g).eqs = g.length ∧ (countedNeighborList lt g).hashes = 0 ∧
      ∃ l, neighborList lt g = .ok l ∧ l.length = g.length := by
  have h1 : (Counted.free (Res.ofOption g.getLast?)).result = .ok (g.getLast hg) := by
    rw [List.getLast?_eq_getLast_of_ne_nil hg]; rfl
  have h2 : (Counted.free (Res.ofOption g.head?)).result = .ok (g.head hg) := by
    rw [List.head?_eq_some_head hg]; rfl
  have hl : g.length ≠ 0 := by simpa using hg
  refine ⟨?_, ?_, ?_⟩
  · unfold countedNeighborList
    rw [Counted.eqs_bind_ok h1, Counted.eqs_bind_ok h2, Counted.eqs_bind_ok (countedNeighbor_result lt _ _),
      Counted.eqs_bind_ok (countedNeighborPairs_result lt _), countedNeighbor_eqs, countedNeighborPairs_eqs, windows2_length]
    simp only [Counted.eqs_free, Counted.eqs_pure]
    omega
  · unfold countedNeighborList
    rw [Counted.hashes_bind_ok h1, Counted.hashes_bind_ok h2, Counted.hashes_bind_ok (countedNeighbor_result lt _ _),
      Counted.hashes_bind_ok (countedNeighborPairs_result lt _), countedNeighbor_hashes, countedNeighborPairs_hashes]
    simp
  · refine ⟨(windows2 g).map (fun w => neighbor lt w.1 w.2) ++ [neighbor lt (g.getLast hg) (g.head hg)], ?_, ?_⟩
    · unfold neighborList
      rw [List.getLast?_eq_getLast_of_ne_nil hg, List.head?_eq_some_head hg]; rfl
    · simp [windows2_length]; omega

@[simp] theorem countedCommonNeighbors_result (lt : G → G → Bool) (g1 g2 : List G) :
    (countedCommonNeighbors lt g1 g2).result = commonNeighbors lt g1 g2 := by
  unfold countedCommonNeighbors commonNeighbors
  split
  · rfl
  · by_cases h : g1.length ≤ g2.length
    · rw [if_pos h]; simp
    · rw [if_neg h]; simp

/-- The cost of `common_neighbors`. -/
theorem countedCommonNeighbors_cost (lt : G → G → Bool) (g1 g2 : List G) :
    ∃ l, commonNeighbors lt g1 g2 = .ok l ∧ l.length ≤ min g1.length g2.length ∧
      (countedCommonNeighbors lt g1 g2).eqs = (if g1.length < 2 ∨ g2.length ≤ 2 then 0 else g1.length + g2.length) ∧
      (countedCommonNeighbors lt g1 g2).hashes = (if g1.length < 2 ∨ g2.length ≤ 2 then 0 else g1.length + g2.length) := by
  unfold countedCommonNeighbors commonNeighbors
  by_cases h : g1.length < 2 ∨ g2.length ≤ 2
  · rw [if_pos h, if_pos h, if_pos h]
    exact ⟨[], rfl, by simp, rfl, rfl⟩
  · rw [if_neg h, if_neg h, if_neg h]
    have key : ∀ a b : List G, a ≠ [] → b ≠ [] → ∃ l, (do
        let n1 ← neighborList lt a
        let n2 ← neighborList lt b
        pure (n1.filter fun n => decide (n ∈ n2)) : Res _) = .ok l ∧ l.length ≤ a.length ∧
        (do
          let n1 ← countedNeighborList lt a
          let n2 ← countedNeighborList lt b
          Counted.hash n2.length
          Counted.hash n1.length
          pure (n1.filter fun n => decide (n ∈ n2)) : Counted _).eqs = a.length + b.length ∧
        (do
          let n1 ← countedNeighborList lt a
          let n2 ← countedNeighborList lt b
          Counted.hash n2.length
          Counted.hash n1.length
          pure (n1.filter fun n => decide (n ∈ n2)) : Counted _).hashes = a.length + b.length := by
      intro a b ha hb
      obtain ⟨a1, a2, l1, a3, a4⟩ := countedNeighborList_cost lt a ha
      obtain ⟨b1, b2, l2, b3, b4⟩ := countedNeighborList_cost lt b hb
      refine ⟨l1.filter fun n => decide (n ∈ l2), by rw [a3, b3]; rfl,
        by rw [← a4]; exact List.length_filter_le _ _, ?_, ?_⟩
      · rw [Counted.eqs_bind_ok (by rw [countedNeighborList_result]; exact a3),
          Counted.eqs_bind_ok (by rw [countedNeighborList_result]; exact b3),
          Counted.eqs_bind_ok (Counted.result_hash _), Counted.eqs_bind_ok (Counted.result_hash _), a1, b1]
        simp
      · rw [Counted.hashes_bind_ok (by rw [countedNeighborList_result]; exact a3),
          Counted.hashes_bind_ok (by rw [countedNeighborList_result]; exact b3),
          Counted.hashes_bind_ok (Counted.result_hash _), Counted.hashes_bind_ok (Counted.result_hash _), a2, b2]
        simp only [Counted.hashes_hash, Counted.hashes_pure, a4, b4]
        omega
    have n1 : g1 ≠ [] := by rintro rfl; simp at h
    have n2 : g2 ≠ [] := by rintro rfl; simp at h
    by_cases hle : g1.length ≤ g2.length
    · rw [if_pos hle]
      obtain ⟨l, e, h1, h2, h3⟩ := key g1 g2 n1 n2
      exact ⟨l, e, by omega, h2, h3⟩
    · rw [if_neg hle]
      obtain ⟨l, e, h1, h2, h3⟩ := key g2 g1 n2 n1
      exact ⟨l, e, by omega, by rw [Nat.add_comm]; exact h2, by rw [Nat.add_comm]; exact h3⟩

/-! ### partitions -/

@[simp] theorem countedNext_result (visited : List G) (last : G) (common : List (G × G)) :
    (countedNext visited last common).result = .ok (nextNode common visited last) := by
  induction common with
  | nil => rfl
  | cons p rest ih =>
    obtain ⟨a, b⟩ := p
    unfold countedNext
    simp only [Counted.result_bind, Counted.result_hash, Res.bind_ok]
    simp only [Counted.compare, Res.bind_ok]
    unfold nextNode
    rw [List.findSome?_cons]
    by_cases h1 : a = last ∧ b ∉ visited
    · simp [h1]
    · by_cases h2 : b = last ∧ a ∉ visited
      · rw [if_neg (by simpa using h1)]
        simp only [Counted.result_bind, Counted.result_hash, Res.bind_ok]
        rw [if_pos (by simpa using h2), if_neg h1, if_pos h2]; rfl
      · rw [if_neg (by simpa using h1)]
        simp only [Counted.result_bind, Counted.result_hash, Res.bind_ok]
        rw [if_neg (by simpa using h2), if_neg h1, if_neg h2, ih]; rfl

theorem countedNext_cost (visited : List G) (last : G) (common : List (G × G)) :
    (countedNext visited last common).eqs ≤ 2 * common.length ∧
      (countedNext visited last common).hashes ≤ (ends common).count last ∧
      (nextNode common visited last = none → (countedNext visited last common).eqs = 2 * common.length) := by
  induction common with
  | nil => exact ⟨le_rfl, le_rfl, fun _ => rfl⟩
  | cons p rest ih =>
    obtain ⟨a, b⟩ := p
    have hcount : (ends ((a, b) :: rest)).count last =
        (if a = last then 1 else 0) + ((if b = last then 1 else 0) + (ends rest).count last) := by
      simp only [ends, List.flatMap_cons, List.count_append, List.count_cons, List.count_nil, beq_iff_eq]
      omega
    have hn : nextNode ((a, b) :: rest) visited last = if a = last ∧ b ∉ visited then some b
        else if b = last ∧ a ∉ visited then some a else nextNode rest visited last := by
      unfold nextNode
      rw [List.findSome?_cons]
      by_cases h1 : a = last ∧ b ∉ visited
      · simp only [if_pos h1]
      · by_cases h2 : b = last ∧ a ∉ visited
        · simp only [if_neg h1, if_pos h2]
        · simp only [if_neg h1, if_neg h2]
    rw [hcount, hn]
    unfold countedNext
    rw [Counted.eqs_bind_ok (a := decide (a = last)) rfl, Counted.hashes_bind_ok (a := decide (a = last)) rfl,
      Counted.eqs_bind_ok (Counted.result_hash _), Counted.hashes_bind_ok (Counted.result_hash _)]
    have e1 : (Counted.compare a last).eqs = 1 := rfl
    have e2 : (Counted.compare a last).hashes = 0 := rfl
    have e3 : (Counted.compare b last).eqs = 1 := rfl
    have e4 : (Counted.compare b last).hashes = 0 := rfl
    simp only [e1, e2, Counted.eqs_hash, Counted.hashes_hash, List.length_cons, decide_eq_true_eq]
    by_cases h1 : a = last ∧ b ∉ visited
    · rw [if_pos (by simpa using h1), if_pos h1]
      simp only [Counted.eqs_pure, Counted.hashes_pure]
      refine ⟨by omega, by omega, by simp⟩
    · rw [if_neg (by simpa using h1), if_neg h1]
      rw [Counted.eqs_bind_ok (a := decide (b = last)) rfl, Counted.hashes_bind_ok (a := decide (b = last)) rfl,
        Counted.eqs_bind_ok (Counted.result_hash _), Counted.hashes_bind_ok (Counted.result_hash _)]
      simp only [e3, e4, Counted.eqs_hash, Counted.hashes_hash, decide_eq_true_eq]
      by_cases h2 : b = last ∧ a ∉ visited
      · rw [if_pos (by simpa using h2), if_pos h2]
        simp only [Counted.eqs_pure, Counted.hashes_pure]
        refine ⟨by omega, by omega, by simp⟩
      · rw [if_neg (by simpa using h2), if_neg h2]
        refine ⟨by omega, by omega, fun h => ?_⟩
        have := ih.2.2 h
        omega

@[simp] theorem countedGrow_result (common : List (G × G)) (fuel : Nat) (partition visited : List G) :
    (countedGrow common fuel partition visited).result = growPartition common fuel partition visited := by
  induction fuel generalizing partition visited with
  | zero => rfl
  | succ fuel ih =>
    unfold countedGrow growPartition
    cases h : partition.getLast? with
    | none => rfl
    | some last =>
      dsimp only
      rw [Counted.result_bind, countedNext_result, Res.bind_ok, Option.bind_some]
      cases nextNode common visited last with
      | none => rfl
      | some next => simp [ih]

/-- The cost of one partition, grown from `partition` to `partition ++ ext`. -/
theorem countedGrow_cost (common : List (G × G)) (fuel : Nat) (partition visited : List G) (last : G)
    (hl : partition.getLast? = some last) (ext visited' : List G)
    (h : growPartition common fuel partition visited = .ok (partition ++ ext, visited')) :
    (countedGrow common fuel partition visited).eqs ≤ 2 * common.length * (ext.length + 1) ∧
      2 * common.length ≤ (countedGrow common fuel partition visited).eqs ∧
      (countedGrow common fuel partition visited).hashes ≤
        ext.length + ((last :: ext).map fun x => (ends common).count x).sum := by
  induction fuel generalizing partition visited last ext with
  | zero => simp [growPartition] at h
  | succ fuel ih =>
    unfold growPartition at h
    unfold countedGrow
    have hc := countedNext_cost visited last common
    rw [hl] at h ⊢
    simp only [Option.bind_some] at h
    dsimp only
    rw [Counted.eqs_bind_ok (countedNext_result visited last common),
      Counted.hashes_bind_ok (countedNext_result visited last common)]
    cases hn : nextNode common visited last with
    | none =>
      rw [hn] at h hc
      simp only [Res.ok.injEq, Prod.mk.injEq, List.self_eq_append_right] at h
      obtain ⟨rfl, -⟩ := h
      have := hc.2.2 rfl
      simp only [Counted.eqs_pure, Counted.hashes_pure, List.length_nil, List.map_cons, List.map_nil, List.sum_cons,
        List.sum_nil]
      refine ⟨by omega, by omega, by omega⟩
    | some next =>
      rw [hn] at h
      simp only at h
      have hp := h
      -- the partition grows by `next`
      have hext : ∃ e, ext = next :: e := by
        have hpre : ∀ (f : Nat) (p v q w : List G), growPartition common f p v = .ok (q, w) → p <+: q := by
          intro f
          induction f with
          | zero => intro p v q w h; simp [growPartition] at h
          | succ f ihf =>
            intro p v q w h
            unfold growPartition at h
            split at h
            · simp only [Res.ok.injEq, Prod.mk.injEq] at h
              rw [h.1]
            · exact (List.prefix_append _ _).trans (ihf _ _ _ _ h)
        have := hpre _ _ _ _ _ hp
        rw [List.prefix_append_right_inj] at this
        obtain ⟨e, he⟩ := this
        exact ⟨e, he.symm⟩
      obtain ⟨e, rfl⟩ := hext
      have := ih (partition ++ [next]) (next :: visited) next (by simp) e (by rw [hp]; simp)
      rw [Counted.eqs_bind_ok (Counted.result_hash _), Counted.hashes_bind_ok (Counted.result_hash _)]
      simp only [Counted.eqs_hash, Counted.hashes_hash, List.length_cons, List.map_cons, List.sum_cons] at this ⊢
      refine ⟨?_, by omega, by omega⟩
      rw [Nat.mul_add]
      omega

@[simp] theorem countedPartitionsLoop_result (common : List (G × G)) (nodes visited : List G) (parts : List (List G)) :
    (countedPartitionsLoop common nodes visited parts).result = partitionsLoop common nodes visited parts := by
  induction nodes generalizing visited parts with
  | nil => rfl
  | cons node nodes ih =>
    unfold countedPartitionsLoop partitionsLoop
    simp only [Counted.result_bind, Counted.result_hash, Res.bind_ok]
    split
    · exact ih _ _
    · simp [ih]

/-- The cost of the outer loop, in terms of the partitions it adds. -/
theorem countedPartitionsLoop_cost (common : List (G × G)) (nodes visited : List G) (parts : List (List G))
    (hvnd : visited.Nodup) :
    ∃ new, partitionsLoop common nodes visited parts = .ok (parts ++ new) ∧ new.flatten.Nodup ∧
      (∀ x ∈ new.flatten, x ∉ visited) ∧
      (countedPartitionsLoop common nodes visited parts).eqs ≤ 2 * common.length * new.flatten.length ∧
      2 * common.length * new.length ≤ (countedPartitionsLoop common nodes visited parts).eqs ∧
      (countedPartitionsLoop common nodes visited parts).hashes ≤ nodes.length + new.flatten.length +
        (new.flatten.map fun x => (ends common).count x).sum := by
  induction nodes generalizing visited parts with
  | nil => exact ⟨[], by simp [partitionsLoop], by simp, by simp, by simp [countedPartitionsLoop],
      by simp [countedPartitionsLoop], by simp [countedPartitionsLoop]⟩
  | cons node nodes ih =>
    unfold countedPartitionsLoop partitionsLoop
    rw [Counted.eqs_bind_ok (Counted.result_hash _), Counted.hashes_bind_ok (Counted.result_hash _)]
    by_cases hv : node ∈ visited
    · rw [if_pos hv, if_pos hv]
      obtain ⟨new, e, h1, h2, h3, h4, h5⟩ := ih visited parts hvnd
      refine ⟨new, e, h1, h2, ?_, ?_, ?_⟩
      · simp only [Counted.eqs_hash]; omega
      · simp only [Counted.eqs_hash]; omega
      · simp only [Counted.hashes_hash, List.length_cons]; omega
    · rw [if_neg hv, if_neg hv]
      obtain ⟨ext, v', e, -, g2, g3, g4, -, -⟩ := growPartition_spec common (2 * common.length + 1) [node]
        (node :: visited) (by have := avail_le common (node :: visited); omega) (by simp) (by simp) (by simp)
        (by simp) (List.nodup_cons.2 ⟨hv, hvnd⟩)
      obtain ⟨new, e', h1, h2, h3, h4, h5⟩ := ih v' (parts ++ [[node] ++ ext]) g3
      have hc := countedGrow_cost common (2 * common.length + 1) [node] (node :: visited) node (by simp) ext v' e
      have hr := countedGrow_result common (2 * common.length + 1) [node] (node :: visited)
      rw [e] at hr
      rw [Counted.eqs_bind_ok (Counted.result_hash _), Counted.hashes_bind_ok (Counted.result_hash _),
        Counted.eqs_bind_ok hr, Counted.hashes_bind_ok hr, e]
      dsimp only
      have hmem : ∀ x, x ∈ v' ↔ x ∈ node :: ext ∨ x ∈ visited := by
        intro x
        rw [g4.mem_iff]
        simp only [List.mem_append, List.mem_cons]
        tauto
      have hdis : ∀ x ∈ node :: ext, x ∉ visited := by
        intro x hx
        rcases List.mem_cons.1 hx with rfl | hx
        · exact hv
        · have := g4.nodup_iff.1 g3
          rw [List.nodup_append] at this
          intro hxv
          exact this.2.2 x hx x (List.mem_cons_of_mem _ hxv) rfl
      refine ⟨(node :: ext) :: new, ?_, ?_, ?_, ?_, ?_, ?_⟩
      · show partitionsLoop common nodes v' (parts ++ [[node] ++ ext]) = _
        rw [e']; simp
      · rw [List.flatten_cons, List.nodup_append]
        exact ⟨g2, h1, fun a ha b hb hab => h2 b hb ((hmem b).2 (Or.inl (hab ▸ ha)))⟩
      · intro x hx
        rw [List.flatten_cons, List.mem_append] at hx
        rcases hx with hx | hx
        · exact hdis x hx
        · exact fun hxv => h2 x hx ((hmem x).2 (Or.inr hxv))
      · simp only [Counted.eqs_hash, List.flatten_cons, List.length_append, List.length_cons]
        rw [Nat.mul_add]
        omega
      · simp only [Counted.eqs_hash, List.length_cons]
        rw [Nat.mul_add]
        omega
      · simp only [Counted.hashes_hash, List.flatten_cons, List.length_append, List.length_cons, List.map_append,
          List.sum_append]
        omega

theorem sum_count_le {l m : List G} (h : m.Nodup) : (m.map fun x => l.count x).sum ≤ l.length := by
  induction m generalizing l with
  | nil => simp
  | cons x m ih =>
    rw [List.nodup_cons] at h
    have h1 := ih (l := l.filter fun y => decide (y ≠ x)) h.2
    have h2 : (m.map fun y => (l.filter fun y => decide (y ≠ x)).count y) = m.map fun y => l.count y := by
      refine List.map_congr_left fun y hy => ?_
      rw [List.count_filter]
      have : y ≠ x := by rintro rfl; exact h.1 hy
      simpa using this
    rw [h2] at h1
    have h3 : l.count x + (l.filter fun y => decide (y ≠ x)).length = l.length := by
      rw [List.count_eq_length_filter]
      have := List.length_eq_length_filter_add (l := l) (fun y => y == x)
      rw [this]
      congr 2
      refine List.filter_congr fun y _ => ?_
      by_cases e : y = x <;> simp [e]
    simp only [List.map_cons, List.sum_cons]
    omega

@[simp] theorem countedPartitions_result (lt : G → G → Bool) (g1 g2 : List G) :
    (countedPartitions lt g1 g2).result = commonPartitions lt g1 g2 := by
  unfold countedPartitions commonPartitions
  simp

theorem countedPartitions_cost (lt : G → G → Bool) (g1 g2 : List G) :
    ∃ common parts, commonNeighbors lt g1 g2 = .ok common ∧ commonPartitions lt g1 g2 = .ok parts ∧
      common.length ≤ min g1.length g2.length ∧
      2 * common.length * parts.length ≤ (countedPartitions lt g1 g2).eqs ∧
      (countedPartitions lt g1 g2).eqs ≤ g1.length + g2.length + 2 * common.length * parts.flatten.length ∧
      (countedPartitions lt g1 g2).hashes ≤ 2 * g1.length + g2.length + parts.flatten.length + 2 * common.length := by
  obtain ⟨common, e, h1, h2, h3⟩ := countedCommonNeighbors_cost lt g1 g2
  obtain ⟨new, e', n1, -, n2, n3, n4⟩ := countedPartitionsLoop_cost common g1 [] [] (by simp)
  have hr := countedCommonNeighbors_result lt g1 g2
  rw [e] at hr
  refine ⟨common, new, e, ?_, h1, ?_, ?_, ?_⟩
  · unfold commonPartitions; rw [e]; simpa using e'
  · unfold countedPartitions
    rw [Counted.eqs_bind_ok hr]; omega
  · unfold countedPartitions
    rw [Counted.eqs_bind_ok hr, h2]
    split <;> omega
  · unfold countedPartitions
    rw [Counted.hashes_bind_ok hr, h3]
    have := sum_count_le (l := ends common) n1
    rw [ends_length] at this
    split <;> omega

/-! ### assembling the offspring -/

/-- Every gene counts once for its own partition and once for each partition selected before. -/
def waits : List (List G) → Nat
  | [] => 0
  | p :: ps => p.length + ps.flatten.length + waits ps

theorem zipIdx_waits (order : List (List G)) (k : Nat) :
    ((order.zipIdx k).map fun e => (e.2 + 1) * e.1.length).sum = waits order + k * order.flatten.length := by
  induction order generalizing k with
  | nil => simp [waits]
  | cons p ps ih =>
    simp only [List.zipIdx_cons, List.map_cons, List.sum_cons, ih, waits, List.flatten_cons, List.length_append]
    ring

theorem waits_le {order : List (List G)} (hne : ∀ p ∈ order, p ≠ []) :
    order.length ≤ order.flatten.length ∧
      2 * waits order + order.length * order.length ≤ order.length * (2 * order.flatten.length + 1) := by
  induction order with
  | nil => simp [waits]
  | cons p ps ih =>
    obtain ⟨i1, i2⟩ := ih fun q hq => hne q (List.mem_cons_of_mem _ hq)
    have hp : 1 ≤ p.length := List.length_pos_iff.2 (hne p (by simp))
    simp only [waits, List.length_cons, List.flatten_cons, List.length_append]
    exact ⟨by omega, by nlinarith⟩

theorem le_waits {order : List (List G)} (hne : ∀ p ∈ order, p ≠ []) :
    2 * order.flatten.length + order.length * (order.length - 1) ≤ 2 * waits order := by
  induction order with
  | nil => simp [waits]
  | cons p ps ih =>
    have i2 := ih fun q hq => hne q (List.mem_cons_of_mem _ hq)
    have i1 := (waits_le fun q hq => hne q (List.mem_cons_of_mem _ hq)).1
    simp only [waits, List.length_cons, List.flatten_cons, List.length_append, Nat.add_sub_cancel]
    obtain ⟨k, hk⟩ : ∃ k, ps.length = k := ⟨_, rfl⟩
    rw [hk] at i1 i2 ⊢
    cases k with
    | zero => simp
    | succ k =>
      simp only [Nat.add_sub_cancel] at i2
      nlinarith

theorem sum_map_length {T : Type} (l : List (List T)) : (l.map List.length).sum = l.flatten.length := by
  rw [List.length_flatten]

/-- The counter changes nothing. -/
theorem countedGpx2Loop_same {S : Type} (sel : S → Option G → List (List G) → Prog (Nat × S)) (fuel : Nat) (s : S)
    (spent : Nat) (off : List G) (parts : List (List G)) :
    (countedGpx2Loop sel fuel s spent off parts >>= fun r => pure r.1) = gpx2Loop sel fuel s off parts := by
  induction fuel generalizing s spent off parts with
  | zero => cases parts <;> simp [countedGpx2Loop, gpx2Loop, bind_pure_left] <;> rfl
  | succ fuel ih =>
    cases parts with
    | nil => simp [countedGpx2Loop, gpx2Loop]
    | cons p ps =>
      unfold countedGpx2Loop gpx2Loop
      rw [bind_assoc]
      congr 1; funext r
      rw [bind_assoc]
      congr 1; funext q
      exact ih _ _ _ _

theorem countedGpx2_same' {S : Type} (lt : G → G → Bool) (p₁ p₂ : List G)
    (sel : S → Option G → List (List G) → Prog (Nat × S)) (s : S) :
    (countedGpx2 lt p₁ p₂ sel s >>= fun r => pure r.1) = gpx2 lt p₁ p₂ sel s := by
  unfold countedGpx2 gpx2
  rw [bind_assoc, countedPartitions_result]
  congr 1; funext parts
  exact countedGpx2Loop_same _ _ _ _ _ _

/-- Exactly what the assembly spends. -/
theorem countedGpx2Loop_spec {S : Type} (sel : S → Option G → List (List G) → Prog (Nat × S))
    (hsel : ∀ s last (ps : List (List G)), ps ≠ [] → Always (fun r => r.1 < ps.length) (sel s last ps))
    (fuel : Nat) (s : S) (spent : Nat) (off : List G) (parts : List (List G)) (hf : parts.length ≤ fuel)
    (hne : ∀ p ∈ parts, p ≠ []) (hnd : parts.flatten.Nodup) :
    Always (fun r => ∃ order : List (List G), order.Perm parts ∧ r.1 = off ++ order.flatten ∧ r.2 = spent + waits order)
      (countedGpx2Loop sel fuel s spent off parts) := by
  induction fuel generalizing s spent off parts with
  | zero =>
    have : parts = [] := List.length_eq_zero_iff.1 (by omega)
    subst this
    simp only [countedGpx2Loop, always_pure]
    exact ⟨[], List.Perm.refl _, by simp, by simp [waits]⟩
  | succ fuel ih =>
    cases parts with
    | nil =>
      simp only [countedGpx2Loop, always_pure]
      exact ⟨[], List.Perm.refl _, by simp, by simp [waits]⟩
    | cons p ps =>
      unfold countedGpx2Loop
      rw [always_bind]
      refine (hsel s off.getLast? (p :: ps) (by simp)).mono fun r hr => ?_
      obtain ⟨i, s'⟩ := r
      obtain ⟨rest, he, hp⟩ := swapRemove_ok (p :: ps) i hr
      rw [always_bind, he]
      simp only [lift_ok, always_pure]
      set q := (p :: ps)[i] with hq
      have hflat : (q ++ rest.flatten).Nodup := by
        have := (hp.flatten).nodup_iff.2 hnd
        simpa using this
      have hmem : ∀ o ∈ rest, o ≠ [] := fun o ho => hne o (hp.mem_iff.1 (List.mem_cons_of_mem _ ho))
      rw [prune_eq hflat hmem]
      have hlen := hp.length_eq
      simp only [List.length_cons] at hlen hf
      refine (ih s' _ (off ++ q) rest (by omega) hmem (List.nodup_append.1 hflat).2.1).mono ?_
      rintro r ⟨order, ho, h1, h2⟩
      refine ⟨q :: order, (ho.cons q).trans hp, by rw [h1]; simp, ?_⟩
      rw [h2, sum_map_length]
      simp only [waits, ho.flatten.length_eq]
      omega

/-- The expected number of hash operations of the assembly with random selections. -/
theorem expect_countedGpx2Loop (fuel : Nat) (spent : Nat) (off : List G) (parts : List (List G)) (hf : parts.length ≤ fuel)
    (hne : ∀ p ∈ parts, p ≠ []) (hnd : parts.flatten.Nodup) :
    (countedGpx2Loop anyPartition fuel () spent off parts).expect (fun r => match r with | .ok r => (r.2 : ℚ) | _ => 0) =
      spent + parts.flatten.length * (parts.length + 1) / 2 := by
  induction fuel generalizing spent off parts with
  | zero =>
    have : parts = [] := List.length_eq_zero_iff.1 (by omega)
    subst this
    simp [countedGpx2Loop]
  | succ fuel ih =>
    cases parts with
    | nil => simp [countedGpx2Loop]
    | cons p ps =>
      unfold countedGpx2Loop anyPartition
      rw [bind_assoc, expect_rangeExcl_bind 0 _ (by simp)]
      set total := (p :: ps).flatten.length with htotal
      have key : ∀ i (hi : i < (p :: ps).length), ∃ rest, swapRemove (p :: ps) i = .ok ((p :: ps)[i], rest) ∧
          ((rest.map fun other => other.filter fun g => decide (g ∉ (p :: ps)[i])).filter fun p => !p.isEmpty) = rest ∧
          (countedGpx2Loop anyPartition fuel () (spent + (p :: ps)[i].length + (rest.map List.length).sum)
            (off ++ (p :: ps)[i]) rest).expect (fun r => match r with | .ok r => (r.2 : ℚ) | _ => 0) =
            spent + total + (total - ((p :: ps).getD i []).length) * (ps.length + 1) / 2 := by
        intro i hi
        obtain ⟨rest, he, hp⟩ := swapRemove_ok (p :: ps) i hi
        have hflat : ((p :: ps)[i] ++ rest.flatten).Nodup := by
          have := (hp.flatten).nodup_iff.2 hnd
          simpa using this
        have hmem : ∀ o ∈ rest, o ≠ [] := fun o ho => hne o (hp.mem_iff.1 (List.mem_cons_of_mem _ ho))
        have hlen := hp.length_eq
        simp only [List.length_cons] at hlen hf
        have := ih (spent + (p :: ps)[i].length + (rest.map List.length).sum) (off ++ (p :: ps)[i]) rest (by omega) hmem
          (List.nodup_append.1 hflat).2.1
        have htot : (p :: ps)[i].length + rest.flatten.length = total := by
          have := hp.flatten.length_eq
          rw [List.flatten_cons, List.length_append] at this
          exact this
        have hfin : (countedGpx2Loop anyPartition fuel () (spent + (p :: ps)[i].length + (rest.map List.length).sum)
            (off ++ (p :: ps)[i]) rest).expect (fun r => match r with | .ok r => (r.2 : ℚ) | _ => 0) =
            spent + total + (total - ((p :: ps).getD i []).length) * (ps.length + 1) / 2 := by
          rw [this, sum_map_length, show rest.length = ps.length by omega]
          have h3 : ((p :: ps).getD i []) = (p :: ps)[i] := by
            rw [List.getD_eq_getElem?_getD, List.getElem?_eq_getElem hi]; rfl
          have h4 : (rest.flatten.length : ℚ) = total - (p :: ps)[i].length := by
            rw [← htot]; push_cast; ring
          rw [h3, ← h4, ← htot]
          push_cast
          ring
        exact ⟨rest, he, prune_eq hflat hmem, hfin⟩
      rw [Finset.sum_congr rfl (g := fun i => (spent : ℚ) + total + (total - ((p :: ps).getD i []).length) * (ps.length + 1) / 2)
        (fun i hi => ?_)]
      · rw [show Finset.Ico 0 (p :: ps).length = Finset.range (p :: ps).length from by ext; simp,
          Finset.sum_add_distrib, Finset.sum_const, Finset.card_range, ← Finset.sum_div, ← Finset.sum_mul,
          Finset.sum_sub_distrib, Finset.sum_const, Finset.card_range]
        have hsum : (∑ i ∈ Finset.range (p :: ps).length, (((p :: ps).getD i []).length : ℚ)) = total := by
          rw [htotal, List.length_flatten, ← Nat.cast_sum]
          congr 1
          rw [Finset.sum_range, ← List.sum_ofFn]
          congr 1
          apply List.ext_getElem
          · simp
          · intro i h1 h2
            simp
        rw [hsum]
        simp only [List.length_cons, nsmul_eq_mul]
        push_cast
        have : (ps.length : ℚ) + 1 ≠ 0 := by positivity
        field_simp
        ring
      · rw [Finset.mem_Ico] at hi
        obtain ⟨rest, he, hpr, hfin⟩ := key i hi.2
        simp only [bind_pure_left, he, lift_ok]
        rw [hpr]
        exact hfin

end RG
