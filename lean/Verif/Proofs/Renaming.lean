import Verif.Crossover
import Verif.Props.Partitions

/-! # Crossover operators commute with renaming the genes: helpers -/

set_option linter.unusedSectionVars false

namespace RG
open Prog
variable {α β γ : Type}

/-- Apply a function to the value of a computation. -/
def Res.relabel (f : α → β) : Res α → Res β
  | .ok a => .ok (f a)
  | .panic => .panic
  | .diverge => .diverge

namespace Res

@[simp] theorem relabel_ok (f : α → β) (a : α) : (Res.ok a).relabel f = .ok (f a) := rfl
@[simp] theorem relabel_panic (f : α → β) : (Res.panic : Res α).relabel f = .panic := rfl
@[simp] theorem relabel_diverge (f : α → β) : (Res.diverge : Res α).relabel f = .diverge := rfl

theorem relabel_bind (f : β → γ) (r : Res α) (k : α → Res β) : (r >>= k).relabel f = r >>= fun a => (k a).relabel f := by
  cases r <;> rfl

theorem bind_relabel (f : α → β) (r : Res α) (k : β → Res γ) : (r.relabel f) >>= k = r >>= fun a => k (f a) := by
  cases r <;> rfl

theorem relabel_ofOption (f : α → β) (o : Option α) : (ofOption o).relabel f = ofOption (o.map f) := by
  cases o <;> rfl

theorem relabel_ite (f : α → β) (c : Prop) [Decidable c] (x y : Res α) :
    (if c then x else y).relabel f = if c then x.relabel f else y.relabel f := by split <;> rfl

theorem bind_congr' {r : Res α} {k k' : α → Res β} (h : ∀ a, k a = k' a) : r >>= k = r >>= k' := by
  cases r
  · exact h _
  · rfl
  · rfl

end Res

variable {G H : Type} [DecidableEq G] [DecidableEq H] {f : G → H}

theorem index_map (f : α → β) (l : List α) (i : Nat) : index (l.map f) i = (index l i).relabel f := by
  rw [index, index, Res.relabel_ofOption, List.getElem?_map]

theorem setAt_map (f : α → β) (l : List α) (i : Nat) (x : α) : setAt (l.map f) i (f x) = (setAt l i x).relabel (List.map f) := by
  unfold setAt
  rw [List.length_map]
  split <;> simp

theorem slice_map (f : α → β) (l : List α) (s e : Nat) : slice (l.map f) s e = (slice l s e).relabel (List.map f) := by
  unfold slice
  rw [List.length_map]
  split <;> simp

theorem copyInto_map (f : α → β) (l : List α) (s e : Nat) (src : List α) :
    copyInto (l.map f) s e (src.map f) = (copyInto l s e src).relabel (List.map f) := by
  unfold copyInto
  rw [List.length_map, List.length_map]
  split <;> simp [List.map_take, List.map_drop]

theorem findPosition_map (hf : f.Injective) (x : G) (l : List G) : findPosition (f x) (l.map f) = findPosition x l := by
  unfold findPosition
  rw [List.findIdx?_map]
  congr 1
  funext g
  simp [Function.comp, hf.eq_iff]

theorem mem_map_inj (hf : f.Injective) (x : G) (l : List G) : f x ∈ l.map f ↔ x ∈ l := List.mem_map_of_injective hf

theorem find?_map_notin (hf : f.Injective) (l vis : List G) :
    ((l.map f).find? fun g => decide (g ∉ vis.map f)) = (l.find? fun g => decide (g ∉ vis)).map f := by
  rw [List.find?_map]
  congr 2
  funext g
  simp only [Function.comp, mem_map_inj hf]

/-! ### SCX -/

theorem scxNext_map (hf : f.Injective) (p₁ p₂ vis : List G) (c : G) :
    scxNext (p₁.map f) (p₂.map f) (vis.map f) (f c) = (scxNext p₁ p₂ vis c).relabel f := by
  unfold scxNext
  simp only [List.length_map, findPosition_map hf, index_map, Res.relabel_bind, Res.bind_relabel, mem_map_inj hf,
    find?_map_notin hf, Res.relabel_ite, Res.relabel_ofOption]
  refine Res.bind_congr' fun _ => Res.bind_congr' fun _ => Res.bind_congr' fun _ => Res.bind_congr' fun _ => ?_
  split
  · rfl
  split
  · rfl
  split
  · rfl
  refine Res.bind_congr' fun _ => Res.bind_congr' fun _ => ?_
  simp only [Res.pure_eq, Res.relabel_ok]
  split <;> rfl

theorem scxLoop_map (hf : f.Injective) (p₁ p₂ : List G) (k : Nat) (vis : List G) (c : G) :
    scxLoop (p₁.map f) (p₂.map f) k (vis.map f) (f c) = (scxLoop p₁ p₂ k vis c).relabel (List.map f) := by
  induction k generalizing vis c with
  | zero => rfl
  | succ k ih =>
    simp only [scxLoop, ← List.map_cons, scxNext_map hf, Res.bind_relabel, Res.relabel_bind, ih, Res.pure_eq, Res.relabel_ok]

theorem scx_map (hf : f.Injective) (p₁ p₂ : List G) (c : G) :
    scx (p₁.map f) (p₂.map f) (f c) = (scx p₁ p₂ c).relabel (List.map f) := by
  unfold scx
  have h := scxLoop_map hf p₁ p₂ (p₁.length - 1) [] c
  simp only [List.map_nil] at h
  simp only [List.length_map, Res.relabel_bind, Res.relabel_ite, h, Res.bind_relabel, Res.pure_eq, Res.relabel_ok, List.map_cons]

/-! ### ERX -/

/-- Rename the genes of neighbour lists. -/
def renameLists (f : G → H) (map : List (G × List G)) : List (H × List H) := map.map fun e => (f e.1, e.2.map f)

theorem setExtend_map (hf : f.Injective) (s xs : List G) : setExtend (s.map f) (xs.map f) = (setExtend s xs).map f := by
  unfold setExtend
  induction xs generalizing s with
  | nil => rfl
  | cons x xs ih =>
    simp only [List.map_cons, List.foldl_cons, mem_map_inj hf]
    rw [← ih]
    split <;> simp

theorem addNeighbors_map (hf : f.Injective) (m : List (G × List G)) (g : G) (ns : List G) :
    addNeighbors (renameLists f m) (f g) (ns.map f) = renameLists f (addNeighbors m g ns) := by
  induction m with
  | nil =>
    have := setExtend_map hf [] ns
    simpa [addNeighbors, renameLists] using this
  | cons e m ih =>
    obtain ⟨k, s⟩ := e
    simp only [renameLists, List.map_cons, addNeighbors] at ih ⊢
    by_cases h : k = g
    · rw [if_pos h, if_pos (by rw [h]), setExtend_map hf]; rfl
    · rw [if_neg h, if_neg (by rwa [hf.eq_iff]), ih]; rfl

theorem mapGet_map (hf : f.Injective) (m : List (G × List G)) (g : G) :
    mapGet (renameLists f m) (f g) = (mapGet m g).relabel (List.map f) := by
  unfold mapGet renameLists
  rw [Res.relabel_ofOption, List.find?_map, Option.map_map, Option.map_map]
  congr 1
  have : (fun e : H × List H => decide (e.1 = f g)) ∘ (fun e : G × List G => (f e.1, e.2.map f)) = fun e => decide (e.1 = g) := by
    funext e; simp [hf.eq_iff]
  rw [this]
  rfl

theorem neighborsOf_map (n : Nat) (l : List G) (is : List Nat) :
    neighborsOf n (l.map f) is = (neighborsOf n l is).relabel (renameLists f) := by
  induction is with
  | nil => rfl
  | cons i is ih =>
    simp only [neighborsOf, index_map, ih, Res.relabel_bind, Res.bind_relabel, Res.pure_eq, Res.relabel_ok]
    rfl

theorem neighborLists_map (hf : f.Injective) (p₁ p₂ : List G) :
    neighborLists (p₁.map f) (p₂.map f) = (neighborLists p₁ p₂).relabel (renameLists f) := by
  unfold neighborLists
  simp only [List.length_map, neighborsOf_map, Res.relabel_bind, Res.bind_relabel, Res.pure_eq, Res.relabel_ok]
  refine Res.bind_congr' fun l₁ => Res.bind_congr' fun l₂ => ?_
  congr 1
  have h : ∀ (l m : List (G × List G)), (renameLists f l).foldl (fun map e => addNeighbors map e.1 e.2) (renameLists f m) =
      renameLists f (l.foldl (fun map e => addNeighbors map e.1 e.2) m) := by
    intro l
    induction l with
    | nil => intro m; rfl
    | cons e l ih =>
      intro m
      simp only [List.foldl_cons]
      rw [← ih, ← addNeighbors_map hf]
      rfl
  have := h (l₁ ++ l₂) []
  rw [← this]
  simp [renameLists]

theorem minByKeyFrom_map {key : G → Res Nat} {key' : H → Res Nat} (h : ∀ g, key' (f g) = key g) (k : Nat) (x : G) (l : List G) :
    minByKeyFrom key' k (f x) (l.map f) = (minByKeyFrom key k x l).relabel f := by
  induction l generalizing k x with
  | nil => rfl
  | cons y l ih =>
    simp only [List.map_cons, minByKeyFrom, h, Res.relabel_bind, Res.relabel_ite, ih]

theorem minByKey_map {key : G → Res Nat} {key' : H → Res Nat} (h : ∀ g, key' (f g) = key g) (l : List G) :
    minByKey key' (l.map f) = (minByKey key l).relabel (Option.map f) := by
  cases l with
  | nil => rfl
  | cons x l =>
    simp only [List.map_cons, minByKey, h, Res.relabel_bind, minByKeyFrom_map h, Res.bind_relabel, Res.pure_eq, Res.relabel_ok,
      Option.map_some]

theorem erxNext_map (hf : f.Injective) {ord : List G → List G} {ord' : List H → List H} (ho : ∀ l, ord' (l.map f) = (ord l).map f)
    (p vis : List G) (m : List (G × List G)) (c : G) :
    erxNext ord' (p.map f) (vis.map f) (renameLists f m) (f c) =
      (erxNext ord p vis m c).relabel fun r => (renameLists f r.1, f r.2) := by
  have hm : (renameLists f m).map (fun e => (e.1, e.2.filter fun g => decide (g ≠ f c))) =
      renameLists f (m.map fun e => (e.1, e.2.filter fun g => decide (g ≠ c))) := by
    unfold renameLists
    rw [List.map_map, List.map_map]
    congr 1
    funext e
    simp only [Function.comp, Prod.mk.injEq, true_and, List.filter_map]
    congr 2
    funext g
    simp [hf.eq_iff]
  unfold erxNext
  simp only [hm, mapGet_map hf, Res.relabel_bind, Res.bind_relabel, ho]
  refine Res.bind_congr' fun ns => ?_
  have hfil : ((ord ns).map f).filter (fun g => decide (g ∉ vis.map f)) = ((ord ns).filter fun g => decide (g ∉ vis)).map f := by
    rw [List.filter_map]
    congr 2
    funext g
    simp only [Function.comp, mem_map_inj hf]
  rw [hfil, minByKey_map (f := f) (key := fun g => do
    let s ← mapGet (m.map fun e => (e.1, e.2.filter fun g => decide (g ≠ c))) g
    pure s.length) (fun g => by
      rw [mapGet_map hf, Res.bind_relabel]
      simp only [List.length_map]), Res.bind_relabel]
  refine Res.bind_congr' fun best => ?_
  cases best with
  | some g => rfl
  | none =>
    simp only [Option.map_none, find?_map_notin hf, ← Res.relabel_ofOption, Res.bind_relabel, Res.pure_eq, Res.relabel_bind,
      Res.relabel_ok]

theorem erxLoop_map (hf : f.Injective) {ord : Nat → List G → List G} {ord' : Nat → List H → List H}
    (ho : ∀ k l, ord' k (l.map f) = (ord k l).map f) (p : List G) (k : Nat) (vis : List G) (m : List (G × List G)) (c : G) :
    erxLoop ord' (p.map f) k (vis.map f) (renameLists f m) (f c) = (erxLoop ord p k vis m c).relabel (List.map f) := by
  induction k generalizing vis m c with
  | zero => rfl
  | succ k ih =>
    simp only [erxLoop, ← List.map_cons, erxNext_map hf (ho k), Res.bind_relabel, Res.relabel_bind, ih, Res.pure_eq, Res.relabel_ok]

theorem erx_map (hf : f.Injective) {ord : Nat → List G → List G} {ord' : Nat → List H → List H}
    (ho : ∀ k l, ord' k (l.map f) = (ord k l).map f) (p₁ p₂ : List G) (c : G) :
    erx ord' (p₁.map f) (p₂.map f) (f c) = (erx ord p₁ p₂ c).relabel (List.map f) := by
  unfold erx
  have h := fun m => erxLoop_map hf ho p₁ (p₁.length - 1) [] m c
  simp only [List.map_nil] at h
  simp only [List.length_map, Res.relabel_bind, Res.relabel_ite, neighborLists_map hf, Res.bind_relabel, h, Res.pure_eq,
    Res.relabel_ok, List.map_cons]

/-! ### PMX -/

theorem pmxMap_map (hf : f.Injective) (start stop : List G) (fuel : Nat) (x : G) :
    pmxMap (start.map f) (stop.map f) fuel (f x) = (pmxMap start stop fuel x).relabel f := by
  induction fuel generalizing x with
  | zero => rfl
  | succ fuel ih =>
    simp only [pmxMap, findPosition_map hf]
    cases findPosition x start with
    | none => rfl
    | some pos => simp only [index_map, Res.bind_relabel, Res.relabel_bind, ih]

theorem pmxFill_map (hf : f.Injective) (fuel : Nat) (range : URange) (p₂ start stop : List G) (i : Nat) (l : List G) :
    pmxFill fuel range (p₂.map f) (start.map f) (stop.map f) i (l.map f) =
      (pmxFill fuel range p₂ start stop i l).relabel (List.map f) := by
  induction l generalizing i with
  | nil => rfl
  | cons g l ih =>
    simp only [List.map_cons, pmxFill, ih, index_map, Res.bind_relabel, Res.pure_eq, pmxMap_map hf]
    cases hc : range.contains i with
    | true => simp [Res.relabel_bind]
    | false =>
      simp only [Bool.not_false, if_true]
      cases index p₂ i with
      | ok x =>
        simp only [Res.bind_ok]
        cases pmxMap start stop fuel x <;> simp [Res.relabel_bind]
      | panic => rfl
      | diverge => rfl

theorem pmx_map (hf : f.Injective) (fuel : Nat) (p₁ p₂ : List G) (range : URange) :
    pmx fuel (p₁.map f) (p₂.map f) range = (pmx fuel p₁ p₂ range).relabel (List.map f) := by
  unfold pmx
  simp only [List.length_map, Res.relabel_bind, Res.relabel_ite, index_map, slice_map, Res.bind_relabel, Res.pure_eq, Res.relabel_ok,
    ← List.map_replicate, copyInto_map, pmxFill_map hf]

/-! ### OX -/

theorem oxLoop_map (hf : f.Injective) (n a b : Nat) (p₂ : List G) (fuel : Nat) (l : List G) (i j : Nat) :
    oxLoop n a b (p₂.map f) fuel (l.map f) i j = (oxLoop n a b p₂ fuel l i j).relabel (List.map f) := by
  induction fuel generalizing l i j with
  | zero => rfl
  | succ fuel ih =>
    simp only [oxLoop, Res.relabel_ite, Res.relabel_ok, slice_map, index_map, Res.relabel_bind, Res.bind_relabel, mem_map_inj hf]
    split
    · refine Res.bind_congr' fun seg => Res.bind_congr' fun g => ?_
      by_cases hg : g ∉ seg
      · rw [if_pos hg, if_pos hg, setAt_map]
        cases setAt l i g with
        | ok l' => exact ih _ _ _
        | panic => rfl
        | diverge => rfl
      · rw [if_neg hg, if_neg hg]
        exact ih _ _ _
    · rfl

theorem ox_map (hf : f.Injective) (fuel : Nat) (p₁ p₂ : List G) (range : URange) :
    ox fuel (p₁.map f) (p₂.map f) range = (ox fuel p₁ p₂ range).relabel (List.map f) := by
  unfold ox
  simp only [List.length_map, Res.relabel_bind, Res.relabel_ite, index_map, slice_map, Res.bind_relabel, Res.pure_eq, Res.relabel_ok,
    ← List.map_replicate, copyInto_map, oxLoop_map hf]

/-! ### CX -/

theorem cxCycle_map (hf : f.Injective) (p₁ p₂ : List G) (b : Bool) (fuel : Nat) (l : List G) (vis : List Bool) (i : Nat) :
    cxCycle (p₁.map f) (p₂.map f) b fuel (l.map f) vis i = (cxCycle p₁ p₂ b fuel l vis i).relabel fun r => (r.1.map f, r.2) := by
  induction fuel generalizing l vis i with
  | zero => rfl
  | succ fuel ih =>
    simp only [cxCycle, Res.relabel_ite, Res.relabel_bind]
    refine Res.bind_congr' fun v => ?_
    cases v with
    | true => rfl
    | false =>
      simp only [Bool.not_false, if_true]
      refine Res.bind_congr' fun vis' => ?_
      cases b <;> simp only [if_true, Bool.false_eq_true, if_false, index_map, Res.bind_relabel, setAt_map, findPosition_map hf, ih]

theorem cxLoop_map (hf : f.Injective) (p₁ p₂ : List G) (n fuel : Nat) (l : List G) (vis : List Bool) (c : Nat) (b : Bool) :
    cxLoop (p₁.map f) (p₂.map f) n fuel (l.map f) vis c b = (cxLoop p₁ p₂ n fuel l vis c b).relabel (List.map f) := by
  induction fuel generalizing l vis c b with
  | zero => rfl
  | succ fuel ih =>
    simp only [cxLoop, Res.relabel_ite, Res.relabel_bind, cxCycle_map hf, Res.bind_relabel, Res.pure_eq, Res.relabel_ok]
    split
    · refine Res.bind_congr' fun r => ?_
      obtain ⟨l', vis'⟩ := r
      simp only
      cases vis'.findIdx? fun x => !x with
      | none => rfl
      | some k => exact ih _ _ _ _
    · rfl

theorem cx_map (hf : f.Injective) (p₁ p₂ : List G) : cx (p₁.map f) (p₂.map f) = (cx p₁ p₂).relabel (List.map f) := by
  unfold cx
  simp only [List.length_map, Res.relabel_bind, Res.relabel_ite, index_map, Res.bind_relabel, Res.pure_eq, Res.relabel_ok,
    ← List.map_replicate, cxLoop_map hf]

/-! ### SPX -/

theorem spx_map (f : G → H) (p₁ p₂ : List G) (point : Nat) :
    spx (p₁.map f) (p₂.map f) point = (spx p₁ p₂ point).relabel (List.map f) := by
  unfold spx
  simp only [List.length_map, Res.relabel_bind, Res.relabel_ite, slice_map, Res.bind_relabel, Res.pure_eq, Res.relabel_ok, copyInto_map]

/-! ### GPX2 -/

theorem windows2_map (f : G → H) : ∀ l : List G, windows2 (l.map f) = (windows2 l).map fun w => (f w.1, f w.2)
  | [] => rfl
  | [_] => rfl
  | a :: b :: l => by
    have := windows2_map f (b :: l)
    simp only [List.map_cons, windows2] at this ⊢
    rw [this]

theorem neighbor_map {lt : G → G → Bool} {lt' : H → H → Bool} (hl : ∀ a b, lt' (f a) (f b) = lt a b) (a b : G) :
    neighbor lt' (f a) (f b) = (f (neighbor lt a b).1, f (neighbor lt a b).2) := by
  unfold neighbor
  rw [hl]
  split <;> rfl

theorem neighborList_map {lt : G → G → Bool} {lt' : H → H → Bool} (hl : ∀ a b, lt' (f a) (f b) = lt a b) (l : List G) :
    neighborList lt' (l.map f) = (neighborList lt l).relabel (List.map fun w => (f w.1, f w.2)) := by
  unfold neighborList
  simp only [List.getLast?_map, List.head?_map, ← Res.relabel_ofOption, Res.bind_relabel, Res.relabel_bind, Res.pure_eq, Res.relabel_ok,
    windows2_map, List.map_map, List.map_append, List.map_cons, List.map_nil, neighbor_map hl]
  have e : ((fun w : H × H => neighbor lt' w.1 w.2) ∘ fun w : G × G => (f w.1, f w.2)) =
      (fun w : G × G => (f w.1, f w.2)) ∘ fun w => neighbor lt w.1 w.2 := by
    funext w
    exact neighbor_map hl w.1 w.2
  rw [e]

theorem commonNeighbors_map (hf : f.Injective) {lt : G → G → Bool} {lt' : H → H → Bool} (hl : ∀ a b, lt' (f a) (f b) = lt a b)
    (g₁ g₂ : List G) :
    commonNeighbors lt' (g₁.map f) (g₂.map f) = (commonNeighbors lt g₁ g₂).relabel (List.map fun w => (f w.1, f w.2)) := by
  have hpair : Function.Injective fun w : G × G => (f w.1, f w.2) := by
    rintro ⟨a, b⟩ ⟨c, d⟩ h
    simp only [Prod.mk.injEq] at h
    rw [hf h.1, hf h.2]
  have hfil : ∀ n₁ n₂ : List (G × G), (n₁.map fun w => (f w.1, f w.2)).filter (fun n => decide (n ∈ n₂.map fun w => (f w.1, f w.2))) =
      (n₁.filter fun n => decide (n ∈ n₂)).map fun w => (f w.1, f w.2) := by
    intro n₁ n₂
    rw [List.filter_map]
    congr 2
    funext w
    simp only [Function.comp]
    exact decide_eq_decide.2 (List.mem_map_of_injective hpair)
  unfold commonNeighbors
  simp only [List.length_map, Res.relabel_ite, Res.relabel_ok, List.map_nil]
  split
  · rfl
  split <;> simp only [neighborList_map hl, Res.bind_relabel, Res.relabel_bind, Res.pure_eq, Res.relabel_ok, hfil]

theorem nextNode_map (hf : f.Injective) (common : List (G × G)) (vis : List G) (x : G) :
    nextNode (common.map fun w => (f w.1, f w.2)) (vis.map f) (f x) = (nextNode common vis x).map f := by
  unfold nextNode
  induction common with
  | nil => rfl
  | cons w common ih =>
    obtain ⟨a, b⟩ := w
    simp only [List.map_cons, List.findSome?_cons, hf.eq_iff, mem_map_inj hf, ih]
    split_ifs <;> rfl

theorem growPartition_map (hf : f.Injective) (common : List (G × G)) (fuel : Nat) (part vis : List G) :
    growPartition (common.map fun w => (f w.1, f w.2)) fuel (part.map f) (vis.map f) =
      (growPartition common fuel part vis).relabel fun r => (r.1.map f, r.2.map f) := by
  induction fuel generalizing part vis with
  | zero => rfl
  | succ fuel ih =>
    simp only [growPartition]
    have h : (part.map f).getLast?.bind (nextNode (common.map fun w => (f w.1, f w.2)) (vis.map f)) =
        (part.getLast?.bind (nextNode common vis)).map f := by
      rw [List.getLast?_map]
      cases part.getLast? with
      | none => rfl
      | some x => exact nextNode_map hf common vis x
    rw [h]
    cases part.getLast?.bind (nextNode common vis) with
    | none => rfl
    | some x =>
      have := ih (part ++ [x]) (x :: vis)
      simpa using this

theorem partitionsLoop_map (hf : f.Injective) (common : List (G × G)) (nodes vis : List G) (parts : List (List G)) :
    partitionsLoop (common.map fun w => (f w.1, f w.2)) (nodes.map f) (vis.map f) (parts.map (List.map f)) =
      (partitionsLoop common nodes vis parts).relabel (List.map (List.map f)) := by
  induction nodes generalizing vis parts with
  | nil => rfl
  | cons x nodes ih =>
    simp only [List.map_cons, partitionsLoop, mem_map_inj hf, Res.relabel_ite, ih, Res.relabel_bind]
    split
    · rfl
    have h := growPartition_map hf common (2 * common.length + 1) [x] (x :: vis)
    simp only [List.map_cons, List.map_nil] at h
    rw [List.length_map, h, Res.bind_relabel]
    refine Res.bind_congr' fun r => ?_
    rw [← ih]
    simp

theorem commonPartitions_map (hf : f.Injective) {lt : G → G → Bool} {lt' : H → H → Bool} (hl : ∀ a b, lt' (f a) (f b) = lt a b)
    (g₁ g₂ : List G) : commonPartitions lt' (g₁.map f) (g₂.map f) = (commonPartitions lt g₁ g₂).relabel (List.map (List.map f)) := by
  unfold commonPartitions
  have h := fun c => partitionsLoop_map hf c g₁ [] []
  simp only [List.map_nil] at h
  simp only [commonNeighbors_map hf hl, Res.bind_relabel, Res.relabel_bind, h]

theorem swapRemove_map (f : α → β) (l : List α) (i : Nat) :
    swapRemove (l.map f) i = (swapRemove l i).relabel fun r => (f r.1, r.2.map f) := by
  unfold swapRemove
  rw [List.getElem?_map, List.getLast?_map]
  cases l[i]? <;> cases l.getLast? <;> simp [List.map_dropLast]

theorem lift_relabel_bind (f : α → β) (r : Res α) (k : β → Prog γ) : (Prog.lift (r.relabel f) >>= k) = Prog.lift r >>= fun a => k (f a) := by
  cases r <;> rfl

theorem lift_relabel (f : α → β) (r : Res α) : Prog.lift (r.relabel f) = Prog.lift r >>= fun a => pure (f a) := by
  cases r <;> rfl

theorem gpx2Loop_map (hf : f.Injective) {S : Type} {sel : S → Option G → List (List G) → Prog (Nat × S)}
    {sel' : S → Option H → List (List H) → Prog (Nat × S)}
    (hs : ∀ s o ps, sel' s (o.map f) (ps.map (List.map f)) = sel s o ps) (fuel : Nat) (s : S) (l : List G) (parts : List (List G)) :
    gpx2Loop sel' fuel s (l.map f) (parts.map (List.map f)) = gpx2Loop sel fuel s l parts >>= fun o => pure (o.map f) := by
  have e1 : ∀ (q l : List G), (l.map f).filter (fun g => decide (g ∉ q.map f)) = (l.filter fun g => decide (g ∉ q)).map f := by
    intro q l
    rw [List.filter_map]
    congr 2
    funext g
    simp only [Function.comp, mem_map_inj hf]
  have hparts : ∀ (q : List G) (L : List (List G)),
      ((L.map (List.map f)).map fun other => other.filter fun g => decide (g ∉ q.map f)).filter (fun p => !p.isEmpty) =
        ((L.map fun other => other.filter fun g => decide (g ∉ q)).filter fun p => !p.isEmpty).map (List.map f) := by
    intro q L
    induction L with
    | nil => rfl
    | cons x L ih =>
      simp only [List.map_cons, e1, List.filter_cons, List.isEmpty_map]
      split
      · rw [List.map_cons, ih]
      · exact ih
  induction fuel generalizing s l parts with
  | zero => cases parts <;> rfl
  | succ fuel ih =>
    cases parts with
    | nil => rfl
    | cons p ps =>
      have h1 := hs s l.getLast? (p :: ps)
      have h2 := fun i => swapRemove_map (List.map f) (p :: ps) i
      simp only [List.map_cons] at h1 h2
      simp only [List.map_cons, gpx2Loop, List.getLast?_map, h1, h2, bind_assoc, lift_relabel_bind]
      refine bind_congr fun r => bind_congr fun q => ?_
      rw [← ih]
      congr 1
      · simp
      · exact hparts q.1 q.2

end RG
