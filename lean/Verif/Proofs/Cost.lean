import Verif.Cost
import Verif.Proofs.Cx
import Verif.Proofs.Scx
import Verif.Proofs.Erx
import Mathlib.Algebra.BigOperators.Intervals

/-! Helper lemmas: the cost of the crossovers. -/

namespace RG
set_option linter.unusedSectionVars false

namespace Counted
variable {α β : Type}

@[simp] theorem result_pure (a : α) : (pure a : Counted α).result = .ok a := rfl
@[simp] theorem result_free (r : Res α) : (free r).result = r := rfl
@[simp] theorem result_hash (k : Nat) : (hash k).result = .ok () := rfl
@[simp] theorem eqs_pure (a : α) : (pure a : Counted α).eqs = 0 := rfl
@[simp] theorem eqs_free (r : Res α) : (free r).eqs = 0 := rfl
@[simp] theorem eqs_hash (k : Nat) : (hash k).eqs = 0 := rfl
@[simp] theorem hashes_pure (a : α) : (pure a : Counted α).hashes = 0 := rfl
@[simp] theorem hashes_free (r : Res α) : (free r).hashes = 0 := rfl
@[simp] theorem hashes_hash (k : Nat) : (hash k).hashes = k := rfl

@[simp] theorem result_bind (x : Counted α) (f : α → Counted β) :
    (x >>= f).result = x.result >>= fun a => (f a).result := by
  show (Counted.bind x f).result = Res.bind x.result _
  unfold Counted.bind Res.bind
  cases x.result <;> rfl

theorem eqs_bind_ok {x : Counted α} {a : α} (h : x.result = .ok a) (f : α → Counted β) :
    (x >>= f).eqs = x.eqs + (f a).eqs := by
  show (Counted.bind x f).eqs = _
  unfold Counted.bind; rw [h]

theorem hashes_bind_ok {x : Counted α} {a : α} (h : x.result = .ok a) (f : α → Counted β) :
    (x >>= f).hashes = x.hashes + (f a).hashes := by
  show (Counted.bind x f).hashes = _
  unfold Counted.bind; rw [h]

theorem eqs_bind_le (x : Counted α) (f : α → Counted β) (k : Nat) (h : ∀ a, x.result = .ok a → (f a).eqs ≤ k) :
    (x >>= f).eqs ≤ x.eqs + k := by
  cases hx : x.result with
  | ok a => rw [eqs_bind_ok hx]; have := h a hx; omega
  | panic => show (Counted.bind x f).eqs ≤ _; unfold Counted.bind; rw [hx]; simp
  | diverge => show (Counted.bind x f).eqs ≤ _; unfold Counted.bind; rw [hx]; simp

theorem hashes_bind_le (x : Counted α) (f : α → Counted β) (k : Nat) (h : ∀ a, x.result = .ok a → (f a).hashes ≤ k) :
    (x >>= f).hashes ≤ x.hashes + k := by
  cases hx : x.result with
  | ok a => rw [hashes_bind_ok hx]; have := h a hx; omega
  | panic => show (Counted.bind x f).hashes ≤ _; unfold Counted.bind; rw [hx]; simp
  | diverge => show (Counted.bind x f).hashes ≤ _; unfold Counted.bind; rw [hx]; simp

theorem pure_bind' (a : α) (f : α → Counted β) : ((pure a : Counted α) >>= f) = f a := by
  show (⟨0 + (f a).eqs, 0 + (f a).hashes, (f a).result⟩ : Counted β) = f a
  rw [Nat.zero_add, Nat.zero_add]

theorem bind_congr_ok (x : Counted α) {f g : α → Counted β} (h : ∀ a, x.result = .ok a → f a = g a) :
    (x >>= f) = x >>= g := by
  show Counted.bind x f = Counted.bind x g
  unfold Counted.bind
  cases hx : x.result with
  | ok a => simp only [h a hx]
  | panic => rfl
  | diverge => rfl

end Counted

variable {G : Type} [DecidableEq G]

/-! ### the counters change nothing -/

@[simp] theorem countedPosition_result (t : G) (l : List G) : (countedPosition t l).result = .ok (findPosition t l) := by
  induction l with
  | nil => rfl
  | cons g l ih =>
    unfold countedPosition
    by_cases h : g = t
    · simp [Counted.compare, h, findPosition, List.findIdx?_cons]
    · simp [Counted.compare, h, ih, findPosition, List.findIdx?_cons]

@[simp] theorem countedContains_result (t : G) (l : List G) : (countedContains t l).result = .ok (decide (t ∈ l)) := by
  induction l with
  | nil => simp [countedContains]
  | cons g l ih =>
    unfold countedContains
    by_cases h : g = t
    · simp [Counted.compare, h]
    · simp [Counted.compare, h, ih, Ne.symm h]

@[simp] theorem countedFind_result (v l : List G) :
    (countedFind v l).result = .ok (l.find? fun g => decide (g ∉ v)) := by
  induction l with
  | nil => rfl
  | cons g l ih =>
    unfold countedFind
    by_cases h : g ∈ v
    · simp [h, ih]
    · simp [h]

@[simp] theorem countedScxNext_result (p1 p2 v : List G) (c : G) :
    (countedScxNext p1 p2 v c).result = scxNext p1 p2 v c := by
  unfold countedScxNext scxNext
  simp only [Counted.result_bind, countedPosition_result, Counted.result_free, Res.bind_ok, Counted.result_hash]
  congr 1; funext a
  congr 1; funext b
  congr 1; funext x
  congr 1; funext y
  split
  · simp
  · split
    · rfl
    · split
      · rfl
      · simp

@[simp] theorem countedScxLoop_result (p1 p2 : List G) (k : Nat) (v : List G) (c : G) :
    (countedScxLoop p1 p2 k v c).result = scxLoop p1 p2 k v c := by
  induction k generalizing v c with
  | zero => rfl
  | succ k ih => unfold countedScxLoop scxLoop; simp [ih]

@[simp] theorem countedScx_result (p1 p2 : List G) (pivot : G) : (countedScx p1 p2 pivot).result = scx p1 p2 pivot := by
  unfold countedScx scx
  simp only [Counted.result_bind, Counted.result_free]
  congr 1; funext _
  split <;> simp

@[simp] theorem countedNeighborLists_result (p1 p2 : List G) :
    (countedNeighborLists p1 p2).result = neighborLists p1 p2 := by
  unfold countedNeighborLists neighborLists; simp

theorem countedMinByKeyFrom_result {key : G → Counted Nat} {key' : G → Res Nat} (h : ∀ g, (key g).result = key' g)
    (k : Nat) (x : G) (l : List G) : (countedMinByKeyFrom key k x l).result = minByKeyFrom key' k x l := by
  induction l generalizing k x with
  | nil => rfl
  | cons y ys ih =>
    unfold countedMinByKeyFrom minByKeyFrom
    simp only [Counted.result_bind, h]
    congr 1; funext k'
    split <;> exact ih _ _

theorem countedMinByKey_result {key : G → Counted Nat} {key' : G → Res Nat} (h : ∀ g, (key g).result = key' g)
    (l : List G) : (countedMinByKey key l).result = minByKey key' l := by
  cases l with
  | nil => rfl
  | cons x xs =>
    unfold countedMinByKey minByKey
    simp [h, countedMinByKeyFrom_result h]

@[simp] theorem countedErxNext_result (ord : List G → List G) (p1 v : List G) (map : List (G × List G)) (c : G) :
    (countedErxNext ord p1 v map c).result = erxNext ord p1 v map c := by
  unfold countedErxNext erxNext
  simp only [Counted.result_bind, Counted.result_hash, Counted.result_free, Res.bind_ok]
  congr 1; funext nb
  rw [countedMinByKey_result (key' := fun g => do
    let s ← mapGet (map.map fun e => (e.1, e.2.filter fun g => decide (g ≠ c))) g; pure s.length)
    (fun g => by simp)]
  congr 1; funext best
  cases best <;> simp

@[simp] theorem countedErxLoop_result (ord : Nat → List G → List G) (p1 : List G) (k : Nat) (v : List G)
    (map : List (G × List G)) (c : G) : (countedErxLoop ord p1 k v map c).result = erxLoop ord p1 k v map c := by
  induction k generalizing v map c with
  | zero => rfl
  | succ k ih => unfold countedErxLoop erxLoop; simp [ih]

@[simp] theorem countedErx_result (ord : Nat → List G → List G) (p1 p2 : List G) (pivot : G) :
    (countedErx ord p1 p2 pivot).result = erx ord p1 p2 pivot := by
  unfold countedErx erx
  simp only [Counted.result_bind, Counted.result_free]
  congr 1; funext _
  split <;> simp

@[simp] theorem countedPmxMap_result (start stop : List G) (fuel : Nat) (g : G) :
    (countedPmxMap start stop fuel g).result = pmxMap start stop fuel g := by
  induction fuel generalizing g with
  | zero => rfl
  | succ f ih =>
    unfold countedPmxMap pmxMap
    simp only [Counted.result_bind, countedPosition_result, Res.bind_ok]
    cases findPosition g start <;> simp [ih]

@[simp] theorem countedPmxFill_result (fuel : Nat) (range : URange) (p2 start stop : List G) (i : Nat) (off : List G) :
    (countedPmxFill fuel range p2 start stop i off).result = pmxFill fuel range p2 start stop i off := by
  induction off generalizing i with
  | nil => rfl
  | cons g off ih =>
    unfold countedPmxFill pmxFill
    cases range.contains i <;> simp [ih]

@[simp] theorem countedPmx_result (fuel : Nat) (p1 p2 : List G) (range : URange) :
    (countedPmx fuel p1 p2 range).result = pmx fuel p1 p2 range := by
  unfold countedPmx pmx
  simp only [Counted.result_bind, Counted.result_free]
  congr 1; funext _
  split <;> simp

@[simp] theorem countedOxLoop_result (n s e : Nat) (p2 : List G) (fuel : Nat) (genome : List G) (i1 i2 : Nat) :
    (countedOxLoop n s e p2 fuel genome i1 i2).result = oxLoop n s e p2 fuel genome i1 i2 := by
  induction fuel generalizing genome i1 i2 with
  | zero => rfl
  | succ f ih =>
    unfold countedOxLoop oxLoop
    by_cases h : i1 ≠ s
    · rw [if_pos h, if_pos h]
      simp only [Counted.result_bind, Counted.result_free, countedContains_result, Res.bind_ok]
      congr 1; funext seg
      congr 1; funext gene
      by_cases hg : gene ∈ seg
      · simp [hg, ih]
      · simp [hg, ih]
    · rw [if_neg h, if_neg h]; rfl

@[simp] theorem countedOx_result (fuel : Nat) (p1 p2 : List G) (range : URange) :
    (countedOx fuel p1 p2 range).result = ox fuel p1 p2 range := by
  unfold countedOx ox
  simp only [Counted.result_bind, Counted.result_free]
  congr 1; funext _
  split <;> simp

@[simp] theorem countedCxCycle_result (p1 p2 : List G) (fp : Bool) (fuel : Nat) (off : List G) (vis : List Bool) (i : Nat) :
    (countedCxCycle p1 p2 fp fuel off vis i).result = cxCycle p1 p2 fp fuel off vis i := by
  induction fuel generalizing off vis i with
  | zero => rfl
  | succ f ih =>
    unfold countedCxCycle cxCycle
    simp only [Counted.result_bind, Counted.result_free]
    congr 1; funext v
    cases v
    · cases fp <;> simp [ih]
    · simp

@[simp] theorem countedCxLoop_result (p1 p2 : List G) (n fuel : Nat) (off : List G) (vis : List Bool) (c : Nat) (fp : Bool) :
    (countedCxLoop p1 p2 n fuel off vis c fp).result = cxLoop p1 p2 n fuel off vis c fp := by
  induction fuel generalizing off vis c fp with
  | zero => rfl
  | succ f ih =>
    unfold countedCxLoop cxLoop
    split
    · simp only [Counted.result_bind, countedCxCycle_result]
      congr 1; funext r
      obtain ⟨off', vis'⟩ := r
      dsimp only
      cases vis'.findIdx? (fun x => !x) <;> simp [ih]
    · rfl

@[simp] theorem countedCx_result (p1 p2 : List G) : (countedCx p1 p2).result = cx p1 p2 := by
  unfold countedCx cx
  simp only [Counted.result_bind, Counted.result_free]
  congr 1; funext _
  split <;> simp

/-! ### searches -/

theorem countedPosition_eqs_cons (t g : G) (l : List G) :
    (countedPosition t (g :: l)).eqs = if g = t then 1 else 1 + (countedPosition t l).eqs := by
  rw [countedPosition, Counted.eqs_bind_ok (a := decide (g = t)) rfl]
  by_cases h : g = t
  · simp [h, Counted.compare]
  · simp only [h, decide_false, Bool.false_eq_true, if_false]
    rw [Counted.eqs_bind_ok (countedPosition_result t l)]; simp [Counted.compare]

theorem countedPosition_hashes (t : G) (l : List G) : (countedPosition t l).hashes = 0 := by
  induction l with
  | nil => rfl
  | cons g l ih =>
    rw [countedPosition, Counted.hashes_bind_ok (a := decide (g = t)) rfl]
    by_cases h : g = t
    · simp [h, Counted.compare]
    · simp only [h, decide_false, Bool.false_eq_true, if_false]
      rw [Counted.hashes_bind_ok (countedPosition_result t l)]; simp [Counted.compare, ih]

theorem countedPosition_eqs_none {t : G} {l : List G} (h : t ∉ l) : (countedPosition t l).eqs = l.length := by
  induction l with
  | nil => rfl
  | cons g l ih =>
    rw [List.mem_cons, not_or] at h
    rw [countedPosition_eqs_cons, if_neg (Ne.symm h.1), ih h.2, List.length_cons]; omega

theorem countedPosition_eqs_some {t : G} {l : List G} {i : Nat} (h : findPosition t l = some i) :
    (countedPosition t l).eqs = i + 1 := by
  induction l generalizing i with
  | nil => simp [findPosition] at h
  | cons g l ih =>
    rw [countedPosition_eqs_cons]
    unfold findPosition at h
    rw [List.findIdx?_cons] at h
    by_cases hg : g = t
    · rw [if_pos hg]
      simp [hg] at h; omega
    · rw [if_neg hg]
      simp only [hg, decide_false, Bool.false_eq_true, if_false, Option.map_eq_some_iff] at h
      obtain ⟨j, hj, rfl⟩ := h
      rw [ih hj]; omega

theorem countedPosition_eqs_le (t : G) (l : List G) : (countedPosition t l).eqs ≤ l.length := by
  by_cases h : t ∈ l
  · obtain ⟨i, hi⟩ := findPosition_mem h
    rw [countedPosition_eqs_some hi]; exact (findPosition_some hi).1
  · rw [countedPosition_eqs_none h]

theorem countedContains_eqs (t : G) (l : List G) : (countedContains t l).eqs = (countedPosition t l).eqs := by
  induction l with
  | nil => rfl
  | cons g l ih =>
    rw [countedPosition_eqs_cons, countedContains, Counted.eqs_bind_ok (a := decide (g = t)) rfl]
    by_cases h : g = t
    · simp [h, Counted.compare]
    · simp [h, Counted.compare, ih]

/-! ### CX -/

/-- The comparisons still to come: position `j` costs `j + 1`. -/
def cxWeight (vis : List Bool) : Nat := ∑ j ∈ Finset.range vis.length, if vis[j]? = some false then j + 1 else 0

theorem cxWeight_set (vis : List Bool) (i : Nat) (h : vis[i]? = some false) :
    cxWeight (vis.set i true) + (i + 1) = cxWeight vis := by
  have hi : i ∈ Finset.range vis.length := Finset.mem_range.2 (List.getElem?_eq_some_iff.1 h).1
  unfold cxWeight
  rw [List.length_set, ← Finset.add_sum_erase _ _ hi, ← Finset.add_sum_erase _ _ hi, h, if_pos rfl,
    List.getElem?_set_self (Finset.mem_range.1 hi), if_neg (by simp)]
  have : ∀ j ∈ (Finset.range vis.length).erase i, (if (vis.set i true)[j]? = some false then j + 1 else 0) =
      if vis[j]? = some false then j + 1 else 0 := by
    intro j hj
    rw [List.getElem?_set_ne (Ne.symm (Finset.ne_of_mem_erase hj))]
  rw [Finset.sum_congr rfl this]; omega

theorem cxWeight_replicate (n : Nat) : 2 * cxWeight (List.replicate n false) = n * (n + 1) := by
  unfold cxWeight
  rw [List.length_replicate]
  have : ∀ j ∈ Finset.range n, (if (List.replicate n false)[j]? = some false then j + 1 else 0) = j + 1 := by
    intro j hj
    rw [if_pos]; simp [Finset.mem_range.1 hj]
  rw [Finset.sum_congr rfl this]
  clear this
  induction n with
  | zero => rfl
  | succ n ih => rw [Finset.sum_range_succ, Nat.mul_add, ih]; ring

theorem cxWeight_visited (vis : List Bool) (h : ∀ j, j < vis.length → vis[j]? = some true) : cxWeight vis = 0 := by
  unfold cxWeight
  refine Finset.sum_eq_zero fun j hj => ?_
  rw [h j (Finset.mem_range.1 hj), if_neg (by simp)]

/-- The step that a cycle of CX makes. -/
def CxStep (p1 p2 : List G) (fp : Bool) (i j : Nat) : Prop := if fp then CxLink p1 p2 i j else CxLink p1 p2 j i

theorem CxStep.inj {p1 p2 : List G} (h1 : p1.Nodup) (h2 : p2.Nodup) {fp : Bool} {i i' j : Nat}
    (h : CxStep p1 p2 fp i j) (h' : CxStep p1 p2 fp i' j) : i = i' := by
  cases fp with
  | true =>
    simp only [CxStep, if_true] at h h'
    obtain ⟨g, a, b⟩ := h; obtain ⟨g', a', b'⟩ := h'
    rw [b, Option.some_inj] at b'; subst b'
    obtain ⟨hj, a⟩ := List.getElem?_eq_some_iff.1 a
    obtain ⟨hj', a'⟩ := List.getElem?_eq_some_iff.1 a'
    exact (h1.getElem_inj_iff).1 (a.trans a'.symm)
  | false =>
    simp only [CxStep, Bool.false_eq_true, if_false] at h h'
    obtain ⟨g, a, b⟩ := h; obtain ⟨g', a', b'⟩ := h'
    rw [a, Option.some_inj] at a'; subst a'
    obtain ⟨hj, b⟩ := List.getElem?_eq_some_iff.1 b
    obtain ⟨hj', b'⟩ := List.getElem?_eq_some_iff.1 b'
    exact (h2.getElem_inj_iff).1 (b.trans b'.symm)

theorem countedCxCycle_eqs (p1 p2 : List G) (fp : Bool) (n : Nat) (h1 : p1.length = n) (h2 : p2.length = n)
    (hn1 : p1.Nodup) (hn2 : p2.Nodup) (c : Nat) (fuel : Nat) (off : List G) (vis : List Bool) (i : Nat)
    (hA : ∀ j x, vis[j]? = some true → j ≠ c → CxStep p1 p2 fp x j → vis[x]? = some true)
    (hB : i = c ∨ ∀ x, CxStep p1 p2 fp x i → vis[x]? = some true)
    (hC : vis[i]? = some true → i = c) (ho : off.length = n) (hv : vis.length = n) (hi : i < n)
    (off' : List G) (vis' : List Bool) (hr : (countedCxCycle p1 p2 fp fuel off vis i).result = .ok (off', vis')) :
    (countedCxCycle p1 p2 fp fuel off vis i).eqs + cxWeight vis' + (i + 1) = cxWeight vis + (c + 1) := by
  induction fuel generalizing off vis i with
  | zero => cases hr
  | succ f ih =>
    unfold countedCxCycle at hr ⊢
    rw [Counted.eqs_bind_ok (a := vis[i]'(by omega)) (index_ok vis i (by omega))]
    rw [Counted.result_bind, Counted.result_free, index_ok vis i (by omega), Res.bind_ok] at hr
    cases hvi : vis[i]'(by omega) with
    | true =>
      have hvt : vis[i]? = some true := by rw [List.getElem?_eq_getElem (by omega), hvi]
      rw [hvi] at hr
      simp only [Bool.not_true, Bool.false_eq_true, if_false, Counted.result_pure, Res.ok.injEq, Prod.mk.injEq] at hr
      obtain ⟨rfl, rfl⟩ := hr
      simp [hC hvt]
    | false =>
      have hvf : vis[i]? = some false := by rw [List.getElem?_eq_getElem (by omega), hvi]
      rw [hvi] at hr
      have key : ∀ (x : G) (l : Nat), l < n → CxStep p1 p2 fp i l →
          (countedCxCycle p1 p2 fp f (off.set i x) (vis.set i true) l).result = .ok (off', vis') →
          (countedCxCycle p1 p2 fp f (off.set i x) (vis.set i true) l).eqs + cxWeight vis' + (l + 1) + (i + 1) =
            cxWeight vis + (c + 1) := by
        intro x l hl hs hok
        have hset : ∀ j, j ≠ i → (vis.set i true)[j]? = vis[j]? := fun j hj => List.getElem?_set_ne (Ne.symm hj)
        have hself : (vis.set i true)[i]? = some true := by rw [List.getElem?_set_self (by omega)]
        have hmono : ∀ j : Nat, vis[j]? = some true → (vis.set i true)[j]? = some true := by
          intro j hj
          by_cases hji : j = i
          · subst hji; exact hself
          · rw [hset j hji]; exact hj
        have := ih (off.set i x) (vis.set i true) l
          (by
            intro j y hj hjc hy
            by_cases hji : j = i
            · subst hji
              rcases hB with hB | hB
              · exact absurd hB hjc
              · exact hmono y (hB y hy)
            · rw [hset j hji] at hj
              exact hmono y (hA j y hj hjc hy))
          (by
            right
            intro y hy
            rw [CxStep.inj hn1 hn2 hy hs]; exact hself)
          (by
            intro hl'
            by_contra hlc
            by_cases hli : l = i
            · subst hli
              rcases hB with hB | hB
              · exact hlc hB
              · rw [hB l hs] at hvf; simp at hvf
            · rw [hset l hli] at hl'
              rw [hA l i hl' hlc hs] at hvf; simp at hvf)
          (by simp [ho]) (by simp [hv]) hl hok
        have hw := cxWeight_set vis i hvf
        omega
      cases fp with
      | true =>
        simp only [Bool.not_false, if_true, Counted.result_bind, Counted.result_free, setAt_ok vis i true (by omega),
          index_ok p1 i (by omega), Res.bind_ok, setAt_ok off i _ (show i < off.length by omega),
          countedPosition_result] at hr
        simp only [Bool.not_false, if_true, Counted.eqs_free]
        rw [Counted.eqs_bind_ok (a := vis.set i true) (setAt_ok vis i true (by omega)),
          Counted.eqs_bind_ok (a := p1[i]'(by omega)) (index_ok p1 i (by omega)),
          Counted.eqs_bind_ok (a := off.set i (p1[i]'(by omega))) (setAt_ok off i _ (show i < off.length by omega))]
        cases hfp : findPosition (p1[i]'(by omega)) p2 with
        | none => rw [hfp] at hr; cases hr
        | some l =>
          obtain ⟨hl, he⟩ := findPosition_some hfp
          rw [hfp] at hr
          rw [Counted.eqs_bind_ok (a := p1[i]'(by omega)) (index_ok p1 i (by omega)),
            Counted.eqs_bind_ok (countedPosition_result _ _), countedPosition_eqs_some hfp,
            Counted.eqs_bind_ok (a := l) (by rw [hfp]; rfl)]
          have := key (p1[i]'(by omega)) l (by omega) (by
            simpa [CxStep] using CxLink.intro (by omega) hl he.symm) hr
          simp only [Counted.eqs_free]
          omega
      | false =>
        simp only [Bool.not_false, if_true, Bool.false_eq_true, if_false, Counted.result_bind, Counted.result_free, setAt_ok vis i true (by omega),
          index_ok p2 i (by omega), Res.bind_ok, setAt_ok off i _ (show i < off.length by omega),
          countedPosition_result] at hr
        simp only [Bool.not_false, if_true, Bool.false_eq_true, if_false, Counted.eqs_free]
        rw [Counted.eqs_bind_ok (a := vis.set i true) (setAt_ok vis i true (by omega)),
          Counted.eqs_bind_ok (a := p2[i]'(by omega)) (index_ok p2 i (by omega)),
          Counted.eqs_bind_ok (a := off.set i (p2[i]'(by omega))) (setAt_ok off i _ (show i < off.length by omega))]
        cases hfp : findPosition (p2[i]'(by omega)) p1 with
        | none => rw [hfp] at hr; cases hr
        | some l =>
          obtain ⟨hl, he⟩ := findPosition_some hfp
          rw [hfp] at hr
          rw [Counted.eqs_bind_ok (a := p2[i]'(by omega)) (index_ok p2 i (by omega)),
            Counted.eqs_bind_ok (countedPosition_result _ _), countedPosition_eqs_some hfp,
            Counted.eqs_bind_ok (a := l) (by rw [hfp]; rfl)]
          have := key (p2[i]'(by omega)) l (by omega) (by
            simpa [CxStep] using CxLink.intro hl (by omega) he) hr
          simp only [Counted.eqs_free]
          omega

theorem countedCxLoop_eqs (p1 p2 : List G) (hnd : p1.Nodup) (hp : p2.Perm p1) (fuel : Nat) (off : List G)
    (vis : List Bool) (c : Nat) (fp : Bool) (starts : List Nat) (h : CxInv p1 p2 starts off vis)
    (hfp : fp = decide (starts.length % 2 = 0)) (hc : vis[c]? = some false) (hcl : ∀ j, j < c → vis[j]? = some true)
    (hf : vis.count false < fuel) :
    (countedCxLoop p1 p2 p1.length fuel off vis c fp).eqs = cxWeight vis := by
  induction fuel generalizing off vis c fp starts with
  | zero => omega
  | succ fuel ih =>
    have hcn : c < p1.length := by rw [← h.len_vis]; exact (List.getElem?_eq_some_iff.1 hc).1
    unfold countedCxLoop
    rw [if_pos hcn]
    rcases cxCycle_spec p1 p2 fp p1.length rfl hp.length_eq (p1.length + 1) off vis c h.len_off h.len_vis hcn
      (by have := List.count_le_length (a := false) (l := vis); have := h.len_vis; omega) with
      ⟨-, j, hj, hbad⟩ | ⟨off', vis', he, hq⟩
    · exfalso
      apply hbad
      cases fp with
      | true =>
        obtain ⟨l, hl, he⟩ := List.getElem_of_mem (hp.mem_iff.2 (List.getElem_mem hj))
        exact ⟨l, by simpa using CxLink.intro hj hl he.symm⟩
      | false =>
        have hj2 : j < p2.length := hp.length_eq ▸ hj
        obtain ⟨l, hl, he⟩ := List.getElem_of_mem (hp.mem_iff.1 (List.getElem_mem hj2))
        exact ⟨l, by simpa using CxLink.intro hl hj2 he⟩
    · have hinv := h.step hnd hp c fp hfp hc hcl hq
      have hcyc := countedCxCycle_eqs p1 p2 fp p1.length rfl hp.length_eq hnd (hp.nodup_iff.2 hnd) c (p1.length + 1) off vis c
        (by
          intro j x hj _ hx
          cases fp with
          | true =>
            simp only [CxStep, if_true] at hx
            exact (h.closed x j hx).2 hj
          | false =>
            simp only [CxStep, Bool.false_eq_true, if_false] at hx
            exact (h.closed j x hx).1 hj)
        (Or.inl rfl) (fun _ => rfl) h.len_off h.len_vis hcn off' vis' (by rw [countedCxCycle_result, he])
      rw [Counted.eqs_bind_ok (a := (off', vis')) (by rw [countedCxCycle_result, he])]
      dsimp only
      rcases findIdx_unvisited vis' with ⟨h3, h4⟩ | ⟨c', h3, h4, h5⟩
      · simp only [h3, Counted.eqs_pure]
        rw [cxWeight_visited vis' h4] at hcyc
        omega
      · simp only [h3]
        rw [ih off' vis' c' (!fp) (starts ++ [c]) hinv ?_ h4 h5 (by have := hq.progress hc; omega)]
        · omega
        · rw [hfp, List.length_append, List.length_singleton]
          by_cases hpar : starts.length % 2 = 0
          · simp [hpar]; omega
          · simp [hpar]; omega

theorem countedCx_eqs (p1 p2 : List G) (hnd : p1.Nodup) (hp : p2.Perm p1) (hn : 2 ≤ p1.length) :
    2 * (countedCx p1 p2).eqs = p1.length * (p1.length + 1) := by
  have h0 : (List.replicate p1.length false)[0]? = some false := by
    rw [List.getElem?_replicate, if_pos (by omega)]
  have h1 : (List.replicate p1.length false).count false < p1.length + 1 := by
    have := List.count_le_length (a := false) (l := List.replicate p1.length false)
    rw [List.length_replicate] at this; omega
  have h := countedCxLoop_eqs p1 p2 hnd hp (p1.length + 1) (List.replicate p1.length (p1[0]'(by omega)))
    (List.replicate p1.length false) 0 true [] (cxInv_init p1 p2 _) rfl h0 (fun j hj => absurd hj (by omega)) h1
  unfold countedCx
  rw [Counted.eqs_bind_ok (a := ()) (by simp [hp.length_eq])]
  dsimp only
  rw [if_neg (by omega), Counted.eqs_bind_ok (a := p1[0]'(by omega)) (index_ok p1 0 (by omega)), h,
    Counted.eqs_free, Counted.eqs_free, Nat.zero_add, Nat.zero_add, cxWeight_replicate]

/-! ### OX -/

/-- The comparisons made to look for a gene in a segment. -/
def lookCost (seg : List G) (g : G) : Nat := (countedPosition g seg).eqs

theorem sum_getElem? (l : List G) (c : G → Nat) :
    (l.map c).sum = ∑ j ∈ Finset.range l.length, (l[j]?).elim 0 c := by
  induction l with
  | nil => rfl
  | cons x xs ih => rw [List.length_cons, Finset.sum_range_succ']; simp [ih, Nat.add_comm]

theorem sum_succ (m : Nat) : 2 * (∑ t ∈ Finset.range m, (t + 1)) = m * (m + 1) := by
  induction m with
  | zero => rfl
  | succ m ih => rw [Finset.sum_range_succ, Nat.mul_add, ih]; ring

theorem lookCost_self (seg : List G) (h : seg.Nodup) :
    2 * (seg.map (lookCost seg)).sum = seg.length * (seg.length + 1) := by
  rw [sum_getElem?, ← sum_succ]
  congr 1
  refine Finset.sum_congr rfl fun j hj => ?_
  have hj := Finset.mem_range.1 hj
  rw [List.getElem?_eq_getElem hj]
  exact countedPosition_eqs_some (findPosition_nodup h j hj)

theorem lookCost_none (seg l : List G) (h : ∀ g ∈ l, g ∉ seg) : (l.map (lookCost seg)).sum = l.length * seg.length := by
  induction l with
  | nil => simp
  | cons x xs ih =>
    rw [List.map_cons, List.sum_cons, ih fun g hg => h g (List.mem_cons_of_mem _ hg), List.length_cons, Nat.add_mul,
      Nat.one_mul, Nat.add_comm]
    congr 1
    exact countedPosition_eqs_none (h x (by simp))

theorem lookCost_total (p1 p2 : List G) (hnd : p1.Nodup) (hp : p2.Perm p1) (s e : Nat) (hse : s ≤ e) (he : e ≤ p1.length) :
    2 * (p2.map (lookCost ((p1.drop s).take (e - s)))).sum =
      2 * ((p1.length - (e - s)) * (e - s)) + (e - s) * (e - s + 1) := by
  rw [(hp.map _).sum_eq]
  set seg := (p1.drop s).take (e - s) with hseg
  have hl : seg.length = e - s := by simp [hseg]; omega
  have hsplit : p1 = p1.take s ++ (seg ++ p1.drop e) := by
    conv_lhs => rw [← List.take_append_drop s p1, ← List.take_append_drop (e - s) (p1.drop s)]
    rw [List.drop_drop, Nat.add_sub_cancel' hse]
  have hnd' := hnd
  rw [hsplit, List.nodup_append, List.nodup_append] at hnd'
  obtain ⟨-, ⟨h2, -, h3⟩, h4⟩ := hnd'
  have e1 : (p1.map (lookCost seg)).sum = s * seg.length + ((seg.map (lookCost seg)).sum + (p1.length - e) * seg.length) := by
    conv_lhs => rw [hsplit]
    rw [List.map_append, List.map_append, List.sum_append, List.sum_append, lookCost_none seg (p1.take s),
      lookCost_none seg (p1.drop e), List.length_take, List.length_drop, Nat.min_eq_left (by omega)]
    · intro g hg hg'; exact h3 g hg' g hg rfl
    · intro g hg hg'; exact h4 g hg g (List.mem_append_left _ hg') rfl
  have e2 := lookCost_self seg h2
  rw [e1, hl] at *
  rw [show p1.length - (e - s) = s + (p1.length - e) by omega, Nat.add_mul]
  omega

theorem countedOxLoop_eqs (n s e : Nat) (hse : s < e) (he : e ≤ n) (p2 : List G) (hlen : p2.length = n) (seg : List G)
    (fuel a : Nat) (ha : a ≤ n - (e - s)) (genome : List G)
    (hgl : genome.length = n) (hs : (genome.drop s).take (e - s) = seg) (i2 : Nat) (hi2 : i2 < n) (r : List G)
    (hr : (countedOxLoop n s e p2 (fuel + 1) genome ((e + a) % n) i2).result = .ok r) :
    (n - (e - s) - a) * (e - s) ≤ (countedOxLoop n s e p2 (fuel + 1) genome ((e + a) % n) i2).eqs ∧
    (countedOxLoop n s e p2 (fuel + 1) genome ((e + a) % n) i2).eqs ≤
      ∑ j ∈ Finset.range fuel, (p2[(i2 + j) % n]?).elim 0 (lookCost seg) := by
  induction fuel generalizing a genome i2 with
  | zero =>
    by_cases hdone : a = n - (e - s)
    · have hidx : (e + a) % n = s := by
        rw [hdone, show e + (n - (e - s)) = s + n by omega, Nat.add_mod_right, Nat.mod_eq_of_lt (by omega)]
      unfold countedOxLoop
      rw [if_neg (by simpa using hidx)]
      simp [hdone]
    · exfalso
      have hidx : (e + a) % n ≠ s := by
        by_cases hw : e + a < n
        · rw [Nat.mod_eq_of_lt hw]; omega
        · rw [Nat.mod_eq_sub_mod (by omega), Nat.mod_eq_of_lt (by omega)]; omega
      rw [countedOxLoop_result] at hr
      unfold oxLoop at hr
      rw [if_pos hidx, slice_ok genome s e (by omega) (by omega), index_ok p2 i2 (by omega)] at hr
      have hi1 : (e + a) % n < genome.length := by rw [hgl]; exact Nat.mod_lt _ (by omega)
      simp only [Res.bind_ok, setAt_ok _ _ _ hi1, oxLoop] at hr
      split at hr <;> cases hr
  | succ fuel ih =>
    unfold countedOxLoop at hr ⊢
    by_cases hdone : a = n - (e - s)
    · have hidx : (e + a) % n = s := by
        rw [hdone, show e + (n - (e - s)) = s + n by omega, Nat.add_mod_right, Nat.mod_eq_of_lt (by omega)]
      rw [if_neg (by simpa using hidx)]
      simp [hdone]
    · have hidx : (e + a) % n ≠ s ∧ ((e + a) % n < s ∨ e ≤ (e + a) % n) := by
        by_cases hw : e + a < n
        · rw [Nat.mod_eq_of_lt hw]; omega
        · rw [Nat.mod_eq_sub_mod (by omega), Nat.mod_eq_of_lt (by omega)]; omega
      rw [if_pos hidx.1] at hr ⊢
      have hi1 : (e + a) % n < genome.length := by rw [hgl]; exact Nat.mod_lt _ (by omega)
      have hsl : (Counted.free (slice genome s e)).result = .ok seg := by
        rw [Counted.result_free, slice_ok genome s e (by omega) (by omega), hs]
      have hidx2 : (Counted.free (index p2 i2)).result = .ok (p2[i2]'(by omega)) := index_ok p2 i2 (by omega)
      have hsegl : seg.length = e - s := by rw [← hs]; simp; omega
      have hnext : (if i2 + 1 = n then 0 else i2 + 1) < n := by split <;> omega
      rw [Counted.eqs_bind_ok hsl, Counted.eqs_bind_ok hidx2, Counted.eqs_bind_ok (countedContains_result _ _),
        countedContains_eqs]
      rw [Counted.result_bind, hsl, Res.bind_ok, Counted.result_bind, hidx2, Res.bind_ok, Counted.result_bind,
        countedContains_result, Res.bind_ok] at hr
      have hfirst : (p2[(i2 + 0) % n]?).elim 0 (lookCost seg) = (countedPosition (p2[i2]'(by omega)) seg).eqs := by
        rw [Nat.add_zero, Nat.mod_eq_of_lt hi2, List.getElem?_eq_getElem (by omega)]; rfl
      have hrest : ∀ j, (i2 + (j + 1)) % n = ((if i2 + 1 = n then 0 else i2 + 1) + j) % n := by
        intro j
        split
        · rename_i h; rw [show i2 + (j + 1) = j + n by omega, Nat.add_mod_right, Nat.zero_add]
        · congr 1; omega
      rw [Finset.sum_range_succ', hfirst]
      simp only [hrest]
      by_cases hin : p2[i2]'(by omega) ∈ seg
      · simp only [hin, decide_true, Bool.not_true, Bool.false_eq_true, if_false, Counted.pure_bind'] at hr ⊢
        have := ih a ha genome hgl hs _ hnext hr
        simp only [Counted.eqs_free]
        omega
      · simp only [hin, decide_false, Bool.not_false, if_true, Counted.pure_bind'] at hr ⊢
        have hset : (Counted.free (setAt genome ((e + a) % n) (p2[i2]'(by omega)))).result =
          .ok (genome.set ((e + a) % n) (p2[i2]'(by omega))) := setAt_ok _ _ _ hi1
        rw [Counted.eqs_bind_ok hset]
        rw [Counted.result_bind, hset, Res.bind_ok] at hr
        rw [mod_step n _ (by omega) (e + a) rfl] at hr ⊢
        have := ih (a + 1) (by omega) _ (by simp [hgl]) (by
          rw [← hs]
          apply segment_eq
          intro i h1 h2
          rw [List.getElem?_set_ne (by omega)]) _ hnext hr
        have hc := countedPosition_eqs_none hin
        have hm : (n - (e - s) - a) * (e - s) = (n - (e - s) - (a + 1)) * (e - s) + (e - s) := by
          rw [show n - (e - s) - a = n - (e - s) - (a + 1) + 1 by omega, Nat.add_mul, Nat.one_mul]
        simp only [Counted.eqs_free]
        rw [show e + a + 1 = e + (a + 1) by omega]
        omega

/-- More fuel changes nothing once the loop has ended. -/
theorem countedOxLoop_mono (n s e : Nat) (p2 : List G) (fuel fuel' : Nat) (hf : fuel ≤ fuel') (genome : List G) (i1 i2 : Nat)
    (r : List G) (hr : (countedOxLoop n s e p2 fuel genome i1 i2).result = .ok r) :
    countedOxLoop n s e p2 fuel' genome i1 i2 = countedOxLoop n s e p2 fuel genome i1 i2 := by
  induction fuel generalizing fuel' genome i1 i2 with
  | zero => cases hr
  | succ f ih =>
    obtain ⟨f', rfl⟩ : ∃ f', fuel' = f' + 1 := ⟨fuel' - 1, by omega⟩
    unfold countedOxLoop at hr ⊢
    by_cases h : i1 ≠ s
    · rw [if_pos h] at hr ⊢
      rw [if_pos h]
      refine Counted.bind_congr_ok _ fun seg hseg => ?_
      rw [Counted.result_bind, hseg, Res.bind_ok] at hr
      refine Counted.bind_congr_ok _ fun gene hgene => ?_
      rw [Counted.result_bind, hgene, Res.bind_ok] at hr
      refine Counted.bind_congr_ok _ fun found hfound => ?_
      rw [Counted.result_bind, hfound, Res.bind_ok] at hr
      cases found with
      | true =>
        simp only [Bool.not_true, Bool.false_eq_true, if_false, Counted.pure_bind'] at hr ⊢
        exact ih f' (by omega) _ _ _ hr
      | false =>
        simp only [Bool.not_false, if_true, Counted.pure_bind'] at hr ⊢
        refine Counted.bind_congr_ok _ fun g hg => ?_
        rw [Counted.result_bind, hg, Res.bind_ok] at hr
        exact ih f' (by omega) _ _ _ hr
    · rw [if_neg h, if_neg h]

theorem countedOx_eqs (p1 p2 : List G) (hnd : p1.Nodup) (hp : p2.Perm p1) (hn : 2 ≤ p1.length) (range : URange)
    (hse : range.start < range.stop) (he : range.stop ≤ p1.length) (fuel : Nat) (hf : p1.length < fuel) :
    (p1.length - (range.stop - range.start)) * (range.stop - range.start) ≤ (countedOx fuel p1 p2 range).eqs ∧
    2 * (countedOx fuel p1 p2 range).eqs ≤ 2 * ((p1.length - (range.stop - range.start)) * (range.stop - range.start)) +
      (range.stop - range.start) * (range.stop - range.start + 1) := by
  obtain ⟨s, e⟩ := range
  dsimp only at hse he ⊢
  have hlen := hp.length_eq
  have hs1 := slice_ok p1 s e (by omega) he
  have hc := copyInto_ok (List.replicate p1.length (p1[0]'(by omega))) ((p1.drop s).take (e - s)) s e (by omega)
    (by simpa using he) (by simp; omega)
  set off := (List.replicate p1.length (p1[0]'(by omega))).take s ++ (p1.drop s).take (e - s) ++
    (List.replicate p1.length (p1[0]'(by omega))).drop e with hoff
  have hmod : (if e ≠ p1.length then e else 0) = (e + 0) % p1.length := by
    by_cases h : e = p1.length
    · simp [h]
    · rw [if_pos h, Nat.add_zero, Nat.mod_eq_of_lt (by omega)]
  have hol : off.length = p1.length := by simp [hoff]; omega
  have hosl : ∀ i, s ≤ i → i < e → off[i]? = p1[i]? := by
    intro i h1 h2
    rw [hoff, copied_getElem? _ p1 s e (by omega) (by simpa using he) (by simp), if_pos ⟨h1, h2⟩]
  have hseg := segment_eq hosl
  have heq : (countedOx fuel p1 p2 ⟨s, e⟩).eqs =
      (countedOxLoop p1.length s e p2 fuel off ((e + 0) % p1.length) ((e + 0) % p1.length)).eqs := by
    unfold countedOx
    rw [Counted.eqs_bind_ok (a := ()) (by simp [hlen])]
    dsimp only
    rw [if_neg (by omega), Counted.eqs_bind_ok (a := p1[0]'(by omega)) (index_ok p1 0 (by omega)),
      Counted.eqs_bind_ok hs1, Counted.eqs_bind_ok hc, hmod]
    simp only [Counted.eqs_free]
    omega
  obtain ⟨r, hr, -⟩ := oxLoop_ok p1 p2 s e hse he hlen (ox_full_length p1 p2 s e (by omega) he hnd hp) (p1.length + 1) 0
    (by omega) (by omega) off hol hosl (by simp)
  simp only [List.take_zero, List.filter_nil, List.length_nil] at hr
  rw [← countedOxLoop_result] at hr
  rw [heq, countedOxLoop_mono p1.length s e p2 (p1.length + 1) fuel (by omega) off _ _ r hr]
  have hb := countedOxLoop_eqs p1.length s e hse he p2 hlen _ p1.length 0 (by omega) off hol hseg ((e + 0) % p1.length)
    (Nat.mod_lt _ (by omega)) r hr
  have htot : ∑ j ∈ Finset.range p1.length, (p2[((e + 0) % p1.length + j) % p1.length]?).elim 0
      (lookCost ((p1.drop s).take (e - s))) = (p2.map (lookCost ((p1.drop s).take (e - s)))).sum := by
    rw [← ((List.rotate_perm p2 e).map _).sum_eq, sum_getElem?, List.length_rotate, hlen]
    refine Finset.sum_congr rfl fun j hj => ?_
    rw [List.getElem?_rotate (by rw [hlen]; exact Finset.mem_range.1 hj), hlen, Nat.add_zero, Nat.mod_add_mod, Nat.add_comm]
  rw [htot] at hb
  have := lookCost_total p1 p2 hnd hp s e (by omega) he
  rw [Nat.sub_zero] at hb
  omega

/-! ### PMX -/

section pmx
variable {p1 p2 : List G} {s e : Nat}

theorem countedPmxMap_eqs (hnd : p1.Nodup) (hp : p2.Perm p1) (hse : s ≤ e) (he : e ≤ p1.length) (k fuel : Nat) (y : G)
    (hk : k < fuel) (h1 : ∀ j, j < k → (pmxT p1 p2)^[j] y ∈ (p1.drop s).take (e - s))
    (h2 : (pmxT p1 p2)^[k] y ∉ (p1.drop s).take (e - s)) :
    (countedPmxMap ((p1.drop s).take (e - s)) ((p2.drop s).take (e - s)) fuel y).eqs =
      (∑ j ∈ Finset.range k, (((p1.drop s).take (e - s)).idxOf ((pmxT p1 p2)^[j] y) + 1)) + (e - s) := by
  have hlen := hp.length_eq
  induction k generalizing fuel y with
  | zero =>
    obtain ⟨f, rfl⟩ : ∃ f, fuel = f + 1 := ⟨fuel - 1, by omega⟩
    simp only [Function.iterate_zero, id] at h2
    unfold countedPmxMap
    rw [Counted.eqs_bind_ok (a := none) (by rw [countedPosition_result, findPosition_none.2 h2]),
      countedPosition_eqs_none h2]
    simp; omega
  | succ k ih =>
    obtain ⟨f, rfl⟩ : ∃ f, fuel = f + 1 := ⟨fuel - 1, by omega⟩
    have hy : y ∈ (p1.drop s).take (e - s) := h1 0 (by omega)
    have hpos := findPosition_eq_idxOf hy
    have hlt := List.idxOf_lt_length_of_mem hy
    have hlt2 : ((p1.drop s).take (e - s)).idxOf y < ((p2.drop s).take (e - s)).length := by
      simp only [List.length_take, List.length_drop] at hlt ⊢; omega
    have hT := pmxStep_eq_T hnd hp hse he hy
    unfold pmxStep at hT
    rw [hpos] at hT
    simp only [List.getElem?_eq_getElem hlt2, Option.getD_some] at hT
    unfold countedPmxMap
    rw [Counted.eqs_bind_ok (a := some _) (by rw [countedPosition_result, hpos]), countedPosition_eqs_some hpos]
    dsimp only
    rw [Counted.eqs_bind_ok (index_ok _ _ hlt2), hT, ih f (pmxT p1 p2 y) (by omega)
      (fun j hj => by rw [← Function.iterate_succ_apply]; exact h1 (j + 1) (by omega))
      (by rw [← Function.iterate_succ_apply]; exact h2), Finset.sum_range_succ']
    simp only [Function.iterate_succ_apply, Function.iterate_zero, id, Counted.eqs_free]
    omega

theorem countedPmxFill_eqs (fuel : Nat) (range : URange) (p2 start stop : List G) (i : Nat) (off : List G)
    (hlen : i + off.length ≤ p2.length)
    (h : ∀ j (hj : j < p2.length), i ≤ j → range.contains j = false → ∃ r, pmxMap start stop fuel p2[j] = .ok r) :
    (countedPmxFill fuel range p2 start stop i off).eqs = ∑ j ∈ Finset.range off.length, if range.contains (i + j) then 0 else
      (p2[i + j]?).elim 0 fun g => (countedPmxMap start stop fuel g).eqs := by
  induction off generalizing i with
  | nil => rfl
  | cons g rest ih =>
    simp only [List.length_cons] at hlen
    have hi : i < p2.length := by omega
    obtain ⟨res, er, -, -⟩ := pmxFill_ok fuel range p2 start stop (i + 1) rest (by omega)
      fun j hj h1 h2 => h j hj (by omega) h2
    have ih' := ih (i + 1) (by omega) fun j hj h1 h2 => h j hj (by omega) h2
    simp only [show ∀ j, i + 1 + j = i + (j + 1) by intro j; omega] at ih'
    unfold countedPmxFill
    rw [List.length_cons, Finset.sum_range_succ', ← ih']
    simp only [Nat.add_zero, List.getElem?_eq_getElem hi]
    by_cases hc : range.contains i = true
    · simp only [hc, Bool.not_true, Bool.false_eq_true, if_false, if_true, Counted.pure_bind']
      rw [Counted.eqs_bind_ok (a := res) (by rw [countedPmxFill_result, er])]
      simp
    · rw [Bool.not_eq_true] at hc
      obtain ⟨r, hr⟩ := h i hi le_rfl hc
      simp only [hc, Bool.not_false, if_true, Bool.false_eq_true, if_false, Option.elim_some]
      rw [Counted.eqs_bind_ok (index_ok _ _ hi),
        Counted.eqs_bind_ok (a := r) (by rw [countedPmxMap_result, hr]),
        Counted.eqs_bind_ok (a := res) (by rw [countedPmxFill_result, er])]
      simp only [Counted.eqs_free, Counted.eqs_pure]
      omega

theorem countedPmx_eqs (hnd : p1.Nodup) (hp : p2.Perm p1) (hn : 2 ≤ p1.length) (hse : s ≤ e) (he : e ≤ p1.length)
    (fuel : Nat) (hf : p1.length < fuel) :
    (p1.length - (e - s)) * (e - s) ≤ (countedPmx fuel p1 p2 ⟨s, e⟩).eqs ∧
    2 * (countedPmx fuel p1 p2 ⟨s, e⟩).eqs ≤ 2 * ((p1.length - (e - s)) * (e - s)) + (e - s) * (e - s + 1) := by
  have hlen := hp.length_eq
  set seg := (p1.drop s).take (e - s) with hseg
  set seg2 := (p2.drop s).take (e - s) with hseg2
  have hs1 := slice_ok p1 s e hse he
  have hs2 := slice_ok p2 s e hse (by omega)
  have hc := copyInto_ok (List.replicate p1.length (p1[0]'(by omega))) seg s e hse
    (by simpa using he) (by simp [hseg]; omega)
  set off := (List.replicate p1.length (p1[0]'(by omega))).take s ++ seg ++
    (List.replicate p1.length (p1[0]'(by omega))).drop e with hoff
  have hol : off.length = p1.length := by simp [hoff, hseg]; omega
  have hsegl : seg.length = e - s := by simp [hseg]; omega
  have hsegnd : seg.Nodup := ((List.take_sublist _ _).trans (List.drop_sublist _ _)).nodup hnd
  -- positions outside the range
  have hout : ∀ i (hi : i < p1.length), URange.contains ⟨s, e⟩ i = false → p1[i] ∉ seg := by
    intro i hi hci hmem
    obtain ⟨j, hj, hje⟩ := List.getElem_of_mem hmem
    have hj' : j < e - s := by omega
    have : p1[s + j]'(by omega) = p1[i] := by rw [← hje]; simp [hseg]
    have := (hnd.getElem_inj_iff).1 this
    simp [URange.contains] at hci
    omega
  have hpos : ∀ i, ∃ k, ∀ (hi : i < p1.length), URange.contains ⟨s, e⟩ i = false →
      k ≤ e - s ∧ (∀ j, 1 ≤ j → j ≤ k → (pmxT p1 p2)^[j] p1[i] ∈ seg) ∧ (pmxT p1 p2)^[k + 1] p1[i] ∉ seg ∧
      ∃ r, pmxMap seg seg2 fuel (p2[i]'(by omega)) = .ok r := by
    intro i
    by_cases hi : i < p1.length ∧ URange.contains ⟨s, e⟩ i = false
    · obtain ⟨k, h1, h2, h3, h4⟩ := pmx_position hnd hp hse he p1[i] (List.getElem_mem _) (hout i hi.1 hi.2)
      refine ⟨k, fun _ _ => ⟨h1, h3, h4, (pmxT p1 p2)^[k + 1] p1[i], ?_⟩⟩
      rw [← pmxT_getElem hnd hp i hi.1]
      exact h2 fuel (by omega)
    · exact ⟨0, fun h1 h2 => absurd ⟨h1, h2⟩ hi⟩
  choose k hk using hpos
  have heq : (countedPmx fuel p1 p2 ⟨s, e⟩).eqs = (countedPmxFill fuel ⟨s, e⟩ p2 seg seg2 0 off).eqs := by
    unfold countedPmx
    rw [Counted.eqs_bind_ok (a := ()) (by simp [hlen])]
    dsimp only
    rw [if_neg (by omega), Counted.eqs_bind_ok (a := p1[0]'(by omega)) (index_ok p1 0 (by omega)),
      Counted.eqs_bind_ok hs1, Counted.eqs_bind_ok hc, Counted.eqs_bind_ok hs1, Counted.eqs_bind_ok hs2]
    simp only [Counted.eqs_free, Nat.zero_add]
    rfl
  rw [heq, countedPmxFill_eqs fuel _ p2 seg seg2 0 off (by omega) (fun j hj _ hcj => (hk j (by omega) hcj).2.2.2), hol]
  set I := (Finset.range p1.length).filter fun i => URange.contains ⟨s, e⟩ i = false with hI
  have hsum : (∑ j ∈ Finset.range p1.length, if URange.contains ⟨s, e⟩ (0 + j) then 0 else
      (p2[0 + j]?).elim 0 fun g => (countedPmxMap seg seg2 fuel g).eqs) =
      ∑ i ∈ I, ((∑ j ∈ Finset.range (k i), (seg.idxOf ((pmxT p1 p2)^[j + 1] ((p1[i]?).getD (p1[0]'(by omega)))) + 1)) + (e - s)) := by
    rw [hI, Finset.sum_filter]
    refine Finset.sum_congr rfl fun i hi => ?_
    have hi := Finset.mem_range.1 hi
    rw [Nat.zero_add]
    cases hci : URange.contains ⟨s, e⟩ i with
    | true => simp
    | false =>
      obtain ⟨-, h1, h2, -⟩ := hk i hi hci
      simp only [Bool.false_eq_true, if_false, if_true, List.getElem?_eq_getElem hi,
        List.getElem?_eq_getElem (show i < p2.length by omega), Option.elim_some, Option.getD_some]
      rw [← pmxT_getElem hnd hp i hi, countedPmxMap_eqs hnd hp hse he (k i) fuel _ (by have := (hk i hi hci).1; omega)
        (fun j hj => by rw [← Function.iterate_succ_apply]; exact h1 (j + 1) (by omega) (by omega))
        (by rw [← Function.iterate_succ_apply]; exact h2)]
      simp only [Function.iterate_succ_apply]
      rfl
  have hcard : I.card = p1.length - (e - s) := by
    have hIc : I = Finset.range p1.length \ Finset.Ico s e := by
      ext i
      simp [hI, URange.contains]
    rw [hIc, Finset.card_sdiff_of_subset (by intro i; simp; omega)]
    simp
  have hIx : ∀ i ∈ I, ∃ hi : i < p1.length, URange.contains ⟨s, e⟩ i = false := by
    intro i hi
    rw [hI, Finset.mem_filter, Finset.mem_range] at hi
    exact ⟨hi.1, hi.2⟩
  rw [hsum, Finset.sum_add_distrib, Finset.sum_const, hcard, smul_eq_mul]
  have hchains : ∑ i ∈ I, (∑ j ∈ Finset.range (k i), (seg.idxOf ((pmxT p1 p2)^[j + 1] ((p1[i]?).getD (p1[0]'(by omega)))) + 1)) ≤
      ∑ t ∈ Finset.range (e - s), (t + 1) := by
    rw [Finset.sum_sigma']
    rw [← Finset.sum_image (s := I.sigma fun i => Finset.range (k i)) (f := fun t => t + 1)
      (g := fun p => seg.idxOf ((pmxT p1 p2)^[p.2 + 1] ((p1[p.1]?).getD (p1[0]'(by omega)))))]
    · refine Finset.sum_le_sum_of_subset ?_
      intro t ht
      obtain ⟨⟨i, j⟩, hij, rfl⟩ := Finset.mem_image.1 ht
      rw [Finset.mem_sigma, Finset.mem_range] at hij
      obtain ⟨hi, hci⟩ := hIx i hij.1
      rw [Finset.mem_range, ← hsegl]
      apply List.idxOf_lt_length_of_mem
      simp only [List.getElem?_eq_getElem hi, Option.getD_some]
      exact (hk i hi hci).2.1 (j + 1) (by omega) (by have := hij.2; dsimp only at this; omega)
    · rintro ⟨i, j⟩ hij ⟨i', j'⟩ hij' heq
      simp only [Finset.coe_sigma, Set.mem_sigma_iff, Finset.mem_coe, Finset.mem_range] at hij hij'
      obtain ⟨hi, hci⟩ := hIx i hij.1
      obtain ⟨hi', hci'⟩ := hIx i' hij'.1
      simp only [List.getElem?_eq_getElem hi, List.getElem?_eq_getElem hi', Option.getD_some] at heq
      obtain ⟨-, h1, -, -⟩ := hk i hi hci
      obtain ⟨-, h1', -, -⟩ := hk i' hi' hci'
      have hm : (pmxT p1 p2)^[j + 1] p1[i] ∈ seg := h1 (j + 1) (by omega) (by omega)
      have heq' := (List.idxOf_inj hm).1 heq
      have hx : p1[i] = p1[i'] := pmx_position_inj hnd hp (List.getElem_mem _) (List.getElem_mem _) (hout i hi hci)
        (hout i' hi' hci') (fun l a b => h1 l a (by omega)) (fun l a b => h1' l a (by omega)) heq'
      have hii := (hnd.getElem_inj_iff).1 hx
      subst hii
      have hjj : j = j' := by
        rcases Nat.lt_trichotomy j j' with hlt | h | hlt
        · exfalso
          rw [show j' + 1 = (j + 1) + (j' - j) by omega, Function.iterate_add_apply _ (j + 1) (j' - j)] at heq'
          have := pmxT_cancel hnd hp (List.getElem_mem _) (pmxT_iter_mem hnd hp (List.getElem_mem _) _) _ heq'
          exact hout i hi hci (this ▸ h1 (j' - j) (by omega) (by omega))
        · exact h
        · exfalso
          rw [show j + 1 = (j' + 1) + (j - j') by omega, Function.iterate_add_apply _ (j' + 1) (j - j')] at heq'
          have := pmxT_cancel hnd hp (pmxT_iter_mem hnd hp (List.getElem_mem _) _) (List.getElem_mem _) _ heq'
          exact hout i hi hci (this ▸ h1 (j - j') (by omega) (by omega))
      subst hjj; rfl
  have := sum_succ (e - s)
  omega

end pmx

/-! ### SCX -/

theorem countedFind_eqs (v l : List G) : (countedFind v l).eqs = 0 := by
  induction l with
  | nil => rfl
  | cons g l ih =>
    unfold countedFind
    rw [Counted.eqs_bind_ok (a := ()) rfl]
    split
    · rfl
    · simp [ih]

theorem countedFind_hashes (v l : List G) : (countedFind v l).hashes ≤ l.length := by
  induction l with
  | nil => simp [countedFind]
  | cons g l ih =>
    unfold countedFind
    rw [Counted.hashes_bind_ok (a := ()) rfl]
    split
    · simp
    · simp only [Counted.hashes_hash, List.length_cons]; omega

theorem countedScxNext_eqs (p1 p2 v : List G) (c : G) :
    (countedScxNext p1 p2 v c).eqs ≤ p1.length + (p2.length + (p2.length + p1.length)) := by
  unfold countedScxNext
  dsimp only
  refine (Counted.eqs_bind_le _ _ (p2.length + (p2.length + p1.length)) fun pos1 _ => ?_).trans
    (Nat.add_le_add_right (countedPosition_eqs_le _ _) _)
  refine (Counted.eqs_bind_le _ _ (p2.length + (p2.length + p1.length)) fun pos1 _ => ?_).trans (by simp)
  refine (Counted.eqs_bind_le _ _ (p2.length + p1.length) fun pos2 _ => ?_).trans
    (Nat.add_le_add_right (countedPosition_eqs_le _ _) _)
  refine (Counted.eqs_bind_le _ _ (p2.length + p1.length) fun pos2 _ => ?_).trans (by simp)
  refine (Counted.eqs_bind_le _ _ (p2.length + p1.length) fun next1 _ => ?_).trans (by simp)
  refine (Counted.eqs_bind_le _ _ (p2.length + p1.length) fun next2 _ => ?_).trans (by simp)
  refine (Counted.eqs_bind_le _ _ (p2.length + p1.length) fun _ _ => ?_).trans (by simp)
  split
  · refine (Counted.eqs_bind_le _ _ 0 fun _ _ => by simp).trans (by simp [countedFind_eqs])
  · split
    · simp
    · split
      · simp
      · refine (Counted.eqs_bind_le _ _ p1.length fun _ _ => ?_).trans
          (Nat.add_le_add_right (countedPosition_eqs_le _ _) _)
        refine (Counted.eqs_bind_le _ _ p1.length fun _ _ => ?_).trans (by simp)
        refine (Counted.eqs_bind_le _ _ 0 fun _ _ => ?_).trans (by simpa using countedPosition_eqs_le _ _)
        exact (Counted.eqs_bind_le _ _ 0 fun _ _ => by simp).trans (by simp)

theorem countedScxNext_hashes (p1 p2 v : List G) (c : G) :
    (countedScxNext p1 p2 v c).hashes ≤ 2 + p1.length := by
  unfold countedScxNext
  dsimp only
  refine (Counted.hashes_bind_le _ _ (2 + p1.length) fun pos1 _ => ?_).trans (by simp [countedPosition_hashes])
  refine (Counted.hashes_bind_le _ _ (2 + p1.length) fun pos1 _ => ?_).trans (by simp)
  refine (Counted.hashes_bind_le _ _ (2 + p1.length) fun pos2 _ => ?_).trans (by simp [countedPosition_hashes])
  refine (Counted.hashes_bind_le _ _ (2 + p1.length) fun pos2 _ => ?_).trans (by simp)
  refine (Counted.hashes_bind_le _ _ (2 + p1.length) fun next1 _ => ?_).trans (by simp)
  refine (Counted.hashes_bind_le _ _ (2 + p1.length) fun next2 _ => ?_).trans (by simp)
  refine (Counted.hashes_bind_le _ _ p1.length fun _ _ => ?_).trans (by simp)
  split
  · exact (Counted.hashes_bind_le _ _ 0 fun _ _ => by simp).trans (by simpa using countedFind_hashes v p1)
  · split
    · simp
    · split
      · simp
      · refine (Counted.hashes_bind_le _ _ 0 fun _ _ => ?_).trans (by simp [countedPosition_hashes])
        refine (Counted.hashes_bind_le _ _ 0 fun _ _ => ?_).trans (by simp)
        refine (Counted.hashes_bind_le _ _ 0 fun _ _ => ?_).trans (by simp [countedPosition_hashes])
        exact (Counted.hashes_bind_le _ _ 0 fun _ _ => by simp).trans (by simp)

theorem countedScxLoop_cost (p1 p2 : List G) (k : Nat) (v : List G) (c : G) :
    (countedScxLoop p1 p2 k v c).eqs ≤ k * (p1.length + (p2.length + (p2.length + p1.length))) ∧
    (countedScxLoop p1 p2 k v c).hashes ≤ k * (3 + p1.length) := by
  induction k generalizing v c with
  | zero => simp [countedScxLoop]
  | succ k ih =>
    unfold countedScxLoop
    constructor
    · rw [Counted.eqs_bind_ok (a := ()) rfl]
      have := Counted.eqs_bind_le (countedScxNext p1 p2 (c :: v) c) (fun next => do
        let rest ← countedScxLoop p1 p2 k (c :: v) next
        pure (next :: rest)) (k * (p1.length + (p2.length + (p2.length + p1.length)))) fun next _ =>
          (Counted.eqs_bind_le _ _ 0 fun _ _ => by simp).trans (by simpa using (ih _ _).1)
      have h2 := countedScxNext_eqs p1 p2 (c :: v) c
      simp only [Counted.eqs_hash]
      rw [Nat.add_mul, Nat.one_mul]
      omega
    · rw [Counted.hashes_bind_ok (a := ()) rfl]
      have := Counted.hashes_bind_le (countedScxNext p1 p2 (c :: v) c) (fun next => do
        let rest ← countedScxLoop p1 p2 k (c :: v) next
        pure (next :: rest)) (k * (3 + p1.length)) fun next _ =>
          (Counted.hashes_bind_le _ _ 0 fun _ _ => by simp).trans (by simpa using (ih _ _).2)
      have h2 := countedScxNext_hashes p1 p2 (c :: v) c
      simp only [Counted.hashes_hash]
      rw [Nat.add_mul, Nat.one_mul]
      omega

theorem countedScx_cost (p1 p2 : List G) (pivot : G) :
    (countedScx p1 p2 pivot).eqs ≤ 4 * p1.length * (p1.length - 1) ∧
    (countedScx p1 p2 pivot).hashes ≤ (p1.length - 1) * (p1.length + 3) := by
  unfold countedScx
  by_cases hlen : p1.length = p2.length
  · have hok : (Counted.free (Res.assert (decide (p1.length = p2.length)))).result = .ok () := by simp [hlen]
    rw [Counted.eqs_bind_ok hok, Counted.hashes_bind_ok hok]
    dsimp only
    split
    · simp
    · obtain ⟨h1, h2⟩ := countedScxLoop_cost p1 p2 (p1.length - 1) [] pivot
      constructor
      · simp only [Counted.eqs_free, Nat.zero_add]
        refine (Counted.eqs_bind_le _ _ 0 fun _ _ => by simp).trans ?_
        refine h1.trans (le_of_eq ?_)
        rw [← hlen]; ring
      · simp only [Counted.hashes_free, Nat.zero_add]
        refine (Counted.hashes_bind_le _ _ 0 fun _ _ => by simp).trans ?_
        refine h2.trans (le_of_eq ?_)
        ring
  · have hp : (Counted.free (Res.assert (decide (p1.length = p2.length)))).result = .panic := by simp [hlen]
    constructor
    · refine (Counted.eqs_bind_le _ _ 0 fun a ha => ?_).trans (by simp)
      rw [hp] at ha; cases ha
    · refine (Counted.hashes_bind_le _ _ 0 fun a ha => ?_).trans (by simp)
      rw [hp] at ha; cases ha

/-! ### ERX -/

theorem adj_two {p : List G} (hnd : p.Nodup) (k : G) : ∃ a b, ∀ x, Adj p k x → x = a ∨ x = b := by
  by_cases hk : k ∈ p
  · obtain ⟨i, hi, rfl⟩ := List.getElem_of_mem hk
    refine ⟨p[(i + 1) % p.length]'(Nat.mod_lt _ (by omega)),
      p[if i ≠ 0 then i - 1 else p.length - 1]'(by split <;> omega), fun x hx => ?_⟩
    rcases hx with ⟨j, hj, h1, h2⟩ | h
    · left
      rw [List.getElem?_eq_getElem hj, Option.some_inj] at h1
      have := (hnd.getElem_inj_iff).1 h1
      subst this
      rw [List.getElem?_eq_getElem (Nat.mod_lt _ (by omega)), Option.some_inj] at h2
      exact h2.symm
    · right
      obtain ⟨j, hj, h1, h2⟩ := (follows_iff_prev p x _).1 h
      rw [List.getElem?_eq_getElem hj, Option.some_inj] at h1
      have := (hnd.getElem_inj_iff).1 h1
      subst this
      rw [List.getElem?_eq_getElem (by split <;> omega), Option.some_inj] at h2
      exact h2.symm
  · exact ⟨k, k, fun x hx => absurd hx.mem_left hk⟩

theorem ErxMap.small {p1 p2 removed : List G} {map : List (G × List G)} (h : ErxMap p1 p2 removed map) (h1 : p1.Nodup)
    (h2 : p2.Nodup) {k : G} (hk : k ∈ p1) {s : List G} (hs : mapFind map k = some s) : s.length ≤ 4 := by
  obtain ⟨s', e, hn, hm⟩ := h k hk
  rw [hs, Option.some_inj] at e; subst e
  obtain ⟨a, b, hab⟩ := adj_two h1 k
  obtain ⟨c, d, hcd⟩ := adj_two h2 k
  have : s.Subperm [a, b, c, d] := List.subperm_of_subset hn fun x hx => by
    rcases ((hm x).1 hx).1 with hx | hx
    · rcases hab x hx with h | h <;> simp [h]
    · rcases hcd x hx with h | h <;> simp [h]
  simpa using this.length_le

theorem neighborsOf_pairs (n : Nat) (g : List G) (is : List Nat) (l : List (G × List G)) (h : neighborsOf n g is = .ok l) :
    l.length = is.length ∧ ∀ e ∈ l, e.1 ∈ g ∧ e.2.length = 2 := by
  induction is generalizing l with
  | nil => cases h; simp
  | cons i is ih =>
    unfold neighborsOf at h
    cases h1 : index g i with
    | panic => rw [h1] at h; cases h
    | diverge => rw [h1] at h; cases h
    | ok gene =>
      rw [h1, Res.bind_ok] at h
      cases h2 : index g (if i ≠ 0 then i - 1 else n - 1) with
      | panic => rw [h2] at h; cases h
      | diverge => rw [h2] at h; cases h
      | ok prev =>
        rw [h2, Res.bind_ok] at h
        cases h3 : index g (if i + 1 ≠ n then i + 1 else 0) with
        | panic => rw [h3] at h; cases h
        | diverge => rw [h3] at h; cases h
        | ok next =>
          rw [h3, Res.bind_ok] at h
          cases h4 : neighborsOf n g is with
          | panic => rw [h4] at h; cases h
          | diverge => rw [h4] at h; cases h
          | ok rest =>
            rw [h4, Res.bind_ok] at h
            cases h
            obtain ⟨a, b⟩ := ih rest h4
            refine ⟨by simp [a], fun e he => ?_⟩
            rcases List.mem_cons.1 he with rfl | he
            · refine ⟨?_, rfl⟩
              unfold index at h1
              cases hg : g[i]? with
              | none => rw [hg] at h1; cases h1
              | some y => rw [hg] at h1; cases h1; exact List.mem_of_getElem? hg
            · exact b e he

theorem addNeighbors_keys (map : List (G × List G)) (g : G) (ns : List G) :
    (addNeighbors map g ns).map (·.1) = if g ∈ map.map (·.1) then map.map (·.1) else map.map (·.1) ++ [g] := by
  induction map with
  | nil => simp [addNeighbors]
  | cons e map ih =>
    obtain ⟨k, s⟩ := e
    unfold addNeighbors
    by_cases h : k = g
    · simp [h]
    · simp only [h, if_false, List.map_cons, ih, List.mem_cons, Ne.symm h, false_or]
      split <;> simp

theorem foldl_keys (l : List (G × List G)) (map : List (G × List G)) (p : List G) (h1 : (map.map (·.1)).Nodup)
    (h2 : ∀ k ∈ map.map (·.1), k ∈ p) (hl : ∀ e ∈ l, e.1 ∈ p) :
    (((l.foldl (fun map e => addNeighbors map e.1 e.2) map)).map (·.1)).Nodup ∧
    ∀ k ∈ ((l.foldl (fun map e => addNeighbors map e.1 e.2) map)).map (·.1), k ∈ p := by
  induction l generalizing map with
  | nil => exact ⟨h1, h2⟩
  | cons e l ih =>
    rw [List.foldl_cons]
    refine ih _ ?_ ?_ fun e he => hl e (List.mem_cons_of_mem _ he)
    · rw [addNeighbors_keys]
      split
      · exact h1
      · rename_i hn
        rw [List.nodup_append]
        refine ⟨h1, by simp, fun a ha b hb => ?_⟩
        rw [List.mem_singleton.1 hb]
        rintro rfl
        exact hn ha
    · rw [addNeighbors_keys]
      split
      · exact h2
      · intro k hk
        rcases List.mem_append.1 hk with hk | hk
        · exact h2 k hk
        · rw [List.mem_singleton.1 hk]; exact hl e (by simp)

theorem countedNeighborLists_cost (p1 p2 : List G) (hp : p2.Perm p1) :
    (countedNeighborLists p1 p2).eqs = 0 ∧ (countedNeighborLists p1 p2).hashes = 6 * p1.length ∧
    ∀ map, neighborLists p1 p2 = .ok map → map.length ≤ p1.length := by
  have hlen := hp.length_eq
  obtain ⟨l1, e1, -, -⟩ := neighborsOf_adj p1
  obtain ⟨l2, e2, -, -⟩ := neighborsOf_adj p2
  rw [hlen] at e2
  obtain ⟨a1, b1⟩ := neighborsOf_pairs _ _ _ _ e1
  obtain ⟨a2, b2⟩ := neighborsOf_pairs _ _ _ _ e2
  have hpairs : ∀ l : List (G × List G), (∀ e ∈ l, e.2.length = 2) → (l.map fun e => 1 + e.2.length).sum = 3 * l.length := by
    intro l hl
    induction l with
    | nil => rfl
    | cons e l ih =>
      rw [List.map_cons, List.sum_cons, ih fun e he => hl e (List.mem_cons_of_mem _ he), hl e (by simp), List.length_cons]
      omega
  refine ⟨?_, ?_, ?_⟩
  · unfold countedNeighborLists
    dsimp only
    rw [hlen, Counted.eqs_bind_ok e1, Counted.eqs_bind_ok e2, Counted.eqs_bind_ok (a := ()) rfl]
    simp
  · unfold countedNeighborLists
    dsimp only
    rw [hlen, Counted.hashes_bind_ok e1, Counted.hashes_bind_ok e2, Counted.hashes_bind_ok (a := ()) rfl,
      Counted.hashes_hash, hpairs _ (fun e he => by
        rcases List.mem_append.1 he with he | he
        · exact (b1 e he).2
        · exact (b2 e he).2)]
    simp only [Counted.hashes_free, Counted.hashes_pure, List.length_append, a1, a2, List.length_range]
    omega
  · intro map hm
    unfold neighborLists at hm
    dsimp only at hm
    rw [hlen, e1, Res.bind_ok, e2, Res.bind_ok] at hm
    cases hm
    obtain ⟨k1, k2⟩ := foldl_keys (l1 ++ l2) [] p1 (by simp) (by simp) fun e he => by
      rcases List.mem_append.1 he with he | he
      · exact (b1 e he).1
      · exact hp.mem_iff.1 (b2 e he).1
    have := (List.subperm_of_subset k1 k2).length_le
    rwa [List.length_map] at this

theorem countedMinByKeyFrom_cost (key : G → Counted Nat) (h : ∀ g, (key g).eqs = 0 ∧ (key g).hashes ≤ 1) (k : Nat) (x : G)
    (l : List G) : (countedMinByKeyFrom key k x l).eqs = 0 ∧ (countedMinByKeyFrom key k x l).hashes ≤ l.length := by
  induction l generalizing k x with
  | nil => simp [countedMinByKeyFrom]
  | cons y ys ih =>
    unfold countedMinByKeyFrom
    constructor
    · have := Counted.eqs_bind_le (key y) (fun k' => if k > k' then countedMinByKeyFrom key k' y ys else countedMinByKeyFrom key k x ys) 0
        fun k' _ => by split <;> simp [(ih _ _).1]
      have h0 := (h y).1
      omega
    · have := Counted.hashes_bind_le (key y) (fun k' => if k > k' then countedMinByKeyFrom key k' y ys else countedMinByKeyFrom key k x ys)
        ys.length fun k' _ => by split <;> exact (ih _ _).2
      have h0 := (h y).2
      rw [List.length_cons]
      omega

theorem countedMinByKey_cost (key : G → Counted Nat) (h : ∀ g, (key g).eqs = 0 ∧ (key g).hashes ≤ 1)
    (l : List G) : (countedMinByKey key l).eqs = 0 ∧ (countedMinByKey key l).hashes ≤ l.length := by
  cases l with
  | nil => simp [countedMinByKey]
  | cons x xs =>
    unfold countedMinByKey
    dsimp only
    constructor
    · have := Counted.eqs_bind_le (key x) (fun k => do
        let m ← countedMinByKeyFrom key k x xs
        pure (some m)) 0 fun k _ => (Counted.eqs_bind_le _ _ 0 fun _ _ => by simp).trans
          (by simp [(countedMinByKeyFrom_cost key h k x xs).1])
      have h0 := (h x).1
      omega
    · have := Counted.hashes_bind_le (key x) (fun k => do
        let m ← countedMinByKeyFrom key k x xs
        pure (some m)) xs.length fun k _ => (Counted.hashes_bind_le _ _ 0 fun _ _ => by simp).trans
          (by simpa using (countedMinByKeyFrom_cost key h k x xs).2)
      have h0 := (h x).2
      rw [List.length_cons]
      omega

theorem countedErxNext_cost (ord : List G → List G) (hord : ∀ l, (ord l).Perm l) (p1 p2 visited : List G)
    (map : List (G × List G)) (cur : G) (h1 : p1.Nodup) (h2 : p2.Nodup) (hc : cur ∈ p1) (hm : ErxMap p1 p2 visited map) :
    (countedErxNext ord p1 (cur :: visited) map cur).eqs = 0 ∧
    (countedErxNext ord p1 (cur :: visited) map cur).hashes ≤ map.length + (1 + (4 + (4 + p1.length))) := by
  have hm' := hm.remove cur
  obtain ⟨s, hs, -, -⟩ := hm' cur hc
  have hget : (Counted.free (mapGet (map.map fun e => (e.1, e.2.filter fun g => decide (g ≠ cur))) cur)).result = .ok s := by
    rw [Counted.result_free, mapGet_eq, hs]; rfl
  have h4 := hm'.small h1 h2 hc hs
  have hkey : ∀ g : G, ((do
      Counted.hash 1
      let s ← Counted.free (mapGet (map.map fun e => (e.1, e.2.filter fun g => decide (g ≠ cur))) g)
      pure s.length : Counted Nat)).eqs = 0 ∧ ((do
      Counted.hash 1
      let s ← Counted.free (mapGet (map.map fun e => (e.1, e.2.filter fun g => decide (g ≠ cur))) g)
      pure s.length : Counted Nat)).hashes ≤ 1 := by
    intro g
    constructor
    · rw [Counted.eqs_bind_ok (a := ()) rfl]
      have := Counted.eqs_bind_le (Counted.free (mapGet (map.map fun e => (e.1, e.2.filter fun g => decide (g ≠ cur))) g))
        (fun s => (pure s.length : Counted Nat)) 0 fun _ _ => by simp
      simp only [Counted.eqs_hash, Counted.eqs_free] at this ⊢
      omega
    · rw [Counted.hashes_bind_ok (a := ()) rfl]
      have := Counted.hashes_bind_le (Counted.free (mapGet (map.map fun e => (e.1, e.2.filter fun g => decide (g ≠ cur))) g))
        (fun s => (pure s.length : Counted Nat)) 0 fun _ _ => by simp
      simp only [Counted.hashes_hash, Counted.hashes_free] at this ⊢
      omega
  obtain ⟨m1, m2⟩ := countedMinByKey_cost _ hkey ((ord s).filter fun g => decide (g ∉ cur :: visited))
  have hfl : ((ord s).filter fun g => decide (g ∉ cur :: visited)).length ≤ 4 :=
    (List.length_filter_le _ _).trans (by rw [(hord s).length_eq]; exact h4)
  unfold countedErxNext
  dsimp only
  constructor
  · rw [Counted.eqs_bind_ok (a := ()) rfl, Counted.eqs_bind_ok (a := ()) rfl, Counted.eqs_bind_ok hget,
      Counted.eqs_bind_ok (a := ()) rfl]
    simp only [Counted.eqs_hash, Counted.eqs_free, Nat.zero_add]
    refine Nat.le_zero.1 ((Counted.eqs_bind_le _ _ 0 fun best _ => ?_).trans (by rw [m1]))
    cases best with
    | some g => simp [Counted.pure_bind']
    | none =>
      dsimp only
      refine (Counted.eqs_bind_le _ _ 0 fun _ _ => ?_).trans (by simp [countedFind_eqs])
      exact (Counted.eqs_bind_le _ _ 0 fun _ _ => by simp).trans (by simp)
  · rw [Counted.hashes_bind_ok (a := ()) rfl, Counted.hashes_bind_ok (a := ()) rfl, Counted.hashes_bind_ok hget,
      Counted.hashes_bind_ok (a := ()) rfl]
    simp only [Counted.hashes_hash, Counted.hashes_free, Nat.zero_add]
    refine Nat.add_le_add_left (Nat.add_le_add_left (Nat.add_le_add (by rw [(hord s).length_eq]; exact h4) ?_) _) _
    refine (Counted.hashes_bind_le _ _ p1.length fun best _ => ?_).trans (Nat.add_le_add_right (m2.trans hfl) _)
    cases best with
    | some g => simp [Counted.pure_bind']
    | none =>
      dsimp only
      refine (Counted.hashes_bind_le _ _ 0 fun _ _ => ?_).trans (countedFind_hashes _ _)
      exact (Counted.hashes_bind_le _ _ 0 fun _ _ => by simp).trans (by simp)

theorem erxNext_length {ord : List G → List G} {p1 visited : List G} {map map' : List (G × List G)} {cur next : G}
    (h : erxNext ord p1 visited map cur = .ok (map', next)) : map'.length = map.length := by
  unfold erxNext at h
  dsimp only at h
  cases h1 : mapGet (map.map fun e => (e.1, e.2.filter fun g => decide (g ≠ cur))) cur with
  | panic => rw [h1] at h; cases h
  | diverge => rw [h1] at h; cases h
  | ok nb =>
    rw [h1, Res.bind_ok] at h
    cases h2 : minByKey (fun g => do
        let s ← mapGet (map.map fun e => (e.1, e.2.filter fun g => decide (g ≠ cur))) g
        pure s.length) ((ord nb).filter fun g => decide (g ∉ visited)) with
    | panic => rw [h2] at h; cases h
    | diverge => rw [h2] at h; cases h
    | ok best =>
      rw [h2, Res.bind_ok] at h
      cases best with
      | some g => cases h; simp
      | none =>
        dsimp only at h
        cases h3 : Res.ofOption (p1.find? fun g => decide (g ∉ visited)) with
        | panic => rw [h3] at h; cases h
        | diverge => rw [h3] at h; cases h
        | ok g => rw [h3] at h; cases h; simp

theorem countedErxLoop_cost (ord : Nat → List G → List G) (hord : ∀ k l, (ord k l).Perm l) (p1 p2 : List G) (hnd : p1.Nodup)
    (hp : p2.Perm p1) (k : Nat) (visited : List G) (map : List (G × List G)) (cur : G)
    (hv : (cur :: visited).Nodup) (hsub : ∀ x ∈ cur :: visited, x ∈ p1) (hm : ErxMap p1 p2 visited map)
    (hk : visited.length + 1 + k ≤ p1.length) :
    (countedErxLoop ord p1 k visited map cur).eqs = 0 ∧
    (countedErxLoop ord p1 k visited map cur).hashes ≤ k * (map.length + p1.length + 10) := by
  induction k generalizing visited cur map with
  | zero => simp [countedErxLoop]
  | succ k ih =>
    obtain ⟨map', next, e, hm', hmem, hnv, -, -⟩ := erxNext_ok (ord k) (hord k) p1 p2 visited map cur hnd hp
      (hsub cur (by simp)) hm (by simp only [List.length_cons]; omega)
    obtain ⟨c1, c2⟩ := countedErxNext_cost (ord k) (hord k) p1 p2 visited map cur hnd (hp.nodup_iff.2 hnd)
      (hsub cur (by simp)) hm
    obtain ⟨i1, i2⟩ := ih (cur :: visited) map' next (List.nodup_cons.2 ⟨hnv, hv⟩)
      (by
        intro x hx
        rcases List.mem_cons.1 hx with rfl | hx
        · exact hmem
        · exact hsub x hx) hm' (by simp only [List.length_cons]; omega)
    rw [erxNext_length e] at i2
    have hres : (countedErxNext (ord k) p1 (cur :: visited) map cur).result = .ok (map', next) := by
      rw [countedErxNext_result, e]
    unfold countedErxLoop
    constructor
    · rw [Counted.eqs_bind_ok (a := ()) rfl, Counted.eqs_bind_ok hres]
      dsimp only
      have := Counted.eqs_bind_le (countedErxLoop ord p1 k (cur :: visited) map' next)
        (fun rest => (pure (next :: rest) : Counted (List G))) 0 fun _ _ => by simp
      simp only [Counted.eqs_hash]
      omega
    · rw [Counted.hashes_bind_ok (a := ()) rfl, Counted.hashes_bind_ok hres]
      dsimp only
      have := Counted.hashes_bind_le (countedErxLoop ord p1 k (cur :: visited) map' next)
        (fun rest => (pure (next :: rest) : Counted (List G))) 0 fun _ _ => by simp
      simp only [Counted.hashes_hash]
      rw [Nat.add_mul, Nat.one_mul]
      omega

theorem countedErx_cost (ord : Nat → List G → List G) (hord : ∀ k l, (ord k l).Perm l) (p1 p2 : List G) (hnd : p1.Nodup)
    (hp : p2.Perm p1) (pivot : G) (hv : pivot ∈ p1) :
    (countedErx ord p1 p2 pivot).eqs = 0 ∧
    (countedErx ord p1 p2 pivot).hashes ≤ 6 * p1.length + (p1.length - 1) * (2 * p1.length + 10) := by
  have hlen := hp.length_eq
  obtain ⟨n1, n2, n3⟩ := countedNeighborLists_cost p1 p2 hp
  obtain ⟨map, em, hm⟩ := neighborLists_ok p1 p2 hlen.symm
  have hl := n3 map em
  have hok : (Counted.free (Res.assert (decide (p1.length = p2.length)))).result = .ok () := by simp [hlen]
  have hres : (countedNeighborLists p1 p2).result = .ok map := by rw [countedNeighborLists_result, em]
  unfold countedErx
  rw [Counted.eqs_bind_ok hok, Counted.hashes_bind_ok hok]
  dsimp only
  split
  · simp
  · obtain ⟨c1, c2⟩ := countedErxLoop_cost ord hord p1 p2 hnd hp (p1.length - 1) [] map pivot (by simp) (by simpa using hv) hm
      (by simp only [List.length_nil]; omega)
    rw [Counted.eqs_bind_ok hres, Counted.hashes_bind_ok hres]
    constructor
    · have := Counted.eqs_bind_le (countedErxLoop ord p1 (p1.length - 1) [] map pivot)
        (fun rest => (pure (pivot :: rest) : Counted (List G))) 0 fun _ _ => by simp
      simp only [Counted.eqs_free]
      omega
    · have := Counted.hashes_bind_le (countedErxLoop ord p1 (p1.length - 1) [] map pivot)
        (fun rest => (pure (pivot :: rest) : Counted (List G))) 0 fun _ _ => by simp
      simp only [Counted.hashes_free]
      have hmul : (p1.length - 1) * (map.length + p1.length + 10) ≤ (p1.length - 1) * (2 * p1.length + 10) :=
        Nat.mul_le_mul_left _ (by omega)
      omega

end RG
