import Verif.SpecTour
import Verif.Props.Mutation
import Mathlib.Data.Sym.Sym2
import Mathlib.Tactic.Abel
import Mathlib.Algebra.Order.BigOperators.Group.Multiset

/-! Helper lemmas: the edges of a tour that is cut into pieces. -/

namespace RG
variable {G E : Type}

/-- The edges of the path along the genes. -/
def pathEdges (f : G → G → E) : List G → List E
  | [] => []
  | [_] => []
  | x :: y :: l => f x y :: pathEdges f (y :: l)

/-- The edge from the last gene of one list to the first of another. -/
def linkEdge (f : G → G → E) (l l' : List G) : List E :=
  match l.getLast?, l'.head? with
  | some a, some b => [f a b]
  | _, _ => []

theorem linkEdge_length (f : G → G → E) (l l' : List G) : (linkEdge f l l').length ≤ 1 := by
  unfold linkEdge
  split <;> simp

theorem pathEdges_append (f : G → G → E) (l l' : List G) : pathEdges f (l ++ l') = pathEdges f l ++ linkEdge f l l' ++ pathEdges f l' := by
  induction l with
  | nil => simp [pathEdges, linkEdge]
  | cons x l ih =>
    cases l with
    | nil =>
      cases l' with
      | nil => simp [pathEdges, linkEdge]
      | cons y l' => simp [pathEdges, linkEdge]
    | cons y l =>
      have e : linkEdge f (x :: y :: l) l' = linkEdge f (y :: l) l' := by simp [linkEdge, List.getLast?_cons_cons]
      rw [e]
      simp only [List.cons_append, pathEdges] at ih ⊢
      rw [ih]

theorem zipWith_path (f : G → G → E) (x z : G) (l : List G) : List.zipWith f (x :: l) (l ++ [z]) = pathEdges f (x :: (l ++ [z])) := by
  induction l generalizing x with
  | nil => simp [pathEdges]
  | cons y l ih =>
    rw [List.cons_append, List.zipWith_cons_cons, ih]
    rfl

theorem tourEdges_eq (f : G → G → E) (g : List G) : tourEdges f g = Multiset.ofList (pathEdges f g ++ linkEdge f g g) := by
  cases g with
  | nil => rfl
  | cons x l =>
    unfold tourEdges
    have e : (x :: l).rotate 1 = l ++ [x] := by simp [List.rotate_cons_succ]
    rw [e, zipWith_path]
    have := pathEdges_append f (x :: l) [x]
    rw [List.cons_append] at this
    rw [this]
    have h : linkEdge f (x :: l) [x] = linkEdge f (x :: l) (x :: l) := by simp [linkEdge]
    rw [h]
    simp [pathEdges]

theorem tourEdges_append (f : G → G → E) {l l' : List G} (h : l ≠ []) (h' : l' ≠ []) : tourEdges f (l ++ l') =
    (Multiset.ofList (pathEdges f l) + Multiset.ofList (pathEdges f l')) + (Multiset.ofList (linkEdge f l l') + Multiset.ofList (linkEdge f l' l)) := by
  rw [tourEdges_eq, pathEdges_append]
  have e : linkEdge f (l ++ l') (l ++ l') = linkEdge f l' l := by
    unfold linkEdge
    obtain ⟨x, t, rfl⟩ := List.exists_cons_of_ne_nil h
    rw [List.getLast?_append_of_ne_nil _ h']
    rfl
  rw [e]
  simp only [← Multiset.coe_add]
  abel

theorem tourEdges_comm (f : G → G → E) (l l' : List G) : tourEdges f (l ++ l') = tourEdges f (l' ++ l) := by
  by_cases h : l = []
  · subst h; simp
  by_cases h' : l' = []
  · subst h'; simp
  rw [tourEdges_append f h h', tourEdges_append f h' h]
  abel

/-- A tour in two pieces: both paths and at most two edges more. -/
theorem tourEdges_two (f : G → G → E) (l l' : List G) : ∃ s : Multiset E, s.card ≤ 2 ∧
    tourEdges f (l ++ l') = (Multiset.ofList (pathEdges f l) + Multiset.ofList (pathEdges f l')) + s := by
  by_cases h : l = []
  · subst h
    refine ⟨Multiset.ofList (linkEdge f l' l'), ?_, ?_⟩
    · have := linkEdge_length f l' l'
      rw [Multiset.coe_card]; omega
    · rw [List.nil_append, tourEdges_eq, ← Multiset.coe_add]
      simp [pathEdges]
  by_cases h' : l' = []
  · subst h'
    refine ⟨Multiset.ofList (linkEdge f l l), ?_, ?_⟩
    · have := linkEdge_length f l l
      rw [Multiset.coe_card]; omega
    · rw [List.append_nil, tourEdges_eq, ← Multiset.coe_add]
      simp [pathEdges]
  refine ⟨_, ?_, tourEdges_append f h h'⟩
  have h1 := linkEdge_length f l l'
  have h2 := linkEdge_length f l' l
  rw [Multiset.card_add, Multiset.coe_card, Multiset.coe_card]
  omega

theorem pathEdges_cons (f : G → G → E) (x : G) (l : List G) : ∃ s : Multiset E, s.card ≤ 1 ∧
    Multiset.ofList (pathEdges f (x :: l)) = Multiset.ofList (pathEdges f l) + s := by
  refine ⟨Multiset.ofList (linkEdge f [x] l), ?_, ?_⟩
  · rw [Multiset.coe_card]; exact linkEdge_length _ _ _
  · have := pathEdges_append f [x] l
    rw [List.singleton_append] at this
    rw [this, ← Multiset.coe_add, ← Multiset.coe_add]
    simp only [pathEdges]
    show 0 + _ + _ = _
    abel

theorem pathEdges_length (f : G → G → E) (l : List G) : (pathEdges f l).length = l.length - 1 := by
  induction l with
  | nil => rfl
  | cons x l ih =>
    cases l with
    | nil => rfl
    | cons y l =>
      simp only [pathEdges, List.length_cons] at ih ⊢
      omega

theorem pathEdges_reverse (f : G → G → E) (hf : ∀ a b, f a b = f b a) (l : List G) : pathEdges f l.reverse = (pathEdges f l).reverse := by
  induction l with
  | nil => rfl
  | cons x l ih =>
    rw [List.reverse_cons, pathEdges_append, ih]
    cases l with
    | nil => simp [pathEdges, linkEdge]
    | cons y l =>
      have : linkEdge f (y :: l).reverse [x] = [f x y] := by simp [linkEdge, hf]
      rw [this]
      simp [pathEdges]

theorem tourEdges_card (f : G → G → E) (g : List G) : (tourEdges f g).card = g.length := by
  simp [tourEdges]

theorem pathEdges_mem (f : G → G → E) {l : List G} {e : E} (h : e ∈ pathEdges f l) : ∃ a ∈ l, ∃ b ∈ l, e = f a b := by
  induction l with
  | nil => cases h
  | cons x l ih =>
    cases l with
    | nil => cases h
    | cons y l =>
      rcases List.mem_cons.1 h with rfl | h
      · exact ⟨x, by simp, y, by simp, rfl⟩
      · obtain ⟨a, ha, b, hb, rfl⟩ := ih h
        exact ⟨a, List.mem_cons_of_mem _ ha, b, List.mem_cons_of_mem _ hb, rfl⟩

theorem linkEdge_cons (f : G → G → E) (l l' : List G) (x y : G) : linkEdge f (l ++ [x]) (y :: l') = [f x y] := by
  simp [linkEdge]

/-- Edges of the first multiset that the second lacks: not more than those outside a common part. -/
theorem lost_le [DecidableEq E] {k s e e' : Multiset E} {n : Nat} (he : e = k + s) (hk : k ≤ e') (hs : s.card ≤ n) : (e - e').card ≤ n := by
  refine le_trans (Multiset.card_le_card ?_) hs
  rw [he, tsub_le_iff_left]
  exact add_le_add_left hk _

theorem cut_one (g : List G) (i : Nat) (h : i < g.length) : ∃ a c, g = a ++ g[i] :: c ∧ a.length = i := by
  refine ⟨g.take i, g.drop (i + 1), ?_, by rw [List.length_take]; omega⟩
  rw [List.getElem_cons_drop, List.take_append_drop]

theorem cut_two (g : List G) (i j : Nat) (hij : i < j) (hj : j < g.length) : ∃ a b c,
    g = a ++ g[i] :: (b ++ g[j] :: c) ∧ a.length = i ∧ i + 1 + b.length = j := by
  obtain ⟨a, t, e, ha⟩ := cut_one g i (by omega)
  have hl : g.length = a.length + (1 + t.length) := by
    conv_lhs => rw [e]
    simp; omega
  have ht : j - i - 1 < t.length := by omega
  have hx : t[j - i - 1] = g[j] := by
    have : g[j]? = (a ++ g[i] :: t)[j]? := by rw [← e]
    rw [List.getElem?_append_right (by omega), List.getElem?_cons, if_neg (by omega), List.getElem?_eq_getElem hj,
      List.getElem?_eq_getElem (by omega)] at this
    have h2 : j - a.length - 1 = j - i - 1 := by omega
    simp only [h2] at this
    exact (Option.some.inj this).symm
  obtain ⟨b, c, e', hb⟩ := cut_one t (j - i - 1) ht
  refine ⟨a, b, c, ?_, ha, by omega⟩
  rw [hx] at e'
  rw [← e']
  exact e

open Props in
/-- An exchange, written with the pieces between the two genes. -/
theorem swapped_pieces {g g' : List G} {i j : Nat} (h : Swapped g g' i j) : ∃ a x b y c,
    g = a ++ x :: (b ++ y :: c) ∧ g' = a ++ y :: (b ++ x :: c) := by
  have hij : i < j ∨ j < i := by have := h.ne; omega
  have key : ∀ i j, i < j → Swapped g g' i j → ∃ a x b y c, g = a ++ x :: (b ++ y :: c) ∧ g' = a ++ y :: (b ++ x :: c) := by
    clear h hij i j
    intro i j hij h
    obtain ⟨a, b, c, e, ha, hb⟩ := cut_two g i j hij h.hj
    refine ⟨a, g[i]'h.hi, b, g[j]'h.hj, c, e, ?_⟩
    have e2 := (swapped_iff g g' i j h.ne h.hi h.hj).1 h
    unfold exchanged at e2
    rw [List.getElem?_eq_getElem h.hi, List.getElem?_eq_getElem h.hj] at e2
    simp only at e2
    have hi := h.hi
    have hj := h.hj
    generalize g[i] = x at *
    generalize g[j] = y at *
    rw [e2, e, List.set_append_right _ _ (by omega), show i - a.length = 0 by omega, List.set_cons_zero,
      List.set_append_right _ _ (by omega), show j - a.length = (b.length) + 1 by omega, List.set_cons_succ,
      List.set_append_right _ _ (by omega), Nat.sub_self, List.set_cons_zero]
  rcases hij with hij | hij
  · exact key i j hij h
  · exact key j i hij ⟨h.ne.symm, h.hj, h.hi, h.len, h.at_j, h.at_i, fun k h1 h2 => h.rest k h2 h1⟩

theorem insertIdx_after (a t : List G) (y : G) : (a ++ t).insertIdx a.length y = a ++ y :: t := by
  induction a with
  | nil => rfl
  | cons x a ih => simpa using ih

theorem moved_pieces (g : List G) (i j : Nat) (hij : i < j) (hj : j < g.length) : ∃ a b x c, b.length = j - i ∧
    g = a ++ b ++ x :: c ∧ (g.eraseIdx j).insertIdx i g[j] = a ++ x :: (b ++ c) := by
  obtain ⟨a, b, c, e, ha, hb⟩ := cut_two g i j hij hj
  refine ⟨a, g[i] :: b, g[j], c, by simp; omega, by simpa using e, ?_⟩
  generalize g[i] = x at *
  generalize g[j] = y at *
  rw [e, List.eraseIdx_append_of_length_le (by omega), show j - a.length = b.length + 1 by omega, List.eraseIdx_cons_succ,
    List.eraseIdx_append_of_length_le (by omega), Nat.sub_self, List.eraseIdx_cons_zero, ← ha]
  rw [insertIdx_after]
  rfl

open Props in
theorem copied_pieces {g g' : List G} {i j : Nat} (h : CopiedOver g g' i j) : ∃ a x y c, g = a ++ x :: c ∧ g' = a ++ y :: c := by
  obtain ⟨a, c, e, ha⟩ := cut_one g j h.hb
  refine ⟨a, g[j]'h.hb, g[i]'h.ha, c, e, ?_⟩
  have e2 := (copiedOver_iff g g' i j h.ne h.ha h.hb).1 h
  have hi := h.ha
  have hj := h.hb
  generalize g[i] = x at *
  generalize g[j] = y at *
  rw [e2, e, List.set_append_right _ _ (by omega), show j - a.length = 0 by omega, List.set_cons_zero]

theorem tourEdges_whole (f : G → G → E) (hf : ∀ a b, f a b = f b a) (l : List G) : tourEdges f l.reverse = tourEdges f l := by
  rw [tourEdges_eq, tourEdges_eq, pathEdges_reverse f hf, ← Multiset.coe_add, ← Multiset.coe_add, Multiset.coe_reverse]
  congr 2
  unfold linkEdge
  rw [List.getLast?_reverse, List.head?_reverse]
  cases l.head? <;> cases l.getLast? <;> simp [hf]

theorem tourEdges_reverse (f : G → G → E) (hf : ∀ a b, f a b = f b a) (a m c : List G) (h : a.length + c.length ≤ 1) :
    tourEdges f (a ++ m.reverse ++ c) = tourEdges f (a ++ m ++ c) := by
  have r : ∀ m : List G, tourEdges f (a ++ m ++ c) = tourEdges f (m ++ (c ++ a)) := by
    intro m
    rw [List.append_assoc, tourEdges_comm]
    simp
  have hr : (c ++ a).reverse = c ++ a := by
    match hca : c ++ a with
    | [] => rfl
    | [x] => rfl
    | x :: y :: t =>
      have := congrArg List.length hca
      simp at this
      omega
  rw [r, r, ← hr, ← List.reverse_append, tourEdges_whole f hf, hr, tourEdges_comm]

theorem tourEdges_reverse_ne (a m c : List G) (hnd : (a ++ m ++ c).Nodup) (hm : 2 ≤ m.length) (h : 2 ≤ a.length + c.length) :
    tourEdges (fun x y => s(x, y)) (a ++ m.reverse ++ c) ≠ tourEdges (fun x y => s(x, y)) (a ++ m ++ c) := by
  have r : ∀ m : List G, tourEdges (fun x y => s(x, y)) (a ++ m ++ c) = tourEdges (fun x y => s(x, y)) (m ++ (c ++ a)) := by
    intro m
    rw [List.append_assoc, tourEdges_comm]
    simp
  have hnd' : (m ++ (c ++ a)).Nodup := by
    refine List.Perm.nodup ?_ hnd
    rw [List.append_assoc, ← List.append_assoc m]
    exact List.perm_append_comm
  rw [r, r]
  have hd : 2 ≤ (c ++ a).length := by rw [List.length_append]; omega
  generalize c ++ a = d at *
  clear r hnd h
  -- the window is `p … q`, the rest `u … v`
  obtain ⟨p, m', rfl⟩ : ∃ p m', m = p :: m' := by
    cases m with
    | nil => simp at hm
    | cons p m' => exact ⟨p, m', rfl⟩
  obtain ⟨m₀, q, rfl⟩ : ∃ m₀ q, m' = m₀ ++ [q] := by
    rcases List.eq_nil_or_concat m' with rfl | ⟨m₀, q, e⟩
    · simp at hm
    · exact ⟨m₀, q, by simpa using e⟩
  obtain ⟨u, d', rfl⟩ : ∃ u d', d = u :: d' := by
    cases d with
    | nil => simp at hd
    | cons u d' => exact ⟨u, d', rfl⟩
  obtain ⟨d₀, v, rfl⟩ : ∃ d₀ v, d' = d₀ ++ [v] := by
    rcases List.eq_nil_or_concat d' with rfl | ⟨d₀, v, e⟩
    · simp at hd
    · exact ⟨d₀, v, by simpa using e⟩
  intro hc
  -- the edge from the end of the rest to the start of the window is lost
  have hmem : s(v, p) ∈ tourEdges (fun x y => s(x, y)) (p :: (m₀ ++ [q]) ++ u :: (d₀ ++ [v])) := by
    rw [tourEdges_append _ (by simp) (by simp)]
    have := linkEdge_cons (fun x y => s(x, y)) (u :: d₀) (m₀ ++ [q]) v p
    rw [List.cons_append] at this
    simp only [Multiset.mem_add, Multiset.mem_coe]
    refine Or.inr (Or.inr ?_)
    rw [this]
    simp
  rw [← hc, tourEdges_append _ (by simp) (by simp)] at hmem
  have hdis := List.disjoint_of_nodup_append hnd'
  have hn1 := (List.nodup_append.1 hnd').1
  have hn2 := (List.nodup_append.1 hnd').2.1
  have hpq : p ≠ q := by
    rintro rfl
    exact (List.nodup_cons.1 hn1).1 (by simp)
  have huv : u ≠ v := by
    rintro rfl
    exact (List.nodup_cons.1 hn2).1 (by simp)
  have hpv : p ≠ v := by
    rintro rfl
    exact hdis (by simp : p ∈ p :: (m₀ ++ [q])) (by simp)
  simp only [Multiset.mem_add, Multiset.mem_coe] at hmem
  rcases hmem with (hmem | hmem) | (hmem | hmem)
  · obtain ⟨x, hx, y, hy, e⟩ := pathEdges_mem _ hmem
    have : v ∈ s(x, y) := by rw [← e]; exact Sym2.mem_mk_left _ _
    have hv : v ∈ p :: (m₀ ++ [q]) := by
      rcases Sym2.mem_iff.1 this with rfl | rfl
      · exact List.mem_reverse.1 hx
      · exact List.mem_reverse.1 hy
    exact hdis hv (by simp)
  · obtain ⟨x, hx, y, hy, e⟩ := pathEdges_mem _ hmem
    have : p ∈ s(x, y) := by rw [← e]; exact Sym2.mem_mk_right _ _
    have hp : p ∈ u :: (d₀ ++ [v]) := by
      rcases Sym2.mem_iff.1 this with rfl | rfl
      · exact hx
      · exact hy
    exact hdis (by simp : p ∈ p :: (m₀ ++ [q])) hp
  · have e : (p :: (m₀ ++ [q])).reverse = (q :: m₀.reverse) ++ [p] := by simp
    rw [e, linkEdge_cons, List.mem_singleton] at hmem
    rcases Sym2.eq_iff.1 hmem with ⟨h1, -⟩ | ⟨h1, -⟩
    · exact hpv h1.symm
    · exact huv h1.symm
  · have e : (p :: (m₀ ++ [q])).reverse = q :: (m₀.reverse ++ [p]) := by simp
    rw [e, ← List.cons_append, linkEdge_cons, List.mem_singleton] at hmem
    rcases Sym2.eq_iff.1 hmem with ⟨-, h1⟩ | ⟨h1, -⟩
    · exact hpq h1
    · exact hdis (by simp : q ∈ p :: (m₀ ++ [q])) (by rw [← h1]; simp)

end RG
