import Verif.Proofs.Tour
import Verif.Proofs.Selection
import Mathlib.Data.Sym.Sym2
import Mathlib.Tactic.Linarith
import Mathlib.Tactic.FieldSimp

/-!
# Property C107: what a mutation does to a round trip

Each mutation replaces only a few edges of the tour a genome stands for. Specification: `tourEdges`, `lostEdges` and
`tourLength` of `Verif/SpecTour.lean`.
-/

namespace RG.Props
open RG Prog
variable {G E : Type} [DecidableEq E]

/-- **C107** Exchanging two genes breaks at most four edges of the tour. -/
theorem C107_swap (f : G → G → E) (g g' : List G) (h : (MutationStrategy.swap.mutate g).yields (.ok g')) :
    lostEdges f g g' ≤ 4 := by
  by_cases hn : g.length < 2
  · rw [C37_short _ g hn, yields_pure] at h
    cases h
    simp [lostEdges]
  obtain ⟨_, i, j, e, hs⟩ := (C32_swap g (by omega) _).1 h
  cases e
  obtain ⟨a, x, b, y, c, rfl, rfl⟩ := swapped_pieces hs
  have r : ∀ x y : G, tourEdges f (a ++ x :: (b ++ y :: c)) = tourEdges f ((x :: b) ++ (y :: (c ++ a))) := by
    intro x y
    rw [tourEdges_comm]
    simp
  have key : ∀ x y : G, ∃ s : Multiset E, s.card ≤ 4 ∧ tourEdges f (a ++ x :: (b ++ y :: c)) =
      (Multiset.ofList (pathEdges f b) + Multiset.ofList (pathEdges f (c ++ a))) + s := by
    intro x y
    obtain ⟨s, hs, e⟩ := tourEdges_two f (x :: b) (y :: (c ++ a))
    obtain ⟨t, ht, e1⟩ := pathEdges_cons f x b
    obtain ⟨u, hu, e2⟩ := pathEdges_cons f y (c ++ a)
    refine ⟨s + t + u, by rw [Multiset.card_add, Multiset.card_add]; omega, ?_⟩
    rw [r, e, e1, e2]
    abel
  obtain ⟨s, hs, e⟩ := key x y
  obtain ⟨s', -, e'⟩ := key y x
  exact lost_le e (by rw [e']; exact Multiset.le_add_right _ _) hs

/-- **C107** Moving a gene breaks at most three. -/
theorem C107_insertion (f : G → G → E) (g g' : List G) (h : (MutationStrategy.insertion.mutate g).yields (.ok g')) :
    lostEdges f g g' ≤ 3 := by
  by_cases hn : g.length < 2
  · rw [C37_short _ g hn, yields_pure] at h
    cases h
    simp [lostEdges]
  obtain ⟨i, j, hij, hj, e⟩ := (C35_insertion g (by omega) _).1 h
  cases e
  obtain ⟨a, b, x, c, -, e1, e2⟩ := moved_pieces g i j hij hj
  rw [e2, e1]
  have r1 : tourEdges f (a ++ b ++ x :: c) = tourEdges f ((x :: (c ++ a)) ++ b) := by
    rw [show a ++ b ++ x :: c = (a ++ b) ++ (x :: c) by simp, tourEdges_comm]
    simp
  have r2 : tourEdges f (a ++ x :: (b ++ c)) = tourEdges f ((x :: b) ++ (c ++ a)) := by
    rw [tourEdges_comm]
    simp
  obtain ⟨s, hs, e3⟩ := tourEdges_two f (x :: (c ++ a)) b
  obtain ⟨t, ht, e4⟩ := pathEdges_cons f x (c ++ a)
  obtain ⟨s', -, e5⟩ := tourEdges_two f (x :: b) (c ++ a)
  obtain ⟨t', -, e6⟩ := pathEdges_cons f x b
  refine lost_le (k := Multiset.ofList (pathEdges f b) + Multiset.ofList (pathEdges f (c ++ a))) (s := s + t) ?_ ?_ ?_
  · rw [r1, e3, e4]; abel
  · rw [r2, e5, e6]
    refine le_of_le_of_eq (Multiset.le_add_right _ (s' + t')) ?_
    abel
  · rw [Multiset.card_add]; omega

/-- **C107** Reversing a window breaks at most two undirected edges: `inversion_mutation` is the 2-opt move. -/
theorem C107_inversion (f : G → G → E) (hf : ∀ a b, f a b = f b a) (g g' : List G)
    (h : (MutationStrategy.inversion.mutate g).yields (.ok g')) : lostEdges f g g' ≤ 2 := by
  by_cases hn : g.length < 2
  · rw [C37_short _ g hn, yields_pure] at h
    cases h
    simp [lostEdges]
  obtain ⟨a, m, c, rfl, hm, e⟩ := (C34_inversion g (by omega) _).1 h
  cases e
  have r : ∀ m : List G, tourEdges f (a ++ m ++ c) = tourEdges f (m ++ (c ++ a)) := by
    intro m
    rw [List.append_assoc, tourEdges_comm]
    simp
  obtain ⟨s, hs, e1⟩ := tourEdges_two f m (c ++ a)
  obtain ⟨s', -, e2⟩ := tourEdges_two f m.reverse (c ++ a)
  refine lost_le ((r m).trans e1) ?_ hs
  rw [r, e2, pathEdges_reverse f hf, Multiset.coe_reverse]
  exact Multiset.le_add_right _ _

/-- **C107** Rearranging a window of `w` genes, or reversing it when the edges are directed, breaks at most `w + 1`. -/
theorem C107_window (f : G → G → E) (s : MutationStrategy) (hs : s = .scramble ∨ s = .inversion) (g g' : List G) (hn : 2 ≤ g.length)
    (h : (s.mutate g).yields (.ok g')) : ∃ a m m' c, g = a ++ m ++ c ∧ g' = a ++ m' ++ c ∧ m'.Perm m ∧ 2 ≤ m.length ∧
      lostEdges f g g' ≤ m.length + 1 := by
  have key : ∀ a m m' c : List G, 2 ≤ m.length → lostEdges f (a ++ m ++ c) (a ++ m' ++ c) ≤ m.length + 1 := by
    intro a m m' c hm
    have r : ∀ m : List G, tourEdges f (a ++ m ++ c) = tourEdges f (m ++ (c ++ a)) := by
      intro m
      rw [List.append_assoc, tourEdges_comm]
      simp
    obtain ⟨s, hs, e1⟩ := tourEdges_two f m (c ++ a)
    obtain ⟨s', -, e2⟩ := tourEdges_two f m' (c ++ a)
    refine lost_le (k := Multiset.ofList (pathEdges f (c ++ a))) (s := Multiset.ofList (pathEdges f m) + s) ?_ ?_ ?_
    · rw [r, e1]; abel
    · rw [r, e2]
      refine le_of_le_of_eq (Multiset.le_add_right _ (Multiset.ofList (pathEdges f m') + s')) ?_
      abel
    · rw [Multiset.card_add, Multiset.coe_card, pathEdges_length]; omega
  rcases hs with rfl | rfl
  · obtain ⟨a, m, m', c, rfl, hm, hp, e⟩ := (C33_scramble g hn _).1 h
    cases e
    exact ⟨a, m, m', c, rfl, rfl, hp, hm, key a m m' c hm⟩
  · obtain ⟨a, m, c, rfl, hm, e⟩ := (C34_inversion g hn _).1 h
    cases e
    exact ⟨a, m, m.reverse, c, rfl, rfl, List.reverse_perm m, hm, key a m _ c hm⟩

/-- **C107** Copying a gene over another breaks at most two. -/
theorem C107_duplicate (f : G → G → E) (g g' : List G) (h : (MutationStrategy.duplicate.mutate g).yields (.ok g')) :
    lostEdges f g g' ≤ 2 := by
  by_cases hn : g.length < 2
  · rw [C37_short _ g hn, yields_pure] at h
    cases h
    simp [lostEdges]
  obtain ⟨_, i, j, e, hs⟩ := (C36_duplicate g (by omega) _).1 h
  cases e
  obtain ⟨a, x, y, c, rfl, rfl⟩ := copied_pieces hs
  have r : ∀ x : G, tourEdges f (a ++ x :: c) = tourEdges f ([x] ++ (c ++ a)) := by
    intro x
    rw [tourEdges_comm]
    simp
  obtain ⟨s, hs, e1⟩ := tourEdges_two f [x] (c ++ a)
  obtain ⟨s', -, e2⟩ := tourEdges_two f [y] (c ++ a)
  refine lost_le ((r x).trans e1) ?_ hs
  rw [r, e2]
  exact Multiset.le_add_right _ _

/-- **C107** As many edges are new as are lost. -/
theorem C107_gained (f : G → G → E) (s : MutationStrategy) (g g' : List G) (h : (s.mutate g).yields (.ok g')) :
    lostEdges f g' g = lostEdges f g g' := by
  obtain ⟨_, e, hl⟩ := C37_length s g _ h
  cases e
  have h1 := congrArg Multiset.card (Multiset.sub_add_inter (tourEdges f g) (tourEdges f g'))
  have h2 := congrArg Multiset.card (Multiset.sub_add_inter (tourEdges f g') (tourEdges f g))
  rw [Multiset.card_add, tourEdges_card] at h1 h2
  rw [Multiset.inter_comm] at h2
  unfold lostEdges
  omega

/-- **C107** So the length of the tour changes by no more than the lost edges can account for: when every edge is between
`lo` and `hi` long, by at most `hi - lo` for each. -/
theorem C107_length (f : G → G → E) (w : E → ℚ) (lo hi : ℚ) (hw : ∀ e, lo ≤ w e ∧ w e ≤ hi) (s : MutationStrategy) (g g' : List G)
    (h : (s.mutate g).yields (.ok g')) : |tourLength f w g' - tourLength f w g| ≤ lostEdges f g g' * (hi - lo) := by
  have hg := C107_gained f s g g' h
  have split : ∀ a b : List G, tourLength f w a =
      ((tourEdges f a - tourEdges f b).map w).sum + ((tourEdges f a ∩ tourEdges f b).map w).sum := by
    intro a b
    unfold tourLength
    rw [← Multiset.sum_add, ← Multiset.map_add, Multiset.sub_add_inter]
  have bnd : ∀ m : Multiset E, m.card * lo ≤ (m.map w).sum ∧ (m.map w).sum ≤ m.card * hi := by
    intro m
    induction m using Multiset.induction_on with
    | empty => simp
    | cons e m ih =>
      have := hw e
      rw [Multiset.map_cons, Multiset.sum_cons, Multiset.card_cons]
      push_cast
      constructor <;> linarith [ih.1, ih.2]
  rw [split g' g, split g g', Multiset.inter_comm]
  have h1 := bnd (tourEdges f g' - tourEdges f g)
  have h2 := bnd (tourEdges f g - tourEdges f g')
  have e1 : (tourEdges f g' - tourEdges f g).card = lostEdges f g g' := hg
  have e2 : (tourEdges f g - tourEdges f g').card = lostEdges f g g' := rfl
  rw [e1] at h1
  rw [e2] at h2
  rw [abs_le]
  constructor <;> nlinarith [h1.1, h1.2, h2.1, h2.2]

omit [DecidableEq E] in
/-- **C107** Reversing all genes, or all but one, leaves the undirected tour as it was. -/
theorem C107_idle (f : G → G → E) (hf : ∀ a b, f a b = f b a) (a m c : List G) (h : a.length + c.length ≤ 1) :
    tourEdges f (a ++ m.reverse ++ c) = tourEdges f (a ++ m ++ c) := by
  exact tourEdges_reverse f hf a m c h

omit [DecidableEq E] in
/-- **C107** Reversing any other window of a genome without repetitions makes a different tour. -/
theorem C107_changes (a m c : List G) (hnd : (a ++ m ++ c).Nodup) (hm : 2 ≤ m.length) (h : 2 ≤ a.length + c.length) :
    tourEdges (fun x y => s(x, y)) (a ++ m.reverse ++ c) ≠ tourEdges (fun x y => s(x, y)) (a ++ m ++ c) := by
  exact tourEdges_reverse_ne a m c hnd hm h

/-- **C107** For a genome of `n ≥ 3` different genes `inversion_mutation` has no effect on the round trip with probability
exactly `2 / (n - 1)`: the window is as likely to span `n` or `n - 1` genes as any other number. -/
theorem C107_inversion_idle [DecidableEq G] (g : List G) (hn : 3 ≤ g.length) (hnd : g.Nodup) :
    (MutationStrategy.inversion.mutate g).prob (fun g' => tourEdges (fun x y => s(x, y)) g' = tourEdges (fun x y => s(x, y)) g) =
      2 / (g.length - 1) := by
  have e : MutationStrategy.inversion.mutate g =
      (boundedRandomRange g.length 2 g.length >>= fun r => onSlice g r.start r.stop fun l => pure l.reverse) := by
    show inversionMutation g = _
    unfold inversionMutation
    simp only [show ¬ g.length < 2 by omega, if_false]
  have once : ∀ r : URange, (boundedRandomRange g.length 2 g.length).yields (.ok r) →
      ∃ a m c, g = a ++ m ++ c ∧ 2 ≤ m.length ∧ m.length = r.stop - r.start ∧
        (onSlice g r.start r.stop fun l => pure l.reverse) = pure (a ++ m.reverse ++ c) := by
    intro r hr
    rcases (yields_boundedRandomRange _ _ _ _).1 hr with ⟨-, h⟩ | ⟨s, l, h3, h4, h5, h⟩
    · cases h
    cases h
    refine ⟨g.take s, (g.drop s).take l, g.drop (s + l), ?_, ?_, ?_, ?_⟩
    · rw [List.append_assoc, ← List.drop_drop, List.take_append_drop, List.take_append_drop]
    · rw [List.length_take, List.length_drop]; omega
    · rw [List.length_take, List.length_drop]; simp only; omega
    · unfold onSlice
      rw [if_pos ⟨by simp only; omega, h5⟩, bind_pure_left]
      simp only [Nat.add_sub_cancel_left]
  rw [e, prob_bind_mul _ _ _ (fun r : URange => g.length - 1 ≤ r.stop - r.start) 1, mul_one]
  · unfold boundedRandomRange
    rw [prob_rangeIncl_bind _ _ (by omega)]
    have inner : ∀ i ∈ Finset.Icc 2 g.length, ((do
        let last ← Prog.lift (usizeSub g.length i)
        let start ← rangeIncl 0 last
        pure (⟨start, start + i⟩ : URange)) : Prog URange).prob (fun r => g.length - 1 ≤ r.stop - r.start) =
          if i ∈ ({g.length - 1, g.length} : Finset Nat) then 1 else 0 := by
      intro i hi
      rw [Finset.mem_Icc] at hi
      simp only [usizeSub, hi.2, if_true, lift_ok, bind_pure_left]
      have hm : i ∈ ({g.length - 1, g.length} : Finset Nat) ↔ g.length - 1 ≤ i := by
        rw [Finset.mem_insert, Finset.mem_singleton]; omega
      split
      · rename_i h
        refine prob_eq_one_of_always _ _ ?_
        rw [always_bind, always_rangeIncl]
        refine ⟨by omega, fun s _ _ => ?_⟩
        rw [always_pure]
        have := hm.1 h
        simp only
        omega
      · rename_i h
        refine prob_eq_zero _ _ fun r hr hc => h (hm.2 ?_)
        obtain ⟨s, -, h2⟩ := (yields_bind_ok _ _ _).1 hr
        rw [yields_pure] at h2
        cases h2
        simp only at hc
        omega
    rw [Finset.sum_congr rfl inner, Finset.sum_ite_mem]
    have : Finset.Icc 2 g.length ∩ {g.length - 1, g.length} = {g.length - 1, g.length} := by
      apply Finset.inter_eq_right.2
      intro i hi
      rw [Finset.mem_insert, Finset.mem_singleton] at hi
      rw [Finset.mem_Icc]; omega
    rw [this, Finset.sum_const, Finset.card_pair (by omega), nsmul_eq_mul]
    congr 1
    · norm_num
    · push_cast; ring
  · intro r hr hq
    obtain ⟨a, m, c, eg, h2, hl, eo⟩ := once r hr
    rw [eo, prob_pure, if_pos]
    have hlen : g.length = a.length + m.length + c.length := by rw [eg]; simp only [List.length_append]
    conv_rhs => rw [eg]
    exact C107_idle _ (fun x y => Sym2.eq_swap) a m c (by omega)
  · intro r hr hq
    obtain ⟨a, m, c, eg, h2, hl, eo⟩ := once r hr
    have hlen : g.length = a.length + m.length + c.length := by rw [eg]; simp only [List.length_append]
    rw [eo, prob_pure, if_neg]
    conv_rhs => rw [eg]
    exact C107_changes a m c (eg ▸ hnd) h2 (by omega)

/-! The bounds are met, and each is one that a wrong reading of the operators would miss. -/

/-- Undirected edges of tours of numbers. -/
def flatEdge (a b : Nat) : Nat × Nat := (min a b, max a b)

example : (MutationStrategy.swap.mutate [0, 1, 2, 3, 4, 5]).yields (.ok [0, 4, 2, 3, 1, 5]) ∧
    lostEdges flatEdge [0, 1, 2, 3, 4, 5] [0, 4, 2, 3, 1, 5] = 4 :=
  ⟨(C32_swap [0, 1, 2, 3, 4, 5] (by decide) _).2 ⟨_, 1, 4, rfl, (swapped_iff [0, 1, 2, 3, 4, 5] _ _ _ (by decide) (by decide) (by decide)).2 rfl⟩, by decide +kernel⟩
example : (MutationStrategy.insertion.mutate [0, 1, 2, 3, 4, 5]).yields (.ok [0, 4, 1, 2, 3, 5]) ∧
    lostEdges flatEdge [0, 1, 2, 3, 4, 5] [0, 4, 1, 2, 3, 5] = 3 :=
  ⟨(C35_insertion [0, 1, 2, 3, 4, 5] (by decide) _).2 ⟨1, 4, by decide, by decide, rfl⟩, by decide +kernel⟩
example : (MutationStrategy.inversion.mutate [0, 1, 2, 3, 4, 5]).yields (.ok [0, 4, 3, 2, 1, 5]) ∧
    lostEdges flatEdge [0, 1, 2, 3, 4, 5] [0, 4, 3, 2, 1, 5] = 2 ∧ lostEdges Prod.mk [0, 1, 2, 3, 4, 5] [0, 4, 3, 2, 1, 5] = 5 :=
  ⟨(C34_inversion _ (by decide) _).2 ⟨[0], [1, 2, 3, 4], [5], rfl, by decide, rfl⟩, by decide +kernel, by decide +kernel⟩
example : (MutationStrategy.scramble.mutate [0, 1, 2, 3, 4, 5]).yields (.ok [0, 3, 1, 4, 2, 5]) ∧
    lostEdges flatEdge [0, 1, 2, 3, 4, 5] [0, 3, 1, 4, 2, 5] = 5 :=
  ⟨(C33_scramble _ (by decide) _).2 ⟨[0], [1, 2, 3, 4], [3, 1, 4, 2], [5], rfl, by decide, by decide, rfl⟩, by decide +kernel⟩
example : lostEdges flatEdge [0, 1, 2, 3, 4, 5] [0, 1, 4, 3, 4, 5] = 2 := by decide +kernel
/-- Five cities on a line: undoing a crossing shortens the round trip from 12 to 10. -/
example : tourLength flatEdge (fun e => (e.2 : ℚ) - e.1) [0, 3, 1, 2, 4] = 12 ∧
    tourLength flatEdge (fun e => (e.2 : ℚ) - e.1) [0, 1, 3, 2, 4] = 10 ∧
    (MutationStrategy.inversion.mutate [0, 3, 1, 2, 4]).yields (.ok [0, 1, 3, 2, 4]) :=
  ⟨by norm_num [tourLength, tourEdges, flatEdge], by norm_num [tourLength, tourEdges, flatEdge],
    (C34_inversion _ (by decide) _).2 ⟨[0], [3, 1], [2, 4], rfl, by decide, rfl⟩⟩
/-- A swap of opposite genes of a tour of four does nothing to it. -/
example : lostEdges flatEdge [0, 1, 2, 3] [2, 1, 0, 3] = 0 := by decide +kernel
example : (MutationStrategy.inversion.mutate [0, 1, 2, 3, 4]).prob
    (fun g' => tourEdges (fun x y => s(x, y)) g' = tourEdges (fun x y => s(x, y)) [0, 1, 2, 3, 4]) = 1 / 2 := by
  rw [C107_inversion_idle _ (by decide) (by decide)]
  norm_num

end RG.Props
