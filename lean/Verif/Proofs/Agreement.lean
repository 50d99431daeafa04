import Verif.Proofs.Tour
import Verif.Proofs.SameTrip

/-! Helper lemmas for C110: the edges inside the pieces of a genome. -/

namespace RG
variable {G E : Type}

/-- Two consecutive genes of a genome are neighbours in it. -/
theorem follows_infix {g : List G} {a b : G} (h : [a, b] <:+: g) : Follows g a b := by
  obtain ⟨s, t, e⟩ := h
  have hl : g.length = s.length + 2 + t.length := by rw [← e]; simp; omega
  refine ⟨s.length, by omega, ?_, ?_⟩
  · rw [← e]; simp
  · rw [Nat.mod_eq_of_lt (by omega), ← e]; simp

/-- The edges inside the pieces. -/
def innerEdges (f : G → G → E) (ps : List (List G)) : List E := (ps.map (pathEdges f)).flatten

theorem innerEdges_sublist (f : G → G → E) (ps : List (List G)) : (innerEdges f ps).Sublist (pathEdges f ps.flatten) := by
  induction ps with
  | nil => exact List.nil_sublist _
  | cons p ps ih =>
    rw [List.flatten_cons, pathEdges_append]
    show (pathEdges f p ++ innerEdges f ps).Sublist _
    rw [List.append_assoc]
    exact (List.Sublist.refl _).append (ih.trans (List.sublist_append_right _ _))

theorem innerEdges_length (f : G → G → E) (ps : List (List G)) (h : ∀ p ∈ ps, p ≠ []) :
    (innerEdges f ps).length + ps.length = ps.flatten.length := by
  induction ps with
  | nil => rfl
  | cons p ps ih =>
    have := ih fun q hq => h q (List.mem_cons_of_mem _ hq)
    have hp := List.length_pos_of_ne_nil (h p (List.mem_cons_self ..))
    have e : (innerEdges f (p :: ps)).length = (pathEdges f p).length + (innerEdges f ps).length := by
      show (pathEdges f p ++ innerEdges f ps).length = _
      rw [List.length_append]
    rw [List.flatten_cons, List.length_append, List.length_cons, e, pathEdges_length]
    omega

theorem pathEdges_pair (f : G → G → E) (x y : G) (l : List G) : pathEdges f (x :: y :: l) = f x y :: pathEdges f (y :: l) := rfl

/-- A path that visits no gene twice uses no undirected edge twice. -/
theorem pathEdges_nodup {l : List G} (h : l.Nodup) : (pathEdges (fun x y => s(x, y)) l).Nodup := by
  induction l with
  | nil => exact List.nodup_nil
  | cons x l ih =>
    cases l with
    | nil => exact List.nodup_nil
    | cons y l =>
      rw [pathEdges_pair]
      obtain ⟨h1, h2⟩ := List.nodup_cons.1 h
      refine List.nodup_cons.2 ⟨fun hm => ?_, ih h2⟩
      obtain ⟨a, ha, b, hb, e⟩ := pathEdges_mem _ hm
      rcases Sym2.eq_iff.1 e with ⟨rfl, -⟩ | ⟨rfl, -⟩
      · exact h1 ha
      · exact h1 hb

/-- If neighbours inside the pieces are neighbours in `g`, the edges inside the pieces are edges of the tour `g`. -/
theorem innerEdges_mem {g : List G} {ps : List (List G)} (h : ∀ p ∈ ps, p.IsChain fun a b => Adj g a b) {e : Sym2 G}
    (he : e ∈ innerEdges (fun x y => s(x, y)) ps) : e ∈ tourEdges (fun x y => s(x, y)) g := by
  obtain ⟨l, hl, hm⟩ := List.mem_flatten.1 he
  obtain ⟨p, hp, rfl⟩ := List.mem_map.1 hl
  have hc := h p hp
  clear h hl hp he
  induction p with
  | nil => cases hm
  | cons x l ih =>
    cases l with
    | nil => cases hm
    | cons y l =>
      rw [pathEdges_pair] at hm
      rw [List.isChain_cons_cons] at hc
      rcases List.mem_cons.1 hm with rfl | hm
      · exact (adj_edge g x y).1 hc.1
      · exact ih hm hc.2

/-- A tour made of pieces of the tour `g` has at most as many new edges as there are pieces. -/
theorem new_edges_le [DecidableEq G] {g : List G} {ps : List (List G)} (hne : ∀ p ∈ ps, p ≠ []) (hnd : ps.flatten.Nodup)
    (h : ∀ p ∈ ps, p.IsChain fun a b => Adj g a b) :
    lostEdges (fun x y => s(x, y)) ps.flatten g ≤ ps.length := by
  have hsub := innerEdges_sublist (fun x y : G => s(x, y)) ps
  have hk : Multiset.ofList (innerEdges (fun x y : G => s(x, y)) ps) ≤ tourEdges (fun x y => s(x, y)) g := by
    rw [Multiset.le_iff_subset (by rw [Multiset.coe_nodup]; exact (pathEdges_nodup hnd).sublist hsub)]
    intro e he
    exact innerEdges_mem h (by simpa using he)
  have hk' : Multiset.ofList (innerEdges (fun x y : G => s(x, y)) ps) ≤ tourEdges (fun x y => s(x, y)) ps.flatten := by
    rw [tourEdges_eq]
    exact Multiset.coe_le.2 (hsub.trans (List.sublist_append_left _ _)).subperm
  refine lost_le (add_tsub_cancel_of_le hk').symm hk ?_
  rw [Multiset.card_sub hk', tourEdges_card, Multiset.coe_card]
  have := innerEdges_length (fun x y : G => s(x, y)) ps hne
  omega

end RG
