import Verif.Props.Offspring
import Verif.Props.Tour

/-! Helper lemmas: genomes that stand for the same round trip, and walks along it. -/

namespace RG
open Props
variable {G : Type}

theorem follows_edge (g : List G) (a b : G) : Follows g a b ↔ (a, b) ∈ tourEdges Prod.mk g := by
  unfold tourEdges Follows
  rw [Multiset.mem_coe, List.mem_iff_getElem?]
  constructor
  · rintro ⟨i, hi, h1, h2⟩
    refine ⟨i, ?_⟩
    rw [List.getElem?_zipWith, h1, List.getElem?_rotate hi, h2]
  · rintro ⟨i, h⟩
    rw [List.getElem?_zipWith] at h
    by_cases hi : i < g.length
    · refine ⟨i, hi, ?_⟩
      rw [List.getElem?_rotate hi, List.getElem?_eq_getElem hi, List.getElem?_eq_getElem (Nat.mod_lt _ (by omega))] at h
      simp only [Option.some.injEq, Prod.mk.injEq] at h
      rw [List.getElem?_eq_getElem hi, List.getElem?_eq_getElem (Nat.mod_lt _ (by omega)), h.1, h.2]
      exact ⟨rfl, rfl⟩
    · rw [List.getElem?_eq_none (by omega)] at h
      simp at h

theorem adj_edge (g : List G) (a b : G) : Adj g a b ↔ s(a, b) ∈ tourEdges (fun x y => s(x, y)) g := by
  have e : tourEdges (fun x y => s(x, y)) g = (tourEdges Prod.mk g).map (fun p => s(p.1, p.2)) := by
    unfold tourEdges
    rw [Multiset.map_coe, List.map_zipWith]
  rw [e, Multiset.mem_map]
  unfold Adj
  rw [follows_edge, follows_edge]
  constructor
  · rintro (h | h)
    · exact ⟨_, h, rfl⟩
    · exact ⟨_, h, Sym2.eq_swap⟩
  · rintro ⟨⟨x, y⟩, h, e⟩
    rcases Sym2.eq_iff.1 e with ⟨h1, h2⟩ | ⟨h1, h2⟩
    · simp only at h1 h2; subst h1 h2; exact Or.inl h
    · simp only at h1 h2; subst h1 h2; exact Or.inr h

theorem tourEdges_rotated {E : Type} (f : G → G → E) {g g' : List G} (h : g ~r g') : tourEdges f g = tourEdges f g' := by
  obtain ⟨k, rfl⟩ := h
  conv_lhs => rw [← List.take_append_drop (k % g.length) g]
  rw [tourEdges_comm, ← List.rotate_eq_drop_append_take_mod]

/-- A walk round the trip `r` that turns from its first gene to its second and never returns to a gene it has left, as long
as it has a choice, is `r`. -/
theorem walk_eq [DecidableEq G] {r o : List G} (hnd : r.Nodup) (hl : o.length = r.length) (h0 : o[0]? = r[0]?) (h1 : o[1]? = r[1]?)
    (hs : ∀ i a b, o[i]? = some a → o[i + 1]? = some b → (∃ x, Adj r a x ∧ x ∉ o.take (i + 1)) → Adj r a b ∧ b ∉ o.take (i + 1)) :
    o = r := by
  have key : ∀ i : Nat, (∀ j : Nat, j ≤ i → o[j]? = r[j]?) := by
    intro i
    induction i with
    | zero => intro j hj; rw [Nat.le_zero.1 hj]; exact h0
    | succ i ih =>
      intro j hj
      rcases Nat.lt_or_ge j (i + 1) with h | h
      · exact ih j (by omega)
      have : j = i + 1 := by omega
      subst this
      by_cases hi0 : i = 0
      · subst hi0; exact h1
      by_cases hlt : i + 1 < r.length
      · have ht : o.take (i + 1) = r.take (i + 1) := by
          apply List.ext_getElem?
          intro k
          rw [List.getElem?_take, List.getElem?_take]
          split
          · exact ih k (by omega)
          · rfl
        have ea : o[i]? = some r[i] := by rw [ih i le_rfl, List.getElem?_eq_getElem]
        have eb : o[i + 1]? = some (o[i + 1]'(by omega)) := List.getElem?_eq_getElem _
        have hf : Follows r r[i] r[i + 1] := ⟨i, by omega, List.getElem?_eq_getElem _, by
          rw [Nat.mod_eq_of_lt hlt]; exact List.getElem?_eq_getElem _⟩
        have hnew : r[i + 1] ∉ o.take (i + 1) := by
          rw [ht]
          intro hm
          obtain ⟨k, hk, e⟩ := List.getElem_of_mem hm
          rw [List.length_take] at hk
          rw [List.getElem_take] at e
          have := (List.Nodup.getElem_inj_iff hnd).1 e
          omega
        obtain ⟨hab, hb⟩ := hs i _ _ ea eb ⟨_, Or.inl hf, hnew⟩
        rw [eb]
        rcases hab with hab | ⟨k, hk, e1, e2⟩
        · rw [follows_unique hnd hab hf, List.getElem?_eq_getElem]
        · exfalso
          rw [List.getElem?_eq_getElem (Nat.mod_lt _ (by omega)), Option.some.injEq] at e2
          have e3 := (List.Nodup.getElem_inj_iff hnd).1 e2
          have hk' : k = i - 1 := by
            rcases Nat.lt_or_ge (k + 1) r.length with h | h
            · rw [Nat.mod_eq_of_lt h] at e3; omega
            · have : k + 1 = r.length := by omega
              rw [this, Nat.mod_self] at e3; omega
          apply hb
          rw [ht, List.mem_iff_getElem?]
          exact ⟨k, by rw [List.getElem?_take, if_pos (by omega)]; exact e1⟩
      · rw [List.getElem?_eq_none (by omega), List.getElem?_eq_none (by omega)]
  apply List.ext_getElem?
  intro i
  exact key i i le_rfl

/-- A walk round the trip of `p` that moves to a neighbour it has not been at, as long as there is one, writes the same trip
from another gene or in the other direction. -/
theorem walk_trip [DecidableEq G] {p o : List G} (hnd : p.Nodup) (hn : 2 ≤ p.length) (hl : o.length = p.length) (a₀ : G) (ha : a₀ ∈ p) (h0 : o[0]? = some a₀)
    (hs : ∀ i a b, o[i]? = some a → o[i + 1]? = some b → (∃ x, Adj p a x ∧ x ∉ o.take (i + 1)) → Adj p a b ∧ b ∉ o.take (i + 1)) :
    o ~r p ∨ o ~r p.reverse := by
  obtain ⟨u, v, rfl⟩ := List.append_of_mem ha
  have hrot : (a₀ :: (v ++ u)) ~r (u ++ a₀ :: v) := by
    have : (u ++ a₀ :: v) ~r ((a₀ :: v) ++ u) := List.isRotated_append
    simpa using this.symm
  have hndr : (a₀ :: (v ++ u)).Nodup := hrot.nodup_iff.2 hnd
  have hlr : (a₀ :: (v ++ u)).length = (u ++ a₀ :: v).length := hrot.perm.length_eq
  have hadj : ∀ x y, Adj (u ++ a₀ :: v) x y ↔ Adj (a₀ :: (v ++ u)) x y := by
    intro x y
    rw [adj_edge, adj_edge, tourEdges_rotated _ hrot]
  have hrev : (a₀ :: (v ++ u).reverse) ~r (a₀ :: (v ++ u)).reverse := by
    rw [List.reverse_cons]
    have : [a₀] ++ (v ++ u).reverse ~r (v ++ u).reverse ++ [a₀] := List.isRotated_append
    simpa using this
  simp only [hadj] at hs
  rw [← hlr] at hl hn
  have hback : (a₀ :: (v ++ u)).reverse ~r (u ++ a₀ :: v).reverse := hrot.reverse
  clear hadj hnd ha
  generalize v ++ u = t at *
  have hadj' : ∀ x y, Adj (a₀ :: t) x y ↔ Adj (a₀ :: t.reverse) x y := by
    intro x y
    rw [adj_edge, adj_edge, tourEdges_rotated _ hrev, tourEdges_whole _ fun _ _ => Sym2.eq_swap]
  have e1 : o[0 + 1]? = some (o[1]'(by omega)) := List.getElem?_eq_getElem (by omega)
  have hlen : 1 < (a₀ :: t).length := by omega
  have hfirst : Adj (a₀ :: t) a₀ (a₀ :: t)[1] := Or.inl ⟨0, by omega, rfl, by
    rw [Nat.mod_eq_of_lt (by omega)]; exact List.getElem?_eq_getElem _⟩
  have htake : o.take (0 + 1) = [a₀] := by
    cases o with
    | nil => simp at h0
    | cons x o => simp at h0; simp [h0]
  have hne : (a₀ :: t)[1] ∉ o.take (0 + 1) := by
    rw [htake, List.mem_singleton]
    intro e
    have := (List.Nodup.getElem_inj_iff hndr (hi := hlen) (hj := by omega) (j := 0)).1 (e.trans rfl)
    omega
  obtain ⟨hab, -⟩ := hs 0 a₀ _ h0 e1 ⟨_, hfirst, hne⟩
  rcases hab with hab | ⟨k, hk, h2, h3⟩
  · left
    have : o[1]? = (a₀ :: t)[1]? := by
      have hf : Follows (a₀ :: t) a₀ (a₀ :: t)[1] := ⟨0, by omega, rfl, by
        rw [Nat.mod_eq_of_lt (by omega)]; exact List.getElem?_eq_getElem _⟩
      rw [show o[1]? = o[0 + 1]? from rfl, e1, follows_unique hndr hab hf, List.getElem?_eq_getElem hlen]
    rw [walk_eq hndr hl (by rw [h0]; rfl) this hs]
    exact hrot
  · right
    have hk' : k + 1 = (a₀ :: t).length := by
      by_contra hc
      rw [Nat.mod_eq_of_lt (by omega), List.getElem?_eq_getElem (by omega), Option.some.injEq] at h3
      have := (List.Nodup.getElem_inj_iff hndr (i := k + 1) (hi := by omega) (j := 0) (hj := by omega)).1 (h3.trans rfl)
      omega
    have : o[1]? = (a₀ :: t.reverse)[1]? := by
      rw [show o[1]? = o[0 + 1]? from rfl, e1, ← h2]
      simp only [List.length_cons] at hk' hlen
      obtain ⟨m, rfl⟩ : ∃ m, k = m + 1 := ⟨k - 1, by omega⟩
      rw [List.getElem?_cons_succ, List.getElem?_cons_succ, List.getElem?_reverse (by omega)]
      congr 1
      omega
    simp only [hadj'] at hs
    rw [walk_eq (r := a₀ :: t.reverse) (hrev.nodup_iff.2 (List.nodup_reverse.2 hndr)) (by simpa using hl) (by rw [h0]; rfl) this hs]
    exact hrev.trans hback

end RG
