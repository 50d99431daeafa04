import Verif.Crossover
import Verif.Proofs.Neighbors
import Verif.Proofs.Random
import Mathlib.Data.List.Perm.Basic
import Mathlib.Data.List.Perm.Subperm
import Mathlib.Data.List.Nodup

/-! Helper lemmas: `swap_remove`, positions, GPX2. -/

namespace RG
open Prog
set_option linter.unusedSectionVars false
variable {G : Type}

theorem swapRemove_ok {T : Type} (v : List T) (i : Nat) (hi : i < v.length) :
    ∃ rest, swapRemove v i = .ok (v[i], rest) ∧ (v[i] :: rest).Perm v := by
  have hne : v ≠ [] := by rintro rfl; simp at hi
  refine ⟨(v.set i (v.getLast hne)).dropLast, ?_, ?_⟩
  · unfold swapRemove
    rw [List.getElem?_eq_getElem hi, List.getLast?_eq_getLast_of_ne_nil hne]
  · rcases List.eq_nil_or_concat v with h | ⟨init, last, h⟩
    · exact absurd h hne
    · rw [List.concat_eq_append] at h
      subst h
      simp only [List.getLast_append_of_ne_nil, List.getLast_singleton, ne_eq, List.cons_ne_self, not_false_eq_true]
      by_cases h : i < init.length
      · rw [List.set_append_left _ _ h, List.dropLast_concat, List.getElem_append_left h,
          List.set_eq_take_append_cons_drop, if_pos h]
        have e : init = init.take i ++ init[i] :: init.drop (i + 1) := by simp
        have h1 : (init[i] :: (init.take i ++ last :: init.drop (i + 1))).Perm
            (init[i] :: last :: (init.take i ++ init.drop (i + 1))) := (List.perm_middle).cons _
        have h2 : (init ++ [last]).Perm (last :: init) := List.perm_append_singleton _ _
        have h3 : init.Perm (init[i] :: (init.take i ++ init.drop (i + 1))) := by
          conv_lhs => rw [e]
          exact List.perm_middle
        exact h1.trans ((List.Perm.swap _ _ _).trans ((h3.symm.cons last).trans h2.symm))
      · have hi' : i = init.length := by simp at hi; omega
        subst hi'
        simp only [List.getElem_concat_length]
        rw [List.set_append_right _ _ (le_refl _)]
        simp only [Nat.sub_self, List.set_cons_zero, List.dropLast_concat]
        exact (List.perm_append_singleton _ _).symm

theorem swapRemove_panic {T : Type} (v : List T) (i : Nat) (hi : v.length ≤ i) : swapRemove v i = .panic := by
  unfold swapRemove; rw [List.getElem?_eq_none hi]

variable [DecidableEq G]

theorem findPosition_some {x : G} {l : List G} {i : Nat} (h : findPosition x l = some i) :
    ∃ hi : i < l.length, l[i] = x := by
  unfold findPosition at h
  rw [List.findIdx?_eq_some_iff_getElem] at h
  obtain ⟨hi, h1, -⟩ := h
  exact ⟨hi, by simpa using h1⟩

theorem findPosition_none {x : G} {l : List G} : findPosition x l = none ↔ x ∉ l := by
  unfold findPosition
  rw [List.findIdx?_eq_none_iff]
  constructor
  · intro h hx; simpa using h x hx
  · intro h y hy; simp; rintro rfl; exact h hy

theorem findPosition_mem {x : G} {l : List G} (h : x ∈ l) : ∃ i, findPosition x l = some i := by
  cases e : findPosition x l with
  | none => exact absurd h (findPosition_none.1 e)
  | some i => exact ⟨i, rfl⟩

theorem findPosition_nodup {l : List G} (hnd : l.Nodup) (i : Nat) (hi : i < l.length) :
    findPosition l[i] l = some i := by
  obtain ⟨j, hj⟩ := findPosition_mem (List.getElem_mem hi)
  obtain ⟨hj', he⟩ := findPosition_some hj
  rw [hj, (hnd.getElem_inj_iff).1 he]

theorem perm_of_nodup {l m : List G} (hnd : l.Nodup) (hsub : ∀ x ∈ l, x ∈ m) (hlen : m.length ≤ l.length) :
    l.Perm m := (List.subperm_of_subset hnd hsub).perm_of_length_le hlen

/-- What GPX2 keeps: the offspring is the concatenation of the partitions in some order. -/
theorem gpx2Loop_spec {S : Type} (sel : S → Option G → List (List G) → Prog (Nat × S))
    (hsel : ∀ s last (ps : List (List G)), ps ≠ [] → Always (fun r => r.1 < ps.length) (sel s last ps))
    (fuel : Nat) (s : S) (off : List G) (parts : List (List G)) (hf : parts.length ≤ fuel)
    (hne : ∀ p ∈ parts, p ≠ []) (hnd : parts.flatten.Nodup) :
    Always (fun r => ∃ order : List (List G), order.Perm parts ∧ r = off ++ order.flatten)
      (gpx2Loop sel fuel s off parts) := by
  induction fuel generalizing s off parts with
  | zero =>
    have : parts = [] := List.length_eq_zero_iff.1 (by omega)
    subst this
    simp only [gpx2Loop, always_pure]
    exact ⟨[], List.Perm.refl _, by simp⟩
  | succ fuel ih =>
    cases parts with
    | nil =>
      simp only [gpx2Loop, always_pure]
      exact ⟨[], List.Perm.refl _, by simp⟩
    | cons p ps =>
      unfold gpx2Loop
      rw [always_bind]
      refine (hsel s off.getLast? (p :: ps) (by simp)).mono fun r hr => ?_
      obtain ⟨i, s'⟩ := r
      obtain ⟨rest, he, hp⟩ := swapRemove_ok (p :: ps) i hr
      rw [always_bind, he]
      simp only [lift_ok, always_pure]
      set q := (p :: ps)[i] with hq
      have hflat : (q ++ rest.flatten).Nodup := by
        have := (hp.flatten).nodup_iff.2 hnd
        simpa using this
      have hsame : (rest.map fun other => other.filter fun g => decide (g ∉ q)) = rest := by
        conv_rhs => rw [← List.map_id rest]
        refine List.map_congr_left fun other ho => ?_
        rw [id, List.filter_eq_self]
        intro g hg
        have : g ∉ q := fun hgq => by
          have := (List.nodup_append.1 hflat).2.2 g hgq g (List.mem_flatten.2 ⟨other, ho, hg⟩)
          exact this rfl
        simpa using this
      have hmem : ∀ o ∈ rest, o ≠ [] := fun o ho => hne o (hp.mem_iff.1 (List.mem_cons_of_mem _ ho))
      have hkeep : (rest.filter fun p => !p.isEmpty) = rest := by
        rw [List.filter_eq_self]
        intro o ho
        have := hmem o ho
        cases o <;> simp_all
      rw [hsame, hkeep]
      have hlen := hp.length_eq
      simp only [List.length_cons] at hlen hf
      refine (ih s' (off ++ q) rest (by omega) hmem (List.nodup_append.1 hflat).2.1).mono ?_
      rintro r ⟨order, ho, rfl⟩
      exact ⟨q :: order, (ho.cons q).trans hp, by simp⟩

/-- Any order is possible when the selector can give any index. -/
theorem gpx2Loop_any {S : Type} (sel : S → Option G → List (List G) → Prog (Nat × S))
    (hsel : ∀ s last (ps : List (List G)) i, i < ps.length → ∃ s', (sel s last ps).yields (.ok (i, s')))
    (fuel : Nat) (s : S) (off : List G) (parts : List (List G)) (hf : parts.length ≤ fuel)
    (hne : ∀ p ∈ parts, p ≠ []) (hnd : parts.flatten.Nodup) (order : List (List G)) (ho : order.Perm parts) :
    (gpx2Loop sel fuel s off parts).yields (.ok (off ++ order.flatten)) := by
  induction fuel generalizing s off parts order with
  | zero =>
    have : parts = [] := List.length_eq_zero_iff.1 (by omega)
    subst this
    have := ho.eq_nil
    subst this
    simp [gpx2Loop]
  | succ fuel ih =>
    cases order with
    | nil =>
      have := ho.symm.eq_nil
      subst this
      simp [gpx2Loop]
    | cons q order =>
      cases parts with
      | nil => have := ho.eq_nil; cases this
      | cons p ps =>
        unfold gpx2Loop
        have hmemq : q ∈ p :: ps := ho.mem_iff.1 (by simp)
        obtain ⟨i, hi, hiq⟩ := List.getElem_of_mem hmemq
        obtain ⟨s', hs'⟩ := hsel s off.getLast? (p :: ps) i hi
        rw [yields_bind_ok]
        refine ⟨(i, s'), hs', ?_⟩
        obtain ⟨rest, he, hp⟩ := swapRemove_ok (p :: ps) i hi
        simp only [he, lift_ok, bind_pure_left]
        rw [hiq] at hp ⊢
        have hflat : (q ++ rest.flatten).Nodup := by
          have := (hp.flatten).nodup_iff.2 hnd
          simpa using this
        have hsame : (rest.map fun other => other.filter fun g => decide (g ∉ q)) = rest := by
          conv_rhs => rw [← List.map_id rest]
          refine List.map_congr_left fun other ho => ?_
          rw [id, List.filter_eq_self]
          intro g hg
          have : g ∉ q := fun hgq => by
            have := (List.nodup_append.1 hflat).2.2 g hgq g (List.mem_flatten.2 ⟨other, ho, hg⟩)
            exact this rfl
          simpa using this
        have hmem : ∀ o ∈ rest, o ≠ [] := fun o ho => hne o (hp.mem_iff.1 (List.mem_cons_of_mem _ ho))
        have hkeep : (rest.filter fun p => !p.isEmpty) = rest := by
          rw [List.filter_eq_self]
          intro o ho
          have := hmem o ho
          cases o <;> simp_all
        rw [hsame, hkeep]
        have hlen := hp.length_eq
        simp only [List.length_cons] at hlen hf
        have := ih s' (off ++ q) rest (by omega) hmem (List.nodup_append.1 hflat).2.1 order
          ((List.perm_cons q).1 (ho.trans hp.symm))
        simpa using this

end RG
