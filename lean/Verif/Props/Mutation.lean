import Verif.Proofs.Mutation
import Verif.Props.Random

/-!
# Properties C32–C37: mutation operators
-/

namespace RG.Props
open RG Prog
variable {G : Type}

/-- `g'` is `g` with the genes at the distinct positions `i` and `j` exchanged. -/
structure Swapped (g g' : List G) (i j : Nat) : Prop where
  ne : i ≠ j
  hi : i < g.length
  hj : j < g.length
  len : g'.length = g.length
  at_i : g'[i]? = g[j]?
  at_j : g'[j]? = g[i]?
  rest : ∀ k, k ≠ i → k ≠ j → g'[k]? = g[k]?

theorem swapped_iff (g g' : List G) (i j : Nat) (ne : i ≠ j) (hi : i < g.length) (hj : j < g.length) :
    Swapped g g' i j ↔ g' = exchanged g i j := by
  constructor
  · intro h
    apply List.ext_getElem?
    intro k
    rw [exchanged_getElem? g i j k hi hj]
    by_cases h1 : k = j
    · rw [if_pos h1, h1, h.at_j]
    · by_cases h2 : k = i
      · rw [if_neg h1, if_pos h2, h2, h.at_i]
      · rw [if_neg h1, if_neg h2, h.rest k h2 h1]
  · rintro rfl
    refine ⟨ne, hi, hj, by simp, ?_, ?_, ?_⟩
    · rw [exchanged_getElem? g i j i hi hj, if_neg ne, if_pos rfl]
    · rw [exchanged_getElem? g i j j hi hj, if_pos rfl]
    · intro k h1 h2; rw [exchanged_getElem? g i j k hi hj, if_neg h2, if_neg h1]

theorem nodup_getElem?_ne {g : List G} (hnd : g.Nodup) {i j : Nat} (hi : i < g.length) (ne : i ≠ j) :
    g[i]? ≠ g[j]? := by
  intro h
  by_cases hj : j < g.length
  · rw [List.getElem?_eq_getElem hi, List.getElem?_eq_getElem hj, Option.some.injEq, hnd.getElem_inj_iff] at h
    exact ne h
  · rw [List.getElem?_eq_getElem hi, List.getElem?_eq_none (by omega)] at h; cases h

/-! ### C32 -/

/-- **C32** The possible results of `swap_mutation` on two or more genes are exactly the genomes with two distinct
positions exchanged (no panic). -/
theorem C32_swap (g : List G) (hn : 2 ≤ g.length) (r : Res (List G)) :
    (swapMutation g).yields r ↔ ∃ g' i j, r = .ok g' ∧ Swapped g g' i j := by
  unfold swapMutation
  simp only [show ¬ g.length < 2 by omega, if_false]
  rw [yields_bind]
  simp only [yields_randomPair]
  constructor
  · rintro (⟨⟨i, j⟩, h1, h2⟩ | h | h)
    · rcases h1 with ⟨-, h⟩ | ⟨-, a, b, ha, hb, hab, h⟩
      · cases h
      cases h
      simp only [swapAt_eq g i j ha hb, lift_ok, yields_pure] at h2
      exact ⟨_, i, j, h2, (swapped_iff g _ i j hab ha hb).2 rfl⟩
    · rcases h with ⟨⟨h, -⟩ | ⟨-, _, _, _, _, _, h⟩, -⟩
      · omega
      · cases h
    · rcases h with ⟨⟨h, -⟩ | ⟨-, _, _, _, _, _, h⟩, -⟩
      · omega
      · cases h
  · rintro ⟨g', i, j, rfl, h⟩
    refine Or.inl ⟨(i, j), Or.inr ⟨hn, i, j, h.hi, h.hj, h.ne, rfl⟩, ?_⟩
    simp only [swapAt_eq g i j h.hi h.hj, lift_ok, yields_pure]
    rw [(swapped_iff g g' i j h.ne h.hi h.hj).1 h]

/-- **C32** For a genome without duplicates each of the `n (n-1) / 2` exchanges is equally likely. -/
theorem C32_swap_uniform [DecidableEq G] (g g' : List G) (hnd : g.Nodup) (i j : Nat) (h : Swapped g g' i j) :
    (swapMutation g).prob (· = g') = 2 / (g.length * (g.length - 1)) := by
  have hn : 2 ≤ g.length := by have := h.ne; have := h.hi; have := h.hj; omega
  have e : swapMutation g = (do
      let p ← randomPair g.length
      Prog.lift (swapAt g p.1 p.2)) := by
    unfold swapMutation; simp [show ¬ g.length < 2 by omega]
  have key : (swapMutation g).prob (· = g') =
      (randomPair g.length).prob (fun p => p = (i, j)) + (randomPair g.length).prob (fun p => p = (j, i)) := by
    rw [e]
    unfold prob
    rw [expect_bind, ← expect_add]
    refine expect_congr _ _ _ fun r hr => ?_
    rw [yields_randomPair] at hr
    rcases hr with ⟨h', -⟩ | ⟨-, a, b, ha, hb, hab, rfl⟩
    · omega
    simp only [swapAt_eq g a b ha hb, lift_ok, expect_pure]
    have hg' := (swapped_iff g g' i j h.ne h.hi h.hj).1 h
    by_cases h1 : (a, b) = (i, j)
    · have h2 : (a, b) ≠ (j, i) := by
        intro h2; rw [h1] at h2; exact h.ne (congrArg Prod.fst h2)
      rw [if_pos h1, if_neg h2]
      cases h1
      rw [if_pos hg'.symm, add_zero]
    · by_cases h2 : (a, b) = (j, i)
      · rw [if_neg h1, if_pos h2]
        have e1 : a = j := congrArg Prod.fst h2
        have e2 : b = i := congrArg Prod.snd h2
        subst e1 e2
        rw [exchanged_comm g a b ha hb, if_pos hg'.symm, zero_add]
      · rw [if_neg h1, if_neg h2, if_neg, add_zero]
        intro h3
        have h4 := (swapped_iff g g' a b hab ha hb).2 h3.symm
        -- the moved positions are determined by the result
        have m1 : a = i ∨ a = j := by
          by_contra hc
          push Not at hc
          exact nodup_getElem?_ne hnd ha hab ((h.rest a hc.1 hc.2).symm.trans h4.at_i)
        have m2 : b = i ∨ b = j := by
          by_contra hc
          push Not at hc
          exact nodup_getElem?_ne hnd hb (Ne.symm hab) ((h.rest b hc.1 hc.2).symm.trans h4.at_j)
        rcases m1 with rfl | rfl <;> rcases m2 with rfl | rfl <;> simp_all
  rw [key, C15_random_pair_uniform _ i j h.hi h.hj h.ne, C15_random_pair_uniform _ j i h.hj h.hi h.ne.symm]
  ring

/-- **C32** The result is a permutation of the genome. -/
theorem C32_swap_perm (g g' : List G) (i j : Nat) (h : Swapped g g' i j) : g'.Perm g := by
  rw [(swapped_iff g g' i j h.ne h.hi h.hj).1 h]; exact exchanged_perm _ _ _

/-- **C32** It differs from a duplicate-free original. -/
theorem C32_swap_differs (g g' : List G) (hnd : g.Nodup) (i j : Nat) (h : Swapped g g' i j) : g' ≠ g := by
  rintro rfl
  exact nodup_getElem?_ne hnd h.hi h.ne h.at_i

/-- The documentation's example (`mutation.rs:84-88`). -/
example : swapAt [0, 1, 2, 3, 4, 5, 6, 7, 8, 9] 2 6 = .ok [0, 1, 6, 3, 4, 5, 2, 7, 8, 9] := by decide +kernel
example : Swapped [5, 6, 7] [7, 6, 5] 0 2 := ⟨by decide, by decide, by decide, rfl, rfl, rfl, by
  intro k h1 h2; match k with | 0 => simp at h1 | 1 => rfl | 2 => simp at h2 | k + 3 => rfl⟩

/-! ### C33 -/

/-- **C33** The possible results of `scramble_mutation` on two or more genes are exactly the genomes obtained by
rearranging one window of length at least 2, in any way. -/
theorem C33_scramble (g : List G) (hn : 2 ≤ g.length) (r : Res (List G)) :
    (scrambleMutation g).yields r ↔ ∃ pre mid mid' post, g = pre ++ mid ++ post ∧ 2 ≤ mid.length ∧ mid'.Perm mid ∧
      r = .ok (pre ++ mid' ++ post) := by
  unfold scrambleMutation
  simp only [show ¬ g.length < 2 by omega, if_false]
  rw [yields_bind]
  simp only [yields_boundedRandomRange]
  constructor
  · rintro (⟨⟨s, e⟩, h1, h2⟩ | h | h)
    · rcases h1 with ⟨-, h⟩ | ⟨s', l, h3, h4, h5, h⟩
      · cases h
      cases h
      have hal : Always (fun g' => ∃ mid', mid'.Perm ((g.drop s).take (s + l - s)) ∧ g' = g.take s ++ mid' ++ g.drop (s + l))
          (onSlice g s (s + l) shuffle) := by
        rw [always_onSlice _ _ _ _ _ (by omega) h5]
        intro r hr
        obtain ⟨l', rfl, hp⟩ := (yields_shuffle _ _).1 hr
        exact ⟨l', rfl, l', hp, rfl⟩
      obtain ⟨g', rfl, mid', hp, rfl⟩ := hal r h2
      exact ⟨_, _, mid', _, slice_decomp g s (s + l) (by omega), by simp; omega, hp, rfl⟩
    · rcases h with ⟨⟨h, -⟩ | ⟨_, _, _, _, _, h⟩, -⟩
      · omega
      · cases h
    · rcases h with ⟨⟨h, -⟩ | ⟨_, _, _, _, _, h⟩, -⟩
      · omega
      · cases h
  · rintro ⟨pre, mid, mid', post, rfl, hm, hp, rfl⟩
    obtain ⟨s1, s2, s3⟩ := slice_of_decomp pre mid post
    refine Or.inl ⟨⟨pre.length, pre.length + mid.length⟩, Or.inr ⟨pre.length, mid.length, hm, by simp only [List.length_append]; omega, by simp only [List.length_append]; omega, rfl⟩, ?_⟩
    rw [yields_onSlice _ _ _ _ (by simp) (by simp only [List.length_append]; omega)]
    exact ⟨mid', (yields_shuffle _ _).2 ⟨mid', rfl, by rw [s2]; exact hp⟩, by rw [s1, s3]⟩

/-- **C33** Within the window all rearrangements of distinct genes are equally likely (`SliceRandom::shuffle`). -/
theorem C33_shuffle_uniform [DecidableEq G] (l l' : List G) (hnd : l.Nodup) (hp : l'.Perm l) :
    (shuffle l).prob (· = l') = 1 / (Nat.factorial l.length : ℚ) := prob_shuffle l l' hnd hp

/-- The documentation's example (`mutation.rs:120-124`). -/
example : (scrambleMutation [0, 1, 2, 3, 4, 5, 6, 7, 8, 9]).yields (.ok [0, 5, 6, 1, 2, 3, 4, 7, 8, 9]) :=
  (C33_scramble _ (by decide) _).2 ⟨[0], [1, 2, 3, 4, 5, 6], [5, 6, 1, 2, 3, 4], [7, 8, 9], rfl, by decide, by decide, rfl⟩

/-! ### C34 -/

/-- **C34** The possible results of `inversion_mutation` on two or more genes are exactly the genomes with one window of
length at least 2 reversed. -/
theorem C34_inversion (g : List G) (hn : 2 ≤ g.length) (r : Res (List G)) :
    (inversionMutation g).yields r ↔ ∃ pre mid post, g = pre ++ mid ++ post ∧ 2 ≤ mid.length ∧
      r = .ok (pre ++ mid.reverse ++ post) := by
  unfold inversionMutation
  simp only [show ¬ g.length < 2 by omega, if_false]
  rw [yields_bind]
  simp only [yields_boundedRandomRange]
  constructor
  · rintro (⟨⟨s, e⟩, h1, h2⟩ | h | h)
    · rcases h1 with ⟨-, h⟩ | ⟨s', l, h3, h4, h5, h⟩
      · cases h
      cases h
      have hal : Always (fun g' => g' = g.take s ++ ((g.drop s).take (s + l - s)).reverse ++ g.drop (s + l))
          (onSlice g s (s + l) fun l => pure l.reverse) := by
        rw [always_onSlice _ _ _ _ _ (by omega) h5]
        simp
      obtain ⟨g', rfl, rfl⟩ := hal r h2
      exact ⟨_, _, _, slice_decomp g s (s + l) (by omega), by simp; omega, rfl⟩
    · rcases h with ⟨⟨h, -⟩ | ⟨_, _, _, _, _, h⟩, -⟩
      · omega
      · cases h
    · rcases h with ⟨⟨h, -⟩ | ⟨_, _, _, _, _, h⟩, -⟩
      · omega
      · cases h
  · rintro ⟨pre, mid, post, rfl, hm, rfl⟩
    obtain ⟨s1, s2, s3⟩ := slice_of_decomp pre mid post
    refine Or.inl ⟨⟨pre.length, pre.length + mid.length⟩, Or.inr ⟨pre.length, mid.length, hm, by simp only [List.length_append]; omega, by simp only [List.length_append]; omega, rfl⟩, ?_⟩
    rw [yields_onSlice _ _ _ _ (by simp) (by simp only [List.length_append]; omega)]
    exact ⟨mid.reverse, by rw [s2]; rfl, by rw [s1, s3]⟩

/-- **C34** It differs from a duplicate-free original. -/
theorem C34_inversion_differs (g g' : List G) (hn : 2 ≤ g.length) (hnd : g.Nodup)
    (h : (inversionMutation g).yields (.ok g')) : g' ≠ g := by
  obtain ⟨pre, mid, post, rfl, hm, he⟩ := (C34_inversion g hn _).1 h
  cases he
  intro hc
  have h1 : mid.reverse = mid := by
    have := List.append_cancel_right hc
    exact List.append_cancel_left this
  have hmn : mid.Nodup := (List.nodup_append.1 (List.nodup_append.1 hnd).1).2.1
  have h2 : mid[0]? = mid[mid.length - 1]? := by
    conv_lhs => rw [← h1]
    rw [List.getElem?_reverse (by omega)]
    congr 1
  exact nodup_getElem?_ne hmn (by omega) (by omega) h2

/-- The documentation's example (`mutation.rs:157-161`). -/
example : (inversionMutation [0, 1, 2, 3, 4, 5, 6, 7, 8, 9]).yields (.ok [0, 6, 5, 4, 3, 2, 1, 7, 8, 9]) :=
  (C34_inversion _ (by decide) _).2 ⟨[0], [1, 2, 3, 4, 5, 6], [7, 8, 9], rfl, by decide, rfl⟩

/-! ### C35 -/

theorem insertion_step (g : List G) (a b : Nat) (ha : a < g.length) (hb : b < g.length) (hab : a ≠ b) :
    (onSlice g (if a > b then (b, a) else (a, b)).1 ((if a > b then (b, a) else (a, b)).2 + 1)
      fun l => Prog.lift (rotateRight1 l)) =
      pure ((g.eraseIdx (max a b)).insertIdx (min a b) (g[max a b]'(by omega))) := by
  have key : ∀ i j (hij : i < j) (hj : j < g.length), (onSlice g i (j + 1) fun l => Prog.lift (rotateRight1 l)) =
      pure ((g.eraseIdx j).insertIdx i g[j]) := by
    intro i j hij hj
    obtain ⟨hne, he⟩ := rotate_eq_move g i j hij hj
    unfold onSlice
    rw [if_pos ⟨by omega, by omega⟩]
    simp only [rotateRight1_eq _ hne, lift_ok, bind_pure_left]
    rw [he]
  by_cases h : a > b
  · simp only [h, if_true, Nat.max_eq_left (Nat.le_of_lt h), Nat.min_eq_right (Nat.le_of_lt h)]
    exact key b a h ha
  · have h' : a < b := by omega
    simp only [h, if_false, Nat.max_eq_right (Nat.le_of_lt h'), Nat.min_eq_left (Nat.le_of_lt h')]
    exact key a b h' hb

theorem insertion_eq (g : List G) (hn : 2 ≤ g.length) : insertionMutation g = (do
    let p ← randomPair g.length
    onSlice g (if p.1 > p.2 then (p.2, p.1) else (p.1, p.2)).1 ((if p.1 > p.2 then (p.2, p.1) else (p.1, p.2)).2 + 1)
      fun l => Prog.lift (rotateRight1 l)) := by
  unfold insertionMutation; simp only [show ¬ g.length < 2 by omega, if_false]

/-- **C35** The possible results of `insertion_mutation` on two or more genes are exactly the genomes in which the gene
at some position `j` has been removed and re-inserted at an earlier position `i`. -/
theorem C35_insertion (g : List G) (hn : 2 ≤ g.length) (r : Res (List G)) :
    (insertionMutation g).yields r ↔ ∃ i j, ∃ (_ : i < j) (hj : j < g.length),
      r = .ok ((g.eraseIdx j).insertIdx i g[j]) := by
  rw [insertion_eq g hn, yields_bind]
  simp only [yields_randomPair]
  constructor
  · rintro (⟨⟨a, b⟩, h1, h2⟩ | h | h)
    · rcases h1 with ⟨-, h⟩ | ⟨-, a, b, ha, hb, hab, h⟩
      · cases h
      cases h
      rw [insertion_step g a b ha hb hab] at h2
      exact ⟨min a b, max a b, by omega, by omega, h2⟩
    · rcases h with ⟨⟨h, -⟩ | ⟨-, _, _, _, _, _, h⟩, -⟩
      · omega
      · cases h
    · rcases h with ⟨⟨h, -⟩ | ⟨-, _, _, _, _, _, h⟩, -⟩
      · omega
      · cases h
  · rintro ⟨i, j, hij, hj, rfl⟩
    refine Or.inl ⟨(i, j), Or.inr ⟨hn, i, j, by omega, hj, by omega, rfl⟩, ?_⟩
    rw [insertion_step g i j (by omega) hj (by omega)]
    simp only [Nat.max_eq_right (Nat.le_of_lt hij), Nat.min_eq_left (Nat.le_of_lt hij)]
    rfl

theorem moved_getElem? (g : List G) (i j : Nat) (hij : i < j) (hj : j < g.length) :
    ((g.eraseIdx j).insertIdx i g[j])[i]? = g[j]? ∧
      ∀ k, k < i → ((g.eraseIdx j).insertIdx i g[j])[k]? = g[k]? := by
  have hlen : i ≤ (g.eraseIdx j).length := by rw [List.length_eraseIdx]; split <;> omega
  constructor
  · rw [List.getElem?_insertIdx_self, if_pos hlen, List.getElem?_eq_getElem hj]
  · intro k hk
    rw [List.getElem?_insertIdx_of_lt hk, List.getElem?_eraseIdx_of_lt (by omega)]

/-- **C35** For a genome without duplicates each move `(i, j)` with `i < j` is equally likely. -/
theorem C35_insertion_uniform [DecidableEq G] (g : List G) (hnd : g.Nodup) (i j : Nat) (hij : i < j) (hj : j < g.length) :
    (insertionMutation g).prob (· = (g.eraseIdx j).insertIdx i g[j]) = 2 / (g.length * (g.length - 1)) := by
  have hn : 2 ≤ g.length := by omega
  have key : (insertionMutation g).prob (· = (g.eraseIdx j).insertIdx i g[j]) =
      (randomPair g.length).prob (fun p => p = (i, j)) + (randomPair g.length).prob (fun p => p = (j, i)) := by
    rw [insertion_eq g hn]
    unfold prob
    rw [expect_bind, ← expect_add]
    refine expect_congr _ _ _ fun r hr => ?_
    rw [yields_randomPair] at hr
    rcases hr with ⟨h', -⟩ | ⟨-, a, b, ha, hb, hab, rfl⟩
    · omega
    simp only [insertion_step g a b ha hb hab, expect_pure]
    by_cases h1 : (a, b) = (i, j)
    · have h2 : (a, b) ≠ (j, i) := by
        intro h2; rw [h1] at h2; have := congrArg Prod.fst h2; simp at this; omega
      rw [if_pos h1, if_neg h2]
      cases h1
      simp [Nat.max_eq_right (Nat.le_of_lt hij), Nat.min_eq_left (Nat.le_of_lt hij)]
    · by_cases h2 : (a, b) = (j, i)
      · rw [if_neg h1, if_pos h2]
        cases h2
        simp [Nat.max_eq_left (Nat.le_of_lt hij), Nat.min_eq_right (Nat.le_of_lt hij)]
      · rw [if_neg h1, if_neg h2, if_neg, add_zero]
        intro h3
        obtain ⟨p1, p2⟩ := moved_getElem? g i j hij hj
        obtain ⟨q1, q2⟩ := moved_getElem? g (min a b) (max a b) (by omega) (by omega)
        rw [h3] at q1 q2
        have e1 : min a b = i := by
          rcases Nat.lt_trichotomy (min a b) i with h | h | h
          · exact absurd ((p2 _ h).symm.trans q1) (nodup_getElem?_ne hnd (by omega) (by omega))
          · exact h
          · exact absurd ((q2 _ h).symm.trans p1) (nodup_getElem?_ne hnd (by omega) (by omega))
        rw [e1, p1] at q1
        have e2 : j = max a b := by
          by_contra hne
          exact nodup_getElem?_ne hnd hj hne q1
        have h1' : ¬ (a = i ∧ b = j) := fun h => h1 (by rw [h.1, h.2])
        have h2' : ¬ (a = j ∧ b = i) := fun h => h2 (by rw [h.1, h.2])
        omega
  rw [key, C15_random_pair_uniform _ i j (by omega) hj (by omega), C15_random_pair_uniform _ j i hj (by omega) (by omega)]
  ring

/-- **C35** The result is a permutation of the genome. -/
theorem C35_insertion_perm (g g' : List G) (hn : 2 ≤ g.length) (h : (insertionMutation g).yields (.ok g')) : g'.Perm g := by
  obtain ⟨i, j, hij, hj, he⟩ := (C35_insertion g hn _).1 h
  cases he
  have hlen : i ≤ (g.eraseIdx j).length := by rw [List.length_eraseIdx]; split <;> omega
  exact (List.perm_insertIdx _ _ hlen).trans (List.getElem_cons_eraseIdx_perm hj)

/-- **C35** (limit of the operator) A gene is never moved more than one place towards the end: for a duplicate-free
genome, whatever position `a` a gene had, its new position is at most `a + 1`. In particular the first gene can never be
moved to the last place of a genome of three or more genes. -/
theorem C35_insertion_only_earlier (g g' : List G) (hn : 2 ≤ g.length) (hnd : g.Nodup)
    (h : (insertionMutation g).yields (.ok g')) (a b : Nat) (x : G) (ha : g[a]? = some x) (hb : g'[b]? = some x) :
    b ≤ a + 1 := by
  have hperm := C35_insertion_perm g g' hn h
  have hnd' : g'.Nodup := hperm.nodup_iff.2 hnd
  obtain ⟨i, j, hij, hj, he⟩ := (C35_insertion g hn _).1 h
  cases he
  have hlen : i ≤ (g.eraseIdx j).length := by rw [List.length_eraseIdx]; split <;> omega
  -- where the gene from position `a` goes
  have place : ∃ c, c ≤ a + 1 ∧ ((g.eraseIdx j).insertIdx i g[j])[c]? = some x := by
    by_cases h1 : a = j
    · subst h1
      exact ⟨i, by omega, by rw [(moved_getElem? g i a hij hj).1, ha]⟩
    · by_cases h2 : a < i
      · exact ⟨a, by omega, by rw [(moved_getElem? g i j hij hj).2 a h2, ha]⟩
      · by_cases h3 : a < j
        · refine ⟨a + 1, le_rfl, ?_⟩
          rw [List.getElem?_insertIdx_of_gt (by omega), Nat.add_sub_cancel, List.getElem?_eraseIdx_of_lt h3, ha]
        · refine ⟨a, by omega, ?_⟩
          rw [List.getElem?_insertIdx_of_gt (by omega), List.getElem?_eraseIdx_of_ge (by omega),
            Nat.sub_add_cancel (by omega), ha]
  obtain ⟨c, hc, hce⟩ := place
  by_contra hcon
  have hblt : b < ((g.eraseIdx j).insertIdx i g[j]).length := by
    by_contra hh; rw [List.getElem?_eq_none (by omega)] at hb; cases hb
  exact nodup_getElem?_ne hnd' (i := b) (j := c) hblt (by omega) (hb.trans hce.symm)

/-- The documentation's example (`mutation.rs:194-198`). -/
example : (insertionMutation [0, 1, 2, 3, 4, 5, 6, 7, 8, 9]).yields (.ok [0, 1, 6, 2, 3, 4, 5, 7, 8, 9]) :=
  (C35_insertion _ (by decide) _).2 ⟨2, 6, by decide, by decide, by decide⟩

/-! ### C36 -/

/-- `g'` differs from `g` at most at `b`, where it holds `g`'s gene of position `a ≠ b`. -/
structure CopiedOver (g g' : List G) (a b : Nat) : Prop where
  ne : a ≠ b
  ha : a < g.length
  hb : b < g.length
  len : g'.length = g.length
  at_b : g'[b]? = g[a]?
  rest : ∀ k, k ≠ b → g'[k]? = g[k]?

theorem copiedOver_iff (g g' : List G) (a b : Nat) (ne : a ≠ b) (ha : a < g.length) (hb : b < g.length) :
    CopiedOver g g' a b ↔ g' = g.set b g[a] := by
  constructor
  · intro h
    apply List.ext_getElem?
    intro k
    by_cases hk : k = b
    · subst hk; rw [h.at_b, List.getElem?_set_self hb, List.getElem?_eq_getElem ha]
    · rw [h.rest k hk, List.getElem?_set_ne (Ne.symm hk)]
  · rintro rfl
    refine ⟨ne, ha, hb, by simp, ?_, fun k hk => by rw [List.getElem?_set_ne (Ne.symm hk)]⟩
    rw [List.getElem?_set_self hb, List.getElem?_eq_getElem ha]

/-- **C36** The possible results of `duplicate_mutation` on two or more genes are exactly the genomes with one gene
copied over another position. -/
theorem C36_duplicate (g : List G) (hn : 2 ≤ g.length) (r : Res (List G)) :
    (duplicateMutation g).yields r ↔ ∃ g' a b, r = .ok g' ∧ CopiedOver g g' a b := by
  unfold duplicateMutation
  simp only [show ¬ g.length < 2 by omega, if_false]
  rw [yields_bind]
  simp only [yields_randomPair]
  constructor
  · rintro (⟨⟨a, b⟩, h1, h2⟩ | h | h)
    · rcases h1 with ⟨-, h⟩ | ⟨-, a, b, ha, hb, hab, h⟩
      · cases h
      cases h
      simp only [List.getElem?_eq_getElem ha, Res.ofOption_some, lift_ok, bind_pure_left, hb, if_true, yields_pure] at h2
      exact ⟨_, a, b, h2, (copiedOver_iff g _ a b hab ha hb).2 rfl⟩
    · rcases h with ⟨⟨h, -⟩ | ⟨-, _, _, _, _, _, h⟩, -⟩
      · omega
      · cases h
    · rcases h with ⟨⟨h, -⟩ | ⟨-, _, _, _, _, _, h⟩, -⟩
      · omega
      · cases h
  · rintro ⟨g', a, b, rfl, h⟩
    refine Or.inl ⟨(a, b), Or.inr ⟨hn, a, b, h.ha, h.hb, h.ne, rfl⟩, ?_⟩
    simp only [List.getElem?_eq_getElem h.ha, Res.ofOption_some, lift_ok, bind_pure_left, h.hb, if_true, yields_pure]
    exact congrArg Res.ok ((copiedOver_iff g g' a b h.ne h.ha h.hb).1 h)

/-- The documentation's example (`mutation.rs:234-238`). -/
example : (duplicateMutation ['G', 'T', 'A', 'G', 'C']).yields (.ok ['G', 'T', 'A', 'A', 'C']) :=
  (C36_duplicate _ (by decide) _).2 ⟨_, 2, 3, rfl, (copiedOver_iff _ _ 2 3 (by decide) (by decide) (by decide)).2 rfl⟩

/-! ### C37 -/

/-- **C37** No mutation strategy ever panics or changes the genome length. -/
theorem C37_length (s : MutationStrategy) (g : List G) : Always (fun g' => g'.length = g.length) (s.mutate g) := by
  by_cases hn : g.length < 2
  · cases s <;> simp [MutationStrategy.mutate, swapMutation, scrambleMutation, inversionMutation, insertionMutation,
      duplicateMutation, hn]
  · have hn' : 2 ≤ g.length := by omega
    intro r hr
    cases s with
    | swap => obtain ⟨g', i, j, rfl, h⟩ := (C32_swap g hn' r).1 hr; exact ⟨g', rfl, h.len⟩
    | scramble =>
      obtain ⟨pre, mid, mid', post, rfl, -, hp, rfl⟩ := (C33_scramble g hn' r).1 hr
      exact ⟨_, rfl, by simp [hp.length_eq]⟩
    | inversion =>
      obtain ⟨pre, mid, post, rfl, -, rfl⟩ := (C34_inversion g hn' r).1 hr
      exact ⟨_, rfl, by simp⟩
    | insertion =>
      obtain ⟨i, j, hij, hj, rfl⟩ := (C35_insertion g hn' r).1 hr
      exact ⟨_, rfl, (C35_insertion_perm g _ hn' hr).length_eq⟩
    | duplicate => obtain ⟨g', i, j, rfl, h⟩ := (C36_duplicate g hn' r).1 hr; exact ⟨g', rfl, h.len⟩

/-- **C37** Fewer than two genes: nothing changes (and no random number is drawn). -/
theorem C37_short (s : MutationStrategy) (g : List G) (hn : g.length < 2) : s.mutate g = pure g := by
  cases s <;> simp [MutationStrategy.mutate, swapMutation, scrambleMutation, inversionMutation, insertionMutation,
      duplicateMutation, hn]

/-- **C37** Every strategy but `Duplicate` yields a permutation of the original. -/
theorem C37_permutation (s : MutationStrategy) (hs : s ≠ .duplicate) (g : List G) :
    Always (fun g' => g'.Perm g) (s.mutate g) := by
  by_cases hn : g.length < 2
  · rw [C37_short s g hn]; simp
  · have hn' : 2 ≤ g.length := by omega
    intro r hr
    cases s with
    | swap => obtain ⟨g', i, j, rfl, h⟩ := (C32_swap g hn' r).1 hr; exact ⟨g', rfl, C32_swap_perm g g' i j h⟩
    | scramble =>
      obtain ⟨pre, mid, mid', post, rfl, -, hp, rfl⟩ := (C33_scramble g hn' r).1 hr
      exact ⟨_, rfl, (hp.append_left pre).append_right post⟩
    | inversion =>
      obtain ⟨pre, mid, post, rfl, -, rfl⟩ := (C34_inversion g hn' r).1 hr
      exact ⟨_, rfl, ((List.reverse_perm mid).append_left pre).append_right post⟩
    | insertion =>
      obtain ⟨i, j, hij, hj, rfl⟩ := (C35_insertion g hn' r).1 hr
      exact ⟨_, rfl, C35_insertion_perm g _ hn' hr⟩
    | duplicate => exact absurd rfl hs

/-- `Duplicate` does not: from a duplicate-free genome it never gives a permutation. -/
theorem C37_duplicate_not_permutation (g : List G) (hn : 2 ≤ g.length) (hnd : g.Nodup) :
    Always (fun g' => ¬ g'.Perm g) (MutationStrategy.duplicate.mutate g) := by
  intro r hr
  obtain ⟨g', a, b, rfl, h⟩ := (C36_duplicate g hn r).1 hr
  refine ⟨g', rfl, fun hp => ?_⟩
  have hnd' : g'.Nodup := hp.nodup_iff.2 hnd
  exact nodup_getElem?_ne hnd' (i := b) (j := a) (by rw [h.len]; exact h.hb) h.ne.symm
    (h.at_b.trans (h.rest a h.ne).symm)

end RG.Props
