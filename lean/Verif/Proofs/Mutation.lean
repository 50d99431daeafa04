import Verif.Mutation
import Verif.Proofs.Random
import Mathlib.Data.List.Perm.Basic
import Mathlib.Data.List.Nodup
import Mathlib.Data.Nat.Factorial.Basic

/-! Helper lemmas about mutation operators. -/

namespace RG
open Prog
variable {G : Type}

/-- The list with the genes at `i` and `j` exchanged (unchanged when out of bounds). -/
def exchanged (l : List G) (i j : Nat) : List G :=
  match l[i]?, l[j]? with
  | some a, some b => (l.set i b).set j a
  | _, _ => l

theorem swapAt_eq (l : List G) (i j : Nat) (hi : i < l.length) (hj : j < l.length) :
    swapAt l i j = .ok (exchanged l i j) := by
  unfold swapAt exchanged
  rw [List.getElem?_eq_getElem hi, List.getElem?_eq_getElem hj]

@[simp] theorem exchanged_length (l : List G) (i j : Nat) : (exchanged l i j).length = l.length := by
  unfold exchanged; split <;> simp

theorem exchanged_getElem? (l : List G) (i j k : Nat) (hi : i < l.length) (hj : j < l.length) :
    (exchanged l i j)[k]? = if k = j then l[i]? else if k = i then l[j]? else l[k]? := by
  unfold exchanged
  rw [List.getElem?_eq_getElem hi, List.getElem?_eq_getElem hj]
  simp only [List.getElem?_set, List.length_set]
  by_cases h1 : j = k
  · subst h1; simp [hj]
  · have : k ≠ j := fun h => h1 h.symm
    simp only [h1, if_false, this]
    by_cases h2 : i = k
    · subst h2; simp [hi]
    · have : k ≠ i := fun h => h2 h.symm
      simp [h2, this]

theorem exchanged_comm (l : List G) (i j : Nat) (hi : i < l.length) (hj : j < l.length) :
    exchanged l i j = exchanged l j i := by
  apply List.ext_getElem?
  intro k
  rw [exchanged_getElem? l i j k hi hj, exchanged_getElem? l j i k hj hi]
  by_cases h1 : k = j
  · by_cases h2 : k = i
    · rw [if_pos h1, if_pos h2, ← h1, ← h2]
    · rw [if_pos h1, if_neg h2, if_pos h1]
  · by_cases h2 : k = i
    · rw [if_neg h1, if_pos h2, if_pos h2]
    · rw [if_neg h1, if_neg h2, if_neg h2, if_neg h1]

theorem exchanged_perm (l : List G) (i j : Nat) : (exchanged l i j).Perm l := by
  by_cases hij : i < l.length ∧ j < l.length
  · obtain ⟨hi, hj⟩ := hij
    unfold exchanged
    rw [List.getElem?_eq_getElem hi, List.getElem?_eq_getElem hj]
    exact List.set_set_perm hi hj
  · unfold exchanged
    rcases not_and_or.1 hij with h | h
    · rw [List.getElem?_eq_none (by omega)]
    · rw [List.getElem?_eq_none (l := l) (i := j) (by omega)]
      split
      · simp_all
      · rfl

/-! ### shuffle -/

theorem drop_eq_of_getElem? {l l' : List G} {k : Nat} (h : ∀ i, k ≤ i → l[i]? = l'[i]?) : l.drop k = l'.drop k := by
  apply List.ext_getElem?
  intro i
  rw [List.getElem?_drop, List.getElem?_drop]
  exact h _ (by omega)

theorem getElem?_of_drop_eq {l l' : List G} {k : Nat} (h : l.drop k = l'.drop k) (i : Nat) (hi : k ≤ i) :
    l[i]? = l'[i]? := by
  have := congrArg (fun m => m[i - k]?) h
  simp only [List.getElem?_drop] at this
  rwa [Nat.add_sub_cancel' hi] at this

theorem yields_shuffleLoop (i : Nat) (l : List G) (hi : i < l.length ∨ i = 0) (r : Res (List G)) :
    (shuffleLoop i l).yields r ↔ ∃ l', r = .ok l' ∧ l'.Perm l ∧ l'.drop (i + 1) = l.drop (i + 1) := by
  induction i generalizing l r with
  | zero =>
    simp only [shuffleLoop, yields_pure, Nat.zero_add]
    constructor
    · rintro rfl; exact ⟨l, rfl, List.Perm.refl _, rfl⟩
    · rintro ⟨l', rfl, hp, hd⟩
      have hlen := hp.length_eq
      cases l with
      | nil => rw [hp.eq_nil]
      | cons a as =>
        cases l' with
        | nil => simp at hlen
        | cons b bs =>
          simp only [List.drop_succ_cons, List.drop_zero] at hd
          subst hd
          have : b ∈ a :: bs := hp.mem_iff.1 (by simp)
          -- equal multisets with equal tails
          have h1 : [b].Perm [a] := (List.perm_append_right_iff bs).1 (by simpa using hp)
          have := List.perm_singleton.1 h1
          cases this; rfl
  | succ i ih =>
    have hi' : i + 1 < l.length := by omega
    unfold shuffleLoop
    have hstep : ∀ j, j < i + 2 → ∀ r, ((do
        let l ← Prog.lift (swapAt l (i + 1) j)
        shuffleLoop i l) : Prog (List G)).yields r ↔ ∃ l', r = .ok l' ∧ l'.Perm l ∧
          l'.drop (i + 1) = (exchanged l (i + 1) j).drop (i + 1) := by
      intro j hj r
      rw [swapAt_eq l (i + 1) j hi' (by omega)]
      simp only [lift_ok, bind_pure_left]
      rw [ih _ (by simp; omega)]
      constructor
      · rintro ⟨l', h1, h2, h3⟩; exact ⟨l', h1, h2.trans (exchanged_perm _ _ _), h3⟩
      · rintro ⟨l', h1, h2, h3⟩; exact ⟨l', h1, h2.trans (exchanged_perm _ _ _).symm, h3⟩
    rw [yields_bind]
    simp only [yields_rangeExcl]
    constructor
    · rintro (⟨j, h1, h2⟩ | h | h)
      · rcases h1 with ⟨h1, -⟩ | ⟨j', -, hj, h1⟩
        · omega
        cases h1
        obtain ⟨l', rfl, hp, hd⟩ := (hstep j hj r).1 h2
        refine ⟨l', rfl, hp, drop_eq_of_getElem? fun k hk => ?_⟩
        rw [getElem?_of_drop_eq hd k (by omega), exchanged_getElem? l (i + 1) j k hi' (by omega)]
        rw [if_neg (by omega), if_neg (by omega)]
      · rcases h with ⟨⟨h, -⟩ | ⟨_, _, _, h⟩, -⟩
        · omega
        · cases h
      · rcases h with ⟨⟨h, -⟩ | ⟨_, _, _, h⟩, -⟩
        · omega
        · cases h
    · rintro ⟨l', rfl, hp, hd⟩
      -- the gene wanted at position i+1 is among the first i+2 of l
      have hlen := hp.length_eq
      have htake : (l'.take (i + 2)).Perm (l.take (i + 2)) := by
        rw [← List.take_append_drop (i + 2) l', ← List.take_append_drop (i + 2) l, hd] at hp
        exact (List.perm_append_right_iff _).1 hp
      have hmem : l'[i + 1]'(by omega) ∈ l.take (i + 2) := by
        apply htake.mem_iff.1
        rw [List.mem_take_iff_getElem]
        exact ⟨i + 1, by omega, rfl⟩
      rw [List.mem_take_iff_getElem] at hmem
      obtain ⟨j, hj, hje⟩ := hmem
      refine Or.inl ⟨j, Or.inr ⟨j, by omega, by omega, rfl⟩, (hstep j (by omega) _).2 ⟨l', rfl, hp, ?_⟩⟩
      apply drop_eq_of_getElem?
      intro k hk
      rw [exchanged_getElem? l (i + 1) j k hi' (by omega)]
      by_cases hk1 : k = i + 1
      · subst hk1
        have e : l'[i + 1]? = l[j]? := by
          rw [List.getElem?_eq_getElem (by omega), List.getElem?_eq_getElem (by omega), hje]
        by_cases hkj : i + 1 = j
        · rw [if_pos hkj, e, hkj]
        · rw [if_neg hkj, if_pos rfl, e]
      · rw [if_neg (by omega), if_neg hk1]
        exact getElem?_of_drop_eq hd k (by omega)

/-- Shuffling can give any rearrangement, and nothing else. -/
theorem yields_shuffle (l : List G) (r : Res (List G)) : (shuffle l).yields r ↔ ∃ l', r = .ok l' ∧ l'.Perm l := by
  unfold shuffle
  rw [yields_shuffleLoop _ _ (by omega)]
  refine exists_congr fun l' => and_congr_right fun _ => ?_
  constructor
  · exact fun h => h.1
  · intro h
    refine ⟨h, ?_⟩
    have := h.length_eq
    rw [List.drop_eq_nil_of_le (by omega), List.drop_eq_nil_of_le (by omega)]

/-- All rearrangements of distinct genes are equally likely. -/
theorem prob_shuffleLoop [DecidableEq G] (i : Nat) (l l' : List G) (hnd : l.Nodup) (hi : i < l.length ∨ i = 0)
    (hp : l'.Perm l) (hd : l'.drop (i + 1) = l.drop (i + 1)) :
    (shuffleLoop i l).prob (· = l') = 1 / (Nat.factorial (i + 1) : ℚ) := by
  induction i generalizing l with
  | zero =>
    have h : (shuffleLoop 0 l).yields (.ok l') := (yields_shuffleLoop 0 l hi _).2 ⟨l', rfl, hp, hd⟩
    simp only [shuffleLoop, yields_pure, Res.ok.injEq] at h
    simp [shuffleLoop, h]
  | succ i ih =>
    have hi' : i + 1 < l.length := by omega
    have hlen := hp.length_eq
    have htake : (l'.take (i + 2)).Perm (l.take (i + 2)) := by
      rw [← List.take_append_drop (i + 2) l', ← List.take_append_drop (i + 2) l, hd] at hp
      exact (List.perm_append_right_iff _).1 hp
    have hmem : l'[i + 1]'(by omega) ∈ l.take (i + 2) := by
      apply htake.mem_iff.1
      rw [List.mem_take_iff_getElem]
      exact ⟨i + 1, by omega, rfl⟩
    rw [List.mem_take_iff_getElem] at hmem
    obtain ⟨j, hj, hje⟩ := hmem
    have e : l'[i + 1]? = l[j]? := by
      rw [List.getElem?_eq_getElem (by omega), List.getElem?_eq_getElem (by omega), hje]
    unfold shuffleLoop
    rw [prob_rangeExcl_bind 0 (i + 2) (by omega), Finset.sum_eq_single j]
    · rw [swapAt_eq l (i + 1) j hi' (by omega)]
      simp only [lift_ok, bind_pure_left]
      rw [ih (exchanged l (i + 1) j) ((exchanged_perm _ _ _).nodup_iff.2 hnd) (by simp; omega)
        (hp.trans (exchanged_perm _ _ _).symm)]
      · rw [Nat.factorial_succ (i + 1)]
        have h1 : (Nat.factorial (i + 1) : ℚ) ≠ 0 := by exact_mod_cast Nat.factorial_ne_zero _
        have h2 : ((i : ℚ) + 2) ≠ 0 := by positivity
        have h3 : ((i : ℚ) + 1 + 1) ≠ 0 := by positivity
        push_cast
        rw [sub_zero]
        field_simp
        ring
      · apply drop_eq_of_getElem?
        intro k hk
        rw [exchanged_getElem? l (i + 1) j k hi' (by omega)]
        by_cases hk1 : k = i + 1
        · subst hk1
          by_cases hkj : i + 1 = j
          · rw [if_pos hkj, e, hkj]
          · rw [if_neg hkj, if_pos rfl, e]
        · rw [if_neg (by omega), if_neg hk1]
          exact getElem?_of_drop_eq hd k (by omega)
    · intro j' hj' hne
      rw [Finset.mem_Ico] at hj'
      apply prob_eq_zero
      rintro a ha rfl
      rw [swapAt_eq l (i + 1) j' hi' (by omega)] at ha
      simp only [lift_ok, bind_pure_left] at ha
      rw [yields_shuffleLoop _ _ (by simp; omega)] at ha
      obtain ⟨l2, h1, -, h3⟩ := ha
      cases h1
      have := getElem?_of_drop_eq h3 (i + 1) le_rfl
      rw [exchanged_getElem? l (i + 1) j' (i + 1) hi' (by omega), e] at this
      have h5 : l[j]? = l[j']? := by
        by_cases hx : i + 1 = j'
        · rw [if_pos hx] at this; rw [this, hx]
        · rw [if_neg hx, if_pos rfl] at this; exact this
      rw [List.getElem?_eq_getElem (by omega), List.getElem?_eq_getElem (by omega), Option.some.injEq,
        hnd.getElem_inj_iff] at h5
      exact hne h5.symm
    · intro h; exact absurd (Finset.mem_Ico.2 ⟨by omega, by omega⟩) h

theorem prob_shuffle [DecidableEq G] (l l' : List G) (hnd : l.Nodup) (hp : l'.Perm l) :
    (shuffle l).prob (· = l') = 1 / (Nat.factorial l.length : ℚ) := by
  unfold shuffle
  cases h : l.length with
  | zero =>
    have : l = [] := List.length_eq_zero_iff.1 h
    subst this
    have := hp.eq_nil
    subst this
    simp [shuffleLoop]
  | succ n =>
    rw [Nat.add_sub_cancel, prob_shuffleLoop n l l' hnd (by omega) hp]
    have := hp.length_eq
    rw [List.drop_eq_nil_of_le (by omega), List.drop_eq_nil_of_le (by omega)]

/-! ### slices -/

theorem yields_onSlice (l : List G) (s e : Nat) (f : List G → Prog (List G)) (h1 : s ≤ e) (h2 : e ≤ l.length)
    (r : List G) : (onSlice l s e f).yields (.ok r) ↔
      ∃ seg, (f ((l.drop s).take (e - s))).yields (.ok seg) ∧ r = l.take s ++ seg ++ l.drop e := by
  unfold onSlice
  rw [if_pos ⟨h1, h2⟩, yields_bind_ok]
  simp

theorem always_onSlice (P : List G → Prop) (l : List G) (s e : Nat) (f : List G → Prog (List G)) (h1 : s ≤ e)
    (h2 : e ≤ l.length) : Always P (onSlice l s e f) ↔
      Always (fun seg => P (l.take s ++ seg ++ l.drop e)) (f ((l.drop s).take (e - s))) := by
  unfold onSlice
  rw [if_pos ⟨h1, h2⟩, always_bind]
  simp

theorem slice_decomp (l : List G) (s e : Nat) (h1 : s ≤ e) :
    l = l.take s ++ (l.drop s).take (e - s) ++ l.drop e := by
  conv_lhs => rw [← List.take_append_drop s l, ← List.take_append_drop (e - s) (l.drop s)]
  rw [List.drop_drop, Nat.add_sub_cancel' h1, List.append_assoc]

theorem slice_of_decomp (pre mid post : List G) :
    let l := pre ++ mid ++ post
    l.take pre.length = pre ∧ (l.drop pre.length).take (pre.length + mid.length - pre.length) = mid ∧
      l.drop (pre.length + mid.length) = post := by
  refine ⟨by simp, by simp, ?_⟩
  rw [← List.length_append]; simp

/-! ### support of the range and pair based operators -/

theorem always_boundedRandomRange (P : URange → Prop) (n lo hi : Nat) (h1 : lo ≤ hi) (h2 : hi ≤ n)
    (H : ∀ s e, s ≤ e → e ≤ n → lo ≤ e - s → e - s ≤ hi → P ⟨s, e⟩) : Always P (boundedRandomRange n lo hi) := by
  intro r hr
  rw [yields_boundedRandomRange] at hr
  rcases hr with ⟨h, -⟩ | ⟨s, l, ha, hb, hc, rfl⟩
  · omega
  · exact ⟨_, rfl, H s (s + l) (by omega) hc (by omega) (by omega)⟩

theorem always_randomPair (P : Nat × Nat → Prop) (n : Nat) (h2 : 2 ≤ n)
    (H : ∀ a b, a < n → b < n → a ≠ b → P (a, b)) : Always P (randomPair n) := by
  intro r hr
  rw [yields_randomPair] at hr
  rcases hr with ⟨h, -⟩ | ⟨-, a, b, ha, hb, hab, rfl⟩
  · omega
  · exact ⟨_, rfl, H a b ha hb hab⟩

theorem rotateRight1_eq (l : List G) (h : l ≠ []) : rotateRight1 l = .ok (l.getLast h :: l.dropLast) := by
  unfold rotateRight1; rw [List.getLast?_eq_getLast_of_ne_nil h]

/-- The slice rotation of `insertion_mutation` moves the gene at `j` to position `i`. -/
theorem rotate_eq_move (l : List G) (i j : Nat) (hij : i < j) (hj : j < l.length) :
    ∃ h : (l.drop i).take (j + 1 - i) ≠ [], l.take i ++ (((l.drop i).take (j + 1 - i)).getLast h ::
      ((l.drop i).take (j + 1 - i)).dropLast) ++ l.drop (j + 1) = (l.eraseIdx j).insertIdx i l[j] := by
  have hlen : ((l.drop i).take (j + 1 - i)).length = j + 1 - i := by simp; omega
  have hne : (l.drop i).take (j + 1 - i) ≠ [] := by
    intro h; rw [h] at hlen; simp at hlen; omega
  refine ⟨hne, ?_⟩
  have hlast : ((l.drop i).take (j + 1 - i)).getLast hne = l[j] := by
    rw [List.getLast_eq_getElem]
    simp only [hlen, List.getElem_take, List.getElem_drop]
    congr 1; omega
  have hdl : ((l.drop i).take (j + 1 - i)).dropLast = (l.drop i).take (j - i) := by
    rw [List.dropLast_eq_take, hlen, List.take_take]
    congr 1; omega
  rw [hlast, hdl]
  have he : l.eraseIdx j = l.take i ++ ((l.drop i).take (j - i) ++ l.drop (j + 1)) := by
    rw [List.eraseIdx_eq_take_drop_succ]
    rw [← List.append_assoc]
    congr 1
    conv_lhs => rw [show j = i + (j - i) by omega, List.take_add]
  rw [he]
  have h0 : (l.take i).length = i := by simp; omega
  have key : ∀ (a b : List G) (x : G), (a ++ b).insertIdx a.length x = a ++ x :: b := by
    intro a b x
    induction a with
    | nil => simp
    | cons y ys ih => simp [ih]
  have := key (l.take i) ((l.drop i).take (j - i) ++ l.drop (j + 1)) l[j]
  rw [h0] at this
  rw [this]
  simp

end RG
