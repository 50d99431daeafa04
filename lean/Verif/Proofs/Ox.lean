import Verif.Proofs.Pmx
import Mathlib.Data.List.Rotate
import Mathlib.Data.Nat.ModEq

/-! Helper lemmas: OX. -/

namespace RG
set_option linter.unusedSectionVars false
variable {G : Type} [DecidableEq G]

@[simp] theorem setAt_ok {T : Type} (v : List T) (i : Nat) (x : T) (h : i < v.length) : setAt v i x = .ok (v.set i x) := by
  unfold setAt; rw [if_pos h]

/-- The prologue of OX for two or more genes and a valid range. -/
theorem ox_eq (fuel : Nat) (p1 p2 : List G) (range : URange) (hlen : p1.length = p2.length) (hn : 2 ≤ p1.length)
    (hse : range.start ≤ range.stop) (he : range.stop ≤ p1.length) :
    ∃ off : List G, off.length = p1.length ∧ (∀ i, range.start ≤ i → i < range.stop → off[i]? = p1[i]?) ∧
      (∀ i, i < p1.length → ¬ (range.start ≤ i ∧ i < range.stop) → off[i]? = p1[0]?) ∧
      ox fuel p1 p2 range = oxLoop p1.length range.start range.stop p2 fuel off (range.stop % p1.length)
        (range.stop % p1.length) := by
  have hs1 := slice_ok p1 range.start range.stop hse he
  have hc := copyInto_ok (List.replicate p1.length (p1[0]'(by omega)))
    ((p1.drop range.start).take (range.stop - range.start)) range.start range.stop hse (by simpa using he)
    (by simp; omega)
  have hmod : (if range.stop ≠ p1.length then range.stop else 0) = range.stop % p1.length := by
    split
    · rw [Nat.mod_eq_of_lt (by omega)]
    · rename_i h; have : range.stop = p1.length := by omega
      rw [this, Nat.mod_self]
  refine ⟨(List.replicate p1.length (p1[0]'(by omega))).take range.start ++
    (p1.drop range.start).take (range.stop - range.start) ++
    (List.replicate p1.length (p1[0]'(by omega))).drop range.stop, by simp; omega, ?_, ?_, ?_⟩
  · intro i h1 h2
    rw [copied_getElem? _ p1 _ _ hse (by simpa using he) (by simp), if_pos ⟨h1, h2⟩]
  · intro i h1 h2
    rw [copied_getElem? _ p1 _ _ hse (by simpa using he) (by simp), if_neg h2, List.getElem?_replicate, if_pos h1,
      List.getElem?_eq_getElem (by omega)]
  · unfold ox
    simp only [decide_eq_true hlen, Res.assert_true, Res.bind_ok]
    simp only [show ¬ p1.length < 2 by omega, if_false, index_ok p1 0 (by omega), Res.bind_ok, hs1, hc, hmod]

theorem mod_step (n i : Nat) (hn : 0 < n) (k : Nat) (h : i = k % n) :
    (if i + 1 = n then 0 else i + 1) = (k + 1) % n := by
  subst h
  have := Nat.mod_lt k hn
  split
  · rename_i h
    rw [← Nat.mod_add_mod, h, Nat.mod_self]
  · rw [← Nat.mod_add_mod, Nat.mod_eq_of_lt (a := k % n + 1) (by omega)]

theorem segment_eq {g p1 : List G} {s e : Nat} (h : ∀ i, s ≤ i → i < e → g[i]? = p1[i]?) :
    (g.drop s).take (e - s) = (p1.drop s).take (e - s) := by
  apply List.ext_getElem?
  intro i
  by_cases hi : i < e - s
  · rw [List.getElem?_take_of_lt hi, List.getElem?_take_of_lt hi, List.getElem?_drop, List.getElem?_drop]
    exact h _ (by omega) (by omega)
  · rw [List.getElem?_eq_none (by simp; omega), List.getElem?_eq_none (by simp; omega)]

theorem oxLoop_ok (p1 p2 : List G) (s e : Nat) (hse : s < e) (he : e ≤ p1.length) (hlen : p2.length = p1.length)
    (hfull : ((p2.rotate e).filter fun g => decide (g ∉ (p1.drop s).take (e - s))).length = p1.length - (e - s))
    (fuel m : Nat) (hfuel : p1.length < fuel + m) (hm : m ≤ p1.length) (genome : List G)
    (hgl : genome.length = p1.length) (hseg : ∀ i, s ≤ i → i < e → genome[i]? = p1[i]?)
    (hacc : ∀ i, i < (((p2.rotate e).take m).filter fun g => decide (g ∉ (p1.drop s).take (e - s))).length →
      genome[(e + i) % p1.length]? = (((p2.rotate e).take m).filter fun g => decide (g ∉ (p1.drop s).take (e - s)))[i]?) :
    ∃ r, oxLoop p1.length s e p2 fuel genome
        ((e + (((p2.rotate e).take m).filter fun g => decide (g ∉ (p1.drop s).take (e - s))).length) % p1.length)
        ((e + m) % p1.length) = .ok r ∧ r.length = p1.length ∧ (∀ i, s ≤ i → i < e → r[i]? = p1[i]?) ∧
      ∀ i, i < p1.length - (e - s) → r[(e + i) % p1.length]? =
        ((p2.rotate e).filter fun g => decide (g ∉ (p1.drop s).take (e - s)))[i]? := by
  induction fuel generalizing m genome with
  | zero => omega
  | succ fuel ih =>
    set n := p1.length with hn
    set seg := (p1.drop s).take (e - s) with hsegdef
    set rot := p2.rotate e with hrot
    set acc := (rot.take m).filter fun g => decide (g ∉ seg) with haccdef
    have hpre : acc <+: rot.filter fun g => decide (g ∉ seg) := (List.take_prefix m rot).filter _
    have hle : acc.length ≤ n - (e - s) := hfull ▸ hpre.length_le
    have hrl : rot.length = n := by rw [hrot, List.length_rotate, hlen]
    by_cases hdone : acc.length = n - (e - s)
    · -- finished
      have hidx : (e + acc.length) % n = s := by
        rw [hdone, show e + (n - (e - s)) = s + n by omega, Nat.add_mod_right, Nat.mod_eq_of_lt (by omega)]
      have hfe : acc = rot.filter fun g => decide (g ∉ seg) := hpre.eq_of_length (by rw [hfull, hdone])
      refine ⟨genome, ?_, hgl, hseg, ?_⟩
      · unfold oxLoop; rw [hidx]; simp
      · intro i hi
        rw [← hfe]; exact hacc i (by omega)
    · have hlt : acc.length < n - (e - s) := by omega
      have hmn : m < n := by
        by_contra hc
        have : m = n := by omega
        apply hdone
        rw [haccdef, this, List.take_of_length_le (by omega), hfull]
      have hidx : (e + acc.length) % n ≠ s := by
        by_cases hw : e + acc.length < n
        · rw [Nat.mod_eq_of_lt hw]; omega
        · rw [Nat.mod_eq_sub_mod (by omega), Nat.mod_eq_of_lt (by omega)]; omega
      have hi2 : (e + m) % n < p2.length := by rw [hlen]; exact Nat.mod_lt _ (by omega)
      have hi1 : (e + acc.length) % n < genome.length := by rw [hgl]; exact Nat.mod_lt _ (by omega)
      have hgene : rot[m]'(by omega) = p2[(e + m) % n] := by
        simp only [hrot, List.getElem_rotate, hlen]
        congr 1; rw [Nat.add_comm]
      have hslice : slice genome s e = .ok seg := by
        rw [slice_ok genome s e (by omega) (by omega), segment_eq hseg]
      have htake : rot.take (m + 1) = rot.take m ++ [rot[m]'(by omega)] := (List.take_concat_get' rot m (by omega)).symm
      unfold oxLoop
      rw [if_pos hidx]
      simp only [hslice, Res.bind_ok, index_ok _ _ hi2]
      by_cases hin : p2[(e + m) % n] ∉ seg
      · have hacc' : (rot.take (m + 1)).filter (fun g => decide (g ∉ seg)) = acc ++ [p2[(e + m) % n]] := by
          rw [htake, List.filter_append, hgene]
          congr 1
          simp [hin]
        rw [if_pos hin]
        simp only [setAt_ok _ _ _ hi1, Res.bind_ok, Res.pure_eq]
        rw [mod_step n _ (by omega) (e + acc.length) rfl, mod_step n _ (by omega) (e + m) rfl]
        have := ih (m + 1) (by omega) (by omega) (genome.set ((e + acc.length) % n) p2[(e + m) % n]) (by simp [hgl])
          ?_ ?_
        · rw [hacc'] at this
          simpa [Nat.add_assoc] using this
        · intro i h1 h2
          rw [List.getElem?_set_ne, hseg i h1 h2]
          -- the written position is outside the range
          by_cases hw : e + acc.length < n
          · rw [Nat.mod_eq_of_lt hw]; omega
          · rw [Nat.mod_eq_sub_mod (by omega), Nat.mod_eq_of_lt (by omega)]; omega
        · intro i hi
          rw [hacc'] at hi ⊢
          simp only [List.length_append, List.length_singleton] at hi
          by_cases hia : i = acc.length
          · subst hia
            rw [List.getElem?_set_self hi1]; simp
          · have hne : (e + acc.length) % n ≠ (e + i) % n := by
              intro hc
              have h3 : i < acc.length := by omega
              have h4 : acc.length - i < n := by omega
              have h5 : (e + i + (acc.length - i)) % n = (e + i) % n := by
                rw [show e + i + (acc.length - i) = e + acc.length by omega]; exact hc
              have h6 : (acc.length - i) % n = 0 := by
                have : Nat.ModEq n (e + i + (acc.length - i)) (e + i + 0) := h5
                have := Nat.ModEq.add_left_cancel' _ this
                simpa [Nat.ModEq] using this
              rw [Nat.mod_eq_of_lt h4] at h6; omega
            rw [List.getElem?_set_ne hne, List.getElem?_append_left (by omega)]
            exact hacc i (by omega)
      · have hacc' : (rot.take (m + 1)).filter (fun g => decide (g ∉ seg)) = acc := by
          rw [htake, List.filter_append, hgene]
          simp [hin, haccdef]
        rw [if_neg hin]
        simp only [Res.bind_ok, Res.pure_eq]
        rw [mod_step n _ (by omega) (e + m) rfl]
        have := ih (m + 1) (by omega) (by omega) genome hgl hseg (by rw [hacc']; exact hacc)
        rw [hacc'] at this
        simpa [Nat.add_assoc] using this

theorem ox_rotate {r p1 full : List G} {s e : Nat} (hse : s < e) (he : e ≤ p1.length) (hl : r.length = p1.length)
    (hseg : ∀ i, s ≤ i → i < e → r[i]? = p1[i]?) (hfl : full.length = p1.length - (e - s))
    (hfull : ∀ i, i < p1.length - (e - s) → r[(e + i) % p1.length]? = full[i]?) :
    r.rotate e = full ++ (p1.drop s).take (e - s) := by
  apply List.ext_getElem?
  intro i
  by_cases hi : i < p1.length
  · rw [List.getElem?_rotate (by omega), hl, Nat.add_comm i e]
    by_cases h1 : i < p1.length - (e - s)
    · rw [hfull i h1, List.getElem?_append_left (by omega)]
    · rw [List.getElem?_append_right (by omega), List.getElem?_take_of_lt (by omega), List.getElem?_drop,
        Nat.mod_eq_sub_mod (by omega), Nat.mod_eq_of_lt (by omega), hseg _ (by omega) (by omega)]
      congr 1; omega
  · rw [List.getElem?_eq_none (by simp; omega), List.getElem?_eq_none (by simp; omega)]

theorem ox_full_length (p1 p2 : List G) (s e : Nat) (hse : s ≤ e) (he : e ≤ p1.length) (hnd : p1.Nodup)
    (hp : p2.Perm p1) :
    ((p2.rotate e).filter fun g => decide (g ∉ (p1.drop s).take (e - s))).length = p1.length - (e - s) := by
  set seg := (p1.drop s).take (e - s) with hseg
  have hsub : seg.Sublist p1 := (List.take_sublist _ _).trans (List.drop_sublist _ _)
  have hrot : (p2.rotate e).Perm p1 := (List.rotate_perm p2 e).trans hp
  have h1 : ((p2.rotate e).filter fun g => decide (g ∈ seg)).Perm seg := by
    rw [List.perm_ext_iff_of_nodup ((hrot.nodup_iff.2 hnd).filter _) (hsub.nodup hnd)]
    intro g
    rw [List.mem_filter]
    constructor
    · intro h; simpa using h.2
    · intro h; exact ⟨hrot.mem_iff.2 (hsub.subset h), by simpa using h⟩
  have h2 := List.length_eq_length_filter_add (l := p2.rotate e) (fun g => decide (g ∈ seg))
  have h3 : ((p2.rotate e).filter fun g => !decide (g ∈ seg)) = (p2.rotate e).filter fun g => decide (g ∉ seg) := by
    congr 1; funext g; simp
  rw [h3, h1.length_eq, hrot.length_eq] at h2
  have h4 : seg.length = e - s := by simp [hseg]; omega
  omega

/-- With the empty range `n..n` the loop never meets its end condition. -/
theorem oxLoop_nn (n : Nat) (p2 : List G) (hlen : p2.length = n) (fuel : Nat) (genome : List G)
    (hgl : genome.length = n) (i1 i2 : Nat) (h1 : i1 < n) (h2 : i2 < n) : oxLoop n n n p2 fuel genome i1 i2 = .diverge := by
  induction fuel generalizing genome i1 i2 with
  | zero => rfl
  | succ fuel ih =>
    unfold oxLoop
    rw [if_pos (by omega)]
    have hs : slice genome n n = .ok [] := by rw [slice_ok genome n n le_rfl (by omega)]; simp
    simp only [hs, Res.bind_ok, index_ok p2 i2 (by omega), List.not_mem_nil, not_false_eq_true, if_true,
      setAt_ok genome i1 _ (by omega), Res.pure_eq]
    exact ih _ (by simp [hgl]) _ _ (by split <;> omega) (by split <;> omega)

/-- If every gene of parent2 is in the copied segment, no gap is ever filled. -/
theorem oxLoop_stuck (n s e : Nat) (p2 : List G) (hlen : p2.length = n) (fuel : Nat) (genome seg : List G)
    (hs : slice genome s e = .ok seg) (hall : ∀ g ∈ p2, g ∈ seg) (i1 i2 : Nat) (h1 : i1 ≠ s) (h2 : i2 < n) :
    oxLoop n s e p2 fuel genome i1 i2 = .diverge := by
  induction fuel generalizing i2 with
  | zero => rfl
  | succ fuel ih =>
    unfold oxLoop
    rw [if_pos h1]
    have : ¬ p2[i2]'(by omega) ∉ seg := by simp; exact hall _ (List.getElem_mem _)
    simp only [hs, Res.bind_ok, index_ok p2 i2 (by omega), if_neg this, Res.pure_eq]
    exact ih _ (by split <;> omega)

/-- If some gene of parent2 is not in the copied segment, the gaps are all filled in the end. -/
theorem oxLoop_ends (n s e : Nat) (hse : s < e) (he : e ≤ n) (p2 : List G) (hlen : p2.length = n) (seg : List G)
    (j0 : Nat) (hj0 : j0 < n) (hg : p2[j0] ∉ seg) (fuel a : Nat) (ha : a ≤ n - (e - s)) (genome : List G)
    (hgl : genome.length = n) (hs : (genome.drop s).take (e - s) = seg) (i2 : Nat) (hi2 : i2 < n)
    (hf : (n - (e - s) - a) * n + (j0 + n - i2) % n < fuel) :
    ∃ r, oxLoop n s e p2 fuel genome ((e + a) % n) i2 = .ok r := by
  induction fuel generalizing a genome i2 with
  | zero => omega
  | succ fuel ih =>
    unfold oxLoop
    by_cases hdone : a = n - (e - s)
    · have hidx : (e + a) % n = s := by
        rw [hdone, show e + (n - (e - s)) = s + n by omega, Nat.add_mod_right, Nat.mod_eq_of_lt (by omega)]
      rw [if_neg (by simpa using hidx)]
      exact ⟨_, rfl⟩
    · have hidx : (e + a) % n ≠ s ∧ ((e + a) % n < s ∨ e ≤ (e + a) % n) := by
        by_cases hw : e + a < n
        · rw [Nat.mod_eq_of_lt hw]; omega
        · rw [Nat.mod_eq_sub_mod (by omega), Nat.mod_eq_of_lt (by omega)]; omega
      rw [if_pos hidx.1]
      have hi1 : (e + a) % n < genome.length := by rw [hgl]; exact Nat.mod_lt _ (by omega)
      simp only [slice_ok genome s e (by omega) (by omega), hs, Res.bind_ok, index_ok p2 i2 (by omega)]
      have hnext : (if i2 + 1 = n then 0 else i2 + 1) < n := by split <;> omega
      have hdist : i2 ≠ j0 → (j0 + n - (if i2 + 1 = n then 0 else i2 + 1)) % n + 1 = (j0 + n - i2) % n := by
        intro hne
        split
        · rename_i h
          have hi : i2 = n - 1 := by omega
          rw [show j0 + n - 0 = j0 + n by omega, Nat.add_mod_right, Nat.mod_eq_of_lt hj0,
            show j0 + n - i2 = j0 + 1 by omega, Nat.mod_eq_of_lt (by omega)]
        · by_cases hlt : j0 < i2
          · rw [Nat.mod_eq_of_lt (by omega), Nat.mod_eq_of_lt (by omega)]; omega
          · rw [show j0 + n - (i2 + 1) = (j0 - (i2 + 1)) + n by omega, show j0 + n - i2 = (j0 - i2) + n by omega,
              Nat.add_mod_right, Nat.add_mod_right, Nat.mod_eq_of_lt (by omega), Nat.mod_eq_of_lt (by omega)]; omega
      have hdist' : (j0 + n - (if i2 + 1 = n then 0 else i2 + 1)) % n < n := Nat.mod_lt _ (by omega)
      by_cases hin : p2[i2] ∉ seg
      · rw [if_pos hin]
        simp only [setAt_ok _ _ _ hi1, Res.bind_ok, Res.pure_eq]
        rw [mod_step n _ (by omega) (e + a) rfl]
        refine ih (a + 1) (by omega) _ (by simp [hgl]) ?_ _ hnext ?_
        · rw [← hs]
          apply segment_eq
          intro i h1 h2
          rw [List.getElem?_set_ne (by omega)]
        · have hm : (n - (e - s) - a) * n = (n - (e - s) - (a + 1)) * n + n := by
            rw [show n - (e - s) - a = n - (e - s) - (a + 1) + 1 by omega, Nat.add_mul, Nat.one_mul]
          omega
      · have hne : i2 ≠ j0 := by rintro rfl; exact hin hg
        rw [if_neg hin]
        simp only [Res.bind_ok, Res.pure_eq]
        refine ih a ha genome hgl hs _ hnext ?_
        have := hdist hne
        omega

end RG
