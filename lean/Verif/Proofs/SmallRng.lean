import Verif.Rand
import Mathlib.SetTheory.Cardinal.Finite
import Mathlib.Data.Fintype.Card
import Mathlib.Data.Fintype.Prod

/-!
# Lemmas about `SmallRng`
-/

namespace RG.Rand.SmallRng

theorem rotateRight_rotateLeft (x : BitVec 64) (r : Nat) (hr : r < 64) : (x.rotateLeft r).rotateRight r = x := by
  apply BitVec.eq_of_getElem_eq
  intro i hi
  simp only [BitVec.getElem_rotateRight, BitVec.getElem_rotateLeft, Nat.mod_eq_of_lt hr]
  split
  · split
    · omega
    · congr 1; omega
  · split
    · congr 1; omega
    · omega

theorem rotateLeft_rotateRight (x : BitVec 64) (r : Nat) (hr : r < 64) : (x.rotateRight r).rotateLeft r = x := by
  apply BitVec.eq_of_getElem_eq
  intro i hi
  simp only [BitVec.getElem_rotateRight, BitVec.getElem_rotateLeft, Nat.mod_eq_of_lt hr]
  split
  · split
    · omega
    · congr 1; omega
  · split
    · congr 1; omega
    · omega

/-- The last word of a state whose output and first word are known. -/
def lastOf (w s0 : BitVec 64) : BitVec 64 := (w - s0).rotateRight 23 - s0

theorem output_iff (s : SmallRng) (w : BitVec 64) : s.output = w ↔ s.s3 = lastOf w s.s0 := by
  unfold output lastOf
  constructor
  · rintro rfl
    rw [BitVec.add_sub_cancel, rotateRight_rotateLeft _ _ (by decide), BitVec.add_comm, BitVec.add_sub_cancel]
  · intro h
    rw [h, BitVec.add_comm s.s0, BitVec.sub_add_cancel, rotateLeft_rotateRight _ _ (by decide), BitVec.sub_add_cancel]

theorem xor_shift_injective (x y : BitVec 64) (h : x ^^^ (x <<< 17) = y ^^^ (y <<< 17)) : x = y := by
  apply BitVec.eq_of_getLsbD_eq
  intro i hi
  induction i using Nat.strong_induction_on with
  | _ i ih =>
    have hb := congrArg (fun z : BitVec 64 => z.getLsbD i) h
    simp only [BitVec.getLsbD_xor, BitVec.getLsbD_shiftLeft, hi, decide_true, Bool.true_and] at hb
    by_cases hlt : i < 17
    · simpa [hlt] using hb
    · have := ih (i - 17) (by omega) (by omega)
      simp only [hlt, decide_false, Bool.not_false, Bool.true_and, this] at hb
      revert hb
      cases x.getLsbD i <;> cases y.getLsbD i <;> cases y.getLsbD (i - 17) <;> simp

theorem xor_cancel_left {a b c : BitVec 64} (h : a ^^^ b = a ^^^ c) : b = c := (BitVec.xor_right_inj a).1 h
theorem xor_cancel_right {a b c : BitVec 64} (h : b ^^^ a = c ^^^ a) : b = c := (BitVec.xor_left_inj a).1 h

theorem rotateLeft_injective {x y : BitVec 64} {r : Nat} (hr : r < 64) (h : x.rotateLeft r = y.rotateLeft r) : x = y := by
  rw [← rotateRight_rotateLeft x r hr, h, rotateRight_rotateLeft y r hr]

theorem advance_injective : Function.Injective advance := by
  rintro ⟨a0, a1, a2, a3⟩ ⟨b0, b1, b2, b3⟩ h
  simp only [advance, SmallRng.mk.injEq] at h
  obtain ⟨h0, h1, h2, h3⟩ := h
  have e3 := rotateLeft_injective (by decide) h3
  rw [e3] at h0
  have e0 := xor_cancel_right h0
  subst e0
  have e1 : a1 ^^^ (a1 <<< 17) = b1 ^^^ (b1 <<< 17) := by
    have a : a1 ^^^ (a1 <<< 17) = (a1 ^^^ (a2 ^^^ a0)) ^^^ ((a2 ^^^ a0) ^^^ a1 <<< 17) := by
      rw [BitVec.xor_assoc, ← BitVec.xor_assoc (a2 ^^^ a0), BitVec.xor_self, BitVec.zero_xor]
    have b : b1 ^^^ (b1 <<< 17) = (b1 ^^^ (b2 ^^^ a0)) ^^^ ((b2 ^^^ a0) ^^^ b1 <<< 17) := by
      rw [BitVec.xor_assoc, ← BitVec.xor_assoc (b2 ^^^ a0), BitVec.xor_self, BitVec.zero_xor]
    rw [a, b, h1, h2]
  have e1 := xor_shift_injective _ _ e1
  subst e1
  have e2 := xor_cancel_right (xor_cancel_left h1)
  have e3 := xor_cancel_right e3
  subst e2; subst e3; rfl

/-- A state as its four words. -/
def equivWords : SmallRng ≃ BitVec 64 × BitVec 64 × BitVec 64 × BitVec 64 where
  toFun s := (s.s0, s.s1, s.s2, s.s3)
  invFun p := ⟨p.1, p.2.1, p.2.2.1, p.2.2.2⟩
  left_inv _ := rfl
  right_inv _ := rfl

/-- A word as a number. -/
def equivFin : BitVec 64 ≃ Fin (2 ^ 64) where
  toFun x := x.toFin
  invFun i := BitVec.ofFin i
  left_inv _ := rfl
  right_inv _ := rfl

theorem card_word : Nat.card (BitVec 64) = 2 ^ 64 := by
  rw [Nat.card_congr equivFin, Nat.card_fin]

instance : Finite (BitVec 64) := Finite.of_equiv _ equivFin.symm
instance : Finite SmallRng := Finite.of_equiv _ equivWords.symm

theorem advance_bijective : Function.Bijective advance := Finite.injective_iff_bijective.1 advance_injective

theorem advance_zero : advance ⟨0, 0, 0, 0⟩ = ⟨0, 0, 0, 0⟩ := by decide

/-- The states with given first output, given by the other words. -/
def outputEquiv (w : BitVec 64) : {s : SmallRng // s.output = w} ≃ BitVec 64 × BitVec 64 × BitVec 64 where
  toFun s := (s.1.s0, s.1.s1, s.1.s2)
  invFun p := ⟨⟨p.1, p.2.1, p.2.2, lastOf w p.1⟩, (output_iff _ _).2 rfl⟩
  left_inv := by
    rintro ⟨s, hs⟩
    apply Subtype.ext
    have := (output_iff s w).1 hs
    cases s
    simp_all
  right_inv _ := rfl

/-- The state whose outputs are `w0`, `w1` and `w2`, and whose first word after two steps is `a`. -/
def ofOutputs (w0 w1 w2 a : BitVec 64) : SmallRng :=
  let b := (lastOf w2 a).rotateRight 45
  let s0' := a ^^^ b
  let s3' := lastOf w1 s0'
  let s1' := b ^^^ s3'
  let c := s3'.rotateRight 45
  let s0 := s0' ^^^ c
  let s3 := lastOf w0 s0
  let s1 := c ^^^ s3
  ⟨s0, s1, s1' ^^^ s1 ^^^ s0, s3⟩

theorem xor_xor_left (a b : BitVec 64) : a ^^^ (a ^^^ b) = b := by
  rw [← BitVec.xor_assoc, BitVec.xor_self, BitVec.zero_xor]

theorem xor_xor_right (a b : BitVec 64) : (a ^^^ b) ^^^ b = a := by
  rw [BitVec.xor_assoc, BitVec.xor_self, BitVec.xor_zero]

theorem ofOutputs_spec (w0 w1 w2 a : BitVec 64) :
    (ofOutputs w0 w1 w2 a).output = w0 ∧ (ofOutputs w0 w1 w2 a).advance.output = w1 ∧
      (ofOutputs w0 w1 w2 a).advance.advance.output = w2 ∧ (ofOutputs w0 w1 w2 a).advance.advance.s0 = a := by
  simp only [output_iff]
  unfold ofOutputs
  extract_lets b s0' s3' s1' c s0 s3 s1
  have hc : s3 ^^^ s1 = c := by
    show s3 ^^^ (c ^^^ s3) = c
    rw [BitVec.xor_comm c s3, xor_xor_left]
  have h0 : s0 ^^^ c = s0' := xor_xor_right _ _
  have hr : c.rotateLeft 45 = s3' := rotateLeft_rotateRight _ _ (by decide)
  have h1 : s1 ^^^ ((s1' ^^^ s1 ^^^ s0) ^^^ s0) = s1' := by
    rw [xor_xor_right, BitVec.xor_comm s1' s1, xor_xor_left]
  have hb : s3' ^^^ s1' = b := by
    show s3' ^^^ (b ^^^ s3') = b
    rw [BitVec.xor_comm b s3', xor_xor_left]
  have ha : s0' ^^^ b = a := xor_xor_right _ _
  have hr' : b.rotateLeft 45 = lastOf w2 a := rotateLeft_rotateRight _ _ (by decide)
  refine ⟨rfl, ?_, ?_, ?_⟩
  · simp only [advance, hc, h0, hr]
    rfl
  · simp only [advance, hc, h0, hr, h1, hb, ha, hr']
  · simp only [advance, hc, h0, hr, h1, hb, ha]

theorem eq_ofOutputs {s : SmallRng} {w0 w1 w2 : BitVec 64} (h0 : s.output = w0) (h1 : s.advance.output = w1)
    (h2 : s.advance.advance.output = w2) : s = ofOutputs w0 w1 w2 s.advance.advance.s0 := by
  rw [output_iff] at h0 h1 h2
  obtain ⟨s0, s1, s2, s3⟩ := s
  simp only [advance] at h0 h1 h2
  unfold ofOutputs
  simp only [advance]
  have e2 := congrArg (fun x : BitVec 64 => x.rotateRight 45) h2
  simp only [rotateRight_rotateLeft _ 45 (by decide)] at e2
  have e1 := congrArg (fun x : BitVec 64 => x.rotateRight 45) h1
  simp only [rotateRight_rotateLeft _ 45 (by decide)] at e1
  simp only [← e2, xor_xor_right, ← h1, rotateRight_rotateLeft _ 45 (by decide), ← h0]
  have r2 : ∀ x y : BitVec 64, x ^^^ y ^^^ x = y := fun x y => by rw [BitVec.xor_comm x y, xor_xor_right]
  simp only [r2, SmallRng.mk.injEq, true_and, and_true]
  rw [xor_xor_right]

/-- The states with three given outputs. -/
def outputsEquiv (w0 w1 w2 : BitVec 64) :
    {s : SmallRng // s.output = w0 ∧ s.advance.output = w1 ∧ s.advance.advance.output = w2} ≃ BitVec 64 where
  toFun s := s.1.advance.advance.s0
  invFun a := ⟨ofOutputs w0 w1 w2 a, (ofOutputs_spec w0 w1 w2 a).1, (ofOutputs_spec w0 w1 w2 a).2.1, (ofOutputs_spec w0 w1 w2 a).2.2.1⟩
  left_inv s := Subtype.ext (eq_ofOutputs s.2.1 s.2.2.1 s.2.2.2).symm
  right_inv a := (ofOutputs_spec w0 w1 w2 a).2.2.2

end RG.Rand.SmallRng
