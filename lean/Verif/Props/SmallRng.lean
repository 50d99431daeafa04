import Verif.Props.Rand
import Verif.Proofs.SmallRng
import Verif.Mutation
import Mathlib.Algebra.BigOperators.Field

/-!
# Property C87: the generator `SmallRng`
-/

namespace RG.Props
open RG RG.Prog RG.Rand
variable {α : Type}

/-! ### The documentation -/

/-- The program run over the words of `SmallRng::seed_from_u64(seed)`. -/
def seeded (method : List Nat → Method) (seed : Nat) (p : Prog α) : Res α :=
  ((realize method 64 p []).exec SmallRng.draw (SmallRng.seedFromU64 seed)).1

/-- **C87** The results that the documentation states for seeded generators (`operators.rs:31-39`, `operators.rs:63-70`,
`operators.rs:92-100`, `mutation.rs:79-89`, `mutation.rs:115-125`, `mutation.rs:152-162`, `mutation.rs:189-198`,
`mutation.rs:230-239`). Only `ScrambleMutation` uses `shuffle`, after a range was drawn. -/
theorem C87_documentation :
    seeded (fun _ => .range) 0 (randomPair 10) = .ok (4, 5) ∧
    seeded (fun _ => .range) 0 (randomRange 10) = .ok ⟨2, 7⟩ ∧
    seeded (fun _ => .range) 0 (boundedRandomRange 10 3 5) = .ok ⟨3, 7⟩ ∧
    seeded (fun _ => .range) 999 (swapMutation [0, 1, 2, 3, 4, 5, 6, 7, 8, 9]) = .ok [0, 1, 6, 3, 4, 5, 2, 7, 8, 9] ∧
    seeded (fun drawn => if drawn.length < 2 then .range else .index) 999 (scrambleMutation [0, 1, 2, 3, 4, 5, 6, 7, 8, 9]) =
      .ok [0, 5, 6, 1, 2, 3, 4, 7, 8, 9] ∧
    seeded (fun _ => .range) 999 (inversionMutation [0, 1, 2, 3, 4, 5, 6, 7, 8, 9]) = .ok [0, 6, 5, 4, 3, 2, 1, 7, 8, 9] ∧
    seeded (fun _ => .range) 999 (insertionMutation [0, 1, 2, 3, 4, 5, 6, 7, 8, 9]) = .ok [0, 1, 6, 2, 3, 4, 5, 7, 8, 9] ∧
    seeded (fun _ => .range) 999 (duplicateMutation ['G', 'T', 'A', 'G', 'C']) = .ok ['G', 'T', 'A', 'A', 'C'] := by
  decide +kernel

/-! ### The generator -/

/-- **C87** A step of the generator loses nothing: different states have different successors and every state has a predecessor; so
the states return to where they started. -/
theorem C87_periodic : Function.Bijective SmallRng.advance ∧ ∀ s : SmallRng, ∃ n, 0 < n ∧ SmallRng.advance^[n] s = s := by
  refine ⟨SmallRng.advance_bijective, fun s => ?_⟩
  obtain ⟨i, j, hij, h⟩ := Finite.exists_ne_map_eq_of_infinite fun n : Nat => SmallRng.advance^[n] s
  have key : ∀ i j : Nat, i < j → SmallRng.advance^[i] s = SmallRng.advance^[j] s → ∃ n, 0 < n ∧ SmallRng.advance^[n] s = s := by
    intro i j hlt h
    refine ⟨j - i, by omega, ?_⟩
    have hj : j = i + (j - i) := by omega
    rw [hj, Function.iterate_add_apply] at h
    exact ((SmallRng.advance_injective.iterate i) h).symm
  rcases Nat.lt_or_gt_of_ne hij with hlt | hlt
  · exact key i j hlt h
  · exact key j i hlt h.symm

/-- The state of zeros, from which nothing but zeros would come. -/
def zeroState : SmallRng := ⟨0, 0, 0, 0⟩

/-- **C87** No seed leads to the state of zeros, and no other state does. -/
theorem C87_nonzero :
    (∀ seed, SmallRng.fromSeed seed ≠ zeroState) ∧ (∀ seed, SmallRng.seedFromU64 seed ≠ zeroState) ∧
    (∀ (s : SmallRng) (n : Nat), s ≠ zeroState → SmallRng.advance^[n] s ≠ zeroState) := by
  have h0 : ∀ seed, SmallRng.fromSeed seed ≠ zeroState := by
    intro seed
    unfold SmallRng.fromSeed
    split
    · decide +kernel
    · assumption
  refine ⟨h0, fun seed => h0 _, fun s n hs he => hs ?_⟩
  have : SmallRng.advance^[n] zeroState = zeroState := Function.iterate_fixed SmallRng.advance_zero n
  exact (SmallRng.advance_injective.iterate n) (he.trans this.symm)

/-- **C87** A seed is the state, only that of zeros is replaced: by the first four words that SplitMix64 gives from 0 (published
values). -/
theorem C87_seed (seed : SmallRng) : SmallRng.fromSeed seed =
    if seed = zeroState then ⟨0xe220a8397b1dcdaf#64, 0x6e789e6aa1b965f4#64, 0x06c45d188009454f#64, 0xf88bb8a8724c81ec#64⟩ else seed := by
  unfold SmallRng.fromSeed zeroState
  split
  · decide +kernel
  · rfl

/-- `SmallRng::seed_from_u64(0)` is not the state of zeros, and its first word is not 0. -/
example : SmallRng.seedFromU64 0 ≠ zeroState ∧ (SmallRng.seedFromU64 0).output ≠ 0 := by decide +kernel

/-- The output after `t` steps. -/
def outputAt (t : Nat) (s : SmallRng) : BitVec 64 := (SmallRng.advance^[t] s).output

/-- **C87** Three successive words, wherever they are taken: each of their `2^192` values comes from exactly `2^64` of the `2^256`
states. -/
theorem C87_equidistributed (t : Nat) (w0 w1 w2 : BitVec 64) :
    Nat.card {s : SmallRng // outputAt t s = w0 ∧ outputAt (t + 1) s = w1 ∧ outputAt (t + 2) s = w2} = 2 ^ 64 ∧
    Nat.card SmallRng = 2 ^ 256 := by
  constructor
  · rw [← SmallRng.card_word, ← Nat.card_congr (SmallRng.outputsEquiv w0 w1 w2)]
    refine Nat.card_congr ((Equiv.ofBijective _ (SmallRng.advance_bijective.iterate t)).subtypeEquiv fun s => ?_)
    unfold outputAt
    rw [Nat.add_comm t 1, Nat.add_comm t 2, Function.iterate_add_apply, Function.iterate_add_apply]
    rfl
  · rw [Nat.card_congr SmallRng.equivWords, Nat.card_prod, Nat.card_prod, Nat.card_prod, SmallRng.card_word]
    norm_num

/-! ### Short programs from a random state -/

noncomputable instance : Fintype (BitVec 64) := Fintype.ofFinite _

theorem sum_words (f : Nat → ℚ) : ∑ w : BitVec 64, f w.toNat = ∑ i ∈ Finset.range (2 ^ 64), f i := by
  rw [Finset.sum_range]
  exact Fintype.sum_equiv SmallRng.equivFin _ _ fun w => rfl

theorem expect_word (k : Nat → Prog α) (g : Res α → ℚ) :
    (pick (2 ^ 64 - 1) k).expect g = (∑ w : BitVec 64, (k w.toNat).expect g) / 2 ^ 64 := by
  rw [sum_words fun i => (k i).expect g]
  show (∑ i ∈ Finset.range (2 ^ 64 - 1 + 1), (k i).expect g) / (((2 ^ 64 - 1 : ℕ) : ℚ) + 1) = _
  have : ((2 ^ 64 - 1 : ℕ) : ℚ) + 1 = 2 ^ 64 := by norm_num
  rw [this, show (2 ^ 64 - 1 + 1 : ℕ) = 2 ^ 64 by norm_num]

/-- The program after its first word. -/
def afterWord : Prog α → Nat → Prog α
  | .done r, _ => .done r
  | .pick _ k, w => k w

theorem words_afterWord {p : Prog α} (h : Words p) (w : Nat) : Words (afterWord p w) := by
  cases p with
  | done r => trivial
  | pick n k => exact h.2 w

theorem choices_afterWord {p : Prog α} (h : Words p) {n : Nat} (hc : choices p ≤ n + 1) (w : BitVec 64) :
    choices (afterWord p w.toNat) ≤ n := by
  cases p with
  | done r => exact Nat.zero_le _
  | pick m k =>
    have hm : w.toNat ∈ Finset.range (m + 1) := by
      rw [h.1, Finset.mem_range]
      have := w.isLt
      omega
    have := Finset.le_sup (f := fun i => choices (k i)) hm
    unfold choices at hc
    show choices (k w.toNat) ≤ n
    omega

theorem expect_afterWord {p : Prog α} (h : Words p) (g : Res α → ℚ) :
    p.expect g = (∑ w : BitVec 64, (afterWord p w.toNat).expect g) / 2 ^ 64 := by
  cases p with
  | done r =>
    show g r = (∑ _w : BitVec 64, g r) / 2 ^ 64
    rw [Finset.sum_const, Finset.card_univ, ← Nat.card_eq_fintype_card, SmallRng.card_word, nsmul_eq_mul]
    push_cast
    norm_num
  | pick n k =>
    obtain ⟨rfl, -⟩ := h
    exact expect_word k g

/-- The result when no word is left. -/
def resultOf : Prog α → Res α
  | .done r => r
  | .pick _ _ => .diverge

theorem expect_resultOf {p : Prog α} (hc : choices p ≤ 0) (g : Res α → ℚ) : p.expect g = g (resultOf p) := by
  cases p with
  | done r => rfl
  | pick n k => unfold choices at hc; omega

theorem exec_afterWord {p : Prog α} (s : SmallRng) :
    (p.exec SmallRng.draw s).1 = ((afterWord p s.output.toNat).exec SmallRng.draw s.advance).1 := by
  cases p with
  | done r => rfl
  | pick n k => rfl

theorem exec_resultOf {p : Prog α} (hc : choices p ≤ 0) (s : SmallRng) : (p.exec SmallRng.draw s).1 = resultOf p := by
  cases p with
  | done r => rfl
  | pick n k => unfold choices at hc; omega

/-- The states, given by three outputs and one word more. -/
def stateEquiv : SmallRng ≃ (BitVec 64 × BitVec 64 × BitVec 64) × BitVec 64 where
  toFun s := ((s.output, s.advance.output, s.advance.advance.output), s.advance.advance.s0)
  invFun p := SmallRng.ofOutputs p.1.1 p.1.2.1 p.1.2.2 p.2
  left_inv s := (SmallRng.eq_ofOutputs rfl rfl rfl).symm
  right_inv := by
    rintro ⟨⟨w0, w1, w2⟩, a⟩
    obtain ⟨h0, h1, h2, h3⟩ := SmallRng.ofOutputs_spec w0 w1 w2 a
    simp only [h0, h1, h2, h3]

noncomputable instance : Fintype SmallRng := Fintype.ofFinite _

theorem expect_states {p : Prog α} (h : Words p) (hc : choices p ≤ 3) (g : Res α → ℚ) :
    p.expect g = (∑ s : SmallRng, g (p.exec SmallRng.draw s).1) / 2 ^ 256 := by
  let F : BitVec 64 × BitVec 64 × BitVec 64 → ℚ := fun w =>
    g (resultOf (afterWord (afterWord (afterWord p w.1.toNat) w.2.1.toNat) w.2.2.toNat))
  have hl : p.expect g = (∑ w, F w) / 2 ^ 192 := by
    rw [expect_afterWord h, Fintype.sum_prod_type, Finset.sum_div, Finset.sum_div]
    refine Finset.sum_congr rfl fun w0 _ => ?_
    rw [expect_afterWord (words_afterWord h _), Fintype.sum_prod_type, div_div, Finset.sum_div, Finset.sum_div]
    refine Finset.sum_congr rfl fun w1 _ => ?_
    rw [expect_afterWord (words_afterWord (words_afterWord h _) _), div_div, Finset.sum_div, Finset.sum_div]
    refine Finset.sum_congr rfl fun w2 _ => ?_
    have h1 := choices_afterWord h hc w0
    have h2 := choices_afterWord (words_afterWord h _) h1 w1
    have h3 := choices_afterWord (words_afterWord (words_afterWord h _) _) h2 w2
    rw [expect_resultOf h3]
    norm_num [F]
  have hr : ∑ s : SmallRng, g (p.exec SmallRng.draw s).1 = 2 ^ 64 * ∑ w, F w := by
    rw [Fintype.sum_equiv stateEquiv _ (fun x => F x.1) fun s => ?_]
    · rw [Fintype.sum_prod_type]
      simp only [Finset.sum_const, Finset.card_univ, ← Nat.card_eq_fintype_card, SmallRng.card_word, nsmul_eq_mul]
      rw [← Finset.mul_sum]
      push_cast
      rfl
    · have h1 := choices_afterWord h hc s.output
      have h2 := choices_afterWord (words_afterWord h _) h1 s.advance.output
      have h3 := choices_afterWord (words_afterWord (words_afterWord h _) _) h2 s.advance.advance.output
      rw [exec_afterWord, exec_afterWord, exec_afterWord, exec_resultOf h3]
      rfl
  rw [hl, hr]
  generalize ∑ w, F w = x
  norm_num
  ring

/-- **C87** From a random state of `SmallRng` a program over words that takes at most three of them behaves as if the words were
independent and uniform: the share of the states from which its result has a property is the probability of the model. -/
theorem C87_three_words (p : Prog α) (h : Words p) (hc : choices p ≤ 3) (P : α → Prop) [DecidablePred P] :
    (Nat.card {s : SmallRng // ∃ a, (p.exec SmallRng.draw s).1 = .ok a ∧ P a} : ℚ) / Nat.card SmallRng = p.prob P := by
  classical
  rw [(C87_equidistributed 0 0 0 0).2]
  unfold prob
  rw [expect_states h hc]
  push_cast
  congr 1
  rw [Nat.card_eq_fintype_card, Fintype.card_subtype, Finset.card_filter]
  push_cast
  refine Finset.sum_congr rfl fun s _ => ?_
  rcases (p.exec SmallRng.draw s).1 with a | _ | _ <;> simp

theorem choices_bind_le {β : Type} (p : Prog α) (f : α → Prog β) (m n : Nat) (hp : choices p ≤ m) (hf : ∀ a, choices (f a) ≤ n) :
    choices (p >>= f) ≤ m + n := by
  refine le_trans ?_ (Nat.add_le_add_right hp n)
  clear hp
  induction p with
  | done r => cases r <;> first | exact (hf _).trans (Nat.le_add_left _ _) | exact Nat.zero_le _
  | pick m k ih =>
    show 1 + (Finset.range (m + 1)).sup (fun i => choices (k i >>= f)) ≤ 1 + (Finset.range (m + 1)).sup (fun i => choices (k i)) + n
    have : (Finset.range (m + 1)).sup (fun i => choices (k i >>= f)) ≤ (Finset.range (m + 1)).sup (fun i => choices (k i)) + n :=
      Finset.sup_le fun i hi => (ih i).trans (Nat.add_le_add_right (Finset.le_sup (f := fun i => choices (k i)) hi) n)
    omega

theorem choices_pick_le (m n : Nat) (k : Nat → Prog α) (hk : ∀ i, choices (k i) ≤ n) : choices (pick m k) ≤ 1 + n :=
  Nat.add_le_add_left (Finset.sup_le fun i _ => hk i) 1

theorem choices_genBit : choices genBit ≤ 1 := by
  have h1 : choices nextU64 ≤ 1 := choices_pick_le _ 0 _ fun _ => le_rfl
  have h2 : choices nextU32 ≤ 1 := choices_bind_le nextU64 _ 1 0 h1 fun _ => le_rfl
  exact choices_bind_le nextU32 _ 1 0 h2 fun _ => le_rfl

theorem choices_threeBits : choices (genBit >>= fun a => genBit >>= fun b => genBit >>= fun c => (pure [a, b, c] : Prog (List Nat))) ≤
    3 := by
  have h0 : ∀ a b, choices (genBit >>= fun c => (pure [a, b, c] : Prog (List Nat))) ≤ 1 := fun a b =>
    choices_bind_le genBit _ 1 0 choices_genBit fun _ => le_rfl
  have h1 : ∀ a, choices (genBit >>= fun b => genBit >>= fun c => (pure [a, b, c] : Prog (List Nat))) ≤ 2 := fun a =>
    choices_bind_le genBit _ 1 1 choices_genBit (h0 a)
  exact choices_bind_le genBit _ 1 2 choices_genBit h1

/-- Three random bits are three times 1 from one state in eight. -/
example : (Nat.card {s : SmallRng // ∃ a, ((genBit >>= fun a => genBit >>= fun b => genBit >>= fun c => (pure [a, b, c] :
    Prog (List Nat))).exec SmallRng.draw s).1 = .ok a ∧ a = [1, 1, 1]} : ℚ) / Nat.card SmallRng = 1 / 8 := by
  rw [C87_three_words]
  · unfold prob
    simp only [expect_bind, isWord_genBit.1, Finset.sum_range_succ, Finset.sum_range_zero, expect_pure]
    norm_num
  · exact words_bind (words_draw .bit 0 1) fun _ => words_bind (words_draw .bit 0 1) fun _ => words_bind (words_draw .bit 0 1)
      fun _ => trivial
  · exact choices_threeBits

end RG.Props
