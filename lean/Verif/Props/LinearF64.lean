import Verif.Proofs.LinearF64
import Verif.Props.Linear
import Verif.Props.Model

/-!
# Property C84: linear selection in `f64`

C44 gives the draws that select each individual in exact arithmetic, and shows that in `f64` some biases make the index computation
panic. Here is how far the probabilities of the code are from the exact ones, and how rare the panics are.
-/

set_option linter.unusedSectionVars false

namespace RG.Props
open RG RG.Prog
variable {I : Type} [Individual I]

/-- The probability of an event about the index is a share of the draws. -/
theorem prob_linear (b : F64) (p : Population I) (P : Nat → Prop) [DecidablePred P] (N : Nat) (hN : N = 2 ^ 53) :
    ((⟨b⟩ : LinearSelection F64).select p).prob (fun r => P r.1) =
      (((Finset.range N).filter fun k =>
        ((⟨b⟩ : LinearSelection F64).offset p.individuals.length (F64.unit k)).toUsize < p.individuals.length ∧
          P (p.individuals.length - 1 - ((⟨b⟩ : LinearSelection F64).offset p.individuals.length (F64.unit k)).toUsize)).card : ℚ)
        / N := by
  have hlen : p.len = p.individuals.length := rfl
  unfold LinearSelection.select genF64
  rw [hlen, bind_assoc, Prog.prob_uniform_bind _ (by norm_num), ← hN, Finset.card_filter, Nat.cast_sum]
  congr 1
  refine Finset.sum_congr rfl fun k hk => ?_
  rw [Prog.bind_pure_left, Nat.cast_ite, Nat.cast_one, Nat.cast_zero]
  rcases Nat.lt_or_ge ((⟨b⟩ : LinearSelection F64).offset p.individuals.length (F64.unit k)).toUsize p.individuals.length with h | h
  · rw [selectIndex_lt h, Prog.lift_ok, Prog.bind_pure_left]
    have hi : p.individuals.length - 1 - ((⟨b⟩ : LinearSelection F64).offset p.individuals.length (F64.unit k)).toUsize < p.individuals.length := by
      omega
    have hm : memberAt p (p.individuals.length - 1 - ((⟨b⟩ : LinearSelection F64).offset p.individuals.length (F64.unit k)).toUsize) =
        .ok (p.individuals.length - 1 - ((⟨b⟩ : LinearSelection F64).offset p.individuals.length (F64.unit k)).toUsize, p.individuals[p.individuals.length - 1 -
          ((⟨b⟩ : LinearSelection F64).offset p.individuals.length (F64.unit k)).toUsize]) := by
      unfold memberAt
      rw [show index p.individuals _ = .ok _ from by unfold index; rw [List.getElem?_eq_getElem hi]; rfl]
      rfl
    have hm' := congrArg (fun r => Prog.lift r) hm
    refine (congrArg (fun q => Prog.prob q fun r => P r.1) hm').trans ?_
    rw [Prog.lift_ok, Prog.prob_pure]
    exact if_congr ⟨fun hP => ⟨h, hP⟩, fun hP => hP.2⟩ rfl rfl
  · rw [selectIndex_ge h, if_neg (by rintro ⟨h', -⟩; omega)]
    exact prob_eq_zero _ _ fun a ha _ => by
      have h' : (Prog.lift (Res.panic : Res (Nat × I))).yields (.ok a) := ha
      cases h'

/-- **C84** (distribution) For a bias above 1 and at most 2, the probability that linear selection picks one of the `T` fittest is
`F(T/n)` for `F(x) = b x - (b-1) x²`, up to `2^-48 / (b-1)`. -/
theorem C84_share (b : F64) (hf : b.isFinite = true) (h1 : 1 < b.val) (h2 : b.val ≤ 2) (p : Population I)
    (hn : p.individuals.length ≤ 2 ^ 53) (T : Nat) (hT : T ≤ p.individuals.length) :
    |((⟨b⟩ : LinearSelection F64).select p).prob (fun r => p.individuals.length ≤ r.1 + T) -
      (b.val * (T / p.individuals.length) - (b.val - 1) * (T / p.individuals.length : ℚ) ^ 2)| ≤ 1 / 2 ^ 48 / (b.val - 1) := by
  obtain ⟨N, hN⟩ : ∃ N : Nat, N = 2 ^ 53 := ⟨_, rfl⟩
  have h := lin_share hf h1 h2 hn hT N hN
  rw [prob_linear b p (fun i => p.individuals.length ≤ i + T) N hN]
  have e : ((Finset.range N).filter fun k =>
        ((⟨b⟩ : LinearSelection F64).offset p.individuals.length (F64.unit k)).toUsize < p.individuals.length ∧
          p.individuals.length ≤ p.individuals.length - 1 -
            ((⟨b⟩ : LinearSelection F64).offset p.individuals.length (F64.unit k)).toUsize + T) =
      (Finset.range N).filter fun k => ((⟨b⟩ : LinearSelection F64).offset p.individuals.length (F64.unit k)).toUsize < T := by
    refine Finset.filter_congr fun k _ => ?_
    omega
  rw [e]
  exact h

/-- **C84** (probability) So the individual at index `i`, with `j = n - 1 - i` fitter ones after it, is selected with probability
`b/n - (b-1)(2j+1)/n²`, up to `2^-47 / (b-1)`. -/
theorem C84_probability (b : F64) (hf : b.isFinite = true) (h1 : 1 < b.val) (h2 : b.val ≤ 2) (p : Population I)
    (hn : p.individuals.length ≤ 2 ^ 53) (i : Nat) (hi : i < p.individuals.length) :
    |((⟨b⟩ : LinearSelection F64).select p).prob (fun r => r.1 = i) -
      (b.val / p.individuals.length -
        (b.val - 1) * (2 * ((p.individuals.length : ℚ) - 1 - i) + 1) / (p.individuals.length : ℚ) ^ 2)| ≤ 1 / 2 ^ 47 / (b.val - 1) := by
  set n := p.individuals.length with hnn
  have hpos : (0 : ℚ) < n := by exact_mod_cast (show 0 < n by omega)
  have s1 := C84_share b hf h1 h2 p hn (n - i) (by omega)
  have s2 := C84_share b hf h1 h2 p hn (n - 1 - i) (by omega)
  rw [← hnn] at s1 s2
  have hsplit : ((⟨b⟩ : LinearSelection F64).select p).prob (fun r => n ≤ r.1 + (n - i)) =
      ((⟨b⟩ : LinearSelection F64).select p).prob (fun r => r.1 = i) +
        ((⟨b⟩ : LinearSelection F64).select p).prob (fun r => n ≤ r.1 + (n - 1 - i)) := by
    rw [← prob_or _ _ _ (by intro r h3 h4; omega)]
    exact prob_congr _ _ _ fun r _ => by constructor <;> intro h <;> omega
  rw [hsplit] at s1
  have c1 : ((n - i : Nat) : ℚ) = n - i := Nat.cast_sub hi.le
  have c2 : ((n - 1 - i : Nat) : ℚ) = n - 1 - i := by
    rw [Nat.cast_sub (by omega), Nat.cast_sub (by omega)]; norm_num
  rw [c1] at s1
  rw [c2] at s2
  have e : b.val / n - (b.val - 1) * (2 * ((n : ℚ) - 1 - i) + 1) / (n : ℚ) ^ 2 =
      (b.val * ((n - i) / n) - (b.val - 1) * ((n - i : ℚ) / n) ^ 2) -
        (b.val * ((n - 1 - i) / n) - (b.val - 1) * ((n - 1 - i : ℚ) / n) ^ 2) := by
    field_simp
    ring
  have e2 : 1 / 2 ^ 47 / (b.val - 1) = 1 / 2 ^ 48 / (b.val - 1) + 1 / 2 ^ 48 / (b.val - 1) := by
    ring
  rw [e, e2]
  obtain ⟨a1, a2⟩ := abs_le.1 s1
  obtain ⟨b1, b2⟩ := abs_le.1 s2
  rw [abs_le]
  constructor <;> linarith

/-- **C84** (panics) The index computation panics with probability at most `2^-48 / (b-1)`; otherwise a member is selected. -/
theorem C84_rarely_panics (b : F64) (hf : b.isFinite = true) (h1 : 1 < b.val) (h2 : b.val ≤ 2) (p : Population I)
    (hp : p.individuals ≠ []) (hn : p.individuals.length ≤ 2 ^ 53) :
    1 - 1 / 2 ^ 48 / (b.val - 1) ≤ ((⟨b⟩ : LinearSelection F64).select p).prob (fun r => r.1 < p.individuals.length) := by
  have h := (abs_le.1 (C84_share b hf h1 h2 p hn p.individuals.length le_rfl)).1
  have hpos : (0 : ℚ) < p.individuals.length := by exact_mod_cast List.length_pos_of_ne_nil hp
  rw [div_self hpos.ne'] at h
  have hm : ((⟨b⟩ : LinearSelection F64).select p).prob (fun r => p.individuals.length ≤ r.1 + p.individuals.length) ≤
      ((⟨b⟩ : LinearSelection F64).select p).prob (fun r => r.1 < p.individuals.length) := by
    obtain ⟨N, hN⟩ : ∃ N : Nat, N = 2 ^ 53 := ⟨_, rfl⟩
    rw [prob_linear b p (fun i => p.individuals.length ≤ i + p.individuals.length) N hN,
      prob_linear b p (fun i => i < p.individuals.length) N hN]
    refine div_le_div_of_nonneg_right ?_ (Nat.cast_nonneg _)
    refine Nat.cast_le.2 (Finset.card_le_card fun k hk => ?_)
    rw [Finset.mem_filter] at hk ⊢
    exact ⟨hk.1, hk.2.1, by omega⟩
  linarith

/-- **C84** (pressure) Up to twice the error of a probability, fitter individuals are selected at least as often. -/
theorem C84_favours_fit (b : F64) (hf : b.isFinite = true) (h1 : 1 < b.val) (h2 : b.val ≤ 2) (p : Population I)
    (hn : p.individuals.length ≤ 2 ^ 53) (i j : Nat) (hij : i ≤ j) (hj : j < p.individuals.length) :
    ((⟨b⟩ : LinearSelection F64).select p).prob (fun r => r.1 = i) ≤
      ((⟨b⟩ : LinearSelection F64).select p).prob (fun r => r.1 = j) + 1 / 2 ^ 46 / (b.val - 1) := by
  have hi := (abs_le.1 (C84_probability b hf h1 h2 p hn i (by omega))).2
  have hj := (abs_le.1 (C84_probability b hf h1 h2 p hn j hj)).1
  have hijq : (i : ℚ) ≤ j := by exact_mod_cast hij
  have hm : (b.val - 1) * (2 * ((p.individuals.length : ℚ) - 1 - j) + 1) / (p.individuals.length : ℚ) ^ 2 ≤
      (b.val - 1) * (2 * ((p.individuals.length : ℚ) - 1 - i) + 1) / (p.individuals.length : ℚ) ^ 2 :=
    div_le_div_of_nonneg_right (mul_le_mul_of_nonneg_left (by linarith) (by linarith)) (by positivity)
  have e : 1 / 2 ^ 46 / (b.val - 1) = 1 / 2 ^ 47 / (b.val - 1) + 1 / 2 ^ 47 / (b.val - 1) := by
    ring
  rw [e]
  linarith

/-- **C84** (the fittest) With a bias of at least `1 + 2^-7`, a fittest one of at least two individuals is selected with probability
at least `1/n`: at least as often as by a uniform choice. -/
theorem C84_fittest (b : F64) (hf : b.isFinite = true) (h1 : 1 + 1 / 2 ^ 7 ≤ b.val) (h2 : b.val ≤ 2) (p : Population I)
    (hn2 : 2 ≤ p.individuals.length) (hn : p.individuals.length < 2 ^ 32) :
    1 / (p.individuals.length : ℚ) ≤ ((⟨b⟩ : LinearSelection F64).select p).prob (fun r => r.1 + 1 = p.individuals.length) := by
  have h1' : 1 < b.val := lt_of_lt_of_le (by norm_num) h1
  have h := (abs_le.1 (C84_probability b hf h1' h2 p (hn.le.trans (by norm_num)) (p.individuals.length - 1) (by omega))).1
  have e : ((⟨b⟩ : LinearSelection F64).select p).prob (fun r => r.1 = p.individuals.length - 1) =
      ((⟨b⟩ : LinearSelection F64).select p).prob (fun r => r.1 + 1 = p.individuals.length) :=
    prob_congr _ _ _ fun r _ => by constructor <;> intro h <;> omega
  rw [e] at h
  set n := p.individuals.length with hnn
  have hnq : (2 : ℚ) ≤ n := by exact_mod_cast hn2
  have hnq' : (n : ℚ) ≤ 2 ^ 32 := by exact_mod_cast hn.le
  have hcast : ((n - 1 : Nat) : ℚ) = n - 1 := by rw [Nat.cast_sub (by omega)]; norm_num
  rw [hcast] at h
  have herr : 1 / 2 ^ 47 / (b.val - 1) ≤ 1 / 2 ^ 40 := by
    rw [div_le_iff₀ (by linarith)]
    have : (1 : ℚ) / 2 ^ 40 * (1 / 2 ^ 7) ≤ 1 / 2 ^ 40 * (b.val - 1) := mul_le_mul_of_nonneg_left (by linarith) (by norm_num)
    refine le_trans (by norm_num) this
  have hgain : 1 / 2 ^ 40 ≤ (b.val - 1) * ((n : ℚ) - 1) / n ^ 2 := by
    rw [le_div_iff₀ (by positivity)]
    have h3 : (n : ℚ) / 2 ≤ n - 1 := by linarith
    have h4 : (1 / 2 ^ 7 : ℚ) * (n / 2) ≤ (b.val - 1) * (n - 1) := mul_le_mul (by linarith) h3 (by linarith) (by linarith)
    refine le_trans ?_ h4
    nlinarith
  have e3 : b.val / n - (b.val - 1) * (2 * ((n : ℚ) - 1 - (n - 1)) + 1) / (n : ℚ) ^ 2 = 1 / n + (b.val - 1) * ((n : ℚ) - 1) / n ^ 2 := by
    have : (n : ℚ) ≠ 0 := by linarith
    field_simp; ring
  rw [e3] at h
  linarith

/-- The bias of the documentation, 1.25, and three individuals: the fittest is selected with probability `14/36` up to `2^-45`. -/
example : |((⟨F64.lit (5 / 4)⟩ : LinearSelection F64).select numPop).prob (fun r => r.1 = 2) - 14 / 36| ≤ 1 / 2 ^ 45 := by
  have hv : (F64.lit (5 / 4)).isFinite = true ∧ (F64.lit (5 / 4)).val = 5 / 4 := by decide +kernel
  have hl : numPop.individuals.length = 3 := rfl
  have h := C84_probability (F64.lit (5 / 4)) hv.1 (by rw [hv.2]; norm_num) (by rw [hv.2]; norm_num) numPop (by rw [hl]; norm_num) 2
    (by rw [hl]; norm_num)
  rw [hl, hv.2] at h
  norm_num at h ⊢
  exact h

/-- With the bias 1.1, for which the computation can panic, it does so with probability below `2^-44`. -/
example : 1 - 1 / 2 ^ 44 ≤ ((⟨F64.lit (11 / 10)⟩ : LinearSelection F64).select numPop).prob (fun r => r.1 < 3) := by
  have hv : (F64.lit (11 / 10)).isFinite = true ∧ 17 / 16 ≤ (F64.lit (11 / 10)).val ∧ (F64.lit (11 / 10)).val ≤ 2 := by decide +kernel
  have hl : numPop.individuals.length = 3 := rfl
  have h := C84_rarely_panics (F64.lit (11 / 10)) hv.1 (by linarith [hv.2.1]) hv.2.2 numPop (by intro h; cases h) (by rw [hl]; norm_num)
  rw [hl] at h
  refine le_trans ?_ h
  have : 1 / 2 ^ 48 / ((F64.lit (11 / 10)).val - 1) ≤ 1 / 2 ^ 44 := by
    rw [div_le_iff₀ (by linarith [hv.2.1])]
    have := hv.2.1
    linarith
  linarith

end RG.Props
