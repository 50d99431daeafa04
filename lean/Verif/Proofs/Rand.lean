import Verif.Rand
import Mathlib.Algebra.Order.BigOperators.Ring.Finset
import Mathlib.Algebra.BigOperators.Intervals
import Mathlib.Algebra.Order.Archimedean.Basic

/-!
# Lemmas about random draws
-/

namespace RG
namespace Rand
open Prog

/-- A sum over words of which only the upper part matters. -/
theorem sum_div (F : Nat → ℚ) (a b : Nat) (hb : 0 < b) :
    ∑ w ∈ Finset.range (a * b), F (w / b) = b * ∑ v ∈ Finset.range a, F v := by
  induction a with
  | zero => simp
  | succ a ih =>
    rw [Nat.succ_mul, Finset.sum_range_add, ih, Finset.sum_range_succ, mul_add]
    congr 1
    rw [Finset.sum_congr rfl (g := fun _ => F a) (fun x hx => by
      rw [Nat.add_comm, Nat.add_mul_div_right _ _ hb, Nat.div_eq_of_lt (Finset.mem_range.1 hx), Nat.zero_add])]
    simp

/-- `next` is a uniform number below `B`. -/
def IsWord (next : Prog Nat) (B : Nat) : Prop :=
  (∀ g, next.expect g = (∑ v ∈ Finset.range B, g (.ok v)) / B) ∧ (∀ r, next.yields r ↔ ∃ v, v < B ∧ r = .ok v)

theorem isWord_nextU64 : IsWord nextU64 (2 ^ 64) := by
  obtain ⟨N, hN⟩ : ∃ N : Nat, N = 2 ^ 64 := ⟨_, rfl⟩
  have hpos : 0 < N := by rw [hN]; exact Nat.two_pow_pos 64
  unfold nextU64
  rw [← hN]
  refine ⟨fun g => ?_, fun r => ?_⟩
  · rw [← uniform_pos hpos, expect_uniform N hpos]
  · rw [← uniform_pos hpos, yields_uniform]
    constructor
    · rintro (h | h)
      · omega
      · exact h
    · exact Or.inr

theorem isWord_high (next : Prog Nat) (A a b : Nat) (h : IsWord next A) (hA : A = a * b) (ha : 0 < a) (hb : 0 < b) :
    IsWord (next >>= fun w => pure (w / b)) a := by
  subst hA
  refine ⟨fun g => ?_, fun r => ?_⟩
  · rw [expect_bind, h.1]
    simp only [expect_pure]
    rw [sum_div (fun v => g (.ok v)) a b hb]
    have h1 : (a : ℚ) ≠ 0 := by exact_mod_cast ha.ne'
    have h2 : (b : ℚ) ≠ 0 := by exact_mod_cast hb.ne'
    push_cast
    field_simp
  · rw [yields_bind]
    constructor
    · rintro (⟨w, hw, hr⟩ | ⟨hw, _⟩ | ⟨hw, _⟩)
      · obtain ⟨v, hv, e⟩ := (h.2 _).1 hw
        cases e
        exact ⟨w / b, (Nat.div_lt_iff_lt_mul hb).2 hv, hr⟩
      · obtain ⟨v, _, e⟩ := (h.2 _).1 hw; cases e
      · obtain ⟨v, _, e⟩ := (h.2 _).1 hw; cases e
    · rintro ⟨v, hv, rfl⟩
      refine Or.inl ⟨v * b, (h.2 _).2 ⟨v * b, Nat.mul_lt_mul_of_pos_right hv hb, rfl⟩, ?_⟩
      rw [Nat.mul_div_cancel _ hb]
      rfl

theorem isWord_nextU32 : IsWord nextU32 (2 ^ 32) :=
  isWord_high nextU64 (2 ^ 64) (2 ^ 32) (2 ^ 32) isWord_nextU64 (by norm_num) (by norm_num) (by norm_num)

theorem isWord_genFloat : IsWord genFloat (2 ^ 53) :=
  isWord_high nextU64 (2 ^ 64) (2 ^ 53) (2 ^ 11) isWord_nextU64 (by norm_num) (by norm_num) (by norm_num)

theorem isWord_genBit : IsWord genBit 2 := by
  have h := isWord_high nextU32 (2 ^ 32) 2 (2 ^ 31) isWord_nextU32 (by norm_num) (by norm_num) (by norm_num)
  have e : ∀ w, w < 2 ^ 32 → w / 2 ^ 31 = if 2 ^ 31 ≤ w then 1 else 0 := fun w hw => by
    split <;> omega
  refine ⟨fun g => ?_, fun r => ?_⟩
  · rw [← h.1 g]
    unfold genBit
    rw [expect_bind, expect_bind]
    refine expect_congr _ _ _ fun r hr => ?_
    obtain ⟨v, hv, rfl⟩ := (isWord_nextU32.2 _).1 hr
    show (pure (if 2 ^ 31 ≤ v then 1 else 0) : Prog Nat).expect g = (pure (v / 2 ^ 31) : Prog Nat).expect g
    rw [e v hv]
  · rw [← h.2 r]
    unfold genBit
    rw [yields_bind, yields_bind]
    refine or_congr_left (exists_congr fun w => and_congr_right fun hw => ?_)
    obtain ⟨v, hv, e'⟩ := (isWord_nextU32.2 _).1 hw
    cases e'
    rw [e w hv]

/-- The words that lead to the result `i` of the loop. -/
theorem accepted (B range c i : Nat) (hr : 0 < range) (hc : range * c ≤ B) (hi : i < range) :
    ((Finset.range B).filter fun v => v * range % B < range * c ∧ v * range / B = i).card = c := by
  rcases Nat.eq_zero_or_pos B with rfl | hB
  · have : c = 0 := by
      rcases Nat.eq_zero_or_pos c with h | h
      · exact h
      · have := Nat.mul_pos hr h; omega
    simp [this]
  have key : ((Finset.range B).filter fun v => v * range % B < range * c ∧ v * range / B = i) =
      Finset.Ico ((i * B + (range - 1)) / range) ((i * B + (range - 1)) / range + c) := by
    ext v
    rw [Finset.mem_filter, Finset.mem_range, Finset.mem_Ico]
    have hiff : (v * range % B < range * c ∧ v * range / B = i) ↔ i * B ≤ v * range ∧ v * range < i * B + range * c := by
      have hdm := Nat.div_add_mod (v * range) B
      constructor
      · rintro ⟨h1, h2⟩
        rw [h2, Nat.mul_comm] at hdm
        omega
      · rintro ⟨h1, h2⟩
        have hd : v * range / B = i :=
          Nat.div_eq_of_lt_le h1 (by rw [Nat.succ_mul]; omega)
        rw [hd, Nat.mul_comm] at hdm
        exact ⟨by omega, hd⟩
    have hlo : ∀ w, (i * B + (range - 1)) / range ≤ w ↔ i * B ≤ w * range := fun w => by
      rw [← Nat.lt_succ_iff, Nat.div_lt_iff_lt_mul hr, Nat.succ_mul]
      omega
    rw [hiff]
    generalize (i * B + (range - 1)) / range = a at hlo
    constructor
    · rintro ⟨_, h1, h2⟩
      refine ⟨(hlo v).2 h1, ?_⟩
      by_contra hcon
      have h3 : a ≤ v - c := by omega
      have h4 := (hlo _).1 h3
      have h5 : c ≤ v := by omega
      rw [Nat.sub_mul, Nat.mul_comm c range] at h4
      have h6 : range * c ≤ v * range := by rw [Nat.mul_comm v]; exact Nat.mul_le_mul_left _ h5
      omega
    · rintro ⟨h1, h2⟩
      have h3 := (hlo v).1 h1
      have h4 : v * range < i * B + range * c := by
        by_contra hcon
        rcases Nat.lt_or_ge v c with hv | hv
        · have : v * range < c * range := Nat.mul_lt_mul_of_pos_right hv hr
          rw [Nat.mul_comm c range] at this
          omega
        · have : i * B ≤ (v - c) * range := by
            rw [Nat.sub_mul, Nat.mul_comm c range]; omega
          have := (hlo _).2 this
          omega
      refine ⟨?_, h3, h4⟩
      have h5 : i * B + B ≤ range * B := by
        have := Nat.mul_le_mul_right B hi
        rwa [Nat.succ_mul] at this
      have h6 : v * range < B * range := by rw [Nat.mul_comm B]; omega
      exact Nat.lt_of_mul_lt_mul_right h6
  rw [key, Nat.card_Ico]
  omega

/-- A draw from `0..=n`: with probability `1 - ε` uniform, otherwise the loop has not ended. -/
def IsDraw (d : Prog Nat) (n : Nat) (ε : ℚ) : Prop :=
  0 ≤ ε ∧ (∀ g, d.expect g = (1 - ε) * ((∑ i ∈ Finset.range (n + 1), g (.ok i)) / (n + 1)) + ε * g .diverge) ∧
    (∀ r, d.yields r → r = .diverge ∨ ∃ i, i ≤ n ∧ r = .ok i)

theorem isDraw_of_isWord {d : Prog Nat} {n : Nat} (h : IsWord d (n + 1)) : IsDraw d n 0 := by
  refine ⟨le_rfl, fun g => ?_, fun r hr => ?_⟩
  · rw [h.1 g]; push_cast; ring
  · obtain ⟨v, hv, rfl⟩ := (h.2 r).1 hr
    exact Or.inr ⟨v, by omega, rfl⟩

theorem rejectLoop_isDraw {next : Prog Nat} {bits n c zone : Nat} (hw : IsWord next (2 ^ bits)) (hz : zone + 1 = (n + 1) * c)
    (hc : (n + 1) * c ≤ 2 ^ bits) (tries : Nat) :
    IsDraw (rejectLoop next bits (n + 1) zone tries) n ((1 - (n + 1 : ℚ) * c / 2 ^ bits) ^ tries) := by
  obtain ⟨B, hB⟩ : ∃ B : Nat, B = 2 ^ bits := ⟨_, rfl⟩
  have hBq : ((2 : ℚ) ^ bits) = (B : ℚ) := by rw [hB]; push_cast; rfl
  have hBpos : (0 : ℚ) < B := by rw [← hBq]; positivity
  rw [hBq]
  rw [← hB] at hc hw
  have hcq : ((n : ℚ) + 1) * c ≤ B := by exact_mod_cast hc
  have hρ : 0 ≤ 1 - ((n : ℚ) + 1) * c / B := by rw [sub_nonneg, div_le_one hBpos]; exact hcq
  refine ⟨pow_nonneg hρ _, fun g => ?_, ?_⟩
  · induction tries with
    | zero => simp [rejectLoop]
    | succ t ih =>
      unfold rejectLoop
      rw [expect_bind, hw.1, ← hB]
      set E := (rejectLoop next bits (n + 1) zone t).expect g with hE
      have hsplit : ∀ v ∈ Finset.range B, ((if v * (n + 1) % B ≤ zone then (pure (v * (n + 1) / B) : Prog Nat)
          else rejectLoop next bits (n + 1) zone t).expect g) =
          (if v * (n + 1) % B < (n + 1) * c then g (.ok (v * (n + 1) / B)) else E) := fun v _ => by
        have : v * (n + 1) % B ≤ zone ↔ v * (n + 1) % B < (n + 1) * c := by rw [← hz, Nat.lt_succ_iff]
        by_cases h : v * (n + 1) % B < (n + 1) * c
        · rw [if_pos (this.2 h), if_pos h, expect_pure]
        · rw [if_neg (fun h' => h (this.1 h')), if_neg h]
      have hs := Finset.sum_congr (rfl : Finset.range B = Finset.range B) hsplit
      simp only at hs ⊢
      rw [hs, Finset.sum_ite, Finset.sum_const]
      have hmaps : ∀ v ∈ (Finset.range B).filter (fun v => v * (n + 1) % B < (n + 1) * c), v * (n + 1) / B ∈ Finset.range (n + 1) := by
        intro v hv
        rw [Finset.mem_filter, Finset.mem_range] at hv
        rw [Finset.mem_range, Nat.div_lt_iff_lt_mul (by omega), Nat.mul_comm]
        exact Nat.mul_lt_mul_of_pos_left hv.1 (by omega)
      have hfib : ∀ i ∈ Finset.range (n + 1),
          (((Finset.range B).filter (fun v => v * (n + 1) % B < (n + 1) * c)).filter fun v => v * (n + 1) / B = i).card = c := by
        intro i hi
        rw [Finset.filter_filter]
        exact accepted B (n + 1) c i (by omega) hc (Finset.mem_range.1 hi)
      have hsum : ∑ v ∈ (Finset.range B).filter (fun v => v * (n + 1) % B < (n + 1) * c), g (.ok (v * (n + 1) / B)) =
          c * ∑ i ∈ Finset.range (n + 1), g (.ok i) := by
        rw [← Finset.sum_fiberwise_of_maps_to hmaps, Finset.mul_sum]
        refine Finset.sum_congr rfl fun i hi => ?_
        rw [Finset.sum_congr rfl (g := fun _ => g (.ok i)) (fun v hv => by rw [(Finset.mem_filter.1 hv).2]), Finset.sum_const,
          hfib i hi, nsmul_eq_mul]
      have hacc : ((Finset.range B).filter (fun v => v * (n + 1) % B < (n + 1) * c)).card = (n + 1) * c := by
        rw [Finset.card_eq_sum_card_fiberwise hmaps, Finset.sum_congr rfl hfib]
        simp
      have hrej : (((Finset.range B).filter (fun v => ¬ v * (n + 1) % B < (n + 1) * c)).card : ℚ) = B - (n + 1) * c := by
        have := Finset.card_filter_add_card_filter_not (s := Finset.range B) (fun v => v * (n + 1) % B < (n + 1) * c)
        rw [hacc, Finset.card_range] at this
        have h2 : (((n + 1) * c : Nat) : ℚ) + (((Finset.range B).filter (fun v => ¬ v * (n + 1) % B < (n + 1) * c)).card : ℚ) = B := by
          exact_mod_cast this
        push_cast at h2
        linarith
      rw [hsum, nsmul_eq_mul, hrej]
      have hn : (n : ℚ) + 1 ≠ 0 := by positivity
      generalize hρ' : 1 - ((n : ℚ) + 1) * c / B = ρ at ih
      have hcρ : (c : ℚ) = (1 - ρ) * B / (n + 1) := by rw [← hρ']; field_simp; ring
      rw [ih, hcρ, pow_succ]
      field_simp
      ring
  · induction tries with
    | zero => intro r hr; exact Or.inl hr
    | succ t ih =>
      intro r hr
      unfold rejectLoop at hr
      rw [yields_bind] at hr
      rcases hr with ⟨v, hv, hr⟩ | ⟨hv, _⟩ | ⟨hv, _⟩
      · obtain ⟨v', hv', e⟩ := (hw.2 _).1 hv
        cases e
        simp only at hr
        split at hr
        · right
          refine ⟨_, ?_, hr⟩
          rw [← hB, ← Nat.lt_succ_iff, Nat.div_lt_iff_lt_mul (by omega), Nat.mul_comm]
          exact Nat.mul_lt_mul_of_pos_left hv' (by omega)
        · exact ih r hr
      · obtain ⟨v', _, e⟩ := (hw.2 _).1 hv; cases e
      · obtain ⟨v', _, e⟩ := (hw.2 _).1 hv; cases e

theorem IsDraw.congr {d : Prog Nat} {n : Nat} {ε : ℚ} (h : IsDraw d n ε) (f : Nat → Nat) (hf : ∀ i, i ≤ n → f i = i) :
    IsDraw (d >>= fun i => pure (f i)) n ε := by
  refine ⟨h.1, fun g => ?_, fun r hr => ?_⟩
  · rw [expect_bind, ← h.2.1 g]
    refine expect_congr _ _ _ fun r hr => ?_
    rcases h.2.2 r hr with rfl | ⟨i, hi, rfl⟩
    · rfl
    · show (pure (f i) : Prog Nat).expect g = g (.ok i)
      rw [hf i hi, expect_pure]
  · rw [yields_bind] at hr
    rcases hr with ⟨i, hi, hr⟩ | ⟨hp, _⟩ | ⟨_, hr⟩
    · rcases h.2.2 _ hi with e | ⟨j, hj, e⟩
      · cases e
      · cases e
        rw [hf _ hj] at hr
        exact Or.inr ⟨i, hj, hr⟩
    · rcases h.2.2 _ hp with e | ⟨j, _, e⟩ <;> cases e
    · exact Or.inl hr

/-- The probability that a loop that accepts at least half of the words has not ended. -/
theorem reject_le {B n c : Nat} (tries : Nat) (h1 : (n + 1) * c ≤ B) (h2 : B ≤ 2 * ((n + 1) * c)) (hB : 0 < B) :
    (1 - (n + 1 : ℚ) * c / B) ^ tries ≤ (1 / 2) ^ tries := by
  have hBq : (0 : ℚ) < B := by exact_mod_cast hB
  have h1' : ((n : ℚ) + 1) * c ≤ B := by exact_mod_cast h1
  have h2' : (B : ℚ) ≤ 2 * (((n : ℚ) + 1) * c) := by exact_mod_cast h2
  refine pow_le_pow_left₀ ?_ ?_ _
  · rw [sub_nonneg, div_le_one hBq]; exact h1'
  · have : 1 / 2 ≤ ((n : ℚ) + 1) * c / B := by rw [div_le_div_iff₀ (by norm_num) hBq]; linarith
    linarith

theorem shift_bounds {bits r : Nat} (h0 : 0 < r) (h1 : r < 2 ^ bits) :
    r * 2 ^ leadingZeros bits r ≤ 2 ^ bits ∧ 2 ^ bits ≤ 2 * (r * 2 ^ leadingZeros bits r) := by
  unfold leadingZeros
  have hl : Nat.log2 r < bits := (Nat.log2_lt h0.ne').2 h1
  have a1 : 2 ^ Nat.log2 r ≤ r := Nat.log2_self_le h0.ne'
  have a2 : r < 2 ^ (Nat.log2 r + 1) := Nat.lt_log2_self
  generalize hk : Nat.log2 r = k at *
  constructor
  · calc r * 2 ^ (bits - 1 - k) ≤ 2 ^ (k + 1) * 2 ^ (bits - 1 - k) := Nat.mul_le_mul_right _ a2.le
      _ = 2 ^ bits := by rw [← pow_add]; congr 1; omega
  · calc 2 ^ bits = 2 * (2 ^ k * 2 ^ (bits - 1 - k)) := by rw [← pow_add, ← pow_succ']; congr 1; omega
      _ ≤ 2 * (r * 2 ^ (bits - 1 - k)) := Nat.mul_le_mul_left _ (Nat.mul_le_mul_right _ a1)

theorem sampleSingle_isDraw {next : Prog Nat} {bits n : Nat} (hw : IsWord next (2 ^ bits)) (hn : n < 2 ^ bits) (tries : Nat) :
    ∃ ε, ε ≤ (1 / 2) ^ tries ∧ IsDraw (sampleSingleInclusive next bits tries 0 n) n ε := by
  unfold sampleSingleInclusive
  rw [if_pos (Nat.zero_le n), Nat.sub_zero]
  rcases Nat.lt_or_ge (n + 1) (2 ^ bits) with h | h
  · rw [Nat.mod_eq_of_lt h]
    simp only [Nat.add_eq_zero_iff, one_ne_zero, and_false, if_false, Nat.zero_add]
    obtain ⟨b1, b2⟩ := shift_bounds (r := n + 1) (Nat.succ_pos n) h
    have hpos : 0 < (n + 1) * 2 ^ leadingZeros bits (n + 1) := Nat.mul_pos (Nat.succ_pos n) (Nat.two_pow_pos _)
    have hd := rejectLoop_isDraw hw (zone := (n + 1) * 2 ^ leadingZeros bits (n + 1) - 1)
      (Nat.sub_add_cancel hpos) b1 tries
    refine ⟨_, ?_, hd.congr (fun hi => hi % 2 ^ bits) fun i hi => Nat.mod_eq_of_lt (by omega)⟩
    have := reject_le tries b1 b2 (Nat.two_pow_pos bits)
    push_cast at this ⊢
    exact this
  · have e : n + 1 = 2 ^ bits := by omega
    rw [e, Nat.mod_self]
    simp only [if_true]
    exact ⟨0, by positivity, isDraw_of_isWord (by rw [e]; exact hw)⟩

theorem uniformSample_isDraw {n : Nat} (hn : n < 2 ^ 64) (tries : Nat) :
    ∃ ε, ε ≤ (1 / 2) ^ tries ∧ IsDraw (uniformSample tries (n + 1)) n ε := by
  unfold uniformSample
  rw [if_pos (Nat.succ_pos n)]
  have hw := isWord_nextU64
  obtain ⟨bits, hbits⟩ : ∃ b : Nat, b = 64 := ⟨_, rfl⟩
  rw [← hbits] at hn hw ⊢
  have hBpos : 0 < 2 ^ bits := Nat.two_pow_pos bits
  rcases Nat.lt_or_ge (n + 1) (2 ^ bits) with h | h
  · rw [Nat.mod_eq_of_lt h]
    simp only [Nat.add_eq_zero_iff, one_ne_zero, and_false, if_false]
    have e : (2 ^ bits - 1 - (n + 1) + 1) % (n + 1) = 2 ^ bits % (n + 1) := by
      rw [show 2 ^ bits - 1 - (n + 1) + 1 = 2 ^ bits - (n + 1) by omega, ← Nat.mod_eq_sub_mod h.le]
    rw [e]
    have hdm := Nat.div_add_mod (2 ^ bits) (n + 1)
    have hmod := Nat.mod_lt (2 ^ bits) (Nat.succ_pos n)
    have hq : 1 ≤ 2 ^ bits / (n + 1) := (Nat.one_le_div_iff (Nat.succ_pos n)).2 h.le
    have hq' : n + 1 ≤ (n + 1) * (2 ^ bits / (n + 1)) := Nat.le_mul_of_pos_right _ hq
    generalize hm : 2 ^ bits % (n + 1) = m at *
    generalize hc : 2 ^ bits / (n + 1) = c at *
    have hd := rejectLoop_isDraw hw (n := n) (c := c) (zone := 2 ^ bits - 1 - m) (by omega) (by omega) tries
    refine ⟨_, ?_, hd⟩
    have := reject_le (B := 2 ^ bits) (n := n) (c := c) tries (by omega) (by omega) hBpos
    push_cast at this ⊢
    exact this
  · have e : n + 1 = 2 ^ bits := by omega
    rw [e, Nat.mod_self]
    simp only [if_true]
    exact ⟨0, by positivity, isDraw_of_isWord (by rw [e]; exact hw)⟩

/-- Every method is a draw that ends within a given number of words with high probability. -/
theorem draw_isDraw (m : Method) (n : Nat) (hf : m.Fits n) (tries : Nat) :
    ∃ ε, ε ≤ (1 / 2) ^ tries ∧ IsDraw (m.draw tries n) n ε := by
  cases m with
  | range => exact sampleSingle_isDraw isWord_nextU64 hf tries
  | index =>
    show ∃ ε, ε ≤ (1 / 2) ^ tries ∧ IsDraw (genIndex tries (n + 1)) n ε
    unfold genIndex
    split
    · rename_i h
      rw [if_pos (Nat.succ_pos n)]
      exact sampleSingle_isDraw isWord_nextU32 (by omega) tries
    · unfold genRangeExcl
      rw [if_pos (Nat.succ_pos n)]
      exact sampleSingle_isDraw isWord_nextU64 hf tries
  | uniform => exact uniformSample_isDraw hf tries
  | float =>
    refine ⟨0, by positivity, isDraw_of_isWord ?_⟩
    have hf : n + 1 = 2 ^ 53 := hf
    rw [hf]
    exact isWord_genFloat
  | bit =>
    refine ⟨0, by positivity, isDraw_of_isWord ?_⟩
    have hf : n + 1 = 2 := hf
    rw [hf]
    exact isWord_genBit

end Rand
end RG
