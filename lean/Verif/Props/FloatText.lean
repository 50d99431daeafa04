import Verif.Proofs.FloatText
import Verif.Props.Display

/-!
# Property C94: the text of the numbers

What `{}` and `{:.p$}` make of an `f64`, and what it means for the texts of `Stats` and `PopulatedStats`.
-/

set_option exponentiation.threshold 1100

namespace RG.Props
open RG FloatText

/-! ### Reading a number -/

/-- The value of a text of digits, with a point or without. -/
def readDecimal (cs : List Char) : Option ℚ :=
  let int := cs.takeWhile Char.isDigit
  match cs.dropWhile Char.isDigit with
  | [] => if int = [] then none else some (Nat.ofDigitChars 10 int 0)
  | c :: frac =>
    if c = '.' ∧ int ≠ [] ∧ frac ≠ [] ∧ ∀ d ∈ frac, d.isDigit = true then
      some (Nat.ofDigitChars 10 int 0 + Nat.ofDigitChars 10 frac 0 / 10 ^ frac.length)
    else none

/-- The value of a decimal that may have a minus sign. -/
def readSigned (cs : List Char) : Option ℚ :=
  match cs with
  | '-' :: cs => (readDecimal cs).map (fun v => -v)
  | cs => readDecimal cs

/-- Without a sign: infinity, or the number nearest to the value. -/
def readPositive (cs : List Char) : Option F64 :=
  if cs = ['i', 'n', 'f'] then some (.inf false) else (readDecimal cs).map F64.lit

/-- Reading a number, as `str::parse` does with such texts. -/
def readNumber (s : String) : Option F64 :=
  match s.toList with
  | ['N', 'a', 'N'] => some .nan
  | '-' :: cs => (readPositive cs).map F64.neg
  | cs => readPositive cs

private theorem readDecimal_decimal (n p : Nat) : readDecimal (decimal n p) = some ((n : ℚ) / 10 ^ p) := by
  have hd : ∀ c ∈ Nat.toDigits 10 (n / 10 ^ p), c.isDigit = true := toDigits_isDigit _
  unfold decimal
  by_cases hp : p = 0
  · subst hp
    rw [if_pos rfl]
    unfold readDecimal
    simp only
    rw [List.takeWhile_append_of_pos hd, List.dropWhile_append_of_pos hd]
    simp [Nat.toDigits_ne_nil]
  · rw [if_neg hp]
    have hlen := padded_length p (n % 10 ^ p) (by omega) (Nat.mod_lt _ (by positivity))
    have hne : padded p (n % 10 ^ p) ≠ [] := fun h => by rw [h] at hlen; simp at hlen; omega
    have hdot : Char.isDigit '.' = false := rfl
    unfold readDecimal
    simp only
    rw [List.takeWhile_append_of_pos hd, List.dropWhile_append_of_pos hd, List.takeWhile_cons_of_neg (by simp [hdot]),
      List.dropWhile_cons_of_neg (by simp [hdot]), List.append_nil]
    simp only
    rw [if_pos ⟨trivial, Nat.toDigits_ne_nil, hne, padded_isDigit p _⟩, hlen, padded_value, Nat.ofDigitChars_ten_toDigits]
    congr 1
    have h10 : (0 : ℚ) < 10 ^ p := by positivity
    rw [eq_div_iff h10.ne', add_mul, div_mul_cancel₀ _ h10.ne']
    exact_mod_cast Nat.div_add_mod' n (10 ^ p)

private theorem readPositive_decimal (n p : Nat) : readPositive (decimal n p) = some (F64.lit ((n : ℚ) / 10 ^ p)) := by
  unfold readPositive
  rw [if_neg, readDecimal_decimal]
  · rfl
  · obtain ⟨c, cs, h, hc⟩ := decimal_head n p
    rw [h]
    rintro he
    rw [List.cons.injEq] at he
    rw [he.1] at hc
    exact absurd hc (by decide)

private theorem readNumber_digit {cs : List Char} (h : ∃ c r, cs = c :: r ∧ c.isDigit = true) :
    readNumber (String.ofList cs) = readPositive cs ∧ readNumber (String.ofList ('-' :: cs)) = (readPositive cs).map F64.neg := by
  obtain ⟨c, r, rfl, hc⟩ := h
  unfold readNumber
  rw [String.toList_ofList, String.toList_ofList]
  constructor
  · split
    · rename_i h; rw [List.cons.injEq] at h; rw [h.1] at hc; exact absurd hc (by decide)
    · rename_i h; rw [List.cons.injEq] at h; rw [h.1] at hc; exact absurd hc (by decide)
    · rfl
  · rfl

/-! ### C94 -/

private theorem plain_pos (up : Bool) (q : ℚ) (hq : 0 < q) : ∃ n p : Nat, plain up q = decimal n p ∧
    (n : ℚ) / 10 ^ p = (shortest up q 1382 308).1 * pow10 (shortest up q 1382 308).2 := by
  unfold plain
  rw [if_neg hq.ne']
  rcases shortest up q 1382 308 with ⟨n, e | e⟩
  · exact ⟨_, 0, rfl, by simp [pow10]⟩
  · exact ⟨n, e + 1, rfl, by simp [pow10, div_eq_mul_inv]⟩

private theorem lit_rep {q v : ℚ} (h : Rep q) (hv : rndQ v = q) : F64.lit v = .fin q h := by
  unfold F64.lit F64.round
  rw [dif_pos (by rw [hv]; exact h.2)]
  simp [hv]

/-- **C94** A number written with `{}` is read back exactly: nothing is lost. -/
theorem C94_roundtrip (up : Bool) (x : F64) : readNumber ((FloatText up).plain x) = some x := by
  cases x with
  | nan => revert up; decide +kernel
  | inf s => revert up s; decide +kernel
  | nzero => revert up; decide +kernel
  | fin q h =>
    show readNumber (String.ofList (sign (decide (q < 0)) ++ plain up |q|)) = _
    rcases lt_trichotomy q 0 with hq | rfl | hq
    · obtain ⟨n, p, h1, h2⟩ := plain_pos up |q| (abs_pos.2 hq.ne)
      have hr : Rep |q| := by rw [abs_of_neg hq]; exact h.neg
      have hs := (shortest_spec up |q| (abs_nonneg q) hr.1 1382 308 (by norm_num)).1
      rw [← h2] at hs
      rw [h1]
      simp only [sign, hq, decide_true, if_true]
      rw [List.singleton_append, (readNumber_digit (decimal_head n p)).2, readPositive_decimal, lit_rep hr hs]
      simp only [Option.map_some, F64.neg]
      rw [if_neg (abs_pos.2 hq.ne).ne']
      congr 2
      rw [abs_of_neg hq, neg_neg]
    · rw [abs_zero]
      simp only [lt_irrefl, decide_false, sign, Bool.false_eq_true, if_false, List.nil_append]
      rw [show plain up 0 = decimal 0 0 from rfl, (readNumber_digit (decimal_head 0 0)).1, readPositive_decimal]
      simp [lit_rep rep_zero rndQ_zero]
    · obtain ⟨n, p, h1, h2⟩ := plain_pos up |q| (abs_pos.2 hq.ne')
      rw [abs_of_pos hq] at h1 h2 ⊢
      have hs := (shortest_spec up q hq.le h.1 1382 308 (by norm_num)).1
      rw [← h2] at hs
      rw [h1]
      simp only [sign, not_lt.2 hq.le, decide_false, Bool.false_eq_true, if_false, List.nil_append]
      rw [(readNumber_digit (decimal_head n p)).1, readPositive_decimal, lit_rep h hs]

private theorem lit_eq {q v : ℚ} (h : Rep q) (hv : F64.lit v = .fin q h) : rndQ v = q := by
  unfold F64.lit F64.round at hv
  split at hv
  · split at hv
    · cases hv
    · injection hv
  · cases hv

/-- A multiple of `10^309` is not read as a number. -/
private theorem too_large {q : ℚ} (hq : 0 < q) (h : Rep q) (m : Nat) {e : Int} (he : 308 < e) : rndQ (m * (10 : ℚ) ^ e) ≠ q := by
  intro hc
  rcases Nat.eq_zero_or_pos m with rfl | hm
  · rw [Nat.cast_zero, zero_mul, rndQ_zero] at hc
    exact hq.ne hc
  · have h1 : pow2 1024 ≤ m * (10 : ℚ) ^ e := by
      have hm' : (1 : ℚ) ≤ m := by exact_mod_cast hm
      have h2 : (10 : ℚ) ^ (309 : Int) ≤ (10 : ℚ) ^ e := zpow_le_zpow_right₀ (by norm_num) (by omega)
      have h3 : pow2 1024 ≤ (10 : ℚ) ^ (309 : Int) := by
        rw [pow2_eq]; norm_num
      have h4 : (0 : ℚ) ≤ (10 : ℚ) ^ e := by positivity
      nlinarith
    have h2 := le_rndQ (fmt_pow2 (by norm_num)) h1
    rw [hc] at h2
    have := h.2
    rw [abs_of_pos hq] at this
    exact absurd h2 (not_le.2 this)

/-- **C94** `{}` writes as few digits as possible: the text of a positive number is `n * 10^e`; a decimal that is read as the number has
no larger exponent and at least as many digits, and one with the same exponent is not nearer to the number. -/
theorem C94_shortest (up : Bool) (q : ℚ) (h : Rep q) (hq : 0 < q) : ∃ (n : Nat) (e : Int) (cs : List Char),
    (FloatText up).plain (.fin q h) = String.ofList cs ∧ readDecimal cs = some (n * (10 : ℚ) ^ e) ∧
    F64.lit (n * (10 : ℚ) ^ e) = .fin q h ∧
    ∀ (m : Nat) (e' : Int), F64.lit (m * (10 : ℚ) ^ e') = .fin q h →
      e' ≤ e ∧ (Nat.toDigits 10 n).length ≤ (Nat.toDigits 10 m).length ∧
      (e' = e → |n * (10 : ℚ) ^ e - q| ≤ |m * (10 : ℚ) ^ e' - q|) := by
  obtain ⟨n, p, h1, h2⟩ := plain_pos up q hq
  obtain ⟨s1, s2, s3, s4⟩ := shortest_spec up q hq.le h.1 1382 308 (by norm_num)
  generalize (shortest up q 1382 308).1 = N at *
  generalize (shortest up q 1382 308).2 = e at *
  simp only [pow10_eq] at h2 s1 s2 s3 s4
  have hmax : ∀ (m : Nat) (e' : Int), rndQ (m * (10 : ℚ) ^ e') = q → e' ≤ e := by
    intro m e' hm
    by_contra hc
    rcases le_or_gt e' 308 with hl | hl
    · exact s3 e' m (not_le.1 hc) hl hm
    · exact too_large hq h m hl hm
  refine ⟨N, e, plain up q, ?_, ?_, lit_rep h s1, fun m e' hm => ?_⟩
  · show String.ofList (sign (decide (q < 0)) ++ plain up |q|) = _
    rw [abs_of_pos hq]
    simp only [sign, not_lt.2 hq.le, decide_false, Bool.false_eq_true, if_false, List.nil_append]
  · rw [h1, readDecimal_decimal, h2]
  have hm := lit_eq h hm
  refine ⟨hmax m e' hm, ?_, fun he => by subst he; exact s4 m hm⟩
  by_contra hc
  rw [not_le] at hc
  have hk : 0 < (Nat.toDigits 10 m).length := List.length_pos_iff.2 Nat.toDigits_ne_nil
  have hlt := (Nat.length_toDigits_le_iff (b := 10) (by norm_num) hk).1 le_rfl
  have hge : ¬ N < 10 ^ (Nat.toDigits 10 m).length := fun hn =>
    absurd ((Nat.length_toDigits_le_iff (b := 10) (by norm_num) hk).2 hn) (not_le.2 hc)
  generalize (Nat.toDigits 10 m).length = k at *
  have he := hmax m e' hm
  have hmid : rndQ ((1 : Nat) * (10 : ℚ) ^ ((k : Int) + e)) = q := by
    have h3 : ((1 : Nat) : ℚ) * (10 : ℚ) ^ ((k : Int) + e) = 10 ^ k * (10 : ℚ) ^ e := by
      rw [Nat.cast_one, one_mul, zpow_add₀ (by norm_num : (10 : ℚ) ≠ 0), zpow_natCast]
    rw [h3]
    apply le_antisymm
    · conv_rhs => rw [← s1]
      refine rndQ_mono (mul_le_mul_of_nonneg_right ?_ (by positivity))
      exact_mod_cast not_lt.1 hge
    · conv_lhs => rw [← hm]
      refine rndQ_mono (mul_le_mul ?_ (zpow_le_zpow_right₀ (by norm_num) he) (by positivity) (by positivity))
      exact_mod_cast hlt.le
  have := hmax 1 _ hmid
  omega

private theorem rne_tie {x : ℚ} (h : |(rne x : ℚ) - x| = 1 / 2) : rne x % 2 = 0 := by
  have h1 := Int.floor_le x
  have h2 := Int.lt_floor_add_one x
  unfold rne at h ⊢
  dsimp only at h ⊢
  split_ifs at h ⊢ with c1 c2 c3
  · rw [abs_sub_comm, abs_of_nonneg (by linarith)] at h; linarith
  · push_cast at h; rw [abs_of_nonneg (by linarith)] at h; linarith
  · exact c3
  · omega

/-- **C94** `{:.p$}` writes a finite number with exactly `p` digits after the point, and without a point if `p` is 0. The value written
differs from the number by at most half a unit of the last place; if two are equally near, the last digit written is even. -/
theorem C94_fixed (up : Bool) (p : Nat) (q : ℚ) (h : Rep q) : ∃ int frac : List Char,
    (FloatText up).digits p (.fin q h) =
      String.ofList ((if q < 0 then ['-'] else []) ++ int ++ if p = 0 then [] else '.' :: frac) ∧
    int ≠ [] ∧ frac.length = p ∧ (∀ c ∈ int ++ frac, c.isDigit = true) ∧
    |(Nat.ofDigitChars 10 (int ++ frac) 0 : ℚ) / 10 ^ p - abs q| ≤ 1 / (2 * 10 ^ p) ∧
    (|(Nat.ofDigitChars 10 (int ++ frac) 0 : ℚ) / 10 ^ p - abs q| = 1 / (2 * 10 ^ p) → Even (Nat.ofDigitChars 10 (int ++ frac) 0)) := by
  have h10 : (0 : ℚ) < 10 ^ p := by positivity
  have hz0 : 0 ≤ rne (|q| * ((10 ^ p : Nat) : ℚ)) := le_rne (by push_cast; positivity)
  have herr := rne_err (|q| * ((10 ^ p : Nat) : ℚ))
  have htie := rne_tie (x := |q| * ((10 ^ p : Nat) : ℚ))
  obtain ⟨N, hN⟩ := Int.eq_ofNat_of_zero_le hz0
  have hNn : (rne (|q| * ((10 ^ p : Nat) : ℚ))).toNat = N := by rw [hN]; rfl
  rw [hN] at herr htie
  push_cast at herr htie
  have hd : (N : ℚ) / 10 ^ p - |q| = (N - |q| * 10 ^ p) / 10 ^ p := by field_simp
  have habs : |(N : ℚ) / 10 ^ p - abs q| = |(N : ℚ) - abs q * 10 ^ p| / 10 ^ p := by rw [hd, abs_div, abs_of_pos h10]
  have hval : ∀ frac, frac.length = p → Nat.ofDigitChars 10 frac 0 = N % 10 ^ p →
      Nat.ofDigitChars 10 (Nat.toDigits 10 (N / 10 ^ p) ++ frac) 0 = N := by
    intro frac hl hv
    rw [Nat.ofDigitChars_append, Nat.ofDigitChars_eq_ofDigitChars_zero, hv, hl, Nat.ofDigitChars_ten_toDigits]
    exact Nat.div_add_mod N (10 ^ p)
  have hgoal : ∀ frac, frac.length = p → Nat.ofDigitChars 10 frac 0 = N % 10 ^ p → (∀ c ∈ frac, c.isDigit = true) →
      Nat.toDigits 10 (N / 10 ^ p) ≠ [] ∧ frac.length = p ∧ (∀ c ∈ Nat.toDigits 10 (N / 10 ^ p) ++ frac, c.isDigit = true) ∧
      |(Nat.ofDigitChars 10 (Nat.toDigits 10 (N / 10 ^ p) ++ frac) 0 : ℚ) / 10 ^ p - abs q| ≤ 1 / (2 * 10 ^ p) ∧
      (|(Nat.ofDigitChars 10 (Nat.toDigits 10 (N / 10 ^ p) ++ frac) 0 : ℚ) / 10 ^ p - abs q| = 1 / (2 * 10 ^ p) →
        Even (Nat.ofDigitChars 10 (Nat.toDigits 10 (N / 10 ^ p) ++ frac) 0)) := by
    intro frac hl hv hc
    rw [hval frac hl hv, habs]
    refine ⟨Nat.toDigits_ne_nil, hl, fun c hm => ?_, ?_, fun he => ?_⟩
    · rcases List.mem_append.1 hm with hm | hm
      · exact toDigits_isDigit _ c hm
      · exact hc c hm
    · rw [show (1 : ℚ) / (2 * 10 ^ p) = 1 / 2 / 10 ^ p by rw [div_div]]
      exact div_le_div_of_nonneg_right herr h10.le
    · rw [show (1 : ℚ) / (2 * 10 ^ p) = 1 / 2 / 10 ^ p by rw [div_div], div_left_inj' h10.ne'] at he
      have := htie he
      rw [Nat.even_iff]; omega
  have htext : (FloatText up).digits p (.fin q h) = String.ofList ((if q < 0 then ['-'] else []) ++ decimal N p) := by
    show String.ofList (sign (decide (q < 0)) ++ fixed p |q|) = _
    unfold fixed sign
    rw [hNn]
    simp
  rw [htext]
  by_cases hp : p = 0
  · subst hp
    refine ⟨Nat.toDigits 10 (N / 10 ^ 0), [], ?_, hgoal [] rfl (by simp [Nat.mod_one]) (by simp)⟩
    simp [decimal]
  · refine ⟨Nat.toDigits 10 (N / 10 ^ p), padded p (N % 10 ^ p), ?_, hgoal _ (padded_length p _ (by omega) (Nat.mod_lt _ (by positivity)))
      (padded_value p _) (padded_isDigit p _)⟩
    simp [decimal, hp]

private theorem readSigned_decimal (n p : Nat) : readSigned (decimal n p) = some ((n : ℚ) / 10 ^ p) := by
  rw [← readDecimal_decimal n p]
  obtain ⟨c, cs, hc, hd⟩ : ∃ c cs, decimal n p = c :: cs ∧ c.isDigit = true := by
    have hne : Nat.toDigits 10 (n / 10 ^ p) ≠ [] := Nat.toDigits_ne_nil
    obtain ⟨c, cs, hcs⟩ := List.exists_cons_of_ne_nil hne
    refine ⟨c, _, by rw [decimal, hcs, List.cons_append], toDigits_isDigit (n / 10 ^ p) c (by rw [hcs]; simp)⟩
  rw [hc]
  unfold readSigned
  split
  · rename_i h
    rw [(List.cons.inj h).1] at hd
    exact absurd hd (by decide)
  · rfl

/-- **C94** `{:.p$}` keeps the order: the value written for the larger of two numbers is not the smaller one. -/
theorem C94_monotone (up : Bool) (p : Nat) (q r : ℚ) (hq : Rep q) (hr : Rep r) (h : q ≤ r) : ∃ (cs ds : List Char) (v w : ℚ),
    (FloatText up).digits p (.fin q hq) = String.ofList cs ∧ (FloatText up).digits p (.fin r hr) = String.ofList ds ∧
    readSigned cs = some v ∧ readSigned ds = some w ∧ v ≤ w := by
  set f : ℚ → ℚ := fun x => (((rne (x * ((10 ^ p : Nat) : ℚ))).toNat : Nat) : ℚ) / 10 ^ p with hf
  have hmono : ∀ x y, x ≤ y → f x ≤ f y := fun x y hxy => by
    refine div_le_div_of_nonneg_right ?_ (by positivity)
    have := rne_mono (mul_le_mul_of_nonneg_right hxy (by positivity : (0 : ℚ) ≤ ((10 ^ p : Nat) : ℚ)))
    exact_mod_cast Int.toNat_le_toNat this
  have hnn : ∀ x, 0 ≤ f x := fun x => by positivity
  have htext : ∀ (x : ℚ) (hx : Rep x), ∃ cs, (FloatText up).digits p (.fin x hx) = String.ofList cs ∧
      readSigned cs = some (if x < 0 then - f |x| else f |x|) := by
    intro x hx
    refine ⟨sign (decide (x < 0)) ++ fixed p |x|, rfl, ?_⟩
    by_cases h0 : x < 0
    · rw [if_pos h0]
      simp only [h0, decide_true, sign]
      show (readDecimal (fixed p |x|)).map (fun v => -v) = _
      rw [fixed, readDecimal_decimal]
      rfl
    · rw [if_neg h0]
      simp only [h0, decide_false, sign]
      exact readSigned_decimal _ _
  obtain ⟨cs, c1, c2⟩ := htext q hq
  obtain ⟨ds, d1, d2⟩ := htext r hr
  refine ⟨cs, ds, _, _, c1, d1, c2, d2, ?_⟩
  by_cases hr0 : r < 0
  · rw [if_pos (h.trans_lt hr0), if_pos hr0]
    exact neg_le_neg (hmono _ _ (by rw [abs_of_neg hr0, abs_of_neg (h.trans_lt hr0)]; exact neg_le_neg h))
  · rw [if_neg hr0]
    by_cases hq0 : q < 0
    · rw [if_pos hq0]
      exact (neg_nonpos.2 (hnn _)).trans (hnn _)
    · rw [if_neg hq0]
      exact hmono _ _ (by rw [abs_of_nonneg (not_lt.1 hq0), abs_of_nonneg (not_lt.1 hr0)]; exact h)

/-- **C94** A negative number is written as a minus sign and the text of its opposite. -/
theorem C94_negative (up : Bool) (q : ℚ) (h : Rep q) (h' : Rep (-q)) (hq : 0 < q) :
    (FloatText up).plain (.fin (-q) h') = "-" ++ (FloatText up).plain (.fin q h) ∧
    ∀ p, (FloatText up).digits p (.fin (-q) h') = "-" ++ (FloatText up).digits p (.fin q h) := by
  have key : ∀ f : ℚ → List Char, String.ofList (signed f (.fin (-q) h')) = "-" ++ String.ofList (signed f (.fin q h)) := fun f => by
    show String.ofList (sign (decide (-q < 0)) ++ f |(-q)|) = "-" ++ String.ofList (sign (decide (q < 0)) ++ f |q|)
    rw [abs_neg]
    simp only [Left.neg_neg_iff, hq, not_lt.2 hq.le, decide_true, decide_false, sign]
    rw [String.ofList_append]
    rfl
  exact ⟨key _, fun p => key _⟩

private theorem no_semicolon (up : Bool) (precision : Option Nat) (x : F64) : ';' ∉ ((FloatText up).at precision x).toList := by
  have hdec : ∀ n p, ';' ∉ decimal n p := by
    intro n p hc
    have hd : ∀ {cs : List Char}, (∀ c ∈ cs, c.isDigit = true) → ';' ∉ cs := fun h hm => absurd (h _ hm) (by decide)
    rw [decimal, List.mem_append] at hc
    rcases hc with hc | hc
    · exact hd (toDigits_isDigit _) hc
    · split at hc
      · cases hc
      · rcases List.mem_cons.1 hc with hc | hc
        · exact absurd hc (by decide)
        · exact hd (padded_isDigit _ _) hc
  have hplain : ∀ q, ';' ∉ plain up q := by
    intro q
    unfold plain
    split
    · decide
    · split <;> exact hdec _ _
  have hsigned : ∀ f : ℚ → List Char, (∀ q, ';' ∉ f q) → ';' ∉ signed f x := by
    intro f hf
    have hs : ∀ b, ';' ∉ sign b := by decide
    cases x with
    | nan => simp only [signed]; decide
    | inf s => simp only [signed]; revert s; decide
    | nzero => simp only [signed, List.mem_append, not_or]; exact ⟨hs _, hf _⟩
    | fin q h => simp only [signed, List.mem_append, not_or]; exact ⟨hs _, hf _⟩
  cases precision with
  | none => simp only [FloatFormat.at, FloatText, String.toList_ofList]; exact hsigned _ hplain
  | some p => simp only [FloatFormat.at, FloatText, String.toList_ofList]; exact hsigned _ fun q => hdec _ _

/-- **C94** The text of the statistics, without a precision, says everything the accessors do: two summaries with the same text have the
same number of samples, minimum, maximum, average, variance and standard deviation — exactly, down to the sign of zero. -/
theorem C94_text (up : Bool) (p q : PopulatedStats F64) (h : p.fmt (FloatText up) none = q.fmt (FloatText up) none) :
    p.count = q.count ∧ p.min = q.min ∧ p.max = q.max ∧ p.avg = q.avg ∧ p.var = q.var ∧ p.std = q.std := by
  have hinj : ∀ x y, (FloatText up).plain x = (FloatText up).plain y → x = y := by
    intro x y hxy
    have := congrArg readNumber hxy
    rw [C94_roundtrip, C94_roundtrip] at this
    exact Option.some.inj this
  obtain ⟨h1, h2, h3, h4, h5, h6⟩ := C77_readable (FloatText up) none (no_semicolon up none) p q h
  exact ⟨h1, hinj _ _ h2, hinj _ _ h3, hinj _ _ h4, hinj _ _ h5, hinj _ _ h6⟩

/-- With a precision the numbers of the text can still be told apart from each other, and two summaries with the same text have the same
number of samples, but the numbers themselves are not determined. -/
theorem C94_precision (up : Bool) (p : Nat) (s t : PopulatedStats F64)
    (h : s.fmt (FloatText up) (some p) = t.fmt (FloatText up) (some p)) :
    s.count = t.count ∧ (FloatText up).digits p s.min = (FloatText up).digits p t.min ∧
    (FloatText up).digits p s.max = (FloatText up).digits p t.max ∧ (FloatText up).digits p s.avg = (FloatText up).digits p t.avg ∧
    (FloatText up).digits p s.var = (FloatText up).digits p t.var ∧ (FloatText up).digits p s.std = (FloatText up).digits p t.std :=
  C77_readable (FloatText up) (some p) (no_semicolon up (some p)) s t h

example : (FloatText true).plain (F64.lit (1 / 3)) = "0.3333333333333333" := by decide +kernel
example : (FloatText true).plain (F64.lit (-1 / 10)) = "-0.1" ∧ (FloatText false).plain (F64.lit 1500) = "1500" ∧
    (FloatText true).plain .nzero = "-0" := by decide +kernel
/-- Two texts with the fewest digits that are equally near to `2^50 + 1/4`. -/
example : (FloatText true).plain (F64.lit (2 ^ 50 + 1 / 4)) = "1125899906842624.3" ∧
    (FloatText false).plain (F64.lit (2 ^ 50 + 1 / 4)) = "1125899906842624.2" := by decide +kernel
example : (FloatText true).digits 2 (F64.lit (1 / 8)) = "0.12" ∧ (FloatText true).digits 2 (F64.lit (3 / 8)) = "0.38" ∧
    (FloatText true).digits 0 (F64.lit (5 / 2)) = "2" ∧ (FloatText true).digits 3 (F64.lit (-1 / 10000)) = "-0.000" ∧
    (FloatText true).digits 1 .nan = "NaN" := by decide +kernel
example : (Stats.collect [F64.lit 1, F64.lit 2, F64.lit 6]).fmt (FloatText true) none =
    "Samples: 3; Min: 1; Max: 6; Average: 3; Variance: 7; STD: 2.6457513110645907" := by decide +kernel
example : (Stats.collect [F64.lit 1, F64.lit 2, F64.lit 6]).fmt (FloatText true) (some 2) =
    "Samples: 3; Min: 1.00; Max: 6.00; Average: 3.00; Variance: 7.00; STD: 2.65" := by decide +kernel
/-- `C94_precision` says no more: different statistics, the same text. -/
example : (Stats.collect [F64.lit 1, F64.lit 2]).fmt (FloatText true) (some 0) =
      (Stats.collect [F64.lit (5 / 4), F64.lit (9 / 4)]).fmt (FloatText true) (some 0) ∧
    (Stats.collect [F64.lit 1, F64.lit 2]).getMin ≠ (Stats.collect [F64.lit (5 / 4), F64.lit (9 / 4)]).getMin := by decide +kernel
/-- The largest and the smallest positive number. -/
example : Rep (2 ^ 1024 - 2 ^ 971) := ⟨⟨2 ^ 53 - 1, 971, by norm_num, by norm_num, by rw [pow2_eq]; norm_num⟩, by
  rw [pow2_eq, abs_of_pos] <;> norm_num⟩

end RG.Props
