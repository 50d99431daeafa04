import Verif.Proofs.Rand
import Verif.ProgSame
import Verif.Props.Random

/-!
# Property C86: the random draws of `rand`

The model describes a random draw as one uniform choice. `rand` makes it from words of a generator, with loops that reject words.
-/

namespace RG.Props
open RG RG.Prog RG.Rand
variable {α β : Type}

/-- **C86** Each of the ways in which the library draws gives every number in `0..=n` with the same probability if the words are
uniform and independent, and no other number; it does not panic, and it needs more than `tries` words with probability at most
`2^-tries`. -/
theorem C86_uniform (m : Method) (n : Nat) (hf : m.Fits n) (tries : Nat) :
    (∃ ε : ℚ, 0 ≤ ε ∧ ε ≤ (1 / 2) ^ tries ∧ (∀ i, i ≤ n → (m.draw tries n).prob (fun j => j = i) = (1 - ε) / (n + 1)) ∧
      (m.draw tries n).prob (fun _ => True) = 1 - ε) ∧
    (∀ r, (m.draw tries n).yields r → r = .diverge ∨ ∃ i, i ≤ n ∧ r = .ok i) := by
  obtain ⟨ε, hε, h0, hexp, hy⟩ := draw_isDraw m n hf tries
  refine ⟨⟨ε, h0, hε, fun i hi => ?_, ?_⟩, hy⟩
  · unfold prob
    rw [hexp]
    have : ∑ j ∈ Finset.range (n + 1), (if j = i then (1 : ℚ) else 0) = 1 := by
      rw [Finset.sum_ite_eq' (Finset.range (n + 1)) i (fun _ => (1 : ℚ)), if_pos (Finset.mem_range.2 (by omega))]
    simp only [this]
    ring
  · unfold prob
    rw [hexp]
    have hn : (n : ℚ) + 1 ≠ 0 := by positivity
    simp only [if_true, Finset.sum_const, Finset.card_range, nsmul_eq_mul, mul_one, mul_zero, add_zero]
    push_cast
    field_simp

/-- A choice from one hundred thousand numbers made by `gen_range`; the loop ends within sixty words except with probability
`2^-60`. -/
example : ∃ ε : ℚ, ε ≤ (1 / 2) ^ 60 ∧ ∀ i, i ≤ 99999 → (Method.range.draw 60 99999).prob (fun j => j = i) = (1 - ε) / (99999 + 1) := by
  obtain ⟨⟨ε, _, h1, h2, _⟩, _⟩ := C86_uniform .range 99999 (by decide) 60
  exact ⟨ε, h1, by exact_mod_cast h2⟩

/-! ### The primitives of the model are the procedures of `rand` -/

theorem same_map {p : Prog α} {f g : α → β} (h : ∀ a, p.yields (.ok a) → f a = g a) :
    (p >>= fun a => (pure (f a) : Prog β)).Same (p >>= fun a => pure (g a)) :=
  Same.bind_right p fun a ha => Same.of_eq (by rw [h a ha])

/-- `gen_range(low..=high)` is a draw from `0..=high - low` to which `low` is added. -/
theorem genRangeIncl_same (tries low high : Nat) (hh : high < 2 ^ 64) (hle : low ≤ high) :
    (genRangeIncl tries low high).Same (genRangeIncl tries 0 (high - low) >>= fun i => pure (low + i)) := by
  have hy := (C86_uniform .range (high - low) (show high - low < 2 ^ 64 by omega) tries).2
  change ∀ r, (genRangeIncl tries 0 (high - low)).yields r → _ at hy
  unfold genRangeIncl at *
  unfold sampleSingleInclusive at *
  rw [if_pos hle]
  rw [if_pos (Nat.zero_le _)] at hy ⊢
  rw [Nat.sub_zero] at *
  by_cases h0 : (high - low + 1) % 2 ^ 64 = 0
  · have hl : low = 0 := by omega
    subst hl
    simp only [h0, if_true, Nat.zero_add]
    exact Same.of_eq (bind_pure_right _).symm
  · simp only [h0, if_false] at hy ⊢
    rw [Prog.bind_assoc']
    refine Same.bind_right _ fun i hi => ?_
    rw [bind_pure_left]
    refine Same.of_eq ?_
    have hyi : i % 2 ^ 64 ≤ high - low := by
      rcases hy (.ok ((0 + i) % 2 ^ 64)) ((yields_bind_ok _ _ _).2 ⟨i, hi, rfl⟩) with e | ⟨j, hj, e⟩
      · cases e
      · cases e; rwa [Nat.zero_add] at hj
    rw [Nat.zero_add, Nat.add_mod, Nat.mod_eq_of_lt (show low < 2 ^ 64 by omega), Nat.mod_eq_of_lt (show low + i % 2 ^ 64 < 2 ^ 64 by omega)]

/-- **C86** What stands for `gen_range`, `Uniform`, `gen_index`, `gen::<f64>` and `gen::<bool>` in the model becomes, when its choice is
replaced by a draw, the procedure of `rand`. -/
theorem C86_primitives (tries : Nat) (drawn : List Nat) :
    (∀ low high, high < 2 ^ 64 → (realize (fun _ => .range) tries (rangeIncl low high) drawn).Same (genRangeIncl tries low high)) ∧
    (∀ low high, high < 2 ^ 64 → (realize (fun _ => .range) tries (rangeExcl low high) drawn).Same (genRangeExcl tries low high)) ∧
    (∀ n, (realize (fun _ => .index) tries (rangeExcl 0 n) drawn).Same (genIndex tries n)) ∧
    (∀ n, (realize (fun _ => .uniform) tries (Prog.uniform n) drawn).Same (uniformSample tries n)) ∧
    (realize (fun _ => .float) tries (Prog.uniform (2 ^ 53)) drawn).Same genFloat ∧
    (realize (fun _ => .bit) tries (Prog.uniform 2) drawn).Same genBit := by
  refine ⟨fun low high hh => ?_, fun low high hh => ?_, fun n => ?_, fun n => ?_, ?_, ?_⟩
  · by_cases hle : low ≤ high
    · refine Same.symm ((genRangeIncl_same tries low high hh hle).trans (Same.of_eq ?_))
      unfold rangeIncl
      rw [if_pos hle]
      rfl
    · unfold rangeIncl genRangeIncl sampleSingleInclusive
      rw [if_neg hle, if_neg hle]
      exact Same.refl _
  · by_cases hlt : low < high
    · have h := genRangeIncl_same tries low (high - 1) (by omega) (by omega)
      unfold genRangeExcl
      rw [if_pos hlt]
      refine Same.symm (Same.trans h (Same.of_eq ?_))
      unfold rangeExcl
      rw [if_pos hlt, show high - 1 - low = high - low - 1 by omega]
      rfl
    · unfold rangeExcl genRangeExcl
      rw [if_neg hlt, if_neg hlt]
      exact Same.refl _
  · cases n with
    | zero =>
      unfold rangeExcl genIndex
      rw [if_neg (Nat.lt_irrefl 0), if_pos (Nat.zero_le _), if_neg (Nat.lt_irrefl 0)]
      exact Same.refl _
    | succ n =>
      unfold rangeExcl
      rw [if_pos (Nat.succ_pos n)]
      refine Same.of_eq ?_
      simp only [Nat.zero_add]
      exact bind_pure_right _
  · cases n with
    | zero => exact Same.refl _
    | succ n => exact Same.of_eq (bind_pure_right _)
  · rw [uniform_pos (Nat.two_pow_pos 53)]
    exact Same.of_eq (bind_pure_right _)
  · exact Same.of_eq (bind_pure_right _)

/-- **C86** (`gen_index`) For slices shorter than `2^32` only the upper half of a word is used: two words with the same upper half are treated
alike. -/
theorem C86_upper_half (tries n : Nat) (hn : 0 < n) (hn32 : n < 2 ^ 32) :
    ∃ f : Nat → Prog Nat, genIndex (tries + 1) n = nextU64 >>= fun w => f (w / 2 ^ 32) := by
  unfold genIndex
  rw [if_pos (show n ≤ 2 ^ 32 - 1 by omega), if_pos hn]
  unfold sampleSingleInclusive
  rw [if_pos (Nat.zero_le _)]
  simp only [Nat.sub_zero, Nat.sub_add_cancel hn, Nat.mod_eq_of_lt hn32, hn.ne', if_false, rejectLoop, nextU32]
  rw [Prog.bind_assoc', Prog.bind_assoc']
  exact ⟨fun h => (if h * n % 2 ^ 32 ≤ n * 2 ^ leadingZeros 32 n - 1 then pure (h * n / 2 ^ 32) else
    rejectLoop nextU32 32 n (n * 2 ^ leadingZeros 32 n - 1) tries) >>= fun hi => pure ((0 + hi) % 2 ^ 32), rfl⟩

-- the upper half of the word `5 * 2^32 + 7` is 5
example : ∃ f : Nat → Prog Nat, genIndex 1 (2 ^ 32 - 1) = nextU64 >>= fun w => f (w / 2 ^ 32) := C86_upper_half 0 _ (by norm_num) (by norm_num)

/-! ### Whole programs -/

/-- The methods fit the choices they make. -/
def Fitting (method : List Nat → Method) : Prog α → List Nat → Prop
  | .done _, _ => True
  | .pick n k, drawn => (method drawn).Fits n ∧ ∀ i, i ≤ n → Fitting method (k i) (drawn ++ [i])

/-- The largest number of choices a program makes. -/
def choices : Prog α → Nat
  | .done _ => 0
  | .pick n k => 1 + (Finset.range (n + 1)).sup fun i => choices (k i)

/-- **C86** A program over words has no outcome that the model does not have; except that a loop may not have ended. -/
theorem C86_outcomes (method : List Nat → Method) (tries : Nat) (p : Prog α) (drawn : List Nat) (hf : Fitting method p drawn)
    (r : Res α) (hr : (realize method tries p drawn).yields r) : r = .diverge ∨ p.yields r := by
  induction p generalizing drawn with
  | done r' => exact Or.inr hr
  | pick n k ih =>
    have hd := (C86_uniform _ n hf.1 tries).2
    unfold realize at hr
    rw [yields_bind] at hr
    rcases hr with ⟨i, hi, hr⟩ | ⟨hp, _⟩ | ⟨_, hr⟩
    · rcases hd _ hi with e | ⟨j, hj, e⟩
      · cases e
      · cases e
        rcases ih i (drawn ++ [i]) (hf.2 i hj) hr with h | h
        · exact Or.inl h
        · exact Or.inr ⟨i, hj, h⟩
    · rcases hd _ hp with e | ⟨j, _, e⟩ <;> cases e
    · exact Or.inl hr

theorem prob_le_one' (p : Prog α) (P : α → Prop) [DecidablePred P] : p.prob P ≤ 1 := by
  unfold prob
  refine (expect_mono p _ (fun _ => 1) fun r _ => ?_).trans_eq (expect_const p 1)
  rcases r with a | _ | _ <;> simp
  split <;> simp

/-- **C86** The probabilities of the model are those of the program over words, if the words are uniform and independent: they differ
at most by the probability that a loop has not ended, which vanishes as the loops are given more words. -/
theorem C86_probability (method : List Nat → Method) (tries : Nat) (p : Prog α) (drawn : List Nat) (hf : Fitting method p drawn)
    (P : α → Prop) [DecidablePred P] :
    (realize method tries p drawn).prob P ≤ p.prob P ∧
      p.prob P ≤ (realize method tries p drawn).prob P + choices p * (1 / 2) ^ tries := by
  induction p generalizing drawn with
  | done r => simp [realize, choices]
  | pick n k ih =>
    obtain ⟨ε, hε, h0, hexp, hy⟩ := draw_isDraw _ n hf.1 tries
    have hx : (realize method tries (.pick n k) drawn).prob P =
        (1 - ε) * ((∑ i ∈ Finset.range (n + 1), (realize method tries (k i) (drawn ++ [i])).prob P) / (n + 1)) := by
      have e : realize method tries (.pick n k) drawn =
          (method drawn).draw tries n >>= fun i => realize method tries (k i) (drawn ++ [i]) := rfl
      rw [e]
      unfold prob
      rw [expect_bind, hexp]
      simp
    have hp : (pick n k).prob P = (∑ i ∈ Finset.range (n + 1), (k i).prob P) / (n + 1) := rfl
    have hn : (0 : ℚ) < n + 1 := by positivity
    have hi : ∀ i ∈ Finset.range (n + 1), i ≤ n := fun i hi => Nat.lt_succ_iff.1 (Finset.mem_range.1 hi)
    set X := (∑ i ∈ Finset.range (n + 1), (realize method tries (k i) (drawn ++ [i])).prob P) / ((n : ℚ) + 1) with hX
    set Y := (∑ i ∈ Finset.range (n + 1), (k i).prob P) / ((n : ℚ) + 1) with hY
    have hX0 : 0 ≤ X := div_nonneg (Finset.sum_nonneg fun i _ => prob_nonneg _ _) hn.le
    have hX1 : X ≤ 1 := by
      rw [hX, div_le_one hn]
      refine (Finset.sum_le_card_nsmul _ _ 1 fun i _ => prob_le_one' _ _).trans_eq ?_
      simp
    have hXY : X ≤ Y := div_le_div_of_nonneg_right (Finset.sum_le_sum fun i h => (ih i (drawn ++ [i]) (hf.2 i (hi i h))).1) hn.le
    set D := (Finset.range (n + 1)).sup fun i => choices (k i) with hD
    have hYX : Y ≤ X + D * (1 / 2) ^ tries := by
      have : ∑ i ∈ Finset.range (n + 1), (k i).prob P ≤
          ∑ i ∈ Finset.range (n + 1), ((realize method tries (k i) (drawn ++ [i])).prob P + D * (1 / 2) ^ tries) := by
        refine Finset.sum_le_sum fun i h => ?_
        refine (ih i (drawn ++ [i]) (hf.2 i (hi i h))).2.trans ?_
        have : choices (k i) ≤ D := Finset.le_sup (f := fun i => choices (k i)) h
        have : (choices (k i) : ℚ) ≤ D := by exact_mod_cast this
        have := mul_le_mul_of_nonneg_right this (show (0 : ℚ) ≤ (1 / 2) ^ tries by positivity)
        linarith
      rw [Finset.sum_add_distrib, Finset.sum_const, Finset.card_range, nsmul_eq_mul] at this
      rw [hY, hX, div_add' _ _ _ hn.ne']
      refine div_le_div_of_nonneg_right (this.trans_eq ?_) hn.le
      push_cast
      ring
    rw [hx, hp]
    refine ⟨?_, ?_⟩
    · nlinarith
    · have hc : (choices (pick n k) : ℚ) = 1 + D := by
        unfold choices
        push_cast
        rfl
      rw [hc]
      nlinarith [mul_le_mul_of_nonneg_left hX1 h0]

/-- **C86** In the limit the probabilities are those of the model. -/
theorem C86_limit (method : List Nat → Method) (p : Prog α) (drawn : List Nat) (hf : Fitting method p drawn) (P : α → Prop)
    [DecidablePred P] (δ : ℚ) (hδ : 0 < δ) :
    ∃ T, ∀ tries, T ≤ tries → |(realize method tries p drawn).prob P - p.prob P| ≤ δ := by
  have hc : (0 : ℚ) < choices p + 1 := by positivity
  obtain ⟨T, hT⟩ := exists_pow_lt_of_lt_one (div_pos hδ hc) (show (1 / 2 : ℚ) < 1 by norm_num)
  refine ⟨T, fun tries ht => ?_⟩
  obtain ⟨h1, h2⟩ := C86_probability method tries p drawn hf P
  have hpow : (1 / 2 : ℚ) ^ tries ≤ (1 / 2) ^ T := pow_le_pow_of_le_one (by norm_num) (by norm_num) ht
  have h3 : (choices p : ℚ) * (1 / 2) ^ tries ≤ δ := by
    have a1 : (1 / 2 : ℚ) ^ tries ≤ δ / (choices p + 1) := hpow.trans hT.le
    have a2 : (0 : ℚ) ≤ (1 / 2) ^ tries := by positivity
    rw [le_div_iff₀ hc] at a1
    nlinarith
  rw [abs_le]
  constructor <;> linarith

/-! ### Any generator -/

/-- All choices of the program are choices of a word. -/
def Words : Prog α → Prop
  | .done _ => True
  | .pick n k => n = 2 ^ 64 - 1 ∧ ∀ i, Words (k i)

theorem words_bind {p : Prog α} {f : α → Prog β} (hp : Words p) (hf : ∀ a, Words (f a)) : Words (p >>= f) := by
  induction p with
  | done r => cases r <;> first | exact hf _ | trivial
  | pick n k ih => exact ⟨hp.1, fun i => ih i (hp.2 i)⟩

theorem words_nextU64 : Words nextU64 := ⟨rfl, fun _ => trivial⟩
theorem words_nextU32 : Words nextU32 := words_bind words_nextU64 fun _ => trivial

theorem words_rejectLoop {next : Prog Nat} (h : Words next) (bits range zone tries : Nat) :
    Words (rejectLoop next bits range zone tries) := by
  induction tries with
  | zero => trivial
  | succ t ih =>
    refine words_bind h fun v => ?_
    simp only
    split
    · trivial
    · exact ih

theorem words_sampleSingle {next : Prog Nat} (h : Words next) (bits tries low high : Nat) :
    Words (sampleSingleInclusive next bits tries low high) := by
  unfold sampleSingleInclusive
  split
  · simp only
    split
    · exact h
    · exact words_bind (words_rejectLoop h _ _ _ _) fun _ => trivial
  · trivial

theorem words_draw (m : Method) (tries n : Nat) : Words (m.draw tries n) := by
  cases m with
  | range => exact words_sampleSingle words_nextU64 64 tries 0 n
  | index =>
    show Words (genIndex tries (n + 1))
    unfold genIndex genRangeExcl
    split <;> split
    · exact words_sampleSingle words_nextU32 _ _ _ _
    · trivial
    · exact words_sampleSingle words_nextU64 _ _ _ _
    · trivial
  | uniform =>
    show Words (uniformSample tries (n + 1))
    unfold uniformSample
    split
    · simp only
      split
      · exact words_nextU64
      · exact words_rejectLoop words_nextU64 _ _ _ _
    · trivial
  | float => exact words_bind words_nextU64 fun _ => trivial
  | bit => exact words_bind words_nextU32 fun _ => trivial

theorem words_realize (method : List Nat → Method) (tries : Nat) (p : Prog α) (drawn : List Nat) :
    Words (realize method tries p drawn) := by
  induction p generalizing drawn with
  | done r => trivial
  | pick n k ih => exact words_bind (words_draw _ _ _) fun i => ih i _

theorem exec_words {σ : Type} (next : σ → BitVec 64 × σ) (p : Prog α) (hp : Words p) (s : σ) :
    p.yields (p.exec (fun s _ => ((next s).1.toNat, (next s).2)) s).1 := by
  induction p generalizing s with
  | done r => rfl
  | pick n k ih =>
    refine ⟨(next s).1.toNat, ?_, ih _ (hp.2 _) _⟩
    rw [hp.1]
    have := (next s).1.isLt
    omega

/-- **C86** Whatever generator supplies the words, from whatever state: the outcome is one that the model has, unless a loop has not
ended after the given number of words. So what is proved of all outcomes of the model holds for every generator. -/
theorem C86_generator {σ : Type} (next : σ → BitVec 64 × σ) (s : σ) (method : List Nat → Method) (tries : Nat) (p : Prog α)
    (hf : Fitting method p []) :
    ((realize method tries p []).exec (fun s _ => ((next s).1.toNat, (next s).2)) s).1 = .diverge ∨
      p.yields ((realize method tries p []).exec (fun s _ => ((next s).1.toNat, (next s).2)) s).1 :=
  C86_outcomes method tries p [] hf _ (exec_words next _ (words_realize method tries p []) s)

/-- `random_pair` with any generator: two different indices below `n`, if the loops end. -/
example {σ : Type} (next : σ → BitVec 64 × σ) (s : σ) (n : Nat) (hn : 2 ≤ n) (hn' : n < 2 ^ 64) (tries a b : Nat)
    (h : ((realize (fun _ => .range) tries (randomPair n) []).exec (fun s _ => ((next s).1.toNat, (next s).2)) s).1 = .ok (a, b)) :
    a < n ∧ b < n ∧ a ≠ b := by
  have hf : Fitting (fun _ => .range) (randomPair n) [] := by
    unfold randomPair rangeExcl
    simp only [show decide (2 ≤ n) = true by simpa using hn, Res.assert_true, lift_ok, bind_pure_left,
      if_pos (show 0 < n by omega), if_pos (show 0 < n - 1 by omega), bind_pick]
    exact ⟨show n - 0 - 1 < 2 ^ 64 by omega, fun i _ => ⟨show n - 1 - 0 - 1 < 2 ^ 64 by omega, fun _ _ => trivial⟩⟩
  rcases C86_generator next s (fun _ => .range) tries (randomPair n) hf with e | e
  · rw [h] at e; cases e
  · rw [h] at e
    obtain ⟨_, _, h1, h2, h3, e'⟩ := ((C15_random_pair n).2 hn _).1 e
    cases e'
    exact ⟨h1, h2, h3⟩

end RG.Props
