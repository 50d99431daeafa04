import Verif.Proofs.Asking
import Verif.Props.Pressure
import Verif.Props.Gain

/-!
# C129: how often the library asks for the fitness

`Verif/Asking.lean` repeats the selectors, `breed`, `generate_new_population` and `sort_dedup_and_collect_stats` with a counter of the calls of
`Individual::fitness`. `x.forget` is the program without the counter, `x.mean` the expected number of calls, and `CallsAre x R` says that
every normal end of `x` satisfies `R result calls`.
-/

set_option linter.unusedSectionVars false

namespace RG.Props
open RG RG.Prog RG.Asking
variable {I : Type} [Individual I] {Mo U : Type} {α : Type}

/-- Every normal end gives a result and a number of calls related by `R`. -/
def CallsAre (x : Asking α) (R : α → Nat → Prop) : Prop := ∀ a n, x.prog.yields (.ok (a, n)) → R a n

theorem callsAre_iff (x : Asking α) (R : α → Nat → Prop) : CallsAre x R ↔ Holds R x :=
  ⟨fun h r hr => h r.1 r.2 hr, fun h a n hr => h (a, n) hr⟩

/-- The selectors that add up fitness values. -/
def IsWheel : Selector → Prop
  | .rouletteWheel _ => True
  | .boltzmann _ => True
  | _ => False

instance : DecidablePred IsWheel := fun s => by cases s <;> unfold IsWheel <;> infer_instance

/-- **C129** The counter changes nothing: without it, the counted functions are those of the model. -/
theorem C129_same [DefaultValid I] {M : EvoModel I Mo U}
    (hcs : M.canSurvive = fun _ offspring parent _ => pure ((fitness parent).le (fitness offspring)))
    (hb : M.breed = defaultBreed M.toEvoOps) (env : NumEnv) (model : Mo) (p : Population I) (s : Selector) (cr mr : F64) (size : Nat)
    (offspring : List I) (sort : List I → List I) :
    (s.askSelect env p).forget = s.select env p ∧ (s.askPrepare env p).forget = pure (s.prepare env p) ∧
      (askBreed M.toEvoOps env model p s cr mr).forget = M.breed env model p ⟨cr, mr, .builtin s⟩ ∧
      (askGenerate M.toEvoOps env model s cr mr size p offspring).forget =
        defaultGenerate M env model (⟨cr, mr, .builtin s⟩, size) p offspring ∧
      (askCollect sort offspring).forget = Prog.lift (sortDedupCollect sort offspring) :=
  ⟨forget_askSelect _ _ _, forget_askPrepare _ _ _, by rw [hb]; exact forget_askBreed hcs _ _ _ _ _ _,
    forget_askGenerate hcs hb _ _ _ _ _ _ _ _, forget_askCollect _ _⟩

/-- **C129** (`prepare`) Roulette-wheel and Boltzmann selection ask every individual once per generation, the other selectors none. -/
theorem C129_prepare (env : NumEnv) (p : Population I) (s : Selector) :
    CallsAre (s.askPrepare env p) fun _ n => n = if IsWheel s then p.individuals.length else 0 := by
  rw [callsAre_iff]
  cases s with
  | rouletteWheel s => exact holds_bind (holds_askAll _) fun _ m hm => holds_pure (by simpa [IsWheel] using hm)
  | boltzmann s => exact holds_bind (holds_askAll _) fun _ m hm => holds_pure (by simpa [IsWheel] using hm)
  | _ => exact holds_pure rfl

/-- **C129** (`select`) A wheel asks the individuals from the least fit one up to the one it selects: `index + 1` calls, at most the size
of the population. The other selectors look at the positions only. -/
theorem C129_select (env : NumEnv) (p : Population I) (s : Selector) :
    CallsAre (s.askSelect env p) fun r n => if IsWheel s then n = r.1 + 1 ∧ n ≤ p.individuals.length else n = 0 := by
  rw [callsAre_iff]
  cases s with
  | rouletteWheel s => exact (holds_askWheelSelect _ _ _).mono fun r n h => by simpa [IsWheel] using h.1
  | boltzmann s => exact (holds_askWheelSelect _ _ _).mono fun r n h => by simpa [IsWheel] using h.1
  | _ => exact holds_free fun _ _ => rfl

/-- The calls of one `select`, from both sides. -/
theorem C129_select_range (env : NumEnv) (p : Population I) (s : Selector) :
    CallsAre (s.askSelect env p) fun _ n => (if IsWheel s then 1 else 0) ≤ n ∧ n ≤ if IsWheel s then p.individuals.length else 0 :=
  fun a n h => by
    have := C129_select env p s a n h
    by_cases hs : IsWheel s <;> simp only [hs, if_true, if_false] at this ⊢ <;> omega

/-- **C129** (`breed`) With a wheel one offspring costs between 2 and `4 n + 4` calls, if `==` is reflexive (one more call cannot be excluded
otherwise). -/
theorem C129_breed_wheel (hrefl : ∀ x : I, Individual.eq x x = true) (M : EvoOps I Mo U) (env : NumEnv) (model : Mo) (p : Population I)
    (s : Selector) (hs : IsWheel s) (cr mr : F64) :
    CallsAre (askBreed M env model p s cr mr) fun _ n => 2 ≤ n ∧ n ≤ 4 * p.individuals.length + 4 := by
  rw [callsAre_iff]
  refine holds_askBreed_wheel hrefl M ?_ model cr mr
  cases s with
  | rouletteWheel s => exact holds_askWheelSelect _ _ _
  | boltzmann s => exact holds_askWheelSelect _ _ _
  | _ => exact hs.elim

/-- **C129** (`breed`) With any other selector one offspring costs between 1 and 5 calls, whatever the size of the population. -/
theorem C129_breed_other (M : EvoOps I Mo U) (env : NumEnv) (model : Mo) (p : Population I) (s : Selector) (hs : ¬ IsWheel s) (cr mr : F64) :
    CallsAre (askBreed M env model p s cr mr) fun _ n => 1 ≤ n ∧ n ≤ 5 := by
  rw [callsAre_iff]
  have h := (callsAre_iff _ _).1 (C129_select_range env p s)
  simp only [hs, if_false] at h
  exact holds_askBreed M h model cr mr

/-- **C129** (`generate_new_population`) Every missing individual is bred once, so that the bounds are those of `breed`, times the number of
missing individuals. -/
theorem C129_generate (hrefl : ∀ x : I, Individual.eq x x = true) (M : EvoOps I Mo U) (env : NumEnv) (model : Mo) (p : Population I)
    (s : Selector) (cr mr : F64) (size : Nat) (offspring : List I) :
    CallsAre (askGenerate M env model s cr mr size p offspring) fun _ n =>
      (size - offspring.length) * (if IsWheel s then 2 else 1) ≤ n ∧
        n ≤ (size - offspring.length) * if IsWheel s then 4 * p.individuals.length + 4 else 5 := by
  rw [callsAre_iff]
  have hb : Holds (fun _ n => (if IsWheel s then 2 else 1) ≤ n ∧ n ≤ if IsWheel s then 4 * p.individuals.length + 4 else 5)
      (askBreed M env model p s cr mr) := by
    by_cases hs : IsWheel s
    · simp only [hs, if_true]; exact (callsAre_iff _ _).1 (C129_breed_wheel hrefl M env model p s hs cr mr)
    · simp only [hs, if_false]; exact (callsAre_iff _ _).1 (C129_breed_other M env model p s hs cr mr)
  unfold askGenerate
  rcases size - offspring.length with _ | _ | k
  · exact holds_pure (by simp)
  · exact holds_bind hb fun _ m hm => holds_pure (by simpa using hm)
  · exact holds_bind (holds_replicate hb (k + 2)) fun _ m hm => holds_pure hm

/-- **C129** (`sort_dedup_and_collect_stats`) After the sort, every individual that is kept is asked once, for the statistics. -/
theorem C129_collect (sort : List I → List I) (l : List I) :
    CallsAre (askCollect sort l) fun r n => n = r.1.length := by
  rw [callsAre_iff]
  refine holds_bind (holds_askAll _) fun _ m hm => holds_bind (holds_free (R := fun _ m => m = 0) fun _ _ => rfl) fun _ k hk =>
    holds_pure ?_
  subst hm hk
  rfl

/-! ### The average -/

/-- The average of a function of the index, index by index. -/
theorem average_by_index {p : Population I} {q : Prog (Nat × I)} (hal : Always (IsMember p) q) (g : Nat → ℚ) :
    q.average (fun r => g r.1) = ∑ i ∈ Finset.range p.individuals.length, g i * q.prob (fun r => r.1 = i) := by
  classical
  have : ∀ i : Nat, g i * q.prob (fun r => r.1 = i) =
      q.expect (fun r => g i * (match r with | .ok r => if r.1 = i then 1 else 0 | _ => 0)) := fun i => by
    rw [expect_mul_left]
    congr 1
    unfold prob
    refine expect_congr _ _ _ fun r _ => ?_
    cases r <;> simp
  simp only [this]
  rw [← expect_sum]
  refine expect_congr _ _ _ fun r hr => ?_
  obtain ⟨a, rfl, ha1, ha2⟩ := hal r hr
  simp only [mul_ite, mul_one, mul_zero]
  rw [Finset.sum_ite_eq, if_pos (Finset.mem_range.2 ha1)]

/-- **C129** (roulette, on average) With fair fitness values in ascending order, one selection by the roulette wheel asks on average at
least `(n + 1) / 2` individuals, up to the rounding errors of `f64`: the wheel is scanned from the least fit one, and the fit are selected
more often. -/
theorem C129_roulette_mean (env : NumEnv) (henv : env.LawfulSum) (s : RouletteWheelSelection) (p : Population I)
    (hne : p.individuals ≠ []) (hw : FairWeights (p.individuals.map fitness))
    (hsorted : p.individuals.Pairwise fun a b => (fitness a).le (fitness b) = true) :
    ((p.individuals.length : ℚ) + 1) / 2 - p.individuals.length ^ 2 * (p.individuals.length + 1) / 2 ^ 50 ≤
      (Selector.askSelect env p (.rouletteWheel (s.prepare env p))).mean := by
  classical
  set n := p.individuals.length with hn
  have hn0 : 0 < n := List.length_pos_iff.2 hne
  set q := (s.prepare env p).select p with hq
  set W := (p.individuals.map fun x => (fitness x).val).sum with hW
  have hpos : 0 < W := by
    have := hw.2.1
    rw [List.map_map] at this
    exact lt_of_lt_of_le (zpow_pos (by norm_num) _) this
  have hal : Always (IsMember p) q :=
    C38_member env p hne (by have := hw.2.2.2; rw [List.length_map] at this; exact this.trans (by norm_num)) (.rouletteWheel (s.prepare env p))
      trivial (fun _ h => by cases h) (fun h => by first | exact h.elim | (simp at h))
  have hforget : (Selector.askSelect env p (.rouletteWheel (s.prepare env p))).forget = q := forget_askSelect env p _
  -- the expected number of calls, by index
  have hmean : (Selector.askSelect env p (.rouletteWheel (s.prepare env p))).mean = q.average fun r => ((r.1 : ℚ) + 1) := by
    rw [← hforget, Asking.forget, average_bind, mean_eq]
    refine average_congr _ fun a ha => ?_
    have := C129_select env p (.rouletteWheel (s.prepare env p)) a.1 a.2 ha
    have this : a.2 = a.1.1 + 1 ∧ _ := this
    rw [average_pure, this.1]
    push_cast; ring
  have hsum : q.average (fun r => ((r.1 : ℚ) + 1)) = ∑ i ∈ Finset.range n, ((i : ℚ) + 1) * q.prob (fun r => r.1 = i) :=
    average_by_index hal fun i => (i : ℚ) + 1
  let f : Nat → ℚ := fun i => if h : i < p.individuals.length then (fitness p.individuals[i]).val else 0
  have hfsum : W = ∑ i ∈ Finset.range n, f i := by
    rw [hW, ← Fin.sum_univ_eq_sum_range, ← List.sum_ofFn]
    congr 1
    refine List.ext_getElem (by simp [hn]) fun i h1 h2 => ?_
    simp only [List.length_map] at h1
    simp [f, h1]
  have hP : ∀ i ∈ Finset.range n, ((i : ℚ) + 1) * (f i / W) - ((i : ℚ) + 1) * (n / 2 ^ 49) ≤ ((i : ℚ) + 1) * q.prob (fun r => r.1 = i) :=
    fun i hi => by
      have hi := Finset.mem_range.1 hi
      have h := (abs_le.1 (C42_f64_probability env henv s p hw i hi)).1
      have e : f i = (fitness p.individuals[i]).val := dif_pos hi
      rw [← mul_sub]
      refine mul_le_mul_of_nonneg_left ?_ (by positivity)
      rw [e]; linarith
  have hmono : MonovaryOn (fun i : Nat => (i : ℚ) + 1) f (Finset.range n) := by
    intro i hi j hj hlt
    have hi : i < n := Finset.mem_range.1 hi
    have hj : j < n := Finset.mem_range.1 hj
    have hij : i ≤ j := by
      by_contra hc
      have hc : j < i := not_le.1 hc
      refine absurd hlt (not_lt.2 ?_)
      simp only [f, dif_pos (show i < p.individuals.length from hi), dif_pos (show j < p.individuals.length from hj)]
      exact (F64.le_finite (hw.1 _ (List.mem_map_of_mem (List.getElem_mem _))).1 (hw.1 _ (List.mem_map_of_mem (List.getElem_mem _))).1).1
        (List.pairwise_iff_getElem.1 hsorted j i hj hi hc)
    show (i : ℚ) + 1 ≤ j + 1
    have : (i : ℚ) ≤ j := by exact_mod_cast hij
    linarith
  have hch := hmono.sum_mul_sum_le_card_mul_sum
  rw [Finset.card_range, ← hfsum] at hch
  have hgauss : ∑ i ∈ Finset.range n, ((i : ℚ) + 1) = n * (n + 1) / 2 := by
    clear_value n
    clear * -
    induction n with
    | zero => simp
    | succ n ih => rw [Finset.sum_range_succ, ih]; push_cast; ring
  rw [hgauss] at hch
  rw [hmean, hsum]
  refine le_trans ?_ (Finset.sum_le_sum hP)
  rw [Finset.sum_sub_distrib, ← Finset.sum_mul, hgauss]
  have e1 : ∑ i ∈ Finset.range n, ((i : ℚ) + 1) * (f i / W) = (∑ i ∈ Finset.range n, ((i : ℚ) + 1) * f i) / W := by
    rw [Finset.sum_div]
    exact Finset.sum_congr rfl fun i _ => by ring
  rw [e1]
  have hnq : (0 : ℚ) < n := by exact_mod_cast hn0
  have e2 : ((n : ℚ) + 1) / 2 ≤ (∑ i ∈ Finset.range n, ((i : ℚ) + 1) * f i) / W := by
    rw [le_div_iff₀ hpos]
    have : (n : ℚ) * (((n : ℚ) + 1) / 2 * W) ≤ n * ∑ i ∈ Finset.range n, ((i : ℚ) + 1) * f i := by linarith
    exact le_of_mul_le_mul_left this hnq
  have e3 : (n : ℚ) * (n + 1) / 2 * (n / 2 ^ 49) = n ^ 2 * (n + 1) / 2 ^ 50 := by ring
  rw [e3]
  linarith

/-- **C129** (`breed`, on average) One more call at least than a selection. -/
theorem C129_breed_mean [DefaultValid I] {M : EvoOps I Mo U}
    (hcs : M.canSurvive = fun _ offspring parent _ => pure ((fitness parent).le (fitness offspring)))
    (env : NumEnv) (model : Mo) (p : Population I) (s : Selector) (cr mr : F64)
    (hal : Always (fun _ => True) (defaultBreed M env model p ⟨cr, mr, .builtin s⟩)) :
    (s.askSelect env p).mean + 1 ≤ (askBreed M env model p s cr mr).mean := by
  rw [← forget_askBreed hcs] at hal
  obtain ⟨k, hk⟩ : ∃ k, askParents env p s cr = s.askSelect env p >>= k := ⟨_, rfl⟩
  obtain ⟨l, hl⟩ : ∃ l : I × Option I → Asking (I × I),
      askBreed M env model p s cr mr = askParents env p s cr >>= fun ps => l ps >>= fun st => askSurvive st.2 st.1 := by
    refine ⟨fun ps => askStart M model ps >>= fun st => Asking.free (do
      let u ← genF64
      let offspring ← if u.lt mr then M.mutate model st.2 else pure st.2
      let offspring ← M.improve model offspring
      M.evaluate model offspring) >>= fun o => pure (st.1, o), ?_⟩
    simp only [Asking.assoc, Asking.pure_left]
    rfl
  rw [hl, hk, Asking.assoc] at hal ⊢
  refine le_trans (by norm_num) (mean_part (lo := 1) hal fun a => ?_)
  refine holds_bind (R := fun _ _ => True) (fun _ _ => trivial) fun ps m _ =>
    holds_bind (R := fun _ _ => True) (fun _ _ => trivial) fun st k _ => (holds_askSurvive _ _).mono fun _ n hn => ?_
  split at hn <;> omega

/-- **C129** (a generation, on average) Exactly the average of `breed` for every missing individual. -/
theorem C129_generate_mean [DefaultValid I] {M : EvoOps I Mo U}
    (hcs : M.canSurvive = fun _ offspring parent _ => pure ((fitness parent).le (fitness offspring)))
    (env : NumEnv) (model : Mo) (p : Population I) (s : Selector) (cr mr : F64) (size : Nat) (offspring : List I)
    (hal : Always (fun _ => True) (defaultBreed M env model p ⟨cr, mr, .builtin s⟩)) :
    (askGenerate M env model s cr mr size p offspring).mean =
      ((size - offspring.length : Nat) : ℚ) * (askBreed M env model p s cr mr).mean := by
  have hal' : Always (fun _ => True) (askBreed M env model p s cr mr).forget := by rw [forget_askBreed hcs]; exact hal
  have e : ∀ {α β : Type} (x : Asking α) (hx : Always (fun _ => True) x.forget) (g : α → β),
      (x >>= fun a => (pure (g a) : Asking β)).mean = x.mean := fun x hx g => by
    rw [mean_bind fun _ _ _ => by rw [forget_pure]; exact (always_pure _ _).2 trivial]
    have : x.prog.average (fun b => (pure (g b.1) : Asking _).mean) = 0 := by
      refine (average_congr _ (g := fun _ => 0) fun b _ => ?_).trans (average_const (always_prog hx) 0)
      rw [mean_eq, pure_eq, average_pure]; simp
    rw [this, add_zero]
  unfold askGenerate
  rcases size - offspring.length with _ | _ | k
  · show (pure offspring : Asking (List I)).mean = _
    rw [mean_eq, pure_eq, average_pure]; simp
  · show (askBreed M env model p s cr mr >>= fun _ => pure offspring).mean = _
    rw [e _ hal' fun _ => offspring]; simp
  · show ((askBreed M env model p s cr mr).replicate (k + 2) >>= fun new => pure (offspring ++ new)).mean = _
    rw [e _ (by rw [forget_replicate]; exact (average_replicate hal' (fun _ => True) _).1), mean_replicate hal']

/-- **C129** (the wheel takes quadratic work) With roulette-wheel selection and fair fitness values in ascending order, making `size` offspring
asks on average at least `size * (n + 3) / 2` times for a fitness, up to the rounding errors of `f64`; with a selector that looks at the
positions at most `5 * size` times. -/
theorem C129_quadratic [DefaultValid I] {M : EvoOps I Mo U}
    (hcs : M.canSurvive = fun _ offspring parent _ => pure ((fitness parent).le (fitness offspring)))
    (env : NumEnv) (henv : env.LawfulSum) (model : Mo) (p : Population I) (s : Selector) (cr mr : F64) (size : Nat)
    (hal : Always (fun _ => True) (defaultBreed M env model p ⟨cr, mr, .builtin s⟩)) :
    (∀ w : RouletteWheelSelection, s = .rouletteWheel (w.prepare env p) → p.individuals ≠ [] → FairWeights (p.individuals.map fitness) →
      (p.individuals.Pairwise fun a b => (fitness a).le (fitness b) = true) →
      size * (((p.individuals.length : ℚ) + 3) / 2 - p.individuals.length ^ 2 * (p.individuals.length + 1) / 2 ^ 50) ≤
        (askGenerate M env model s cr mr size p []).mean) ∧
    (¬ IsWheel s → (askGenerate M env model s cr mr size p []).mean ≤ 5 * size) := by
  rw [C129_generate_mean hcs env model p s cr mr size [] hal, List.length_nil, Nat.sub_zero]
  refine ⟨fun w hs hne hw hsorted => mul_le_mul_of_nonneg_left ?_ (Nat.cast_nonneg _), fun hs => ?_⟩
  · have h1 := C129_breed_mean hcs env model p s cr mr hal
    have h2 := C129_roulette_mean env henv w p hne hw hsorted
    rw [← hs] at h2
    linarith
  · rw [mul_comm]
    refine mul_le_mul_of_nonneg_right ?_ (Nat.cast_nonneg _)
    have hal' : Always (fun _ => True) (askBreed M env model p s cr mr).prog :=
      always_prog (by rw [forget_askBreed hcs]; exact hal)
    rw [mean_eq, ← average_const hal' 5]
    refine average_mono _ fun a ha => ?_
    exact_mod_cast (C129_breed_other M env model p s hs cr mr a.1 a.2 ha).2

/-! ### Examples -/

-- the bounds are reached: 16 = 4 * 3 + 4 calls for one offspring of a population of three
example : (askBreed numOps exEnv () numPop (.rouletteWheel ⟨F64.lit 8⟩) F64.one F64.zero).prog.yields (.ok (num 7, 16)) :=
  yields_of_draws _ [2 ^ 53 - 1, 0, 2 ^ 53 - 1, 2 ^ 53 - 1, 2 ^ 51, 0] _ (by decide +kernel)

-- and 5 calls with tournament selection
example : (askBreed numOps exEnv () numPop (.tournament ⟨2⟩) F64.one F64.zero).prog.yields (.ok (num 7, 5)) :=
  yields_of_draws _ [1, 2, 0, 0, 1, 0] _ (by decide +kernel)

-- the last individual of three is found after three calls
example : (Selector.askSelect exEnv numPop (.rouletteWheel ⟨F64.lit 8⟩)).prog.yields (.ok ((2, num 5), 3)) :=
  yields_of_draws _ [2 ^ 53 - 1] _ (by decide +kernel)

-- the statistics of three individuals, two of them equal
example : (askCollect id [num 1, num 1, num 2]).prog.yields (.ok (([num 1, num 2], ⟨Stats.collect [F64.lit 1, F64.lit 2]⟩), 2)) :=
  yields_of_draws _ [] _ (by decide +kernel)

-- with fitness 1, 2 and 7, a thousand offspring ask on average more than 2999 times (and at most 5000 times with a tournament)
example : 2999 ≤ (askGenerate guessModel.toEvoOps exEnv () (.rouletteWheel (RouletteWheelSelection.prepare exEnv ⟨F64.zero⟩
      (⟨[num 1, num 2, num 7], 0, 0, numPop.stats⟩ : Population Num))) F64.one F64.zero 1000
      ⟨[num 1, num 2, num 7], 0, 0, numPop.stats⟩ []).mean := by
  have hv : ∀ x ∈ [num 1, num 2, num 7], isValid x = true := by decide +kernel
  refine le_trans ?_ ((C129_quadratic (M := guessModel.toEvoOps) rfl exEnv exEnv_lawful () _ _ _ _ _ ?_).1 ⟨F64.zero⟩ rfl (by simp)
    fair_example (by decide +kernel))
  · simp only [List.length_cons, List.length_nil]
    norm_num
  · exact (breed_always guess_safe exEnv () (⟨[num 1, num 2, num 7], 0, 0, numPop.stats⟩ : Population Num) ⟨_, _, .builtin (.rouletteWheel _)⟩ (by simp)
      (by simp) hv ⟨.rouletteWheel _, rfl, trivial, fun b h => by cases h⟩).mono fun _ _ => trivial

end RG.Props
