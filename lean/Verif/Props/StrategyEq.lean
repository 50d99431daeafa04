import Verif.StrategyEq
import Verif.SpecAlgorithm
import Verif.Props.Cooling

/-!
# C137 — Equality of selection strategies

`SelectionStrategy` derives `PartialEq`. Here is when two strategies are equal, and whether equal strategies do the same.
-/

namespace RG.Props
open RG RG.Prog Arith
variable {I : Type} [Individual I]

/-! ### Zeros of either sign -/

/-- The same number, or zeros that may differ in their sign. -/
def Twin (a b : F64) : Prop := a = b ∨ (a = F64.zero ∨ a = F64.nzero) ∧ (b = F64.zero ∨ b = F64.nzero)

theorem Twin.refl (a : F64) : Twin a a := Or.inl rfl

theorem twin_round (s t : Bool) (q : ℚ) : Twin (F64.round s q) (F64.round t q) := by
  unfold F64.round
  split
  · by_cases h0 : rndQ q = 0
    · right
      constructor
      · cases s
        · left; simp [h0, F64.zero]
        · right; simp [h0]
      · cases t
        · left; simp [h0, F64.zero]
        · right; simp [h0]
    · left; simp [h0]
  · left; rfl

theorem twin_mul (x : F64) {a b : F64} (h : Twin a b) : Twin (x.mul a) (x.mul b) := by
  rcases h with rfl | ⟨rfl | rfl, rfl | rfl⟩
  · exact .refl _
  · exact .refl _
  · cases x
    · exact .refl _
    · exact .refl _
    · exact twin_round _ _ _
    · exact twin_round _ _ _
  · cases x
    · exact .refl _
    · exact .refl _
    · exact twin_round _ _ _
    · exact twin_round _ _ _
  · exact .refl _

theorem twin_add {a b : F64} (h : Twin a b) (x : F64) : Twin (a.add x) (b.add x) := by
  rcases h with rfl | ⟨rfl | rfl, rfl | rfl⟩
  · exact .refl _
  · exact .refl _
  · cases x
    · exact .refl _
    · exact .refl _
    · exact twin_round _ _ _
    · exact twin_round _ _ _
  · cases x
    · exact .refl _
    · exact .refl _
    · exact twin_round _ _ _
    · exact twin_round _ _ _
  · exact .refl _

theorem twin_div {a b : F64} (h : Twin a b) (x : F64) : Twin (a.div x) (b.div x) := by
  have hz : ∀ s t : Bool, Twin (if s then F64.nzero else F64.zero) (if t then F64.nzero else F64.zero) := by
    intro s t; right; cases s <;> cases t <;> simp
  rcases h with rfl | ⟨rfl | rfl, rfl | rfl⟩
  · exact .refl _
  · exact .refl _
  · cases x
    · exact .refl _
    · exact hz _ _
    · left; rfl
    · rename_i q hq
      show Twin (if q = 0 then _ else _) (if q = 0 then _ else _)
      split
      · left; rfl
      · exact twin_round _ _ _
  · cases x
    · exact .refl _
    · exact hz _ _
    · left; rfl
    · rename_i q hq
      show Twin (if q = 0 then _ else _) (if q = 0 then _ else _)
      split
      · left; rfl
      · exact twin_round _ _ _
  · exact .refl _

theorem twin_floor {a b : F64} (h : Twin a b) : Twin a.floor b.floor := by
  have hz : F64.zero.floor = F64.zero := by decide +kernel
  rcases h with rfl | ⟨rfl | rfl, rfl | rfl⟩
  · exact .refl _
  · exact .refl _
  · rw [hz]; exact Or.inr ⟨Or.inl rfl, Or.inr rfl⟩
  · rw [hz]; exact Or.inr ⟨Or.inr rfl, Or.inl rfl⟩
  · exact .refl _

theorem twin_toUsize {a b : F64} (h : Twin a b) : a.toUsize = b.toUsize := by
  rcases h with rfl | ⟨rfl | rfl, rfl | rfl⟩ <;> rfl

/-- When two `f64` are equal. -/
theorem feq_iff_twin (a b : F64) : a.feq b = true ↔ a ≠ .nan ∧ Twin a b := by
  constructor
  · intro h
    obtain ⟨h1, h2, h3⟩ := F64.feq_iff.1 h
    refine ⟨fun e => (by rw [e] at h1; cases h1), ?_⟩
    have hc : a.cls = b.cls := congrArg (fun x => (ofLex x).1) h3
    have hv : a.val = b.val := congrArg (fun x => (ofLex x).2) h3
    cases a with
    | nan => cases h1
    | inf s =>
      cases b with
      | nan => cases h2
      | inf t => left; cases s <;> cases t <;> first | rfl | cases hc
      | nzero => cases s <;> cases hc
      | fin q hq => cases s <;> cases hc
    | nzero => exact Or.inr ⟨Or.inr rfl, (feq_zero_iff b).1 (F64.feq_iff.2 ⟨h2, rfl, h3.symm⟩)⟩
    | fin q hq =>
      cases b with
      | nan => cases h2
      | inf t => cases t <;> cases hc
      | nzero => exact Or.inr ⟨(feq_zero_iff _).1 (F64.feq_iff.2 ⟨h1, rfl, h3⟩), Or.inr rfl⟩
      | fin q' hq' =>
        have hv : q = q' := hv
        subst hv
        exact .refl _
  · rintro ⟨hn, rfl | ⟨rfl | rfl, rfl | rfl⟩⟩
    · refine F64.feq_iff.2 ⟨?_, ?_, rfl⟩ <;> cases a <;> first | rfl | exact absurd rfl hn
    all_goals decide +kernel

/-! ### Strategies -/

/-- The floating-point fields. -/
def numbersOf : SelectionStrategy → List F64
  | .boltzmann t c => [t, c]
  | .linear b => [b]
  | .elitist r => [r]
  | _ => []

/-- The same variant, with fields that are the same up to the signs of zeros. -/
inductive Alike : SelectionStrategy → SelectionStrategy → Prop
  | same (s : SelectionStrategy) : Alike s s
  | boltzmann {t t' c c' : F64} : Twin t t' → Twin c c' → Alike (.boltzmann t c) (.boltzmann t' c')
  | linear {b b' : F64} : Twin b b' → Alike (.linear b) (.linear b')
  | elitist {r r' : F64} : Twin r r' → Alike (.elitist r) (.elitist r')

/-- **C137** Two strategies are equal exactly if they are the same variant with the same fields, apart from the signs of zeros, and no field is
NaN. -/
theorem C137_equal (s t : SelectionStrategy) : s.equals t = true ↔ Alike s t ∧ F64.nan ∉ numbersOf s := by
  constructor
  · intro h
    cases s <;> cases t <;> simp only [SelectionStrategy.equals, Bool.and_eq_true, feq_iff_twin, beq_iff_eq, Bool.false_eq_true] at h
    · subst h; exact ⟨.same _, by simp [numbersOf]⟩
    · exact ⟨.same _, by simp [numbersOf]⟩
    · exact ⟨.boltzmann h.1.2 h.2.2, by simp [numbersOf, h.1.1.symm, h.2.1.symm]⟩
    · exact ⟨.same _, by simp [numbersOf]⟩
    · exact ⟨.linear h.2, by simp [numbersOf, h.1.symm]⟩
    · exact ⟨.elitist h.2, by simp [numbersOf, h.1.symm]⟩
  · rintro ⟨h, hn⟩
    cases h with
    | same =>
      cases s <;> simp only [SelectionStrategy.equals, Bool.and_eq_true, feq_iff_twin, beq_self_eq_true] <;>
        simp only [numbersOf, List.mem_cons, List.not_mem_nil, or_false, not_or] at hn
      · exact ⟨⟨fun e => hn.1 e.symm, .refl _⟩, fun e => hn.2 e.symm, .refl _⟩
      · exact ⟨fun e => hn e.symm, .refl _⟩
      · exact ⟨fun e => hn e.symm, .refl _⟩
    | boltzmann h1 h2 =>
      simp only [numbersOf, List.mem_cons, List.not_mem_nil, or_false, not_or] at hn
      simp only [SelectionStrategy.equals, Bool.and_eq_true, feq_iff_twin]
      exact ⟨⟨fun e => hn.1 e.symm, h1⟩, fun e => hn.2 e.symm, h2⟩
    | linear h =>
      simp only [numbersOf, List.mem_cons, List.not_mem_nil, or_false] at hn
      simp only [SelectionStrategy.equals, feq_iff_twin]
      exact ⟨fun e => hn e.symm, h⟩
    | elitist h =>
      simp only [numbersOf, List.mem_cons, List.not_mem_nil, or_false] at hn
      simp only [SelectionStrategy.equals, feq_iff_twin]
      exact ⟨fun e => hn e.symm, h⟩

/-- **C137** The comparison is symmetric and transitive; a strategy equals itself exactly if no field is NaN. -/
theorem C137_equivalence :
    (∀ s t : SelectionStrategy, s.equals t = t.equals s) ∧
    (∀ s t u : SelectionStrategy, s.equals t = true → t.equals u = true → s.equals u = true) ∧
    ∀ s : SelectionStrategy, s.equals s = true ↔ F64.nan ∉ numbersOf s := by
  have hs : ∀ a b : F64, a.feq b = b.feq a := fun a b => by
    rw [Bool.eq_iff_iff, F64.feq_iff, F64.feq_iff]
    exact ⟨fun ⟨h1, h2, h3⟩ => ⟨h2, h1, h3.symm⟩, fun ⟨h1, h2, h3⟩ => ⟨h2, h1, h3.symm⟩⟩
  have ht : ∀ a b c : F64, a.feq b = true → b.feq c = true → a.feq c = true := fun a b c h1 h2 => by
    obtain ⟨x1, -, x3⟩ := F64.feq_iff.1 h1
    obtain ⟨-, y2, y3⟩ := F64.feq_iff.1 h2
    exact F64.feq_iff.2 ⟨x1, y2, x3.trans y3⟩
  refine ⟨fun s t => ?_, fun s t u h1 h2 => ?_, fun s => ?_⟩
  · cases s <;> cases t <;> simp only [SelectionStrategy.equals]
    · exact Bool.beq_comm
    · rw [hs, hs (b := _)]
      congr 1
      exact hs _ _
    · exact hs _ _
    · exact hs _ _
  · cases s <;> cases t <;> simp only [SelectionStrategy.equals, Bool.false_eq_true] at h1 <;>
      cases u <;> simp only [SelectionStrategy.equals, Bool.false_eq_true, Bool.and_eq_true, beq_iff_eq] at h1 h2 ⊢
    · exact h1.trans h2
    · exact ⟨ht _ _ _ h1.1 h2.1, ht _ _ _ h1.2 h2.2⟩
    · exact ht _ _ _ h1 h2
    · exact ht _ _ _ h1 h2
  · rw [C137_equal]
    exact ⟨fun h => h.2, fun h => ⟨.same s, h⟩⟩

/-! ### What equal strategies do -/

/-- A selector is created, prepared for the given populations one after the other, and asked for a parent. -/
def selecting (s : SelectionStrategy) (env : NumEnv) (seen : List (Population I)) (pop : Population I) : Prog (Nat × I) := do
  let sel ← Prog.lift s.createSelector
  (seen.foldl (fun sel p => sel.prepare env p) sel).select env pop

theorem foldl_prepare_still (env : NumEnv) (seen : List (Population I)) (sel : Selector) (h : ∀ p : Population I, sel.prepare env p = sel) :
    seen.foldl (fun sel p => sel.prepare env p) sel = sel := by
  induction seen with
  | nil => rfl
  | cons p l ih => rw [List.foldl_cons, h, ih]

omit [Individual I] in
theorem linear_twin {b b' : F64} (h : Twin b b') (pop : Population I) :
    (⟨b⟩ : LinearSelection F64).select pop = (⟨b'⟩ : LinearSelection F64).select pop := by
  have h1 : ∀ c, Twin b c → b.sub (F64.lit 1) = c.sub (F64.lit 1) ∧ b.mul b = c.mul c := by
    rintro c (rfl | ⟨rfl | rfl, rfl | rfl⟩) <;> first | exact ⟨rfl, rfl⟩ | decide +kernel
  obtain ⟨e1, e2⟩ := h1 b' h
  have key : ∀ n u, ((⟨b⟩ : LinearSelection F64).offset n u).toUsize = ((⟨b'⟩ : LinearSelection F64).offset n u).toUsize := fun n u => by
    refine twin_toUsize ?_
    show Twin (F64.div (F64.div (F64.mul (F64.ofNat n) (F64.sub b (F64.sqrt (F64.sub (F64.mul b b)
        (F64.mul (F64.mul (F64.lit 4) (F64.sub b (F64.lit 1))) u))))) (F64.lit 2)) (F64.sub b (F64.lit 1)))
      (F64.div (F64.div (F64.mul (F64.ofNat n) (F64.sub b' (F64.sqrt (F64.sub (F64.mul b' b')
        (F64.mul (F64.mul (F64.lit 4) (F64.sub b' (F64.lit 1))) u))))) (F64.lit 2)) (F64.sub b' (F64.lit 1)))
    rw [e1, e2]
    exact twin_div (twin_div (twin_mul _ (twin_add h _)) _) _
  unfold LinearSelection.select LinearSelection.selectIndex
  simp only [key]

omit [Individual I] in
theorem elitist_twin {r r' : F64} (h : Twin r r') (pop : Population I) :
    (⟨r⟩ : ElitistSelection).select pop = (⟨r'⟩ : ElitistSelection).select pop := by
  have : (⟨r⟩ : ElitistSelection).bound pop.len = (⟨r'⟩ : ElitistSelection).bound pop.len := twin_toUsize (twin_floor (twin_mul _ h))
  unfold ElitistSelection.select
  rw [this]

/-- **C137** Equal strategies do the same: both panic when the selector is created, or their selectors, prepared for the same populations, select
by the same program. The exception is Boltzmann selection with a temperature of zero. -/
theorem C137_behave (s t : SelectionStrategy) (h : s.equals t = true) (h0 : ∀ T c, s = .boltzmann T c → T.feq F64.zero = false)
    (env : NumEnv) (seen : List (Population I)) (pop : Population I) : selecting s env seen pop = selecting t env seen pop := by
  have hal := ((C137_equal s t).1 h).1
  clear h
  cases hal with
  | same => rfl
  | @boltzmann T T' c c' h1 h2 =>
    have hT := h0 T c rfl
    have e1 : T = T' := by
      rcases h1 with e | ⟨e, -⟩
      · exact e
      · rw [(feq_zero_iff T).2 e] at hT; cases hT
    subst e1
    rcases h2 with rfl | ⟨h2, h3⟩
    · rfl
    · have g1 := (feq_zero_iff c).2 h2
      have g2 := (feq_zero_iff c').2 h3
      have key : ∀ d : F64, d.feq F64.zero = true → (SelectionStrategy.boltzmann T d).createSelector = Res.panic := fun d hd => by
        simp only [SelectionStrategy.createSelector, BoltzmannSelection.new, hd]
        rfl
      unfold selecting
      rw [key c g1, key c' g2]
  | @linear b b' h =>
    show (Prog.lift (Res.ok (Selector.linear ⟨b⟩)) >>= _) = (Prog.lift (Res.ok (Selector.linear ⟨b'⟩)) >>= _)
    rw [lift_ok, lift_ok, bind_pure_left, bind_pure_left, foldl_prepare_still _ _ _ (fun _ => rfl), foldl_prepare_still _ _ _ (fun _ => rfl)]
    exact linear_twin h pop
  | @elitist r r' h =>
    have e : inHalfOpenUnit r = inHalfOpenUnit r' := by
      rcases h with rfl | ⟨rfl | rfl, rfl | rfl⟩ <;> rfl
    by_cases hr : inHalfOpenUnit r = true
    · have key : ∀ q : F64, inHalfOpenUnit q = true → (SelectionStrategy.elitist q).createSelector = Res.ok (Selector.elitist ⟨q⟩) :=
        fun q hq => by
          simp only [SelectionStrategy.createSelector, ElitistSelection.new, hq]
          rfl
      unfold selecting
      rw [key r hr, key r' (e ▸ hr)]
      show (Prog.lift (Res.ok (Selector.elitist ⟨r⟩)) >>= _) = (Prog.lift (Res.ok (Selector.elitist ⟨r'⟩)) >>= _)
      rw [lift_ok, lift_ok, bind_pure_left, bind_pure_left, foldl_prepare_still _ _ _ (fun _ => rfl), foldl_prepare_still _ _ _ (fun _ => rfl)]
      exact elitist_twin h pop
    · have key : ∀ q : F64, inHalfOpenUnit q = false → (SelectionStrategy.elitist q).createSelector = Res.panic := fun q hq => by
        simp only [SelectionStrategy.createSelector, ElitistSelection.new, hq]
        rfl
      rw [Bool.not_eq_true] at hr
      unfold selecting
      rw [key r hr, key r' (e ▸ hr)]

theorem twin_le {a b : F64} (h : Twin a b) (x : F64) : a.le x = b.le x := by
  rcases h with rfl | ⟨rfl | rfl, rfl | rfl⟩ <;> rfl

theorem twin_scan {a b : F64} (h : Twin a b) (weights : List F64) : ∀ (c : F64) (i : Nat), wheelScan a c i weights = wheelScan b c i weights := by
  induction weights with
  | nil => exact fun _ _ => rfl
  | cons w ws ih =>
    intro c i
    show (if a.le (c.add w) = true then some i else wheelScan a (c.add w) (i + 1) ws) =
      if b.le (c.add w) = true then some i else wheelScan b (c.add w) (i + 1) ws
    rw [twin_le h, ih]

theorem twin_wheel {a b : F64} (h : Twin a b) (weights : List F64) (u : F64) : wheelIndex weights a u = wheelIndex weights b u := by
  have e := twin_scan (twin_mul u h) weights (lit 0) 0
  show (match wheelScan (u.mul a) (lit 0) 0 weights with | some i => Res.ok i | none => usizeSub weights.length 1) =
    match wheelScan (u.mul b) (lit 0) 0 weights with | some i => Res.ok i | none => usizeSub weights.length 1
  rw [e]

/-- **C137** Selectors that are equal select alike. Those of Boltzmann selection do so if the temperature is not zero. -/
theorem C137_selectors (env : NumEnv) (pop : Population I) :
    (∀ s t : TournamentSelection, s.equals t = true → s.select pop = t.select pop) ∧
    (∀ s t : RouletteWheelSelection, s.equals t = true → s.select pop = t.select pop) ∧
    (∀ s t : BoltzmannSelection F64, s.equals t = true → s.temperature.feq F64.zero = false → s.select env pop = t.select env pop) ∧
    ∀ s t : LinearSelection F64, s.equals t = true → s.select pop = t.select pop := by
  refine ⟨?_, ?_, ?_, ?_⟩
  · rintro ⟨s⟩ ⟨t⟩ h
    have h : s = t := by simpa [TournamentSelection.equals] using h
    rw [h]
  · rintro ⟨s⟩ ⟨t⟩ h
    have h := ((feq_iff_twin s t).1 h).2
    unfold RouletteWheelSelection.select
    simp only [twin_wheel h]
  · rintro ⟨s, c, w⟩ ⟨t, d, v⟩ h h0
    simp only [BoltzmannSelection.equals, Bool.and_eq_true, feq_iff_twin] at h
    obtain ⟨⟨h1, -⟩, h3⟩ := h
    have e : s = t := by
      rcases h1.2 with e | ⟨e, -⟩
      · exact e
      · rw [show s.feq F64.zero = true from (feq_zero_iff s).2 e] at h0; cases h0
    subst e
    unfold BoltzmannSelection.select BoltzmannSelection.selectIndex
    simp only [twin_wheel h3.2]
  · rintro ⟨s⟩ ⟨t⟩ h
    exact linear_twin ((feq_iff_twin s t).1 h).2 pop

/-- **C137** The exception: `Boltzmann(0.0, c)` equals `Boltzmann(-0.0, c)`. For a population with members of negative and of positive fitness the
first selects the least fit of positive fitness, the second the least fit of all, each with probability `1 - 2^-53`. -/
theorem C137_opposite (env : NumEnv) (henv : env.LawfulSum) (hexp : ExpRange env.exp) (c : F64) (hc : c.isFinite = true) (hc0 : 0 < c.val)
    (pop : Population I) (worse : List I) (x : I) (better : List I) (hp : pop.individuals = worse ++ x :: better) (hne : worse ≠ [])
    (h1 : ∀ y ∈ worse, Negative y) (h2 : ∀ y ∈ x :: better, Positive y) :
    (SelectionStrategy.boltzmann F64.zero c).equals (.boltzmann F64.nzero c) = true ∧
    AlmostAlways (fun i => (selecting (.boltzmann F64.zero c) env [pop] pop).prob fun r => r.1 = i) pop.individuals.length worse.length ∧
    AlmostAlways (fun i => (selecting (.boltzmann F64.nzero c) env [pop] pop).prob fun r => r.1 = i) pop.individuals.length 0 := by
  have hcz : c.feq F64.zero = false := by
    rw [← Bool.not_eq_true, feq_zero_iff]
    rintro (rfl | rfl) <;> exact absurd hc0 (lt_irrefl _)
  have hnew : ∀ T, (SelectionStrategy.boltzmann T c).createSelector = Res.ok (Selector.boltzmann ⟨T, c, F64.zero⟩) := fun T => by
    simp only [SelectionStrategy.createSelector, BoltzmannSelection.new, hcz]
    rfl
  have hsel : ∀ T, selecting (.boltzmann T c) env [pop] pop = ((⟨T, c, F64.zero⟩ : BoltzmannSelection F64).prepare env pop).select env pop :=
    fun T => by
      unfold selecting
      rw [hnew, lift_ok, bind_pure_left]
      rfl
  have hmul : F64.zero.mul c = F64.zero ∧ F64.nzero.mul c = F64.nzero := by
    cases c with
    | nan => cases hc
    | inf => cases hc
    | nzero => exact absurd hc0 (lt_irrefl _)
    | fin q hq =>
      have hq0 : (0 : ℚ) < q := hc0
      have e1 : F64.zero.mul (F64.fin q hq) = F64.round (xor false (decide (q < 0))) (0 * q) := rfl
      have e2 : F64.nzero.mul (F64.fin q hq) = F64.round (xor true (decide (q < 0))) (0 * q) := rfl
      rw [e1, e2, zero_mul, decide_eq_false hq0.le.not_gt]
      exact ⟨by decide +kernel, by decide +kernel⟩
  have hpos : ∀ y ∈ x :: better, (fitness y).div F64.nzero = F64.inf true := fun y hy => by
    obtain ⟨hf, hv⟩ := h2 y hy
    have hv := lt_of_lt_of_le (pow2_pos _) hv
    revert hf hv
    generalize fitness y = f
    intro hf hv
    cases f with
    | nan => cases hf
    | inf => cases hf
    | nzero => exact absurd hv (lt_irrefl _)
    | fin q hq =>
      have hv : (0 : ℚ) < q := hv
      simp [F64.div, F64.signBit, hv.ne', hv.le.not_gt]
  have hneg : ∀ y ∈ worse, (fitness y).div F64.nzero = F64.inf false := fun y hy => by
    obtain ⟨hf, hv⟩ := h1 y hy
    have hv := lt_of_le_of_lt hv (neg_lt_zero.2 (pow2_pos _))
    revert hf hv
    generalize fitness y = f
    intro hf hv
    cases f with
    | nan => cases hf
    | inf => cases hf
    | nzero => exact absurd hv (lt_irrefl _)
    | fin q hq =>
      have hv : q < 0 := hv
      simp [F64.div, F64.signBit, hv.ne, hv]
  have hinf : env.exp (F64.inf false) = F64.inf false := hexp.overflow _ (by decide +kernel)
  have hzero : env.exp (F64.inf true) = F64.zero := hexp.underflow _ (by decide +kernel)
  refine ⟨?_, ?_, ?_⟩
  · rw [C137_equal]
    refine ⟨.boltzmann (Or.inr ⟨Or.inl rfl, Or.inr rfl⟩) (.refl _), ?_⟩
    simp only [numbersOf, List.mem_cons, List.not_mem_nil, or_false, not_or]
    exact ⟨by decide +kernel, by rintro rfl; cases hc⟩
  · rw [hsel]
    refine C105_positive env henv hexp _ pop ?_ worse x better hp h1 h2
    rw [hmul.1]
    exact ⟨by decide +kernel, by decide +kernel, (pow2_pos _).le⟩
  · rw [hsel]
    obtain ⟨w, ws, rfl⟩ : ∃ w ws, worse = w :: ws := by
      cases worse with
      | nil => exact absurd rfl hne
      | cons w ws => exact ⟨w, ws, rfl⟩
    have hw : env.exp ((fitness w).div (F64.nzero.mul c)) = F64.inf false := by rw [hmul.2, hneg w (by simp), hinf]
    refine C105_overflow env henv _ pop (fun y => env.exp ((fitness y).div (F64.nzero.mul c))) (fun _ => rfl) ?_ 0 (by rw [hp]; simp)
      (fun i hi => absurd hi (Nat.not_lt_zero i)) ⟨w, by rw [hp]; simp, hw⟩
    intro y hy
    rw [hp, List.mem_append] at hy
    show F64.zero.le (env.exp ((fitness y).div (F64.nzero.mul c))) = true
    rw [hmul.2]
    rcases hy with hy | hy
    · rw [hneg y hy, hinf]; decide +kernel
    · rw [hpos y hy, hzero]; decide +kernel

/-! ### Examples -/

/-- Linear selection with a bias of `0.0` and of `-0.0`. -/
example (env : NumEnv) (pop : Population I) :
    selecting (.linear F64.zero) env [pop] pop = selecting (.linear F64.nzero) env [pop] pop :=
  C137_behave _ _ (by decide +kernel) (fun _ _ h => by cases h) env [pop] pop

/-- Wheels with a total of `0.0` and of `-0.0`. -/
example (pop : Population I) : (⟨F64.zero⟩ : RouletteWheelSelection).select pop = (⟨F64.nzero⟩ : RouletteWheelSelection).select pop :=
  (C137_selectors exEnv pop).2.1 _ _ (by decide +kernel)

/-- A strategy that does not equal itself. -/
example : (SelectionStrategy.linear .nan).equals (.linear .nan) = false := by decide +kernel

/-- Two individuals of fitness -2 and 5. -/
def signsPop : Population Num := { numPop with individuals := [num (-2), num 5] }

/-- The fittest of two individuals of fitness -2 and 5 is selected at the temperature `0.0`, the other at `-0.0`. -/
example : AlmostAlways (fun i => (selecting (.boltzmann F64.zero (F64.lit (1 / 2))) stepEnv [signsPop] signsPop).prob
      fun r => r.1 = i) 2 1 ∧
    AlmostAlways (fun i => (selecting (.boltzmann F64.nzero (F64.lit (1 / 2))) stepEnv [signsPop] signsPop).prob
      fun r => r.1 = i) 2 0 := by
  refine (C137_opposite stepEnv stepEnv_lawful stepExp_range _ (by decide +kernel) (by decide +kernel) signsPop [num (-2)] (num 5) []
    rfl (by simp) ?_ ?_).2
  · intro y hy
    rw [List.mem_singleton.1 hy]
    refine ⟨by decide +kernel, ?_⟩
    have : pow2 (-1000) ≤ 1 := by rw [show (1 : ℚ) = pow2 0 by decide +kernel]; exact pow2_le.2 (by norm_num)
    have h2 : (fitness (num (-2))).val = -2 := by decide +kernel
    rw [h2]
    linarith
  · intro y hy
    rw [List.mem_singleton.1 hy]
    exact num_positive _ (by decide +kernel) (by decide +kernel)

end RG.Props
