import Mathlib.Algebra.Order.Ring.Rat
import Mathlib.Algebra.Order.BigOperators.Group.Finset
import Mathlib.Algebra.BigOperators.Ring.Finset
import Mathlib.Algebra.BigOperators.Fin
import Mathlib.Tactic.Ring
import Mathlib.Tactic.Linarith
import Mathlib.Tactic.FieldSimp
import Mathlib.Tactic.Positivity

/-!
# Random programs

Every use of randomness in `/repo` goes through `rand` primitives that draw uniformly from a finite range:
`rng.gen_range(a..b)`, `rng.gen_range(a..=b)`, `rng.gen::<f64>()` (uniform `k / 2^53`, `k < 2^53`),
`slice.choose(rng)`, `slice.shuffle(rng)`, `rng.sample_iter(Uniform::new(0, n))`, `rng.sample_iter(Standard)` on `bool`.
A Rust function taking `rng: &mut R` is modelled as a `Prog`: a finite tree whose inner nodes are uniform choices.
The assumption (trusted base): `rand 0.8.5` draws are in range, and, for statements about
probabilities only, uniform and independent.
-/

namespace RG

/-- Outcome of a Rust computation: a value, a panic (`assert!`, `unwrap`, index out of bounds, arithmetic overflow
check), or a loop that has exhausted the fuel the model gave it. -/
inductive Res (α : Type) where
  | ok (a : α)
  | panic
  | diverge
deriving DecidableEq, Repr

namespace Res
variable {α β : Type}

/-- Sequencing: a panic or divergence of the first computation is that of the whole. -/
def bind (r : Res α) (f : α → Res β) : Res β :=
  match r with
  | ok a => f a
  | panic => panic
  | diverge => diverge

instance : Monad Res where
  pure := ok
  bind := bind

@[simp] theorem bind_ok (a : α) (f : α → Res β) : (Res.ok a >>= f) = f a := rfl
@[simp] theorem bind_panic (f : α → Res β) : ((Res.panic : Res α) >>= f) = Res.panic := rfl
@[simp] theorem bind_diverge (f : α → Res β) : ((Res.diverge : Res α) >>= f) = Res.diverge := rfl
@[simp] theorem pure_eq (a : α) : (pure a : Res α) = Res.ok a := rfl

/-- `Option::unwrap`: panics on `None`. -/
def ofOption : Option α → Res α
  | some a => ok a
  | none => panic

@[simp] theorem ofOption_some (a : α) : ofOption (some a) = ok a := rfl
@[simp] theorem ofOption_none : ofOption (none : Option α) = panic := rfl

/-- `assert!(b)`. -/
def assert (b : Bool) : Res Unit := if b then ok () else panic

/-- The computation ends normally with a value satisfying the test. -/
def okAnd (r : Res α) (Q : α → Bool) : Bool :=
  match r with
  | ok a => Q a
  | _ => false

theorem of_okAnd {r : Res α} {Q : α → Bool} (h : r.okAnd Q = true) : ∃ a, r = ok a ∧ Q a = true := by
  cases r with
  | ok a => exact ⟨a, rfl, h⟩
  | panic => cases h
  | diverge => cases h

@[simp] theorem assert_true : assert true = ok () := rfl
@[simp] theorem assert_false : assert false = panic := rfl

end Res

/-- A random program: either finished, or a uniform choice of a number in `0..=n` followed by a continuation
(the values of the continuation above `n` are irrelevant). -/
inductive Prog (α : Type) where
  | done (r : Res α)
  | pick (n : Nat) (k : Nat → Prog α)

namespace Prog
variable {α β γ : Type}

def bind : Prog α → (α → Prog β) → Prog β
  | done (.ok a), f => f a
  | done .panic, _ => done .panic
  | done .diverge, _ => done .diverge
  | pick n k, f => pick n (fun i => (k i).bind f)

instance : Monad Prog where
  pure a := done (.ok a)
  bind := bind

@[simp] theorem bind_ok (a : α) (f : α → Prog β) : (done (.ok a) >>= f) = f a := rfl
@[simp] theorem bind_panic (f : α → Prog β) : (done (.panic : Res α) >>= f) = done .panic := rfl
@[simp] theorem bind_diverge (f : α → Prog β) : (done (.diverge : Res α) >>= f) = done .diverge := rfl
@[simp] theorem bind_pick (n : Nat) (k : Nat → Prog α) (f : α → Prog β) :
    (pick n k >>= f) = pick n (fun i => k i >>= f) := rfl
theorem pure_def (a : α) : (pure a : Prog α) = done (.ok a) := rfl
@[simp] theorem bind_pure_left (a : α) (f : α → Prog β) : ((pure a : Prog α) >>= f) = f a := rfl

theorem bind_assoc' (p : Prog α) (f : α → Prog β) (g : β → Prog γ) :
    (p >>= f) >>= g = p >>= (fun a => f a >>= g) := by
  induction p with
  | done r => cases r <;> rfl
  | pick n k ih => simp only [bind_pick]; congr 1; funext i; exact ih i

theorem bind_pure_right (p : Prog α) : (p >>= fun a => (pure a : Prog α)) = p := by
  induction p with
  | done r => cases r <;> rfl
  | pick n k ih => simp only [bind_pick]; congr 1; funext i; exact ih i

instance : LawfulMonad Prog := LawfulMonad.mk'
  (id_map := fun p => by
    show (p >>= fun a => (pure (id a) : Prog _)) = p
    exact bind_pure_right p)
  (pure_bind := fun _ _ => rfl)
  (bind_assoc := bind_assoc')

/-- Embed a non-random computation. -/
def lift (r : Res α) : Prog α := done r

@[simp] theorem lift_ok (a : α) : lift (.ok a) = pure a := rfl

/-- `p.yields r`: some sequence of draws makes the program end with outcome `r`. -/
def yields : Prog α → Res α → Prop
  | done r', r => r = r'
  | pick n k, r => ∃ i, i ≤ n ∧ (k i).yields r

/-- Every sequence of draws gives a normal result satisfying `P`: no panic and no divergence. -/
def Always (P : α → Prop) (p : Prog α) : Prop := ∀ r, p.yields r → ∃ a, r = .ok a ∧ P a

/-- Every normal result satisfies `P` (panics allowed). -/
def Partially (P : α → Prop) (p : Prog α) : Prop := ∀ a, p.yields (.ok a) → P a

/-- Expected value of `g` of the outcome, all draws being uniform and independent. -/
def expect : Prog α → (Res α → ℚ) → ℚ
  | done r, g => g r
  | pick n k, g => (∑ i ∈ Finset.range (n + 1), (k i).expect g) / (n + 1)

/-- Probability that the program ends normally with a result satisfying `P`. -/
def prob (p : Prog α) (P : α → Prop) [DecidablePred P] : ℚ :=
  p.expect fun r => match r with
    | .ok a => if P a then 1 else 0
    | _ => 0

/-- Probability that the program does not end normally. -/
def probFail (p : Prog α) : ℚ :=
  p.expect fun r => match r with
    | .ok _ => 0
    | _ => 1

@[simp] theorem yields_done (r r' : Res α) : (done r).yields r' ↔ r' = r := Iff.rfl
@[simp] theorem yields_pure (a : α) (r : Res α) : (pure a : Prog α).yields r ↔ r = .ok a := Iff.rfl
@[simp] theorem yields_pick (n : Nat) (k : Nat → Prog α) (r : Res α) :
    (pick n k).yields r ↔ ∃ i, i ≤ n ∧ (k i).yields r := Iff.rfl

theorem exists_yields (p : Prog α) : ∃ r, p.yields r := by
  induction p with
  | done r => exact ⟨r, rfl⟩
  | pick n k ih => obtain ⟨r, hr⟩ := ih 0; exact ⟨r, 0, Nat.zero_le _, hr⟩

theorem yields_bind (p : Prog α) (f : α → Prog β) (r : Res β) :
    (p >>= f).yields r ↔
      (∃ a, p.yields (.ok a) ∧ (f a).yields r) ∨ (p.yields .panic ∧ r = .panic) ∨
        (p.yields .diverge ∧ r = .diverge) := by
  induction p with
  | done r' => cases r' <;> simp
  | pick n k ih =>
    simp only [bind_pick, yields_pick, ih]
    constructor
    · rintro ⟨i, hi, h | h | h⟩
      · obtain ⟨a, h1, h2⟩ := h; exact Or.inl ⟨a, ⟨i, hi, h1⟩, h2⟩
      · exact Or.inr (Or.inl ⟨⟨i, hi, h.1⟩, h.2⟩)
      · exact Or.inr (Or.inr ⟨⟨i, hi, h.1⟩, h.2⟩)
    · rintro (⟨a, ⟨i, hi, h1⟩, h2⟩ | ⟨⟨i, hi, h1⟩, h2⟩ | ⟨⟨i, hi, h1⟩, h2⟩)
      · exact ⟨i, hi, Or.inl ⟨a, h1, h2⟩⟩
      · exact ⟨i, hi, Or.inr (Or.inl ⟨h1, h2⟩)⟩
      · exact ⟨i, hi, Or.inr (Or.inr ⟨h1, h2⟩)⟩

theorem yields_bind_ok (p : Prog α) (f : α → Prog β) (b : β) :
    (p >>= f).yields (.ok b) ↔ ∃ a, p.yields (.ok a) ∧ (f a).yields (.ok b) := by
  simp [yields_bind]

theorem yields_map (p : Prog α) (f : α → β) (b : β) :
    (f <$> p).yields (.ok b) ↔ ∃ a, p.yields (.ok a) ∧ b = f a := by
  rw [← bind_pure_comp, yields_bind_ok]; simp

@[simp] theorem always_pure (P : α → Prop) (a : α) : Always P (pure a : Prog α) ↔ P a := by
  simp [Always]

@[simp] theorem always_done_ok (P : α → Prop) (a : α) : Always P (done (.ok a)) ↔ P a := by
  simp [Always]

@[simp] theorem not_always_panic (P : α → Prop) : ¬ Always P (done .panic) := by simp [Always]

@[simp] theorem not_always_diverge (P : α → Prop) : ¬ Always P (done .diverge) := by simp [Always]

@[simp] theorem always_pick (P : α → Prop) (n : Nat) (k : Nat → Prog α) :
    Always P (pick n k) ↔ ∀ i, i ≤ n → Always P (k i) := by
  simp only [Always, yields_pick]
  exact ⟨fun h i hi r hr => h r ⟨i, hi, hr⟩, fun h r ⟨i, hi, hr⟩ => h i hi r hr⟩

theorem always_bind (P : β → Prop) (p : Prog α) (f : α → Prog β) :
    Always P (p >>= f) ↔ Always (fun a => Always P (f a)) p := by
  induction p with
  | done r => cases r <;> simp
  | pick n k ih => simp [ih]

theorem always_map (P : β → Prop) (p : Prog α) (f : α → β) :
    Always P (f <$> p) ↔ Always (fun a => P (f a)) p := by
  rw [← bind_pure_comp, always_bind]; simp

theorem Always.mono {P Q : α → Prop} {p : Prog α} (h : Always P p) (hPQ : ∀ a, P a → Q a) : Always Q p := by
  intro r hr; obtain ⟨a, ha, hP⟩ := h r hr; exact ⟨a, ha, hPQ a hP⟩

/-- Strengthen the postcondition by what is known about reachable results. -/
theorem Always.mono' {P Q : α → Prop} {p : Prog α} (h : Always P p)
    (hPQ : ∀ a, p.yields (.ok a) → P a → Q a) : Always Q p := by
  intro r hr; obtain ⟨a, ha, hP⟩ := h r hr; subst ha; exact ⟨a, rfl, hPQ a hr hP⟩

theorem Always.and {P Q : α → Prop} {p : Prog α} (h : Always P p) (h' : Partially Q p) :
    Always (fun a => P a ∧ Q a) p := by
  intro r hr; obtain ⟨a, ha, hP⟩ := h r hr; subst ha; exact ⟨a, rfl, hP, h' a hr⟩

theorem Always.partially {P : α → Prop} {p : Prog α} (h : Always P p) : Partially P p := by
  intro a ha; obtain ⟨b, hb, hP⟩ := h _ ha; cases hb; exact hP

theorem Always.not_panic {P : α → Prop} {p : Prog α} (h : Always P p) : ¬ p.yields .panic := by
  intro hp; obtain ⟨b, hb, _⟩ := h _ hp; cases hb

theorem Always.not_diverge {P : α → Prop} {p : Prog α} (h : Always P p) : ¬ p.yields .diverge := by
  intro hp; obtain ⟨b, hb, _⟩ := h _ hp; cases hb

theorem Always.exists {P : α → Prop} {p : Prog α} (h : Always P p) : ∃ a, p.yields (.ok a) ∧ P a := by
  obtain ⟨r, hr⟩ := p.exists_yields
  obtain ⟨a, rfl, ha⟩ := h r hr
  exact ⟨a, hr, ha⟩

theorem partially_bind (P : β → Prop) (p : Prog α) (f : α → Prog β) :
    Partially P (p >>= f) ↔ Partially (fun a => Partially P (f a)) p := by
  simp only [Partially, yields_bind_ok]
  exact ⟨fun h a ha b hb => h b ⟨a, ha, hb⟩, fun h b ⟨a, ha, hb⟩ => h a ha b hb⟩

@[simp] theorem partially_pure (P : α → Prop) (a : α) : Partially P (pure a : Prog α) ↔ P a := by
  simp [Partially]

@[simp] theorem partially_panic (P : α → Prop) : Partially P (done .panic) := by
  simp [Partially]

@[simp] theorem partially_pick (P : α → Prop) (n : Nat) (k : Nat → Prog α) :
    Partially P (pick n k) ↔ ∀ i, i ≤ n → Partially P (k i) := by
  simp only [Partially, yields_pick]
  exact ⟨fun h i hi r hr => h r ⟨i, hi, hr⟩, fun h r ⟨i, hi, hr⟩ => h i hi r hr⟩

/-! ### Expectation and probability -/

@[simp] theorem expect_done (r : Res α) (g : Res α → ℚ) : (done r).expect g = g r := rfl
@[simp] theorem expect_pure (a : α) (g : Res α → ℚ) : (pure a : Prog α).expect g = g (.ok a) := rfl
theorem expect_pick (n : Nat) (k : Nat → Prog α) (g : Res α → ℚ) :
    (pick n k).expect g = (∑ i ∈ Finset.range (n + 1), (k i).expect g) / (n + 1) := rfl

theorem expect_bind (p : Prog α) (f : α → Prog β) (g : Res β → ℚ) :
    (p >>= f).expect g = p.expect fun r => match r with
      | .ok a => (f a).expect g
      | .panic => g .panic
      | .diverge => g .diverge := by
  induction p with
  | done r => cases r <;> rfl
  | pick n k ih => simp only [bind_pick, expect_pick, ih]

theorem expect_congr (p : Prog α) (g g' : Res α → ℚ) (h : ∀ r, p.yields r → g r = g' r) :
    p.expect g = p.expect g' := by
  induction p with
  | done r => exact h r rfl
  | pick n k ih =>
    simp only [expect_pick]
    congr 1
    refine Finset.sum_congr rfl fun i hi => ?_
    have hi' : i ≤ n := by simpa [Nat.lt_succ_iff] using hi
    exact ih i fun r hr => h r ⟨i, hi', hr⟩

theorem expect_const (p : Prog α) (c : ℚ) : p.expect (fun _ => c) = c := by
  induction p with
  | done r => rfl
  | pick n k ih =>
    simp only [expect_pick, ih, Finset.sum_const, Finset.card_range, nsmul_eq_mul]
    have : ((n : ℚ) + 1) ≠ 0 := by positivity
    push_cast
    field_simp

theorem expect_add (p : Prog α) (g g' : Res α → ℚ) :
    p.expect (fun r => g r + g' r) = p.expect g + p.expect g' := by
  induction p with
  | done r => rfl
  | pick n k ih => simp only [expect_pick, ih, Finset.sum_add_distrib, add_div]

theorem expect_mul_left (p : Prog α) (c : ℚ) (g : Res α → ℚ) :
    p.expect (fun r => c * g r) = c * p.expect g := by
  induction p with
  | done r => rfl
  | pick n k ih => simp only [expect_pick, ih, ← Finset.mul_sum, mul_div_assoc]

theorem expect_mono (p : Prog α) (g g' : Res α → ℚ) (h : ∀ r, p.yields r → g r ≤ g' r) :
    p.expect g ≤ p.expect g' := by
  induction p with
  | done r => exact h r rfl
  | pick n k ih =>
    simp only [expect_pick]
    gcongr with i hi
    have hi' : i ≤ n := by simpa [Nat.lt_succ_iff] using hi
    exact ih i fun r hr => h r ⟨i, hi', hr⟩

theorem prob_nonneg (p : Prog α) (P : α → Prop) [DecidablePred P] : 0 ≤ p.prob P := by
  have := expect_mono p (fun _ => 0) (fun r => match r with
    | .ok a => if P a then 1 else 0
    | _ => 0) (by intro r _; rcases r with a | _ | _ <;> simp; split <;> simp)
  rw [expect_const] at this
  exact this

theorem prob_eq_one_of_always (p : Prog α) (P : α → Prop) [DecidablePred P] (h : Always P p) :
    p.prob P = 1 := by
  unfold prob
  rw [expect_congr p _ (fun _ => 1), expect_const]
  intro r hr; obtain ⟨a, rfl, ha⟩ := h r hr; simp [ha]

theorem prob_eq_zero (p : Prog α) (P : α → Prop) [DecidablePred P] (h : ∀ a, p.yields (.ok a) → ¬ P a) :
    p.prob P = 0 := by
  unfold prob
  rw [expect_congr p _ (fun _ => 0), expect_const]
  intro r hr
  rcases r with a | _ | _ <;> simp
  exact h a hr

/-! ### Primitives of `rand` -/

/-- `rng.gen_range(0..n)`; panics on an empty range (rand 0.8 `gen_range` asserts a non-empty range). -/
def uniform (n : Nat) : Prog Nat :=
  if n = 0 then done .panic else pick (n - 1) pure

/-- `rng.gen_range(lo..hi)`. -/
def rangeExcl (lo hi : Nat) : Prog Nat :=
  if lo < hi then pick (hi - lo - 1) (fun i => pure (lo + i)) else done .panic

/-- `rng.gen_range(lo..=hi)`. -/
def rangeIncl (lo hi : Nat) : Prog Nat :=
  if lo ≤ hi then pick (hi - lo) (fun i => pure (lo + i)) else done .panic

theorem uniform_pos {n : Nat} (h : 0 < n) : uniform n = pick (n - 1) pure := by
  unfold uniform; rw [if_neg (by omega)]

theorem yields_uniform (n : Nat) (r : Res Nat) :
    (uniform n).yields r ↔ (n = 0 ∧ r = .panic) ∨ ∃ i, i < n ∧ r = .ok i := by
  unfold uniform
  split
  · rename_i h; subst h; simp
  · rename_i h
    simp only [yields_pick, yields_pure, h, false_and, false_or]
    exact exists_congr fun i => and_congr_left fun _ => by omega

theorem always_uniform (P : Nat → Prop) (n : Nat) : Always P (uniform n) ↔ 0 < n ∧ ∀ i, i < n → P i := by
  unfold uniform
  split
  · rename_i h; simp [h]
  · rename_i h
    simp only [always_pick, always_pure]
    constructor
    · intro H; exact ⟨by omega, fun i hi => H i (by omega)⟩
    · intro H i hi; exact H.2 i (by omega)

theorem always_rangeExcl (P : Nat → Prop) (lo hi : Nat) :
    Always P (rangeExcl lo hi) ↔ lo < hi ∧ ∀ i, lo ≤ i → i < hi → P i := by
  unfold rangeExcl
  split
  · rename_i h
    simp only [always_pick, always_pure]
    constructor
    · intro H
      refine ⟨h, fun i h1 h2 => ?_⟩
      have := H (i - lo) (by omega)
      rwa [Nat.add_sub_cancel' h1] at this
    · intro H i hi; exact H.2 _ (by omega) (by omega)
  · rename_i h; simp [h]

theorem always_rangeIncl (P : Nat → Prop) (lo hi : Nat) :
    Always P (rangeIncl lo hi) ↔ lo ≤ hi ∧ ∀ i, lo ≤ i → i ≤ hi → P i := by
  unfold rangeIncl
  split
  · rename_i h
    simp only [always_pick, always_pure]
    constructor
    · intro H
      refine ⟨h, fun i h1 h2 => ?_⟩
      have := H (i - lo) (by omega)
      rwa [Nat.add_sub_cancel' h1] at this
    · intro H i hi; exact H.2 _ (by omega) (by omega)
  · rename_i h; simp; intro h'; omega

theorem yields_rangeIncl (lo hi : Nat) (r : Res Nat) :
    (rangeIncl lo hi).yields r ↔ (hi < lo ∧ r = .panic) ∨ ∃ i, lo ≤ i ∧ i ≤ hi ∧ r = .ok i := by
  unfold rangeIncl
  split
  · rename_i h
    simp only [yields_pick, yields_pure]
    constructor
    · rintro ⟨i, hi', rfl⟩; exact Or.inr ⟨lo + i, by omega, by omega, rfl⟩
    · rintro (h' | ⟨i, h1, h2, rfl⟩)
      · omega
      · exact ⟨i - lo, by omega, by rw [Nat.add_sub_cancel' h1]⟩
  · rename_i h
    simp only [yields_done]
    constructor
    · rintro rfl; exact Or.inl ⟨by omega, rfl⟩
    · rintro (h' | ⟨i, h1, h2, rfl⟩)
      · exact h'.2
      · omega

theorem yields_rangeExcl (lo hi : Nat) (r : Res Nat) :
    (rangeExcl lo hi).yields r ↔ (hi ≤ lo ∧ r = .panic) ∨ ∃ i, lo ≤ i ∧ i < hi ∧ r = .ok i := by
  unfold rangeExcl
  split
  · rename_i h
    simp only [yields_pick, yields_pure]
    constructor
    · rintro ⟨i, hi', rfl⟩; exact Or.inr ⟨lo + i, by omega, by omega, rfl⟩
    · rintro (h' | ⟨i, h1, h2, rfl⟩)
      · omega
      · exact ⟨i - lo, by omega, by rw [Nat.add_sub_cancel' h1]⟩
  · rename_i h
    simp only [yields_done]
    constructor
    · rintro rfl; exact Or.inl ⟨by omega, rfl⟩
    · rintro (h' | ⟨i, h1, h2, rfl⟩)
      · exact h'.2
      · omega

theorem expect_uniform (n : Nat) (h : 0 < n) (g : Res Nat → ℚ) :
    (uniform n).expect g = (∑ i ∈ Finset.range n, g (.ok i)) / n := by
  rw [uniform_pos h, expect_pick]
  have : n - 1 + 1 = n := by omega
  rw [this]
  congr 1
  have h1 : ((n - 1 : Nat) : ℚ) + 1 = ((n - 1 + 1 : Nat) : ℚ) := by push_cast; ring
  rw [h1, this]

/-- Run `p` `n` times, independently, collecting the results in order. Models the parallel
`repeatn(_, n).map_init(..)` collected by `par_extend` (rayon keeps the order of an indexed iterator). -/
def replicate (n : Nat) (p : Prog α) : Prog (List α) :=
  match n with
  | 0 => pure []
  | n + 1 => do
    let a ← p
    let as ← replicate n p
    pure (a :: as)

theorem always_replicate (P : α → Prop) (p : Prog α) (h : Always P p) (n : Nat) :
    Always (fun l => l.length = n ∧ ∀ a ∈ l, P a) (replicate n p) := by
  induction n with
  | zero => simp [replicate]
  | succ n ih =>
    unfold replicate
    rw [always_bind]
    refine h.mono fun a ha => ?_
    rw [always_bind]
    refine ih.mono fun as has => ?_
    simp [has.1, ha]
    exact has.2

theorem yields_replicate (p : Prog α) (n : Nat) (l : List α) :
    (replicate n p).yields (.ok l) ↔ l.length = n ∧ ∀ a ∈ l, p.yields (.ok a) := by
  induction n generalizing l with
  | zero => cases l <;> simp [replicate]
  | succ n ih =>
    unfold replicate
    simp only [yields_bind_ok, yields_pure, Res.ok.injEq]
    constructor
    · rintro ⟨a, ha, as, has, rfl⟩
      have := (ih as).1 has
      simp [this.1, ha]; exact this.2
    · rintro ⟨h1, h2⟩
      cases l with
      | nil => simp at h1
      | cons a as =>
        refine ⟨a, h2 a (by simp), as, (ih as).2 ⟨by simpa using h1, fun b hb => h2 b (by simp [hb])⟩, rfl⟩

/-! ### Execution with a concrete random number generator

`exec` runs a program with a deterministic generator that answers "a number in `0..=n`" queries. It connects "for
every path" with "for every RNG": whatever generator is used, the outcome is one of `yields`. -/

def exec {σ : Type} (draw : σ → Nat → Nat × σ) : Prog α → σ → Res α × σ
  | done r, s => (r, s)
  | pick n k, s => let (i, s') := draw s n; (k i).exec draw s'

theorem exec_yields {σ : Type} (draw : σ → Nat → Nat × σ) (hd : ∀ s n, (draw s n).1 ≤ n)
    (p : Prog α) (s : σ) : p.yields (p.exec draw s).1 := by
  induction p generalizing s with
  | done r => rfl
  | pick n k ih => exact ⟨(draw s n).1, hd s n, ih _ _⟩

/-- Conversely every outcome is produced by some generator (one that replays a list of answers). -/
theorem yields_exec (p : Prog α) (r : Res α) (h : p.yields r) :
    ∃ answers : List Nat, (p.exec (fun (s : List Nat) n => (min (s.headD 0) n, s.tail)) answers).1 = r := by
  induction p with
  | done r' => exact ⟨[], h.symm⟩
  | pick n k ih =>
    obtain ⟨i, hi, hr⟩ := h
    obtain ⟨ans, hans⟩ := ih i hr
    refine ⟨i :: ans, ?_⟩
    simp only [exec, List.headD_cons, List.tail_cons, Nat.min_eq_left hi]
    exact hans

end Prog
end RG
