import Verif.Parallel

/-! Helper lemmas about parallel tasks. -/

namespace RG
namespace Prog
variable {α β : Type}

theorem expect_finset_sum {ι : Type} (p : Prog α) (s : Finset ι) (f : ι → Res α → ℚ) :
    p.expect (fun r => ∑ i ∈ s, f i r) = ∑ i ∈ s, p.expect (f i) := by
  classical
  induction s using Finset.induction_on with
  | empty => simp [expect_const]
  | insert a s ha ih =>
    simp only [Finset.sum_insert ha]
    rw [expect_add, ih]

/-- The value of `g` at a normal outcome, and 0 otherwise. -/
def onOk (g : α → ℚ) : Res α → ℚ
  | .ok a => g a
  | _ => 0

/-- Expected value over the normal outcomes of all tasks. -/
def mass : List (Prog α) → (List α → ℚ) → ℚ
  | [], g => g []
  | p :: ps, g => p.expect (onOk fun a => mass ps fun as => g (a :: as))

theorem mass_draw (before : List (Prog α)) (n : Nat) (k : Nat → Prog α) (after : List (Prog α)) (g : List α → ℚ) :
    mass (before ++ pick n k :: after) g = (∑ i ∈ Finset.range (n + 1), mass (before ++ k i :: after) g) / (n + 1) := by
  induction before generalizing g with
  | nil => exact expect_pick _ _ _
  | cons p ps ih =>
    simp only [List.cons_append, mass]
    rw [← expect_finset_sum, div_eq_inv_mul, ← expect_mul_left]
    refine expect_congr _ _ _ fun r _ => ?_
    cases r with
    | ok a => simp only [onOk]; rw [ih, div_eq_inv_mul]
    | panic => simp [onOk]
    | diverge => simp [onOk]

theorem mass_finished (as : List α) (g : List α → ℚ) : mass (as.map fun a => done (.ok a)) g = g as := by
  induction as generalizing g with
  | nil => rfl
  | cons a as ih => exact ih _

theorem mass_failed (tasks : List (Prog α)) (r : Res α) (hr : r = .panic ∨ r = .diverge) (h : done r ∈ tasks) (g : List α → ℚ) :
    mass tasks g = 0 := by
  induction tasks generalizing g with
  | nil => cases h
  | cons p ps ih =>
    rcases List.mem_cons.1 h with rfl | h
    · rcases hr with rfl | rfl <;> rfl
    · rw [mass, expect_congr _ _ (fun _ => 0), expect_const]
      intro r _
      cases r <;> simp [onOk, ih h]

theorem Runs.mass {tasks : List (Prog α)} {q : Prog (List α)} (h : Runs tasks q) (g : List α → ℚ) :
    q.expect (onOk g) = Prog.mass tasks g := by
  induction h with
  | finished as => rw [mass_finished]; rfl
  | failed tasks r r' mem fails =>
    rw [mass_failed tasks r (by rcases fails with h | h <;> simp [h.1]) mem]
    rcases fails with ⟨-, rfl⟩ | ⟨-, rfl⟩ <;> rfl
  | draw before n k after q next ih =>
    rw [mass_draw, expect_pick]
    congr 1
    refine Finset.sum_congr rfl fun i hi => ih i ?_
    have := Finset.mem_range.1 hi; omega

theorem mass_inOrder (tasks : List (Prog α)) (g : List α → ℚ) : (inOrder tasks).expect (onOk g) = mass tasks g := by
  induction tasks generalizing g with
  | nil => rfl
  | cons p ps ih =>
    unfold inOrder
    rw [expect_bind, mass]
    refine expect_congr _ _ _ fun r _ => ?_
    cases r with
    | ok a =>
      simp only [onOk]
      rw [expect_bind, ← ih]
      refine expect_congr _ _ _ fun r _ => ?_
      cases r <;> rfl
    | panic => rfl
    | diverge => rfl

theorem yields_inOrder (tasks : List (Prog α)) (as : List α) :
    (inOrder tasks).yields (.ok as) ↔ List.Forall₂ (fun (p : Prog α) a => p.yields (.ok a)) tasks as := by
  induction tasks generalizing as with
  | nil => cases as <;> simp [inOrder]
  | cons p ps ih =>
    simp only [inOrder, yields_bind_ok, yields_pure, Res.ok.injEq, ih]
    constructor
    · rintro ⟨a, ha, as, has, rfl⟩; exact List.Forall₂.cons ha has
    · intro h
      cases h with
      | cons ha has => exact ⟨_, ha, _, has, rfl⟩

theorem forall₂_split {R : α → β → Prop} (l : List α) (x : α) (r : List α) (bs : List β) :
    List.Forall₂ R (l ++ x :: r) bs ↔ ∃ bl b br, bs = bl ++ b :: br ∧ List.Forall₂ R l bl ∧ R x b ∧ List.Forall₂ R r br := by
  constructor
  · intro h
    induction l generalizing bs with
    | nil =>
      cases h with
      | cons h1 h2 => exact ⟨[], _, _, rfl, List.Forall₂.nil, h1, h2⟩
    | cons a l ih =>
      cases h with
      | cons h1 h2 =>
        obtain ⟨bl, b, br, rfl, h3, h4, h5⟩ := ih _ h2
        exact ⟨_ :: bl, b, br, rfl, List.Forall₂.cons h1 h3, h4, h5⟩
  · rintro ⟨bl, b, br, rfl, h3, h4, h5⟩
    induction h3 with
    | nil => exact List.Forall₂.cons h4 h5
    | cons h1 _ ih => exact List.Forall₂.cons h1 ih

theorem Runs.yields {tasks : List (Prog α)} {q : Prog (List α)} (h : Runs tasks q) (as : List α) :
    q.yields (.ok as) ↔ List.Forall₂ (fun (p : Prog α) a => p.yields (.ok a)) tasks as := by
  induction h with
  | finished bs =>
    simp only [yields_done, Res.ok.injEq]
    constructor
    · rintro rfl
      induction as with
      | nil => exact List.Forall₂.nil
      | cons a as ih => exact List.Forall₂.cons rfl ih
    · intro h
      induction bs generalizing as with
      | nil => cases h; rfl
      | cons b bs ih =>
        cases h with
        | cons h1 h2 => rw [yields_done, Res.ok.injEq] at h1; rw [h1, ih _ h2]
  | failed tasks r r' mem fails =>
    constructor
    · intro h; rcases fails with ⟨-, rfl⟩ | ⟨-, rfl⟩ <;> cases h
    · intro h
      obtain ⟨l, t, rfl⟩ := List.append_of_mem mem
      obtain ⟨_, b, _, _, _, hb, _⟩ := (forall₂_split l (done r) t as).1 h
      rcases fails with ⟨rfl, -⟩ | ⟨rfl, -⟩ <;> cases hb
  | draw before n k after q next ih =>
    rw [yields_pick, forall₂_split]
    constructor
    · rintro ⟨i, hi, h⟩
      obtain ⟨bl, b, br, e, h1, h2, h3⟩ := (forall₂_split _ _ _ _).1 ((ih i hi).1 h)
      exact ⟨bl, b, br, e, h1, ⟨i, hi, h2⟩, h3⟩
    · rintro ⟨bl, b, br, e, h1, ⟨i, hi, h2⟩, h3⟩
      exact ⟨i, hi, (ih i hi).2 ((forall₂_split _ _ _ _).2 ⟨bl, b, br, e, h1, h2, h3⟩)⟩

/-- A failure of the whole is a failure of a task. -/
theorem Runs.failure {tasks : List (Prog α)} {q : Prog (List α)} (h : Runs tasks q) :
    (q.yields .panic → ∃ p ∈ tasks, p.yields .panic) ∧ (q.yields .diverge → ∃ p ∈ tasks, p.yields .diverge) := by
  induction h with
  | finished as => exact ⟨fun h => (by cases h), fun h => (by cases h)⟩
  | failed tasks r r' mem fails =>
    rcases fails with ⟨rfl, rfl⟩ | ⟨rfl, rfl⟩
    · exact ⟨fun _ => ⟨_, mem, rfl⟩, fun h => by cases h⟩
    · exact ⟨fun h => (by cases h), fun _ => ⟨_, mem, rfl⟩⟩
  | draw before n k after q next ih =>
    have lift : ∀ (i : Nat) (r : Res α), i ≤ n → (∃ p ∈ before ++ k i :: after, p.yields r) →
        ∃ p ∈ before ++ pick n k :: after, p.yields r := by
      rintro i r hi ⟨p, hp, hr⟩
      simp only [List.mem_append, List.mem_cons] at hp ⊢
      rcases hp with hp | rfl | hp
      · exact ⟨p, Or.inl hp, hr⟩
      · exact ⟨pick n k, Or.inr (Or.inl rfl), i, hi, hr⟩
      · exact ⟨p, Or.inr (Or.inr hp), hr⟩
    constructor
    · rintro ⟨i, hi, h⟩; exact lift i _ hi ((ih i hi).1 h)
    · rintro ⟨i, hi, h⟩; exact lift i _ hi ((ih i hi).2 h)

theorem runs_after (as : List α) (tasks : List (Prog α)) :
    Runs (as.map (fun a => done (.ok a)) ++ tasks) (inOrder tasks >>= fun bs => pure (as ++ bs)) := by
  induction tasks generalizing as with
  | nil =>
    rw [List.append_nil]
    show Runs _ (done (.ok (as ++ [])))
    rw [List.append_nil]
    exact Runs.finished as
  | cons p ps ih =>
    have key : Runs (as.map (fun a => done (.ok a)) ++ p :: ps)
        (p >>= fun a => inOrder ps >>= fun bs => pure (as ++ a :: bs)) := by
      induction p with
      | done r =>
        cases r with
        | ok a =>
          have := ih (as ++ [a])
          simpa using this
        | panic => exact Runs.failed _ .panic _ (by simp) (Or.inl ⟨rfl, rfl⟩)
        | diverge => exact Runs.failed _ .diverge _ (by simp) (Or.inr ⟨rfl, rfl⟩)
      | pick n k ihk => exact Runs.draw _ n k ps _ fun i _ => ihk i
    have e : (inOrder (p :: ps) >>= fun bs => pure (as ++ bs)) =
        (p >>= fun a => inOrder ps >>= fun bs => (pure (as ++ a :: bs) : Prog (List α))) := by
      rw [inOrder]
      simp only [bind_assoc, pure_bind]
    rw [e]
    exact key

theorem inOrder_replicate (n : Nat) (p : Prog α) : inOrder (List.replicate n p) = replicate n p := by
  induction n with
  | zero => rfl
  | succ n ih => rw [List.replicate_succ, inOrder, ih]; rfl

theorem exec_bind {σ : Type} (draw : σ → Nat → Nat × σ) (p : Prog α) (f : α → Prog β) (s : σ) :
    (p >>= f).exec draw s = match p.exec draw s with
      | (.ok a, s') => (f a).exec draw s'
      | (.panic, s') => (.panic, s')
      | (.diverge, s') => (.diverge, s') := by
  induction p generalizing s with
  | done r => cases r <;> rfl
  | pick n k ih => exact ih _ _

theorem exec_replicate_succ {σ : Type} {draw : σ → Nat → Nat × σ} {p : Prog α} {n : Nat} {g g' : σ} {as : List α}
    (h : (replicate (n + 1) p).exec draw g = (.ok as, g')) :
    ∃ a g1 rest, p.exec draw g = (.ok a, g1) ∧ (replicate n p).exec draw g1 = (.ok rest, g') ∧ as = a :: rest := by
  unfold replicate at h
  rw [exec_bind] at h
  rcases hp : p.exec draw g with ⟨r, g1⟩
  rw [hp] at h
  cases r with
  | ok a =>
    simp only at h
    rw [exec_bind] at h
    rcases hq : (replicate n p).exec draw g1 with ⟨r', g2⟩
    rw [hq] at h
    cases r' with
    | ok rest =>
      simp only [exec, pure_def, Prod.mk.injEq, Res.ok.injEq] at h
      exact ⟨a, g1, rest, rfl, by rw [hq, h.2], h.1.symm⟩
    | panic => simp at h
    | diverge => simp at h
  | panic => simp at h
  | diverge => simp at h

theorem exec_replicate_length {σ : Type} {draw : σ → Nat → Nat × σ} {p : Prog α} {n : Nat} {g g' : σ} {as : List α}
    (h : (replicate n p).exec draw g = (.ok as, g')) : as.length = n := by
  induction n generalizing g as with
  | zero =>
    simp only [replicate, exec, pure_def, Prod.mk.injEq, Res.ok.injEq] at h
    rw [← h.1]; rfl
  | succ n ih =>
    obtain ⟨a, g1, rest, -, h2, rfl⟩ := exec_replicate_succ h
    simp [ih h2]

end Prog

namespace Machine
open Prog
variable {σ α : Type} {make : Nat → σ} {draw : σ → Nat → Nat × σ}

theorem steps_append (item : Nat → Prog α) (m : Machine σ α) (es fs : List Event) :
    m.steps make draw item (es ++ fs) = (m.steps make draw item es).bind fun m' => m'.steps make draw item fs := by
  induction es generalizing m with
  | nil => rfl
  | cons e es ih =>
    simp only [List.cons_append, steps]
    cases m.step make draw item e with
    | none => rfl
    | some m' => exact ih m'

/-- Every result is an outcome of the program of the item. -/
theorem result_yields (hd : ∀ s n, (draw s n).1 ≤ n) {item : Nat → Prog α} (events : List Event) {m m' : Machine σ α}
    (hm : ∀ i r, m.result i = some r → (item i).yields r) (h : m.steps make draw item events = some m') :
    ∀ i r, m'.result i = some r → (item i).yields r := by
  induction events generalizing m with
  | nil => cases h; exact hm
  | cons e es ih =>
    simp only [steps] at h
    cases hs : m.step make draw item e with
    | none => rw [hs] at h; cases h
    | some m1 =>
      rw [hs] at h
      refine ih (m := m1) ?_ h
      intro i r hr
      cases e with
      | start j =>
        simp only [step] at hs
        split at hs
        · cases hs
        · cases hs; exact hm i r hr
      | item j i' =>
        simp only [step] at hs
        split at hs
        · cases hs
          simp only [Function.update_apply] at hr
          split at hr
          · rename_i h1 h2 hi
            subst hi
            cases hr
            exact exec_yields draw hd _ _
          · exact hm i r hr
        · cases hs
      | finish j =>
        simp only [step] at hs
        split at hs
        · cases hs; exact hm i r hr
        · cases hs

/-- Results of the first items. -/
def filled (as : List α) : Nat → Option (Res α) := fun i => as[i]?.map Res.ok

theorem filled_append (as : List α) (a : α) : Function.update (filled as) as.length (some (.ok a)) = filled (as ++ [a]) := by
  funext i
  simp only [Function.update_apply, filled]
  split
  · rename_i h; subst h; simp
  · rename_i h
    rcases Nat.lt_or_gt_of_ne h with h | h
    · rw [List.getElem?_append_left h]
    · rw [List.getElem?_eq_none (by omega), List.getElem?_eq_none (by simp; omega)]

/-- The events of the items `i..i+s` in piece `j`. -/
def items (j i s : Nat) : List Event := (List.range' i s).map fun t => .item j t

theorem steps_items (p : Prog α) (j : Nat) (pool : RngPool σ) (s : Nat) (before new : List α) (g g' : σ)
    (h : (replicate s p).exec draw g = (.ok new, g')) :
    steps make draw (fun _ => p) ⟨pool, Function.update (fun _ => none) j (some g), filled before⟩ (items j before.length s) =
      some ⟨pool, Function.update (fun _ => none) j (some g'), filled (before ++ new)⟩ := by
  induction s generalizing before new g with
  | zero =>
    simp only [replicate, exec, pure_def, Prod.mk.injEq, Res.ok.injEq] at h
    obtain ⟨rfl, rfl⟩ := h
    simp [items, steps]
  | succ s ih =>
    obtain ⟨a, g1, rest, h1, h2, rfl⟩ := exec_replicate_succ h
    have hn : filled before before.length = none := by simp [filled]
    have hr : Function.update (fun _ => none) j (some g) j = some g := by simp
    show (step make draw (fun _ => p) ⟨pool, Function.update (fun _ => none) j (some g), filled before⟩
      (.item j before.length)).bind _ = _
    have hs : step make draw (fun _ => p) ⟨pool, Function.update (fun _ => none) j (some g), filled before⟩
        (.item j before.length) = some ⟨pool, Function.update (fun _ => none) j (some g1), filled (before ++ [a])⟩ := by
      simp only [step, hn, hr, h1, filled_append, Function.update_idem]
    rw [hs]
    have := ih (before ++ [a]) rest g1 h2
    rw [List.length_append, List.append_assoc] at this
    exact this

end Machine
end RG
