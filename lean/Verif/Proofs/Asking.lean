import Verif.Asking
import Verif.Proofs.Gain

/-!
# Lemmas about counted calls of `fitness`
-/

namespace RG
open Prog
variable {I : Type} [Individual I] {Mo U : Type} {α β : Type}

namespace Asking

theorem bind_eq (x : Asking α) (f : α → Asking β) :
    (x >>= f).prog = x.prog >>= fun a => (f a.1).prog >>= fun b => pure (b.1, a.2 + b.2) := rfl

theorem pure_eq (a : α) : (pure a : Asking α).prog = pure (a, 0) := rfl

theorem forget_pure (a : α) : (pure a : Asking α).forget = pure a := by
  unfold forget; rw [pure_eq, Prog.bind_pure_left]

theorem forget_bind (x : Asking α) (f : α → Asking β) : (x >>= f).forget = x.forget >>= fun a => (f a).forget := by
  unfold forget
  rw [bind_eq]
  simp only [bind_assoc, Prog.bind_pure_left]

theorem forget_free (p : Prog α) : (free p).forget = p := by
  unfold forget free
  simp only [bind_assoc, Prog.bind_pure_left]
  exact Prog.bind_pure_right p

theorem forget_ask (x : I) : (ask x).forget = pure (fitness x) := by
  unfold forget ask; rw [Prog.bind_pure_left]

theorem forget_ite (c : Prop) [Decidable c] (x y : Asking α) : (if c then x else y).forget = if c then x.forget else y.forget := by
  split <;> rfl

theorem forget_replicate (x : Asking α) (n : Nat) : (x.replicate n).forget = Prog.replicate n x.forget := by
  induction n with
  | zero => exact forget_pure _
  | succ n ih => simp only [replicate, Prog.replicate, forget_bind, ih, forget_pure]

/-- All normal ends of the counted program satisfy `R result calls`. -/
def Holds (R : α → Nat → Prop) (x : Asking α) : Prop := Partially (fun r => R r.1 r.2) x.prog

theorem Holds.mono {R S : α → Nat → Prop} {x : Asking α} (h : Holds R x) (hRS : ∀ a n, R a n → S a n) : Holds S x :=
  fun r hr => hRS _ _ (h r hr)

theorem holds_pure {R : α → Nat → Prop} {a : α} (h : R a 0) : Holds R (pure a) := fun r hr => by
  have hr : (pure (a, 0) : Prog (α × Nat)).yields (.ok r) := hr
  cases hr
  exact h

theorem holds_bind {R : α → Nat → Prop} {S : β → Nat → Prop} {x : Asking α} {f : α → Asking β} (hx : Holds R x)
    (hf : ∀ a m, R a m → Holds (fun b n => S b (m + n)) (f a)) : Holds S (x >>= f) := fun r hr => by
  rw [bind_eq, yields_bind_ok] at hr
  obtain ⟨a, ha, hr⟩ := hr
  obtain ⟨b, hb, hr⟩ := (yields_bind_ok _ _ _).1 hr
  cases hr
  exact hf a.1 a.2 (hx a ha) b hb

theorem holds_free {R : α → Nat → Prop} {p : Prog α} (h : Partially (fun a => R a 0) p) : Holds R (free p) := fun r hr => by
  obtain ⟨a, ha, hr⟩ := (yields_bind_ok _ _ _).1 hr
  cases hr
  exact h a ha

theorem holds_ask {R : F64 → Nat → Prop} {x : I} (h : R (fitness x) 1) : Holds R (ask x) := fun r hr => by
  have hr : (pure (fitness x, 1) : Prog (F64 × Nat)).yields (.ok r) := hr
  cases hr
  exact h

theorem holds_replicate {x : Asking α} {lo hi : Nat} (h : Holds (fun _ n => lo ≤ n ∧ n ≤ hi) x) (k : Nat) :
    Holds (fun _ n => k * lo ≤ n ∧ n ≤ k * hi) (x.replicate k) := by
  induction k with
  | zero => exact holds_pure (by simp)
  | succ k ih =>
    refine holds_bind h fun a m hm => holds_bind ih fun as n hn => holds_pure ?_
    simp only [Nat.add_mul, one_mul]
    omega

/-- A counted program is total if the program is. -/
theorem always_prog {x : Asking α} (h : Always (fun _ => True) x.forget) : Always (fun _ => True) x.prog := by
  unfold forget at h
  rw [always_bind] at h
  exact h.mono fun _ _ => trivial

theorem mean_eq (x : Asking α) : x.mean = x.prog.average fun a => (a.2 : ℚ) :=
  expect_congr _ _ _ fun r _ => by cases r <;> rfl

/-- The expected number of calls is at least that of the first part. -/
theorem mean_first {x : Asking α} {f : α → Asking β} (hf : ∀ a m, x.prog.yields (.ok (a, m)) → Always (fun _ => True) (f a).forget) :
    x.mean ≤ (x >>= f).mean := by
  rw [mean_eq, mean_eq, bind_eq, average_bind]
  refine average_mono _ fun a ha => ?_
  rw [average_bind]
  refine le_average ?_
  refine (always_prog (hf a.1 a.2 ha)).mono fun b _ => ?_
  rw [average_pure]
  push_cast
  have : (0 : ℚ) ≤ b.2 := Nat.cast_nonneg _
  linarith

/-- The expected number of calls of two total parts. -/
theorem mean_bind {x : Asking α} {f : α → Asking β} (hf : ∀ a m, x.prog.yields (.ok (a, m)) → Always (fun _ => True) (f a).forget) :
    (x >>= f).mean = x.mean + x.prog.average fun a => (f a.1).mean := by
  rw [mean_eq, mean_eq, bind_eq, average_bind, ← average_add]
  refine average_congr _ fun a ha => ?_
  rw [average_bind, mean_eq]
  simp only [average_pure, Nat.cast_add]
  rw [average_add, average_const (always_prog (hf a.1 a.2 ha))]

theorem mean_replicate {x : Asking α} (h : Always (fun _ => True) x.forget) (k : Nat) : (x.replicate k).mean = k * x.mean := by
  have hrep : ∀ k, Always (fun _ => True) (x.replicate k).forget := fun k => by
    rw [forget_replicate]; exact (average_replicate h (fun _ => True) k).1
  induction k with
  | zero =>
    rw [mean_eq]
    show (pure ([], 0) : Prog (List α × Nat)).average _ = _
    rw [average_pure]; simp
  | succ k ih =>
    have e : ∀ a, (x.replicate k >>= fun as => (pure (a :: as) : Asking (List α))).mean = (x.replicate k).mean := fun a => by
      rw [mean_bind fun _ _ _ => by rw [forget_pure]; exact (always_pure _ _).2 trivial]
      have : (x.replicate k).prog.average (fun b => (pure (a :: b.1) : Asking (List α)).mean) = 0 := by
        refine (average_congr _ (g := fun _ => 0) fun b _ => ?_).trans (average_const (always_prog (hrep k)) 0)
        rw [mean_eq, pure_eq, average_pure]; simp
      rw [this, add_zero]
    show (x >>= fun a => x.replicate k >>= fun as => pure (a :: as)).mean = _
    rw [mean_bind fun a m _ => by
      rw [forget_bind, always_bind]
      exact (hrep k).mono fun _ _ => by rw [forget_pure]; exact (always_pure _ _).2 trivial]
    simp only [e]
    rw [average_const (always_prog h), ih]
    push_cast
    ring

end Asking

open Asking

/-! ### The functions without the counter -/

theorem forget_askAll (l : List I) : (askAll l).forget = pure (l.map fitness) := by
  induction l with
  | nil => exact forget_pure _
  | cons x xs ih => simp only [askAll, forget_bind, forget_ask, ih, Prog.bind_pure_left, forget_pure, List.map_cons]

theorem holds_askAll (l : List I) : Holds (fun _ n => n = l.length) (askAll l) := by
  induction l with
  | nil => exact holds_pure rfl
  | cons x xs ih =>
    refine holds_bind (holds_ask (R := fun _ m => m = 1) rfl) fun f m hm => holds_bind ih fun fs n hn => holds_pure ?_
    simp [hm, hn]; omega

theorem forget_askWheel (weight : F64 → F64) (target c : F64) (i : Nat) (l : List I) :
    (askWheel weight target c i l).forget = pure (wheelScan target c i (l.map fun x => weight (fitness x))) := by
  induction l generalizing c i with
  | nil => exact forget_pure _
  | cons x xs ih =>
    simp only [askWheel, forget_bind, forget_ask, Prog.bind_pure_left, List.map_cons, wheelScan, forget_ite, forget_pure, ih]
    show _ = pure (if target.le (c.add (weight (fitness x))) = true then _ else _)
    split <;> rfl

theorem holds_askWheel (weight : F64 → F64) (target c : F64) (i : Nat) (l : List I) :
    Holds (fun r n => (∀ j, r = some j → n = j + 1 - i ∧ i ≤ j ∧ j < i + l.length) ∧ (r = none → n = l.length))
      (askWheel weight target c i l) := by
  induction l generalizing c i with
  | nil => exact holds_pure ⟨fun j h => (by cases h), fun _ => rfl⟩
  | cons x xs ih =>
    refine holds_bind (holds_ask (R := fun _ m => m = 1) rfl) fun f m hm => ?_
    show Holds _ (if target.le (c.add (weight f)) then pure (some i) else askWheel weight target (c.add (weight f)) (i + 1) xs)
    split
    · refine holds_pure ⟨fun j h => ?_, fun h => (by cases h)⟩
      cases h
      simp [hm]
    · refine (ih _ _).mono fun r n hn => ⟨fun j h => ?_, fun h => ?_⟩
      · have := hn.1 j h
        simp only [List.length_cons]
        omega
      · have := hn.2 h
        simp only [List.length_cons]
        omega

theorem forget_askWheelSelect (weight : F64 → F64) (total : F64) (p : Population I) :
    (askWheelSelect weight total p).forget = (genF64 >>= fun u =>
      Prog.lift (wheelIndex (p.individuals.map fun x => weight (fitness x)) total u) >>= fun i => Prog.lift (memberAt p i)) := by
  simp only [askWheelSelect, forget_bind, forget_free, forget_askWheel, Prog.bind_pure_left]
  congr 1; funext u
  have e : wheelIndex (p.individuals.map fun x => weight (fitness x)) total u =
      match wheelScan (u.mul total) F64.zero 0 (p.individuals.map fun x => weight (fitness x)) with
      | some i => .ok i
      | none => usizeSub (p.individuals.map fun x => weight (fitness x)).length 1 := by
    rw [← F64.lit_zero]; rfl
  rw [e]
  cases h : wheelScan (u.mul total) F64.zero 0 (p.individuals.map fun x => weight (fitness x)) with
  | some i => exact forget_free _
  | none =>
    simp only [forget_free, List.length_map, Population.len]
    cases usizeSub p.individuals.length 1 <;> rfl

theorem holds_askWheelSelect (weight : F64 → F64) (total : F64) (p : Population I) :
    Holds (fun r n => (n = r.1 + 1 ∧ n ≤ p.individuals.length) ∧ p.individuals[r.1]? = some r.2) (askWheelSelect weight total p) := by
  refine holds_bind (holds_free (R := fun _ m => m = 0) fun _ _ => rfl) fun u m hm => ?_
  refine holds_bind (holds_askWheel weight (u.mul total) F64.zero 0 p.individuals) fun r n hn => ?_
  subst hm
  have hmem : ∀ i (x : Nat × I), (Prog.lift (memberAt p i)).yields (.ok x) → x.1 = i ∧ p.individuals[x.1]? = some x.2 := fun i x hx => by
    have hx : .ok x = memberAt p i := hx
    obtain ⟨h1, h2⟩ := memberAt_eq_ok hx.symm
    exact ⟨h1, h1 ▸ h2⟩
  cases r with
  | some i =>
    refine holds_free fun x hx => ?_
    have := hn.1 i rfl
    have := hmem i x hx
    exact ⟨by omega, this.2⟩
  | none =>
    refine holds_free fun x hx => ?_
    have h2 := hn.2 rfl
    have hx : (Prog.lift (usizeSub p.individuals.length 1 >>= fun k => memberAt p k)).yields (.ok x) := hx
    by_cases h1 : 1 ≤ p.individuals.length
    · have e : usizeSub p.individuals.length 1 = .ok (p.individuals.length - 1) := by unfold usizeSub; rw [if_pos h1]
      rw [e] at hx
      have := hmem _ x hx
      exact ⟨by omega, this.2⟩
    · have e : usizeSub p.individuals.length 1 = .panic := by unfold usizeSub; rw [if_neg h1]
      rw [e] at hx
      cases hx

theorem forget_askSelect (env : NumEnv) (p : Population I) (s : Selector) : (s.askSelect env p).forget = s.select env p := by
  cases s with
  | rouletteWheel s => exact forget_askWheelSelect _ _ _
  | boltzmann s =>
    refine (forget_askWheelSelect _ _ _).trans ?_
    simp only [Selector.select, BoltzmannSelection.select, BoltzmannSelection.selectIndex, List.map_map]
    rfl
  | _ => exact forget_free _

theorem forget_askPrepare (env : NumEnv) (p : Population I) (s : Selector) : (s.askPrepare env p).forget = pure (s.prepare env p) := by
  cases s with
  | rouletteWheel s => simp only [Selector.askPrepare, forget_bind, forget_askAll, Prog.bind_pure_left, forget_pure]; rfl
  | boltzmann s =>
    simp only [Selector.askPrepare, forget_bind, forget_askAll, Prog.bind_pure_left, forget_pure]
    rfl
  | _ => exact forget_pure _

theorem forget_askDistinct (select : Asking (Nat × I)) (ex : I) (k : Nat) :
    (askDistinct select ex k).forget = selectDistinct select.forget ex k := by
  induction k with
  | zero => exact forget_pure _
  | succ k ih =>
    simp only [askDistinct, forget_bind, forget_ite, forget_pure, ih]
    rfl

theorem forget_askParents (M : EvoOps I Mo U) (env : NumEnv) (p : Population I) (s : Selector) (cr mr : F64) :
    (askParents env p s cr).forget = breedParents M env p ⟨cr, mr, .builtin s⟩ := by
  simp only [askParents, forget_bind, forget_free, forget_askSelect, forget_ite, forget_askDistinct, forget_pure]
  unfold breedParents
  congr 1; funext x; congr 1; funext c
  cases c <;> simp only [if_true, Bool.false_eq_true, if_false, bind_assoc, Prog.bind_pure_left]
  rfl

theorem forget_askStart (M : EvoOps I Mo U) (model : Mo) (ps : I × Option I) :
    (askStart M model ps).forget = breedStart M model ps.1 ps.2 >>= fun o => pure (fitterParent ps.1 ps.2, o) := by
  obtain ⟨p1, _ | p2⟩ := ps
  · show (pure (p1, p1) : Asking (I × I)).forget = _
    rw [forget_pure]; rfl
  · simp only [askStart, forget_bind, forget_ask, forget_free, forget_pure, Prog.bind_pure_left]
    rfl

theorem forget_askSurvive [DefaultValid I] (o f : I) :
    (askSurvive o f).forget = ((if isValid o then pure ((fitness f).le (fitness o)) else pure false) >>= fun survives =>
      (pure (if survives then o else f) : Prog I)) := by
  simp only [askSurvive, forget_bind, forget_ask, forget_ite, forget_pure, Prog.bind_pure_left, DefaultValid.isValid_eq]
  split <;> rfl

theorem forget_askBreed [DefaultValid I] {M : EvoOps I Mo U}
    (hcs : M.canSurvive = fun _ offspring parent _ => pure ((fitness parent).le (fitness offspring)))
    (env : NumEnv) (model : Mo) (p : Population I) (s : Selector) (cr mr : F64) :
    (askBreed M env model p s cr mr).forget = defaultBreed M env model p ⟨cr, mr, .builtin s⟩ := by
  rw [defaultBreed_eq]
  simp only [askBreed, forget_bind, forget_askParents M env p s cr mr, forget_askStart, forget_free, forget_askSurvive, bind_assoc,
    Prog.bind_pure_left, breedMutate, breedEnd, hcs]
  congr 1; funext ps; congr 1; funext o; congr 1; funext u
  split <;> simp only [bind_assoc, Prog.bind_pure_left]

theorem forget_askGenerate [DefaultValid I] {M : EvoModel I Mo U}
    (hcs : M.canSurvive = fun _ offspring parent _ => pure ((fitness parent).le (fitness offspring)))
    (hb : M.breed = defaultBreed M.toEvoOps) (env : NumEnv) (model : Mo) (s : Selector) (cr mr : F64) (size : Nat) (p : Population I)
    (offspring : List I) :
    (askGenerate M.toEvoOps env model s cr mr size p offspring).forget =
      defaultGenerate M env model (⟨cr, mr, .builtin s⟩, size) p offspring := by
  unfold askGenerate defaultGenerate
  simp only [hb]
  rcases size - offspring.length with _ | _ | k
  · exact forget_pure _
  · show (askBreed M.toEvoOps env model p s cr mr >>= fun _ => pure offspring).forget = _
    simp only [forget_bind, forget_askBreed hcs, forget_pure]
  · show ((askBreed M.toEvoOps env model p s cr mr).replicate (k + 2) >>= fun new => pure (offspring ++ new)).forget = _
    simp only [forget_bind, forget_replicate, forget_askBreed hcs, forget_pure]

theorem forget_askCollect (sort : List I → List I) (l : List I) : (askCollect sort l).forget = Prog.lift (sortDedupCollect sort l) := by
  simp only [askCollect, forget_bind, forget_askAll, Prog.bind_pure_left, forget_free, forget_pure, sortDedupCollect]
  cases Res.ofOption (PopulatedStats.tryFrom (Stats.collect ((dedup (sort l)).map fitness))) <;> rfl

/-! ### Bounds -/

theorem holds_askDistinct {select : Asking (Nat × I)} {lo hi : Nat} (h : Holds (fun _ n => lo ≤ n ∧ n ≤ hi) select) (ex : I) (k : Nat) :
    Holds (fun _ n => (0 < k → lo ≤ n) ∧ n ≤ k * hi) (askDistinct select ex k) := by
  induction k with
  | zero => exact holds_pure (by simp)
  | succ k ih =>
    refine holds_bind h fun r m hm => ?_
    show Holds _ (if Individual.eq r.2 ex = false then pure (some (r.1, r.2)) else askDistinct select ex k)
    split
    · refine holds_pure ⟨fun _ => by omega, ?_⟩
      rw [Nat.add_mul]; omega
    · refine ih.mono fun r n hn => ⟨fun _ => by omega, ?_⟩
      rw [Nat.add_mul]; omega

/-- `select_distinct` with a wheel: at most `n` calls for every try, and `index + 1` for a successful one. -/
theorem holds_askDistinct_wheel {select : Asking (Nat × I)} {p : Population I}
    (h : Holds (fun r n => (n = r.1 + 1 ∧ n ≤ p.individuals.length) ∧ p.individuals[r.1]? = some r.2) select) (ex : I) (k : Nat) :
    Holds (fun o n => n ≤ k * p.individuals.length ∧ ∀ c, o = some c → n + p.individuals.length ≤ k * p.individuals.length + c.1 + 1 ∧
      Individual.eq c.2 ex = false ∧ p.individuals[c.1]? = some c.2) (askDistinct select ex k) := by
  induction k with
  | zero => exact holds_pure ⟨by simp, fun c h => by cases h⟩
  | succ k ih =>
    refine holds_bind h fun r m hm => ?_
    show Holds _ (if Individual.eq r.2 ex = false then pure (some (r.1, r.2)) else askDistinct select ex k)
    split
    · rename_i he
      refine holds_pure ⟨?_, fun c hc => ?_⟩
      · rw [Nat.add_mul]; omega
      · cases hc
        refine ⟨?_, he, hm.2⟩
        rw [Nat.add_mul]; omega
    · refine ih.mono fun o n hn => ⟨?_, fun c hc => ⟨?_, (hn.2 c hc).2⟩⟩
      · rw [Nat.add_mul]; omega
      · have := (hn.2 c hc).1
        rw [Nat.add_mul]; omega

/-- The parents with a wheel: less than `4 n` calls if there are two. -/
theorem holds_askParents_wheel (hrefl : ∀ x : I, Individual.eq x x = true) {env : NumEnv} {p : Population I} {s : Selector}
    (h : Holds (fun r n => (n = r.1 + 1 ∧ n ≤ p.individuals.length) ∧ p.individuals[r.1]? = some r.2) (s.askSelect env p)) (cr : F64) :
    Holds (fun ps n => 1 ≤ n ∧ n ≤ 4 * p.individuals.length ∧ (ps.2.isSome = true → n < 4 * p.individuals.length)) (askParents env p s cr) := by
  refine holds_bind h fun r m hm => holds_bind (holds_free (R := fun _ m => m = 0) fun _ _ => rfl) fun c k hk => ?_
  subst hk
  cases c with
  | true =>
    refine holds_bind (holds_askDistinct_wheel h r.2 3) fun q n hn =>
      holds_bind (R := fun o n => o = q.map Prod.snd ∧ n = 0) (holds_pure ⟨rfl, rfl⟩) fun p2 k hk => holds_pure ?_
    obtain ⟨rfl, rfl⟩ := hk
    refine ⟨by omega, by omega, fun hs => ?_⟩
    obtain ⟨c, rfl⟩ : ∃ c, q = some c := by cases q with
      | none => cases hs
      | some c => exact ⟨c, rfl⟩
    obtain ⟨h1, h2, h3⟩ := hn.2 c rfl
    have hne : c.1 ≠ r.1 := fun e => by
      rw [e, hm.2] at h3
      rw [← Option.some.inj h3, hrefl] at h2
      cases h2
    have hc : c.1 < p.individuals.length := (List.getElem?_eq_some_iff.1 h3).1
    omega
  | false =>
    refine holds_bind (R := fun o n => o = none ∧ n = 0) (holds_pure ⟨rfl, rfl⟩) fun p2 k hk => holds_pure ?_
    obtain ⟨rfl, rfl⟩ := hk
    exact ⟨by omega, by omega, fun hs => by cases hs⟩

theorem holds_askParents {env : NumEnv} {p : Population I} {s : Selector} {lo hi : Nat}
    (h : Holds (fun _ n => lo ≤ n ∧ n ≤ hi) (s.askSelect env p)) (cr : F64) :
    Holds (fun _ n => lo ≤ n ∧ n ≤ 4 * hi) (askParents env p s cr) := by
  refine holds_bind h fun r m hm => holds_bind (holds_free (R := fun _ m => m = 0) fun _ _ => rfl) fun c k hk => ?_
  subst hk
  cases c with
  | true =>
    refine holds_bind (holds_askDistinct h r.2 3) fun q n hn => holds_bind (R := fun _ n => n = 0) (holds_pure rfl) fun p2 k hk => holds_pure ?_
    have := hn.2
    exact ⟨by omega, by omega⟩
  | false =>
    refine holds_bind (R := fun _ n => n = 0) (holds_pure rfl) fun p2 k hk => holds_pure ⟨by omega, by omega⟩

theorem holds_askStart (M : EvoOps I Mo U) (model : Mo) (ps : I × Option I) :
    Holds (fun _ n => n = if ps.2.isSome then 2 else 0) (askStart M model ps) := by
  obtain ⟨p1, _ | p2⟩ := ps
  · exact holds_pure rfl
  · refine holds_bind (holds_ask (R := fun _ m => m = 1) rfl) fun _ a ha => holds_bind (holds_ask (R := fun _ m => m = 1) rfl) fun _ b hb =>
      holds_bind (holds_free (R := fun _ m => m = 0) fun _ _ => rfl) fun _ c hc => holds_pure ?_
    subst ha hb hc
    rfl

theorem holds_askSurvive (o f : I) : Holds (fun _ n => n = if (fitness o).isFinite then 3 else 1) (askSurvive o f) := by
  refine holds_bind (R := fun v n => v = fitness o ∧ n = 1) (holds_ask ⟨rfl, rfl⟩) fun v a ha => ?_
  obtain ⟨rfl, rfl⟩ := ha
  by_cases hfin : (fitness o).isFinite = true
  · rw [if_pos hfin, if_pos hfin]
    refine holds_bind (holds_ask (R := fun _ m => m = 1) rfl) fun _ a ha => holds_bind (holds_ask (R := fun _ m => m = 1) rfl) fun _ b hb =>
      holds_bind (R := fun _ n => n = 0) (holds_pure rfl) fun _ n hn => holds_pure (by omega)
  · rw [if_neg hfin, if_neg hfin]
    exact holds_bind (R := fun _ n => n = 0) (holds_pure rfl) fun _ n hn => holds_pure (by omega)

theorem holds_askBreed (M : EvoOps I Mo U) {env : NumEnv} {p : Population I} {s : Selector} {lo hi : Nat}
    (h : Holds (fun _ n => lo ≤ n ∧ n ≤ hi) (s.askSelect env p)) (model : Mo) (cr mr : F64) :
    Holds (fun _ n => lo + 1 ≤ n ∧ n ≤ 4 * hi + 5) (askBreed M env model p s cr mr) := by
  refine holds_bind (holds_askParents h cr) fun ps a ha => holds_bind (holds_askStart M model ps) fun st b hb =>
    holds_bind (holds_free (R := fun _ m => m = 0) fun _ _ => rfl) fun o c hc => (holds_askSurvive o st.1).mono fun r d hd => ?_
  split at hb <;> split at hd <;> omega

theorem holds_askBreed_wheel (hrefl : ∀ x : I, Individual.eq x x = true) (M : EvoOps I Mo U) {env : NumEnv} {p : Population I} {s : Selector}
    (h : Holds (fun r n => (n = r.1 + 1 ∧ n ≤ p.individuals.length) ∧ p.individuals[r.1]? = some r.2) (s.askSelect env p)) (model : Mo)
    (cr mr : F64) :
    Holds (fun _ n => 2 ≤ n ∧ n ≤ 4 * p.individuals.length + 4) (askBreed M env model p s cr mr) := by
  refine holds_bind (holds_askParents_wheel hrefl h cr) fun ps a ha => holds_bind (holds_askStart M model ps) fun st b hb =>
    holds_bind (holds_free (R := fun _ m => m = 0) fun _ _ => rfl) fun o c hc => (holds_askSurvive o st.1).mono fun r d hd => ?_
  obtain ⟨h1, h2, h3⟩ := ha
  split at hb
  · rename_i hs
    have := h3 hs
    split at hd <;> omega
  · split at hd <;> omega

namespace Asking

theorem holds_exact {x : Asking α} {k : Nat} (h : Holds (fun _ n => n = k) x) (hx : Always (fun _ => True) x.forget) : x.mean = k := by
  rw [mean_eq, average_congr _ (g := fun _ => (k : ℚ)) fun a ha => by rw [h a ha], average_const (always_prog hx)]

/-- The expected number of calls is at least that of the first part and what the second makes in any case. -/
theorem mean_first_add {x : Asking α} {f : α → Asking β} {lo : Nat}
    (hx : Always (fun _ => True) x.forget)
    (hf : ∀ a m, x.prog.yields (.ok (a, m)) → Always (fun _ => True) (f a).forget)
    (hlo : ∀ a m, x.prog.yields (.ok (a, m)) → Holds (fun _ n => lo ≤ n) (f a)) :
    x.mean + lo ≤ (x >>= f).mean := by
  rw [mean_bind hf]
  have : x.prog.average (fun _ => (lo : ℚ)) ≤ x.prog.average fun a => (f a.1).mean := by
    refine average_mono _ fun a ha => ?_
    rw [mean_eq]
    refine le_average fun r hr => ?_
    obtain ⟨b, rfl, _⟩ := always_prog (hf a.1 a.2 ha) r hr
    exact ⟨b, rfl, by exact_mod_cast hlo a.1 a.2 ha b hr⟩
  rw [average_const (always_prog hx)] at this
  linarith

theorem assoc {γ : Type} (x : Asking α) (f : α → Asking β) (g : β → Asking γ) : ((x >>= f) >>= g) = (x >>= fun a => f a >>= g) := by
  show Asking.mk _ = Asking.mk _
  simp only [bind_eq, bind_assoc, Prog.bind_pure_left, Nat.add_assoc]

theorem pure_left (a : α) (f : α → Asking β) : (pure a >>= f) = f a := by
  show Asking.mk _ = _
  simp only [pure_eq, Prog.bind_pure_left, Nat.zero_add]
  congr 1
  exact Prog.bind_pure_right _

/-- The same for a total program. -/
theorem mean_part {x : Asking α} {f : α → Asking β} {lo : Nat} (h : Always (fun _ => True) (x >>= f).forget)
    (hlo : ∀ a, Holds (fun _ n => lo ≤ n) (f a)) : x.mean + lo ≤ (x >>= f).mean := by
  rw [forget_bind, always_bind] at h
  refine mean_first_add (h.mono fun _ _ => trivial) (fun a m ha => ?_) fun a _ _ => hlo a
  obtain ⟨b, e, hb⟩ := h (.ok a) ((yields_bind_ok _ _ _).2 ⟨(a, m), ha, rfl⟩)
  cases e
  exact hb

end Asking

end RG
