import Verif.Proofs.Play
import Verif.Props.Shared
import Verif.Props.OneMaxAga

/-!
# Probabilities with shared state (C121)

The schedule of the tasks, and what other threads do, may depend on everything drawn so far (`plays` in `Shared.lean`). If the shared state
makes no difference to what the methods do, as with a memo table, then probabilities are those of the model without it, whatever the
schedule. If it does make a difference, the schedule can change the probabilities.
-/

namespace RG.Props
open RG Prog
variable {I : Type} [Individual I] {Mo U A P Q W α : Type}

/-- The normal results have the distribution that they have in `p`: every function of them has the same expected value, failures
counting 0. -/
def SameChances (q : Prog (Res α × W)) (p : Prog α) : Prop := ∀ f : α → ℚ,
  (q.expect fun r => match r with
    | .ok (.ok a, _) => f a
    | _ => 0) =
  p.expect fun r => match r with
    | .ok a => f a
    | _ => 0

/-- In particular, everything has the same probability. -/
theorem SameChances.prob {q : Prog (Res α × W)} {p : Prog α} (h : SameChances q p) (S : α → Prop) [DecidablePred S]
    (T : Res α × W → Prop) [DecidablePred T] (hT : ∀ x, T x ↔ ∃ a, x.1 = .ok a ∧ S a) : q.prob T = p.prob S := by
  have := h fun a => if S a then 1 else 0
  refine Eq.trans ?_ (this.trans ?_)
  · unfold Prog.prob
    refine expect_congr _ _ _ fun r _ => ?_
    rcases r with ⟨x, w⟩ | _ | _
    · cases x with
      | ok a =>
        have : T (.ok a, w) ↔ S a := by rw [hT]; simp
        simp only [this]
      | panic => simp [hT]
      | diverge => simp [hT]
    · rfl
    · rfl
  · unfold Prog.prob
    refine expect_congr _ _ _ fun r _ => ?_
    cases r <;> rfl

private theorem sameChances_of {Inv : W → Prop} {s : Play W α} {p : Prog α} (h : Fair Inv s fun _ => p) {w : W} (hw : Inv w)
    {q : Prog (Res α × W)} (hq : s w q) : SameChances q p ∧ Always (fun x => Inv x.2) q := by
  obtain ⟨h1, h2⟩ := h w q hw hq
  refine ⟨fun f => ?_, h1⟩
  refine Eq.trans ?_ ((h2 [] f).trans ?_)
  · refine expect_congr _ _ _ fun r _ => ?_
    rcases r with ⟨x, w⟩ | _ | _
    · cases x <;> rfl
    · rfl
    · rfl
  · refine expect_congr _ _ _ fun r _ => ?_
    cases r <;> rfl

/-! ### Plays and outcomes -/

/-- **C121** From every state there is a play, and the outcomes of all plays together are those of C120. -/
theorem C121_outcomes (others : W → W → Prop) (hr : ∀ w, others w w) (M : SharedModel I Mo U W) (envs : Nat → Env I)
    (progress : Q → Population I → SProg W (Bool × Q)) (fuel : Nat) (init : List I) (q : Q) (w : W) :
    (∀ (a : Ga Mo U) p, (∃ x, sharedPopulation (plays others) (sharedGa (plays others) M) envs progress fuel a init p q w x) ∧
      ∀ r w', sharedPopulation (outcomes others) (sharedGa (outcomes others) M) envs progress fuel a init p q w r w' ↔
        ∃ x, sharedPopulation (plays others) (sharedGa (plays others) M) envs progress fuel a init p q w x ∧ x.yields (.ok (r, w'))) ∧
    (∀ (a : Aga Mo U) p, (∃ x, sharedPopulation (plays others) (sharedAga (plays others) M) envs progress fuel a init p q w x) ∧
      ∀ r w', sharedPopulation (outcomes others) (sharedAga (outcomes others) M) envs progress fuel a init p q w r w' ↔
        ∃ x, sharedPopulation (plays others) (sharedAga (plays others) M) envs progress fuel a init p q w x ∧ x.yields (.ok (r, w'))) :=
  ⟨fun a p => ⟨(bridge_population (Same.bridge hr) (bridge_ga (Same.bridge hr) M) envs progress fuel a init p q).1 w,
      (bridge_population (Same.bridge hr) (bridge_ga (Same.bridge hr) M) envs progress fuel a init p q).2 w⟩,
    fun a p => ⟨(bridge_population (Same.bridge hr) (bridge_aga (Same.bridge hr) M) envs progress fuel a init p q).1 w,
      (bridge_population (Same.bridge hr) (bridge_aga (Same.bridge hr) M) envs progress fuel a init p q).2 w⟩⟩

/-- **C121** The same for `run` and `evolve_individual`. -/
theorem C121_outcomes_run (others : W → W → Prop) (hr : ∀ w, others w w) (M : SharedModel I Mo U W) (envs : Nat → Env I)
    (progress : Q → Population I → SProg W (Bool × Q)) (fuel : Nat) (newRandom : SProg W I) (x : I) (q : Q) (w : W) :
    (∀ (a : Ga Mo U) p,
      ((∃ y, sharedRandom (plays others) (sharedGa (plays others) M) envs progress fuel a newRandom p q w y) ∧
        ∀ r w', sharedRandom (outcomes others) (sharedGa (outcomes others) M) envs progress fuel a newRandom p q w r w' ↔
          ∃ y, sharedRandom (plays others) (sharedGa (plays others) M) envs progress fuel a newRandom p q w y ∧ y.yields (.ok (r, w'))) ∧
      (∃ y, sharedIndividual (plays others) M (sharedGa (plays others) M) envs progress fuel a x p q w y) ∧
        ∀ r w', sharedIndividual (outcomes others) M (sharedGa (outcomes others) M) envs progress fuel a x p q w r w' ↔
          ∃ y, sharedIndividual (plays others) M (sharedGa (plays others) M) envs progress fuel a x p q w y ∧ y.yields (.ok (r, w'))) ∧
    (∀ (a : Aga Mo U) p,
      ((∃ y, sharedRandom (plays others) (sharedAga (plays others) M) envs progress fuel a newRandom p q w y) ∧
        ∀ r w', sharedRandom (outcomes others) (sharedAga (outcomes others) M) envs progress fuel a newRandom p q w r w' ↔
          ∃ y, sharedRandom (plays others) (sharedAga (plays others) M) envs progress fuel a newRandom p q w y ∧ y.yields (.ok (r, w'))) ∧
      (∃ y, sharedIndividual (plays others) M (sharedAga (plays others) M) envs progress fuel a x p q w y) ∧
        ∀ r w', sharedIndividual (outcomes others) M (sharedAga (outcomes others) M) envs progress fuel a x p q w r w' ↔
          ∃ y, sharedIndividual (plays others) M (sharedAga (plays others) M) envs progress fuel a x p q w y ∧ y.yields (.ok (r, w'))) := by
  have hb := Same.bridge hr
  have use : ∀ {α : Type} {s : Sem W α} {t : Play W α}, Same s t →
      (∃ y, t w y) ∧ ∀ r w', s w r w' ↔ ∃ y, t w y ∧ y.yields (.ok (r, w')) := fun h => ⟨h.1 w, h.2 w⟩
  exact ⟨fun a p => ⟨use (bridge_random hb (bridge_ga hb M) envs progress fuel a newRandom p q),
      use (bridge_individual hb M (bridge_ga hb M) envs progress fuel a x p q)⟩,
    fun a p => ⟨use (bridge_random hb (bridge_aga hb M) envs progress fuel a newRandom p q),
      use (bridge_individual hb M (bridge_aga hb M) envs progress fuel a x p q)⟩⟩

/-! ### Shared state that makes no difference -/

section
variable (Inv : W → Prop) (others : W → W → Prop) (ho : ∀ w w', Inv w → others w w' → Inv w')
  (M : SharedModel I Mo U W) (N : EvoModel I Mo U) (h : ModelRefines Inv M N) (hx : N.extend = fun _ => defaultExtend)
  (hxw : N.extendWith = defaultExtendWith N.toEvoOps) (envs : Nat → Env I) (progress : Q → Population I → SProg W (Bool × Q))
  (prog : Q → Population I → Prog (Bool × Q)) (hp : ∀ q pop, Refines Inv (progress q pop) (prog q pop)) (newRandom : SProg W I)
  (new : Prog I) (hn : Refines Inv newRandom new) (fuel : Nat) (q : Q) (w : W) (hw : Inv w)
include ho h hx hxw hp hn hw

/-- **C121** If, as long as the shared state satisfies `Inv`, the methods of `M`, the closure, and `new_random` behave like those of `N`
and keep `Inv`, and other threads keep `Inv` too, then in every play of a run of the genetic algorithm — whoever chooses which task goes
on, and what other threads do, and whatever the choices depend on — results have the probabilities of the run of `N`. -/
theorem C121_ga (a : Ga Mo U) (p : GaParams) :
    (∀ init x, sharedPopulation (plays others) (sharedGa (plays others) M) envs progress fuel a init p q w x →
      SameChances x (evolvePopulation (ga N) envs prog fuel a init p q) ∧ Always (fun y => Inv y.2) x) ∧
    (∀ x, sharedRandom (plays others) (sharedGa (plays others) M) envs progress fuel a newRandom p q w x →
      SameChances x (runRandom N (ga N) envs prog fuel a new p q) ∧ Always (fun y => Inv y.2) x) ∧
    (∀ i x, sharedIndividual (plays others) M (sharedGa (plays others) M) envs progress fuel a i p q w x →
      SameChances x (evolveIndividual N (ga N) envs prog fuel a i p q) ∧ Always (fun y => Inv y.2) x) := by
  have hc := Fair.closed others Inv
  have hM := fair_model ho h hxw
  have hpp : ∀ q pop, Fair Inv ((plays others).call (progress q pop)) fun _ => prog q pop := fun q pop => Fair.call ho (hp q pop)
  exact ⟨fun init x hq => sameChances_of (rel_population hc (rel_ga hc hM) (prog := fun _ => prog) hpp envs fuel a init p q) hw hq,
    fun x hq => sameChances_of (rel_random (N := fun _ => N) hc (rel_ga hc hM) (prog := fun _ => prog) hpp (fun _ => hx) (new := fun _ => new)
      (fun n => Fair.par ho (forall₂_replicate hn n)) envs fuel a p q) hw hq,
    fun i x hq => sameChances_of (rel_individual hc hM (rel_ga hc hM) (prog := fun _ => prog) hpp i envs fuel a p q) hw hq⟩

/-- **C121** The same for the adaptive genetic algorithm. -/
theorem C121_aga (a : Aga Mo U) (p : AgaParams) :
    (∀ init x, sharedPopulation (plays others) (sharedAga (plays others) M) envs progress fuel a init p q w x →
      SameChances x (evolvePopulation (aga N) envs prog fuel a init p q) ∧ Always (fun y => Inv y.2) x) ∧
    (∀ x, sharedRandom (plays others) (sharedAga (plays others) M) envs progress fuel a newRandom p q w x →
      SameChances x (runRandom N (aga N) envs prog fuel a new p q) ∧ Always (fun y => Inv y.2) x) ∧
    (∀ i x, sharedIndividual (plays others) M (sharedAga (plays others) M) envs progress fuel a i p q w x →
      SameChances x (evolveIndividual N (aga N) envs prog fuel a i p q) ∧ Always (fun y => Inv y.2) x) := by
  have hc := Fair.closed others Inv
  have hM := fair_model ho h hxw
  have hpp : ∀ q pop, Fair Inv ((plays others).call (progress q pop)) fun _ => prog q pop := fun q pop => Fair.call ho (hp q pop)
  exact ⟨fun init x hq => sameChances_of (rel_population hc (rel_aga hc hM) (prog := fun _ => prog) hpp envs fuel a init p q) hw hq,
    fun x hq => sameChances_of (rel_random (N := fun _ => N) hc (rel_aga hc hM) (prog := fun _ => prog) hpp (fun _ => hx) (new := fun _ => new)
      (fun n => Fair.par ho (forall₂_replicate hn n)) envs fuel a p q) hw hq,
    fun i x hq => sameChances_of (rel_individual hc hM (rel_aga hc hM) (prog := fun _ => prog) hpp i envs fuel a p q) hw hq⟩

end

/-! ### OneMax with a memo table -/

/-- The fitness of a genome, as `OneMax.evaluate` computes it. -/
def onesRatio (genome : List Bool) : F64 := (F64.ofNat (genome.filter fun one => one).length).div (F64.ofNat genome.length)

/-- OneMax with a memo table of fitness values that drops entries as `evict` says. -/
def cachedOneMax (evict : List (List Bool × F64) → List (List Bool × F64)) : SharedModel OneMax Unit Empty (List (List Bool × F64)) :=
  OneMax.model.cached OneMax.genome onesRatio (fun i v => { i with fit := v }) evict

/-- **C121** OneMax with a memo table that all tasks use at once: if it starts with right entries, and other threads write only right
entries, then under every schedule the run of the genetic algorithm ends with a probability that is at least `1 - ε` after enough
generations, and the expected number of generations is bounded as in C80. The bounds do not depend on the schedule. -/
theorem C121_cached_oneMax (evict : List (List Bool × F64) → List (List Bool × F64)) (hev : ∀ t, evict t ⊆ t)
    (others : List (List Bool × F64) → List (List Bool × F64) → Prop)
    (ho : ∀ t t', RightTable onesRatio t → others t t' → RightTable onesRatio t') {envs : Nat → Env OneMax} {p : GaParams}
    {init : List OneMax} {n : Nat} (h : OneMaxRun envs p init n) (a : Ga Unit Empty) (hρ : 0 < p.mutationRate.val)
    (progress : Q → Population OneMax → Prog (Bool × Q)) (hpr : ∀ q p, p.WF → Always (fun _ => True) (progress q p))
    (hstop : ∀ q pop q', GoodPop pop → Reached F64.one pop → ¬ (progress q pop).yields (.ok (true, q'))) (q : Q)
    (table : List (List Bool × F64)) (ht : RightTable onesRatio table) :
    (∀ ε : ℚ, 0 < ε → ∃ K, ∀ k x, K ≤ k →
      sharedPopulation (plays others) (sharedGa (plays others) (cachedOneMax evict)) envs (fun q pop => .ofProg (progress q pop)) k a init p q
        table x → ∀ (T : Res (Bool × RunState OneMax (Ga Unit Empty) Q) × List (List Bool × F64) → Prop) [DecidablePred T],
          (∀ y, T y ↔ ∃ st, y.1 = .ok (true, st)) → 1 - ε ≤ x.prob T) ∧
    ∀ k x, sharedPopulation (plays others) (sharedGa (plays others) (cachedOneMax evict)) envs (fun q pop => .ofProg (progress q pop)) k a
        init p q table x →
      (x.expect fun r => match r with
        | .ok (.ok (_, st), _) => (st.shown.length : ℚ)
        | _ => 0) ≤
      n + 8 * bigSize p init * n * (n - 1) * harmonic (n - 1) /
        (((p.populationSize - eliteCount p.populationSize p.elitismRate : Nat) : ℚ) * p.mutationRate.val) := by
  have hM : ModelRefines (RightTable onesRatio) (cachedOneMax evict) OneMax.model :=
    C120_cache OneMax.model _ _ _ _ hev (fun _ _ => rfl) rfl
  have key := fun k => (C121_ga (RightTable onesRatio) others ho (cachedOneMax evict) OneMax.model hM rfl rfl envs
    (fun q pop => .ofProg (progress q pop)) progress (fun _ _ => .ofProg _) (.ofProg (.done .panic)) (.done .panic) (.ofProg _) k q table ht
    a p).1 init
  constructor
  · intro ε hε
    obtain ⟨K, hK⟩ := C80_ga_almost_surely h a hρ progress hpr hstop q ε hε
    refine ⟨K, fun k x hk hx T _ hT => ?_⟩
    rw [(key k x hx).1.prob (fun r => r.1 = true) T fun y => ?_]
    · exact hK k hk
    · rw [hT]
      constructor
      · rintro ⟨st, hst⟩; exact ⟨_, hst, rfl⟩
      · rintro ⟨⟨b, st⟩, hst, rfl⟩; exact ⟨st, hst⟩
  · intro k x hx
    refine le_trans (le_of_eq ?_) (C80_ga_expected h a hρ progress hstop k q)
    refine Eq.trans ?_ (((key k x hx).1 fun r => (r.2.shown.length : ℚ)).trans ?_)
    · refine expect_congr _ _ _ fun r _ => ?_
      rcases r with ⟨y, t⟩ | _ | _
      · cases y <;> rfl
      · rfl
      · rfl
    · refine expect_congr _ _ _ fun r _ => ?_
      cases r <;> rfl

/-! ### Shared state that does make a difference -/

/-- A model whose `evaluate` tosses a coin and takes a ticket from an atomic counter: the individual with the first ticket wins 100 points
if its coin shows 1. -/
def ticketModel : SharedModel Num Unit Empty Nat :=
  { ({ crossover := fun _ a b => pure ⟨a.v.add b.v⟩
       mutate := fun _ a => pure ⟨a.v.add a.v⟩
       evaluate := fun _ a => .pick 1 fun coin => .touch (· + 1) fun ticket =>
         pure ⟨a.v.add (if coin = 1 ∧ ticket = 0 then F64.lit 100 else F64.lit 0)⟩
       selectors := ⟨fun u => u.elim, fun u => u.elim, fun u => u.elim⟩ } : SharedOps Num Unit Empty Nat) with }

/-- The value of an individual after its evaluation. -/
private def after (v : Nat) (coin ticket : Nat) : Num :=
  ⟨(num v).v.add (if coin = 1 ∧ ticket = 0 then F64.lit 100 else F64.lit 0)⟩

/-- Both coins are tossed; then `first` says which task takes the first ticket. -/
private def ticketPlay (first : Nat → Nat → Bool) : Prog (Res (Population Num) × Nat) :=
  .pick 1 fun c1 => .pick 1 fun c2 => .done (.ok (Population.new refSort
    ((if first c1 c2 then [after 10 c1 0, after 20 c2 1] else [after 10 c1 1, after 20 c2 0]).filter isValid), 2))

private theorem ticketPlay_plays (first : Nat → Nat → Bool) :
    sharedInitialize (plays Eq) ticketModel exFullEnv () [num 10, num 20] 0 (ticketPlay first) := by
  refine ⟨.pick 1 fun c1 => .pick 1 fun c2 => .done (.ok (.ok
    (if first c1 c2 then [after 10 c1 0, after 20 c2 1] else [after 10 c1 1, after 20 c2 0]), 2)), ?_, ?_⟩
  · show ParPlay Eq _ _ _
    refine ParPlay.draw [] 1 _ [_] 0 _ fun c1 _ => ParPlay.draw [_] 1 _ [] 0 _ fun c2 _ => ?_
    cases first c1 c2 with
    | true =>
      refine ParPlay.access [] _ _ [_] 0 0 _ rfl (ParPlay.access [_] _ _ [] 1 1 _ rfl ?_)
      exact ParPlay.finished (others := Eq) [after 10 c1 0, after 20 c2 1] 2
    | false =>
      refine ParPlay.access [_] _ _ [] 0 0 _ rfl (ParPlay.access [] _ _ [_] 1 1 _ rfl ?_)
      exact ParPlay.finished (others := Eq) [after 10 c1 1, after 20 c2 0] 2
  · exact ⟨_, rfl, fun c1 _ => ⟨_, rfl, fun c2 _ => rfl⟩⟩

/-- Somebody in the initial population has won. -/
def someoneWon (x : Res (Population Num) × Nat) : Bool := match x.1 with
  | .ok pop => pop.individuals.any fun y => (F64.lit 100).le y.v
  | _ => false

/-- **C121** With shared state that makes a difference, the schedule changes probabilities, even if it knows only what has been drawn: two
individuals are evaluated in parallel with fair coins. The probability that one of them wins can be 1/4, 1/2, or 3/4, depending on who may
take the first ticket. -/
theorem C121_schedule_matters : ∃ q1 q2 q3,
    (∀ q, q = q1 ∨ q = q2 ∨ q = q3 → sharedInitialize (plays Eq) ticketModel exFullEnv () [num 10, num 20] 0 q) ∧
    q1.prob (fun x => someoneWon x = true) = 1 / 4 ∧ q2.prob (fun x => someoneWon x = true) = 1 / 2 ∧
    q3.prob (fun x => someoneWon x = true) = 3 / 4 := by
  refine ⟨ticketPlay fun c1 _ => c1 == 0, ticketPlay fun _ _ => true, ticketPlay fun c1 _ => c1 == 1, ?_, ?_, ?_, ?_⟩
  · rintro q (rfl | rfl | rfl) <;> exact ticketPlay_plays _
  all_goals decide +kernel

/-! ### Examples -/

-- OneMax with a memo table of at most a hundred entries, other threads may clear it: the hypotheses of `C121_cached_oneMax`
example : (∀ t : List (List Bool × F64), List.take 99 t ⊆ t) ∧
    (∀ t t' : List (List Bool × F64), RightTable onesRatio t → (t' = t ∨ t' = []) → RightTable onesRatio t') ∧
    RightTable onesRatio [] ∧ 0 < GaParams.default.mutationRate.val ∧ OneMaxRun (fun _ => oneEnv) GaParams.default [loneBit] 5 := by
  refine ⟨fun t => List.take_subset _ _, ?_, fun e he => absurd he (List.not_mem_nil), by decide +kernel, loneBit_run⟩
  rintro t t' h (rfl | rfl)
  · exact h
  · exact fun e he => absurd he (List.not_mem_nil)

end RG.Props
